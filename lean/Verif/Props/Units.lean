import Verif.Props.Falwa

/-!
# Change of units: zonalization and wave activity of `a * f + b` on a planet of another radius
-/

namespace Barotropic
open Real Grid

variable {g : Grid ℝ}

/-! ### Quadrature -/

theorem nonneg_scale {a : ℝ} (ha : 0 < a) (x : ℝ) : 0 ≤ a * x ↔ 0 ≤ x := mul_nonneg_iff_of_pos_left ha

theorem seg_scale {a : ℝ} (ha : 0 < a) (x0 x1 y0 y1 z0 z1 : ℝ) :
    sptrapzSeg x0 x1 y0 y1 (a * z0) (a * z1) = sptrapzSeg x0 x1 y0 y1 z0 z1 := by
  have h : ∀ z : ℝ, a * z / (a * z1 - a * z0) = z / (z1 - z0) := fun z => by
    rw [← mul_sub, mul_div_mul_left _ _ ha.ne']
  simp only [sptrapzSeg, nonneg_scale ha, h]

theorem col_scale {h : ℕ} (a : ℝ) (f : Fin h → ℝ) (j : ℕ) : Grid.col (fun k => a * f k) j = a * Grid.col f j := by
  unfold Grid.col
  split_ifs <;> simp

/-- Scaling of the meridional quadrature: `s` for the integrand, `a` for the field that defines the domain. -/
theorem quadMeridionalCore_scale {w : ℕ} {a : ℝ} (s : ℝ) (ha : 0 < a) (y z : Fin g.nlat → Fin w → ℝ) (m : String) :
    g.quadMeridionalCore (fun j i => s * y j i) (some fun j i => a * z j i) m
      = (g.quadMeridionalCore y (some z) m).map fun v i => s * v i := by
  unfold quadMeridionalCore
  dsimp only [Option.getD]
  split_ifs
  · refine congrArg Except.ok (funext fun i => ?_)
    unfold boxcountCol
    simp only [nonneg_scale ha]
    rw [← mul_div_assoc, ← mul_div_assoc, Finset.mul_sum]
    refine congrArg (fun x => x / g.rsphere / g.dlam) (Finset.sum_congr rfl fun j _ => ?_)
    split_ifs
    · ring
    · simp
  · rfl
  · refine congrArg Except.ok (funext fun i => ?_)
    unfold sptrapzCol
    dsimp only
    rw [Finset.mul_sum]
    refine Finset.sum_congr rfl fun j _ => ?_
    have hlin : ∀ x0 x1 y0 y1 z0 z1, sptrapzSeg x0 x1 (s * y0) (s * y1) z0 z1 = s * sptrapzSeg x0 x1 y0 y1 z0 z1 := by
      intro x0 x1 y0 y1 z0 z1
      simpa using seg_linear x0 x1 s 0 y0 y1 0 0 z0 z1
    rw [col_scale s (fun j => y j i), col_scale s (fun j => y j i), col_scale a (fun j => z j i), col_scale a (fun j => z j i)]
    simp only [nonneg_scale ha, seg_scale ha, hlin]
    split_ifs
    · ring
    · simp
  · rfl

/-! ### Contours -/

theorem fieldMax_affine {h w : ℕ} (hh : 0 < h) (hw : 0 < w) {a : ℝ} (ha : 0 < a) (b : ℝ) (f : Fin h → Fin w → ℝ) :
    fieldMax (fun j i => a * f j i + b) = a * fieldMax f + b := by
  obtain ⟨j, i, e⟩ := fieldMax_attained hh hw fun j i => a * f j i + b
  obtain ⟨j', i', e'⟩ := fieldMax_attained hh hw f
  refine le_antisymm ?_ ?_
  · rw [← e]
    have := mul_le_mul_of_nonneg_left (le_fieldMax f j i) ha.le
    linarith
  · rw [← e']
    exact le_fieldMax (fun j i => a * f j i + b) j' i'

theorem fieldMin_affine {h w : ℕ} (hh : 0 < h) (hw : 0 < w) {a : ℝ} (ha : 0 < a) (b : ℝ) (f : Fin h → Fin w → ℝ) :
    fieldMin (fun j i => a * f j i + b) = a * fieldMin f + b := by
  obtain ⟨j, i, e⟩ := fieldMin_attained hh hw fun j i => a * f j i + b
  obtain ⟨j', i', e'⟩ := fieldMin_attained hh hw f
  refine le_antisymm ?_ ?_
  · rw [← e']
    exact fieldMin_le (fun j i => a * f j i + b) j' i'
  · rw [← e]
    have := mul_le_mul_of_nonneg_left (fieldMin_le f j i) ha.le
    linarith

theorem nlat_pos (g : Grid ℝ) : 0 < g.nlat := Nat.succ_pos _

theorem contourLevels_affine {w : ℕ} (hw : 0 < w) {a : ℝ} (ha : 0 < a) (b : ℝ) (f : Fin g.nlat → Fin w → ℝ) (levels : Levels)
    (m : String) : g.contourLevels (fun j i => a * f j i + b) (levels.affine a b) m
      = (g.contourLevels f levels m).map fun q => a * q + b := by
  have hauto : ∀ n : ℕ, (List.range n).map (autoLevel (fieldMin fun j i => a * f j i + b) (fieldMax fun j i => a * f j i + b) n)
      = ((List.range n).map (autoLevel (fieldMin f) (fieldMax f) n)).map fun q => a * q + b := by
    intro n
    rw [List.map_map]
    refine List.map_congr_left fun k _ => ?_
    rw [fieldMin_affine (nlat_pos g) hw ha, fieldMax_affine (nlat_pos g) hw ha]
    simp only [Function.comp, autoLevel]
    ring
  cases levels with
  | none => exact hauto _
  | int n => exact hauto _
  | array qs => rfl

theorem zonalizeContours_affine {w : ℕ} {a : ℝ} (ha : 0 < a) (b : ℝ)
    (f : Fin g.nlat → Fin w → ℝ) (levels : Levels) (m : String) :
    g.zonalizeContours (fun j i => a * f j i + b) (levels.affine a b) m
      = (g.zonalizeContours f levels m).map (List.map fun p => (a * p.1 + b, p.2)) := by
  unfold zonalizeContours
  by_cases hw : w = 0
  · rw [if_pos hw, if_pos hw]; rfl
  rw [if_neg hw, if_neg hw, contourLevels_affine (Nat.pos_of_ne_zero hw) ha]
  by_cases hl : g.contourLevels f levels m = []
  · rw [if_pos (by rw [hl]; rfl), if_pos hl]; rfl
  rw [if_neg (by simpa using hl), if_neg hl, List.mapM_map, ← mapM_except_map]
  congr 1
  funext q
  have key := quadMeridionalCore_scale 1 ha (fun _ _ => 1) (fun j i => f j i - q) m
  have e : (fun j i => a * f j i + b - (a * q + b)) = fun j i => a * (f j i - q) := by
    funext j i; ring
  simp only [Function.comp, quadCore]
  simp only [mul_one] at key
  rw [e, key]
  cases g.quadMeridionalCore (fun _ _ => 1) (some fun j i => f j i - q) m with
  | error e => rfl
  | ok v =>
    dsimp only [Except.map]
    simp only [one_mul]

theorem npInterp_map {V W : Type*} (F : V → W) (L : ℝ → ℝ → ℝ → V → V → V) (M : ℝ → ℝ → ℝ → W → W → W)
    (h : ∀ x0 x1 x y0 y1, F (L x0 x1 x y0 y1) = M x0 x1 x (F y0) (F y1)) (a : ℝ × V) (l : List (ℝ × V)) (x : ℝ) :
    F (npInterp L a l x) = npInterp M (a.1, F a.2) (l.map fun p => (p.1, F p.2)) x := by
  induction l generalizing a with
  | nil => rfl
  | cons b l ih =>
    rw [List.map_cons]
    unfold npInterp
    split_ifs
    · exact ih b
    · rfl
    · exact h _ _ _ _ _

theorem lerp_affine (a b x0 x1 x y0 y1 : ℝ) : a * lerp x0 x1 x y0 y1 + b = lerp x0 x1 x (a * y0 + b) (a * y1 + b) := by
  unfold lerp; ring

/-! ## C89 -/

/-- The full statement: units of the field (`a`), its offset (`b`) and the radius of the planet (`c`). -/
theorem zonalize_units {w : ℕ} {a : ℝ} (ha : 0 < a) (b : ℝ)
    (f : Fin g.nlat → Fin w → ℝ) (levels : Levels) (m : String) :
    g.zonalize (fun j i => a * f j i + b) (levels.affine a b) m
      = (g.zonalize f levels m).map fun Z j => a * Z j + b := by
  unfold zonalize
  rw [zonalizeContours_affine ha b]
  cases hz : g.zonalizeContours f levels m with
  | error e => rfl
  | ok out =>
    have hw : 0 < w := by
      refine Nat.pos_of_ne_zero fun h => ?_
      unfold zonalizeContours at hz
      rw [if_pos h] at hz
      cases hz
    have hk := meridionalKnots_map (fun q : ℝ => a * q + b) (out.map Prod.swap) (fieldMax f) (fieldMin f)
    dsimp only [Except.map]
    rw [fieldMin_affine (nlat_pos g) hw ha, fieldMax_affine (nlat_pos g) hw ha]
    rw [show (out.map fun p => (a * p.1 + b, p.2)).map Prod.swap = (out.map Prod.swap).map fun p => (p.1, a * p.2 + b) by
      rw [List.map_map, List.map_map]; rfl, hk]
    cases meridionalKnots (out.map Prod.swap) (fieldMax f) (fieldMin f) with
    | nil => rfl
    | cons k l =>
      refine congrArg Except.ok (funext fun j => ?_)
      exact (npInterp_map (fun q : ℝ => a * q + b) lerp lerp (fun _ _ _ _ _ => lerp_affine ..) k l (g.lat j)).symm

theorem falwaContours_units {a : ℝ} (ha : 0 < a) (b : ℝ)
    (pv : Fin g.nlat → Fin g.nlon → ℝ) (levels : Levels) (m : String) :
    g.falwaContours (fun j i => a * pv j i + b) (levels.affine a b) m
      = (g.falwaContours pv levels m).map (List.map fun p => (a * p.1 + b, p.2)) := by
  unfold falwaContours
  have key := zonalizeContours_affine ha b pv levels m
  refine (congrArg (fun x : Except PyErr (List (ℝ × ℝ)) => match x with
    | .error e => (.error e : Except PyErr (List (ℝ × ℝ)))
    | .ok out =>
      if m = "boxcount" then
        match meridionalKnots (out.map Prod.swap) (fieldMax fun j i => a * pv j i + b) (fieldMin fun j i => a * pv j i + b) with
        | [] => .error .valueError
        | k :: l => .ok ((List.range (g.nlat - 1)).map fun j =>
            let y := 1 / 2 * (g.lat j + g.lat (j + 1))
            (npInterp lerp k l y, y))
      else .ok out) key).trans ?_
  cases hz : g.zonalizeContours pv levels m with
  | error e => rfl
  | ok out =>
    have hw : 0 < g.nlon := by
      refine Nat.pos_of_ne_zero fun h => ?_
      unfold zonalizeContours at hz
      rw [if_pos h] at hz
      cases hz
    have hk := meridionalKnots_map (fun q : ℝ => a * q + b) (out.map Prod.swap) (fieldMax pv) (fieldMin pv)
    dsimp only [Except.map]
    split_ifs
    · rw [fieldMin_affine (nlat_pos g) hw ha, fieldMax_affine (nlat_pos g) hw ha]
      rw [show (out.map fun p => (a * p.1 + b, p.2)).map Prod.swap = (out.map Prod.swap).map fun p => (p.1, a * p.2 + b) by
        rw [List.map_map, List.map_map]; rfl, hk]
      cases meridionalKnots (out.map Prod.swap) (fieldMax pv) (fieldMin pv) with
      | nil => rfl
      | cons k l =>
        refine congrArg Except.ok ?_
        rw [List.map_map]
        refine List.map_congr_left fun j _ => ?_
        refine congrArg (fun x : ℝ => (x, 1 / 2 * (g.lat j + g.lat (j + 1)))) ?_
        exact (npInterp_map (fun q : ℝ => a * q + b) lerp lerp (fun _ _ _ _ _ => lerp_affine ..) k l _).symm
    · rfl

theorem divO_scale (s x d : ℝ) : divO (s * x) d = (divO x d).map fun v => s * v := by
  unfold divO
  split_ifs
  · rfl
  · exact congrArg some (mul_div_assoc _ _ _)

theorem falwaRow_units {a : ℝ} (ha : 0 < a) (b : ℝ)
    (pv : Fin g.nlat → Fin g.nlon → ℝ) (m : String) (q y : ℝ) :
    g.falwaRow (fun j i => a * pv j i + b) m (a * q + b) y
      = (g.falwaRow pv m q y).map fun row i => (row i).map fun v => a * v := by
  have e : (fun (j : Fin g.nlat) (i : Fin g.nlon) => a * pv j i + b - (a * q + b)) = fun j i => a * (pv j i - q) := by
    funext j i; ring
  have h1 := quadMeridionalCore_scale a ha (fun j i => pv j i - q) (fun j i => pv j i - q) m
  have h2 := quadMeridionalCore_scale a one_pos (fun j i => pv j i - q) (fun j i => g.lat2 j i - y) m
  simp only [one_mul] at h2
  rw [← e] at h1 h2
  unfold falwaRow
  refine (congrArg₂ (fun x x' : Except PyErr (Fin g.nlon → ℝ) => match x, x' with
    | .ok a, .ok b => (.ok fun i => divO (a i - b i) (Real.cos (deg2rad y)) : Except PyErr (Fin g.nlon → Option ℝ))
    | .error e, _ => .error e
    | _, .error e => .error e) h1 h2).trans ?_
  cases g.quadMeridionalCore (fun j i => pv j i - q) (some fun j i => pv j i - q) m with
  | error e => rfl
  | ok u =>
    cases g.quadMeridionalCore (fun j i => pv j i - q) (some fun j i => g.lat2 j i - y) m with
    | error e => rfl
    | ok v =>
      refine congrArg Except.ok (funext fun i => ?_)
      rw [← mul_sub, divO_scale]

theorem meanO_scale {w : ℕ} (s : ℝ) (row : Fin w → Option ℝ) :
    meanO (fun i => (row i).map fun v => s * v) = (meanO row).map fun v => s * v := by
  unfold meanO
  simp only [Option.isSome_map]
  split_ifs
  · refine congrArg some ?_
    dsimp only
    rw [← mul_div_assoc, Finset.mul_sum]
    refine congrArg (· / (w : ℝ)) (Finset.sum_congr rfl fun i _ => ?_)
    cases row i <;> simp
  · rfl

theorem lerpO_scale (s x0 x1 x : ℝ) (y0 y1 : Option ℝ) :
    (lerpO x0 x1 x y0 y1).map (fun v => s * v) = lerpO x0 x1 x (y0.map fun v => s * v) (y1.map fun v => s * v) := by
  cases y0 <;> cases y1 <;> try rfl
  simp only [lerpO, Option.map_some]
  split_ifs
  · rfl
  · simpa using lerp_affine s 0 x0 x1 x _ _

theorem meridionalKnots_two {V : Type*} (l : List (ℝ × V)) (n s : V) : ∃ a b l', meridionalKnots l n s = a :: b :: l' := by
  have h : (meridionalKnots l n s).length = l.length + 2 := by
    unfold meridionalKnots sortKnots
    rw [List.length_mergeSort]
    simp
  match meridionalKnots l n s, h with
  | a :: b :: l', _ => exact ⟨a, b, l', rfl⟩
  | [_], h => simp at h
  | [], h => simp at h

theorem falwa_knots {pv : Fin g.nlat → Fin g.nlon → ℝ} {levels : Levels} {m : String} {rows : List (ℝ × (Fin g.nlon → Option ℝ))}
    {a b : ℝ × (Fin g.nlon → Option ℝ)} {l : List (ℝ × (Fin g.nlon → Option ℝ))} (h : g.falwaContoured pv levels m = .ok rows)
    (hk : meridionalKnots rows (fun _ => some 0) (fun _ => some 0) = a :: b :: l) :
    g.falwa pv levels m = .ok fun j => callLinear lerpRow a b l (g.lat j) := by
  unfold falwa
  rw [h]
  dsimp only
  rw [hk]

/-- If the contoured FALWA is scaled by `s`, then everything that is computed from it is, too. -/
theorem falwa_tail {r s : ℝ} {P pv : Fin g.nlat → Fin g.nlon → ℝ} {L levels : Levels} {m : String}
    (h1 : (g.withRadius r).falwaContoured P L m
      = (g.falwaContoured pv levels m).map (List.map fun p => (p.1, fun i => (p.2 i).map fun v => s * v))) :
    (g.withRadius r).falwa P L m = (g.falwa pv levels m).map (fun F j i => (F j i).map fun v => s * v) ∧
    (g.withRadius r).fawaContoured P L m
      = (g.fawaContoured pv levels m).map (List.map fun p => (p.1, p.2.map fun v => s * v)) ∧
    (g.withRadius r).fawa P L m = (g.fawa pv levels m).map fun F j => (F j).map fun v => s * v := by
  have h3 : (g.withRadius r).fawaContoured P L m
      = (g.fawaContoured pv levels m).map (List.map fun p => (p.1, p.2.map fun v => s * v)) := by
    unfold fawaContoured
    rw [h1]
    cases g.falwaContoured pv levels m with
    | error e => rfl
    | ok rows =>
      refine congrArg Except.ok ?_
      refine List.map_map.trans (Eq.trans ?_ List.map_map.symm)
      refine List.map_congr_left fun p _ => ?_
      exact congrArg (Prod.mk p.1) (meanO_scale _ _)
  refine ⟨?_, h3, ?_⟩
  · cases hc : g.falwaContoured pv levels m with
    | error e =>
      rw [hc] at h1
      unfold falwa
      rw [h1, hc]
      rfl
    | ok rows =>
      rw [hc] at h1
      have hk := meridionalKnots_map (fun (r : Fin g.nlon → Option ℝ) i => (r i).map fun v => s * v) rows
        (fun _ => some 0) (fun _ => some 0)
      simp only [Option.map_some, mul_zero] at hk
      obtain ⟨k, k', l, hl⟩ := meridionalKnots_two rows (fun _ => some 0) (fun _ => some 0)
      rw [hl] at hk
      refine (falwa_knots (g := g.withRadius r) h1 hk).trans ?_
      rw [falwa_knots hc hl]
      refine congrArg Except.ok (funext fun j => ?_)
      exact (callLinear_map (fun (r : Fin g.nlon → Option ℝ) i => (r i).map fun v => s * v) lerpRow lerpRow
        (fun _ => True) (fun _ _ _ _ _ _ _ => funext fun i => lerpO_scale ..) k k' l (fun _ _ => trivial) (g.lat j)).symm
  · unfold fawa
    rw [h3]
    cases g.fawaContoured pv levels m with
    | error e => rfl
    | ok rows =>
      have hk := meridionalKnots_map (fun (r : Option ℝ) => r.map fun v => s * v) rows (some 0) (some 0)
      simp only [Option.map_some, mul_zero] at hk
      dsimp only [Except.map]
      rw [hk]
      cases meridionalKnots rows (some 0) (some 0) with
      | nil => rfl
      | cons k l =>
        refine congrArg Except.ok (funext fun j => ?_)
        exact (npInterp_map (fun (r : Option ℝ) => r.map fun v => s * v) lerpO lerpO
          (fun _ _ _ _ _ => lerpO_scale ..) k l (g.lat j)).symm

/-- C89: zonalization commutes with changes of unit and offset: contour values follow the field, equivalent latitudes stay. -/
theorem C89_zonalize (g : Grid ℝ) {w : ℕ} {a : ℝ} (ha : 0 < a) (b : ℝ) (f : Fin g.nlat → Fin w → ℝ) (levels : Levels) (m : String) :
    g.zonalizeContours (fun j i => a * f j i + b) (levels.affine a b) m
      = (g.zonalizeContours f levels m).map (List.map fun p => (a * p.1 + b, p.2)) ∧
    g.zonalize (fun j i => a * f j i + b) (levels.affine a b) m = (g.zonalize f levels m).map fun Z j => a * Z j + b :=
  ⟨zonalizeContours_affine ha b f levels m, zonalize_units ha b f levels m⟩

/-- C89: wave activity does not depend on the offset of PV and is proportional to its unit: contoured and interpolated, local
and zonally averaged, also where it is NaN or fails. -/
theorem C89_falwa (g : Grid ℝ) {a : ℝ} (ha : 0 < a) (b : ℝ) (pv : Fin g.nlat → Fin g.nlon → ℝ) (levels : Levels) (m : String) :
    g.falwaContoured (fun j i => a * pv j i + b) (levels.affine a b) m
      = (g.falwaContoured pv levels m).map (List.map fun p => (p.1, fun i => (p.2 i).map fun v => a * v)) ∧
    g.falwa (fun j i => a * pv j i + b) (levels.affine a b) m
      = (g.falwa pv levels m).map (fun F j i => (F j i).map fun v => a * v) ∧
    g.fawaContoured (fun j i => a * pv j i + b) (levels.affine a b) m
      = (g.fawaContoured pv levels m).map (List.map fun p => (p.1, p.2.map fun v => a * v)) ∧
    g.fawa (fun j i => a * pv j i + b) (levels.affine a b) m
      = (g.fawa pv levels m).map fun F j => (F j).map fun v => a * v := by
  have h1 : g.falwaContoured (fun j i => a * pv j i + b) (levels.affine a b) m
      = (g.falwaContoured pv levels m).map (List.map fun p => (p.1, fun i => (p.2 i).map fun v => a * v)) := by
    unfold falwaContoured
    rw [falwaContours_units ha b]
    cases g.falwaContours pv levels m with
    | error e => rfl
    | ok out =>
      dsimp only [Except.map]
      rw [List.mapM_map]
      refine Eq.trans ?_ (mapM_except_map _ _ _)
      congr 1
      funext p
      simp only [Function.comp]
      rw [falwaRow_units ha b]
      cases g.falwaRow pv m p.1 p.2 <;> rfl
  exact ⟨h1, falwa_tail (r := g.rsphere) h1⟩

/-! ## C90 -/

theorem gridpointArea_radius (c : ℝ) (j : ℕ) : (g.withRadius (c * g.rsphere)).gridpointArea j = c ^ 2 * g.gridpointArea j := by
  have h : ∀ k, (g.withRadius (c * g.rsphere)).midPhi k = g.midPhi k := fun _ => rfl
  unfold gridpointArea
  simp only [h]
  rw [show (g.withRadius (c * g.rsphere)).dlam = g.dlam from rfl, show (g.withRadius (c * g.rsphere)).nlat = g.nlat from rfl]
  split_ifs <;> ring

theorem quadMeridionalCore_radius {w : ℕ} {c : ℝ} (hc : c ≠ 0) (y : Fin g.nlat → Fin w → ℝ) (z : Option (Fin g.nlat → Fin w → ℝ))
    (m : String) : (g.withRadius (c * g.rsphere)).quadMeridionalCore y z m
      = (g.quadMeridionalCore y z m).map fun v i => c * v i := by
  unfold quadMeridionalCore
  dsimp only
  by_cases h1 : m = "boxcount"
  · rw [if_pos h1, if_pos h1]
    refine congrArg Except.ok (funext fun i => ?_)
    unfold boxcountCol
    have : (∑ j : Fin g.nlat, if 0 ≤ z.getD (fun _ _ => 1) j i then (g.withRadius (c * g.rsphere)).gridpointArea j * y j i else 0)
        = c * (c * ∑ j : Fin g.nlat, if 0 ≤ z.getD (fun _ _ => 1) j i then g.gridpointArea j * y j i else 0) := by
      rw [Finset.mul_sum, Finset.mul_sum]
      refine Finset.sum_congr rfl fun j _ => ?_
      rw [gridpointArea_radius c]
      split_ifs
      · ring
      · simp
    refine (congrArg (fun x => x / (c * g.rsphere) / g.dlam) this).trans ?_
    rw [mul_div_mul_left _ _ hc]
    ring
  rw [if_neg h1, if_neg h1]
  by_cases h2 : m = "sptrapz"
  · rw [if_pos h2, if_pos h2]
    by_cases h3 : g.nlon < w
    · have h3' : (g.withRadius (c * g.rsphere)).nlon < w := h3
      rw [if_pos h3, if_pos h3']; rfl
    · have h3' : ¬ (g.withRadius (c * g.rsphere)).nlon < w := h3
      rw [if_neg h3, if_neg h3']
      refine congrArg Except.ok (funext fun i => ?_)
      unfold sptrapzCol
      dsimp only
      rw [Finset.mul_sum]
      refine Finset.sum_congr rfl fun j _ => ?_
      rw [mul_ite, mul_zero, ← mul_assoc]
      rfl
  · rw [if_neg h2, if_neg h2]; rfl

theorem eqLat_radius {c : ℝ} (hc : c ≠ 0) (A : ℝ) : (g.withRadius (c * g.rsphere)).eqLat (c ^ 2 * A) = g.eqLat A := by
  unfold eqLat
  have : 1 / 2 * (c ^ 2 * A) / π / (c * g.rsphere) ^ 2 = 1 / 2 * A / π / g.rsphere ^ 2 := by
    rw [mul_pow, show 1 / 2 * (c ^ 2 * A) / π = c ^ 2 * (1 / 2 * A / π) by ring, mul_div_mul_left _ _ (pow_ne_zero 2 hc)]
  dsimp only
  rw [this]

theorem zonalizeContours_radius {w : ℕ} {c : ℝ} (hc : c ≠ 0) (f : Fin g.nlat → Fin w → ℝ) (levels : Levels) (m : String) :
    (g.withRadius (c * g.rsphere)).zonalizeContours f levels m = g.zonalizeContours f levels m := by
  have hq : ∀ q : ℝ, (match (g.withRadius (c * g.rsphere)).quadCore (fun _ _ => 1) (some fun j i => f j i - q) m with
      | .ok area => .ok (q, (g.withRadius (c * g.rsphere)).eqLat (area * ((g.withRadius (c * g.rsphere)).nlon / w)))
      | .error e => .error e : Except PyErr (ℝ × ℝ))
      = match g.quadCore (fun _ _ => 1) (some fun j i => f j i - q) m with
      | .ok area => .ok (q, g.eqLat (area * (g.nlon / w)))
      | .error e => .error e := by
    intro q
    unfold quadCore
    have e : (g.withRadius (c * g.rsphere)).quadMeridionalCore (fun _ _ => 1) (some fun j i => f j i - q) m = _ :=
      quadMeridionalCore_radius hc (fun (_ : Fin g.nlat) (_ : Fin w) => (1 : ℝ)) (some fun j i => f j i - q) m
    rw [e]
    cases g.quadMeridionalCore (fun _ _ => 1) (some fun j i => f j i - q) m with
    | error e => rfl
    | ok v =>
      refine congrArg Except.ok (congrArg (Prod.mk q) ?_)
      dsimp only
      rw [← Finset.mul_sum, show (g.withRadius (c * g.rsphere)).dlam = g.dlam from rfl,
        show (g.withRadius (c * g.rsphere)).nlon = g.nlon from rfl,
        show c * g.rsphere * g.dlam * (c * ∑ i, v i) * (g.nlon / w) = c ^ 2 * (g.rsphere * g.dlam * (∑ i, v i) * (g.nlon / w)) by
          ring]
      exact eqLat_radius hc _
  have hq' : (fun q : ℝ => (match (g.withRadius (c * g.rsphere)).quadCore (fun _ _ => 1) (some fun j i => f j i - q) m with
      | .ok area => .ok (q, (g.withRadius (c * g.rsphere)).eqLat (area * ((g.withRadius (c * g.rsphere)).nlon / w)))
      | .error e => .error e : Except PyErr (ℝ × ℝ))) = _ := funext hq
  exact congrArg (fun F => if w = 0 then .error .valueError else if g.contourLevels f levels m = [] then .error .valueError else
    (g.contourLevels f levels m).mapM F) hq'

/-- The contours of FALWA from those of `zonalize` -/
noncomputable def contoursFrom (x : Except PyErr (List (ℝ × ℝ))) (M N : ℝ) (m : String) (n : ℕ) (lat : ℕ → ℝ) :
    Except PyErr (List (ℝ × ℝ)) :=
  match x with
  | .error e => .error e
  | .ok out =>
    if m = "boxcount" then
      match meridionalKnots (out.map Prod.swap) M N with
      | [] => .error .valueError
      | a :: l => .ok ((List.range (n - 1)).map fun j =>
          let y := 1 / 2 * (lat j + lat (j + 1))
          (npInterp lerp a l y, y))
    else .ok out

theorem contoursFrom_eq (pv : Fin g.nlat → Fin g.nlon → ℝ) (levels : Levels) (m : String) :
    g.falwaContours pv levels m = contoursFrom (g.zonalizeContours pv levels m) (fieldMax pv) (fieldMin pv) m g.nlat g.lat := by
  unfold falwaContours contoursFrom
  cases g.zonalizeContours pv levels m with
  | error e => rfl
  | ok out =>
    dsimp only
    cases meridionalKnots (out.map Prod.swap) (fieldMax pv) (fieldMin pv) <;> rfl

/-- The profile of `zonalize` from the contours -/
noncomputable def profileFrom (x : Except PyErr (List (ℝ × ℝ))) (M N : ℝ) (n : ℕ) (lat : ℕ → ℝ) : Except PyErr (Fin n → ℝ) :=
  match x with
  | .error e => .error e
  | .ok out =>
    match meridionalKnots (out.map Prod.swap) M N with
    | [] => .error .valueError
    | a :: l => .ok fun j => npInterp lerp a l (lat j)

theorem profileFrom_eq {w : ℕ} (f : Fin g.nlat → Fin w → ℝ) (levels : Levels) (m : String) :
    g.zonalize f levels m = profileFrom (g.zonalizeContours f levels m) (fieldMax f) (fieldMin f) g.nlat g.lat := by
  unfold zonalize profileFrom
  cases g.zonalizeContours f levels m with
  | error e => rfl
  | ok out =>
    dsimp only
    cases meridionalKnots (out.map Prod.swap) (fieldMax f) (fieldMin f) <;> rfl

/-- The rows of FALWA from the contours -/
noncomputable def rowsFrom {w : ℕ} (x : Except PyErr (List (ℝ × ℝ))) (row : ℝ → ℝ → Except PyErr (Fin w → Option ℝ)) :
    Except PyErr (List (ℝ × (Fin w → Option ℝ))) :=
  match x with
  | .error e => .error e
  | .ok out => out.mapM fun p => match row p.1 p.2 with
    | .ok r => .ok (p.2, r)
    | .error e => .error e

theorem rowsFrom_eq (pv : Fin g.nlat → Fin g.nlon → ℝ) (levels : Levels) (m : String) :
    g.falwaContoured pv levels m = rowsFrom (g.falwaContours pv levels m) (g.falwaRow pv m) := by
  unfold falwaContoured rowsFrom
  cases g.falwaContours pv levels m with
  | error e => rfl
  | ok out =>
    dsimp only
    congr 1
    funext p
    cases g.falwaRow pv m p.1 p.2 <;> rfl

/-- The row of FALWA from the two integrals -/
noncomputable def combine {w : ℕ} (x x' : Except PyErr (Fin w → ℝ)) (d : ℝ) : Except PyErr (Fin w → Option ℝ) :=
  match x, x' with
  | .ok a, .ok b => .ok fun i => divO (a i - b i) d
  | .error e, _ => .error e
  | _, .error e => .error e

theorem combine_eq (pv : Fin g.nlat → Fin g.nlon → ℝ) (m : String) (q y : ℝ) :
    g.falwaRow pv m q y = combine (g.quadMeridionalCore (fun j i => pv j i - q) (some fun j i => pv j i - q) m)
      (g.quadMeridionalCore (fun j i => pv j i - q) (some fun j i => g.lat2 j i - y) m) (Real.cos (deg2rad y)) := by
  unfold falwaRow combine
  cases g.quadMeridionalCore (fun j i => pv j i - q) (some fun j i => pv j i - q) m <;>
    cases g.quadMeridionalCore (fun j i => pv j i - q) (some fun j i => g.lat2 j i - y) m <;> rfl

/-- C90: on a planet with `c` times the radius zonalization is the same and wave activity is `c` times as large. -/
theorem C90_radius (g : Grid ℝ) {c : ℝ} (hc : c ≠ 0) (pv : Fin g.nlat → Fin g.nlon → ℝ) (levels : Levels) (m : String) :
    (g.withRadius (c * g.rsphere)).zonalizeContours pv levels m = g.zonalizeContours pv levels m ∧
    (g.withRadius (c * g.rsphere)).zonalize pv levels m = g.zonalize pv levels m ∧
    (g.withRadius (c * g.rsphere)).falwaContoured pv levels m
      = (g.falwaContoured pv levels m).map (List.map fun p => (p.1, fun i => (p.2 i).map fun v => c * v)) ∧
    (g.withRadius (c * g.rsphere)).falwa pv levels m = (g.falwa pv levels m).map (fun F j i => (F j i).map fun v => c * v) ∧
    (g.withRadius (c * g.rsphere)).fawaContoured pv levels m
      = (g.fawaContoured pv levels m).map (List.map fun p => (p.1, p.2.map fun v => c * v)) ∧
    (g.withRadius (c * g.rsphere)).fawa pv levels m = (g.fawa pv levels m).map fun F j => (F j).map fun v => c * v := by
  have hz := zonalizeContours_radius hc pv levels m
  have hrow : ∀ q y, (g.withRadius (c * g.rsphere)).falwaRow pv m q y
      = (g.falwaRow pv m q y).map fun row i => (row i).map fun v => c * v := by
    intro q y
    have e1 : (g.withRadius (c * g.rsphere)).quadMeridionalCore (fun j i => pv j i - q) (some fun j i => pv j i - q) m = _ :=
      quadMeridionalCore_radius hc (fun (j : Fin g.nlat) (i : Fin g.nlon) => pv j i - q) (some fun j i => pv j i - q) m
    have e2 : (g.withRadius (c * g.rsphere)).quadMeridionalCore (fun j i => pv j i - q)
        (some fun j i => (g.withRadius (c * g.rsphere)).lat2 j i - y) m = _ :=
      quadMeridionalCore_radius hc (fun (j : Fin g.nlat) (i : Fin g.nlon) => pv j i - q) (some fun j i => g.lat2 j i - y) m
    refine (combine_eq (g := g.withRadius (c * g.rsphere)) pv m q y).trans
      ((congrArg₂ (fun x x' : Except PyErr (Fin g.nlon → ℝ) => combine x x' (Real.cos (deg2rad y))) e1 e2).trans ?_)
    rw [combine_eq]
    cases g.quadMeridionalCore (fun j i => pv j i - q) (some fun j i => pv j i - q) m with
    | error e => rfl
    | ok u =>
      cases g.quadMeridionalCore (fun j i => pv j i - q) (some fun j i => g.lat2 j i - y) m with
      | error e => rfl
      | ok v =>
        refine congrArg Except.ok (funext fun i => ?_)
        dsimp only
        rw [← mul_sub, divO_scale]
  have h1 : (g.withRadius (c * g.rsphere)).falwaContoured pv levels m
      = (g.falwaContoured pv levels m).map (List.map fun p => (p.1, fun i => (p.2 i).map fun v => c * v)) := by
    have hcont : (g.withRadius (c * g.rsphere)).falwaContours pv levels m = g.falwaContours pv levels m := by
      refine (contoursFrom_eq (g := g.withRadius (c * g.rsphere)) pv levels m).trans (Eq.trans ?_ (contoursFrom_eq pv levels m).symm)
      exact congrArg (fun x => contoursFrom x (fieldMax pv) (fieldMin pv) m g.nlat g.lat) hz
    refine (rowsFrom_eq (g := g.withRadius (c * g.rsphere)) pv levels m).trans
      ((congrArg₂ (rowsFrom (w := g.nlon)) hcont (funext fun q => funext fun y => hrow q y)).trans ?_)
    rw [rowsFrom_eq]
    cases g.falwaContours pv levels m with
    | error e => rfl
    | ok out =>
      refine Eq.trans ?_ (mapM_except_map _ _ _)
      unfold rowsFrom
      dsimp only
      congr 1
      funext p
      cases g.falwaRow pv m p.1 p.2 <;> rfl
  refine ⟨hz, ?_, h1, falwa_tail h1⟩
  refine (profileFrom_eq (g := g.withRadius (c * g.rsphere)) pv levels m).trans (Eq.trans ?_ (profileFrom_eq pv levels m).symm)
  exact congrArg (fun x => profileFrom x (fieldMax pv) (fieldMin pv) g.nlat g.lat) hz

/-- Non-vacuity of C89 and C90: on the example grid wave activity exists for every field, and the theorems relate successes. -/
example (pv : Fin grid30.nlat → Fin grid30.nlon → ℝ) : ∃ F, grid30.falwa pv .none "boxcount" = .ok F ∧
    grid30.falwa (fun j i => 2 * pv j i + 1) .none "boxcount" = .ok (fun j i => (F j i).map fun v => 2 * v) ∧
    (grid30.withRadius (3 * grid30.rsphere)).falwa pv .none "boxcount" = .ok (fun j i => (F j i).map fun v => 3 * v) := by
  obtain ⟨_, F, _, hF, _⟩ := C24_nonneg_partial grid30 grid30_valid "boxcount" (.inl rfl) pv .none trivial
  refine ⟨F, hF, ?_, ?_⟩
  · have := (C89_falwa grid30 two_pos 1 pv .none "boxcount").2.1
    rw [hF] at this
    exact this
  · have := (C90_radius grid30 (c := 3) (by norm_num) pv .none "boxcount").2.2.2.1
    rw [hF] at this
    exact this

end Barotropic
