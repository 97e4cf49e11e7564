import Verif.Lemmas.RunMap
import Verif.Lemmas.SpharmWave
import Verif.Props.Derivative
import Verif.Props.Units
import Verif.Props.Run
import Verif.Lemmas.Spectral
import Verif.Model.Init

/-!
# Other units of time and length: C99

Nothing in the code depends on the units of time and length: measuring times in units in which they are `a` times as large and
lengths in units in which they are `c` times as large changes every result by the factor that belongs to its dimension.
-/

namespace Barotropic
open BModel

section raw
variable {nlat nlon T : ℕ} {S : Spharm nlat nlon T} {c : ℝ}

theorem linear_rescaled (c : ℝ) (h : S.IsLinear) : (S.rescaled c).IsLinear where
  grdtospec_add := h.grdtospec_add
  grdtospec_smul := h.grdtospec_smul
  spectogrd_add := h.spectogrd_add
  spectogrd_smul := h.spectogrd_smul
  getuv_add x x' y y' := by
    change c • S.getuv _ _ = c • S.getuv _ _ + c • S.getuv _ _
    rw [h.getuv_add, smul_add]
  getuv_smul r x y := by
    change c • S.getuv _ _ = r • c • S.getuv _ _
    rw [h.getuv_smul, smul_comm]
  getvrtdiv_add x x' y y' := by
    change c⁻¹ • S.getvrtdivspec _ _ = c⁻¹ • S.getvrtdivspec _ _ + c⁻¹ • S.getvrtdivspec _ _
    rw [h.getvrtdiv_add, smul_add]
  getvrtdiv_smul r x y := by
    change c⁻¹ • S.getvrtdivspec _ _ = r • c⁻¹ • S.getvrtdivspec _ _
    rw [h.getvrtdiv_smul, smul_comm]
  getgrad_add x y := by
    change c⁻¹ • S.getgrad _ = c⁻¹ • S.getgrad _ + c⁻¹ • S.getgrad _
    rw [h.getgrad_add, smul_add]
  getgrad_smul r x := by
    change c⁻¹ • S.getgrad _ = r • c⁻¹ • S.getgrad _
    rw [h.getgrad_smul, smul_comm]

theorem wind_rescaled (hc : c ≠ 0) (hl : S.IsLinear) (h : S.WindInverse) : (S.rescaled c).WindInverse where
  vrtdiv_uv x y hx hy := by
    change c⁻¹ • S.getvrtdivspec (c • (S.getuv x y).1) (c • (S.getuv x y).2) = _
    rw [hl.getvrtdiv_smul, smul_smul, inv_mul_cancel₀ hc, one_smul]
    exact h.vrtdiv_uv x y hx hy
  uv_dropMean x y := congrArg (c • ·) (h.uv_dropMean x y)
  vrt_mean u v k hk := by
    change c⁻¹ • (S.getvrtdivspec u v).1 k = 0
    rw [h.vrt_mean u v k hk, smul_zero]
  div_mean u v k hk := by
    change c⁻¹ • (S.getvrtdivspec u v).2 k = 0
    rw [h.div_mean u v k hk, smul_zero]

theorem phaseShift_smul (r : ℝ) (d : ℕ) (s : SpecField T) : phaseShift nlon d (r • s) = r • phaseShift nlon d s := by
  funext k; simp only [phaseShift, Pi.smul_apply, mul_smul_comm]

theorem rotations_rescaled (c : ℝ) (h : S.Rotations) : (S.rescaled c).Rotations where
  grdtospec_rotate := h.grdtospec_rotate
  spectogrd_phase := h.spectogrd_phase
  getuv_phase d x y := congrArg (c • ·) (h.getuv_phase d x y)
  getvrtdiv_rotate d u v := by
    refine (congrArg (c⁻¹ • ·) (h.getvrtdiv_rotate d u v)).trans ?_
    change (c⁻¹ • phaseShift nlon d (S.getvrtdivspec u v).1, c⁻¹ • phaseShift nlon d (S.getvrtdivspec u v).2) =
      (phaseShift nlon d (c⁻¹ • (S.getvrtdivspec u v).1), phaseShift nlon d (c⁻¹ • (S.getvrtdivspec u v).2))
    rw [phaseShift_smul, phaseShift_smul]
  getgrad_phase d s := congrArg (c⁻¹ • ·) (h.getgrad_phase d s)
  zonal_v x hx := by
    change c • (S.getuv x 0).2 = 0
    rw [h.zonal_v x hx, smul_zero]
  zonal_div u hu := by
    change c⁻¹ • (S.getvrtdivspec u 0).2 = 0
    rw [h.zonal_div u hu, smul_zero]

end raw

variable {g : Grid ℝ} {S : g.Sph} {a c : ℝ}

theorem fcor2_rescaled (a c : ℝ) : (g.rescaled a c).fcor2 = a⁻¹ • g.fcor2 := by
  funext j i
  change 2 * (g.omega / a) * Real.sin (g.phi j) = a⁻¹ * (2 * g.omega * Real.sin (g.phi j))
  ring

/-- The transforms for the other radius obey the laws of transforms. -/
theorem lawful_rescaled (a : ℝ) (hc : c ≠ 0) (hS : Spharm.Lawful S) : Spharm.Lawful (S.inUnits a c) where
  lin := linear_rescaled c hS.lin
  rt := { adm_analysis := hS.rt.adm_analysis, synth_again := hS.rt.synth_again, adm_degMul := hS.rt.adm_degMul }
  const :=
    { synth_const := hS.const.synth_const, analysis_const := hS.const.analysis_const
      grad_const := (fun s hs => by
        refine (congrArg (fun p : g.Fld × g.Fld => c⁻¹ • p) (hS.const.grad_const s hs)).trans ?_
        exact smul_zero (A := g.Fld × g.Fld) c⁻¹) }
  wind := wind_rescaled hc hS.lin hS.wind
  rot := rotations_rescaled c hS.rot
  coriolis := by
    rw [fcor2_rescaled]
    refine (congrArg S.spectogrd (hS.lin.grdtospec_smul a⁻¹ g.fcor2)).trans ?_
    refine (hS.lin.spectogrd_smul a⁻¹ _).trans ?_
    rw [hS.coriolis]
  coriolis_modes k hk := by
    rw [fcor2_rescaled]
    refine (congrFun (hS.lin.grdtospec_smul a⁻¹ g.fcor2) k).trans ?_
    change a⁻¹ • S.grdtospec g.fcor2 k = 0
    rw [hS.coriolis_modes k hk, smul_zero]

namespace St

theorem fcor2Spectral_rescaled (hS : S.IsLinear) (a c : ℝ) :
    Grid.fcor2Spectral (S.inUnits a c) = a⁻¹ • Grid.fcor2Spectral S := by
  change S.grdtospec (g.rescaled a c).fcor2 = _
  rw [fcor2_rescaled]
  exact hS.grdtospec_smul _ _

theorem pv_rescaled (hS : S.IsLinear) (s : St PyTime g) : (s.rescaled a c).pv (S.inUnits a c) = a⁻¹ • s.pv S :=
  hS.spectogrd_smul _ _

theorem vorticitySpectral_rescaled (hS : S.IsLinear) (s : St PyTime g) :
    (s.rescaled a c).vorticitySpectral (S.inUnits a c) = a⁻¹ • s.vorticitySpectral S := by
  unfold vorticitySpectral
  rw [fcor2Spectral_rescaled hS]
  exact (smul_sub a⁻¹ s.q (Grid.fcor2Spectral S)).symm

theorem invert_rescaled (hS : S.IsLinear) (s : St PyTime g) :
    (s.rescaled a c).invertPv (S.inUnits a c) = (c / a) • s.invertPv S := by
  change c • S.getuv (St.vorticitySpectral (g := g.rescaled a c) (S.inUnits a c) (s.rescaled a c)) 0 = (c / a) • S.getuv _ 0
  rw [vorticitySpectral_rescaled hS]
  have := hS.getuv_smul a⁻¹ (s.vorticitySpectral S) 0
  rw [smul_zero] at this
  refine (congrArg (c • ·) this).trans ?_
  change c • a⁻¹ • _ = _
  rw [smul_smul, ← div_eq_mul_inv]

theorem u_rescaled (hS : S.IsLinear) (s : St PyTime g) : (s.rescaled a c).u (S.inUnits a c) = (c / a) • s.u S :=
  congrArg Prod.fst (invert_rescaled hS s)
theorem v_rescaled (hS : S.IsLinear) (s : St PyTime g) : (s.rescaled a c).v (S.inUnits a c) = (c / a) • s.v S :=
  congrArg Prod.snd (invert_rescaled hS s)

theorem flux_rescaled (hS : S.IsLinear) (hc : c ≠ 0) (s : St PyTime g) :
    (s.rescaled a c).pvFluxSpectral (S.inUnits a c) = (a ^ 2)⁻¹ • s.pvFluxSpectral S := by
  unfold pvFluxSpectral
  rw [pv_rescaled hS, u_rescaled hS, v_rescaled hS]
  change (c⁻¹ • S.getvrtdivspec (a⁻¹ • s.pv S * (c / a) • s.u S) (a⁻¹ • s.pv S * (c / a) • s.v S)).2 =
    (a ^ 2)⁻¹ • (S.getvrtdivspec _ _).2
  have e : ∀ x y : g.Fld, a⁻¹ • x * (c / a) • y = (c * (a ^ 2)⁻¹) • (x * y) := by
    intro x y; funext j i; simp only [Pi.mul_apply, Pi.smul_apply, smul_eq_mul]
    rw [pow_two, mul_inv]; ring
  rw [e, e, hS.getvrtdiv_smul, smul_smul, ← mul_assoc, inv_mul_cancel₀ hc, one_mul]
  rfl

end St

/-- FALWA on the grid from its rows -/
noncomputable def falwaFrom {w : ℕ} (x : Except PyErr (List (ℝ × (Fin w → Option ℝ)))) (n : ℕ) (lat : ℕ → ℝ) :
    Except PyErr (Fin n → Fin w → Option ℝ) :=
  match x with
  | .error e => .error e
  | .ok rows =>
    match meridionalKnots rows (fun _ => some 0) (fun _ => some 0) with
    | a :: b :: l => .ok fun j => callLinear lerpRow a b l (lat j)
    | _ => .error .valueError

theorem falwaFrom_eq (pv : Fin g.nlat → Fin g.nlon → ℝ) (levels : Levels) (m : String) :
    g.falwa pv levels m = falwaFrom (g.falwaContoured pv levels m) g.nlat g.lat := by
  unfold Grid.falwa falwaFrom
  cases g.falwaContoured pv levels m with
  | error e => rfl
  | ok rows =>
    dsimp only
    rcases meridionalKnots rows (fun _ => some 0) (fun _ => some 0) with - | ⟨a, - | ⟨b, l⟩⟩ <;> rfl

/-- Wave activity of a PV field does not depend on the rotation rate of the planet. -/
theorem falwa_omega (o : ℝ) (pv : Fin g.nlat → Fin g.nlon → ℝ) (levels : Levels) (m : String) :
    Grid.falwa { g with omega := o } pv levels m = g.falwa pv levels m := by
  have h1 : ∀ q y, Grid.falwaRow { g with omega := o } pv m q y = g.falwaRow pv m q y := fun q y =>
    (combine_eq (g := { g with omega := o }) pv m q y).trans (combine_eq pv m q y).symm
  have h2 : Grid.falwaContoured { g with omega := o } pv levels m = g.falwaContoured pv levels m :=
    (rowsFrom_eq (g := { g with omega := o }) pv levels m).trans
      ((congrArg (rowsFrom (w := g.nlon) (g.falwaContours pv levels m)) (funext fun q => funext fun y => h1 q y)).trans
        (rowsFrom_eq pv levels m).symm)
  exact (falwaFrom_eq (g := { g with omega := o }) pv levels m).trans
    ((congrArg (fun x => falwaFrom (w := g.nlon) x g.nlat g.lat) h2).trans (falwaFrom_eq pv levels m).symm)

theorem degMul_smul_mul {T : ℕ} (d d' : ℕ → ℝ) (r e : ℝ) (h : ∀ n, d n * r = e * d' n) (s : SpecField T) :
    degMul d (r • s) = e • degMul d' s := by
  funext k
  simp only [degMul, Pi.smul_apply, Complex.real_smul]
  rw [← mul_assoc, ← mul_assoc, ← Complex.ofReal_mul, ← Complex.ofReal_mul, h]

/-- C99: in other units all quantities of a state change by the factor that belongs to their dimension. -/
theorem C99_fields (hS : Spharm.Lawful S) (ha : 0 < a) (hc : 0 < c) (s : St PyTime g) :
    Spharm.Lawful (S.inUnits a c) ∧
    (∀ (t : PyTime) (f u v : g.Fld), St.ofPv (S.inUnits a c) (t.rescaled a) (a⁻¹ • f) = (St.ofPv S t f).rescaled a c ∧
      St.fromVorticity (S.inUnits a c) (t.rescaled a) (a⁻¹ • f) = (St.fromVorticity S t f).rescaled a c ∧
      St.fromWind (S.inUnits a c) (t.rescaled a) ((c / a) • u) ((c / a) • v) = (St.fromWind S t u v).rescaled a c) ∧
    (s.rescaled a c).pv (S.inUnits a c) = a⁻¹ • s.pv S ∧
    (s.rescaled a c).vorticity (S.inUnits a c) = a⁻¹ • s.vorticity S ∧
    (s.rescaled a c).u (S.inUnits a c) = (c / a) • s.u S ∧ (s.rescaled a c).v (S.inUnits a c) = (c / a) • s.v S ∧
    (s.rescaled a c).streamfunction (S.inUnits a c) = (c ^ 2 / a) • s.streamfunction S ∧
    (s.rescaled a c).enstrophy (S.inUnits a c) = (a ^ 2)⁻¹ • s.enstrophy S ∧
    (s.rescaled a c).eddyEnstrophy (S.inUnits a c) = (a ^ 2)⁻¹ • s.eddyEnstrophy S ∧
    (s.rescaled a c).energy (S.inUnits a c) = (c / a) ^ 2 • s.energy S ∧
    (s.rescaled a c).pvZonalized (S.inUnits a c) = (s.pvZonalized S).map (fun z => a⁻¹ • z) ∧
    (s.rescaled a c).falwa (S.inUnits a c) = (s.falwa S).map (fun F j i => (F j i).map fun x => c / a * x) := by
  have hpv := St.pv_rescaled (a := a) (c := c) hS.lin s
  have hu := St.u_rescaled (a := a) (c := c) hS.lin s
  have hv := St.v_rescaled (a := a) (c := c) hS.lin s
  have hof : ∀ (t : PyTime) (f : g.Fld), St.ofPv (S.inUnits a c) (t.rescaled a) (a⁻¹ • f) = (St.ofPv S t f).rescaled a c :=
    fun t f => congrArg (St.mk (t.rescaled a)) (hS.lin.grdtospec_smul _ _)
  refine ⟨lawful_rescaled a hc.ne' hS, fun t f u v => ⟨hof t f, ?_, ?_⟩, hpv, ?_, hu, hv, ?_, ?_, ?_, ?_, ?_, ?_⟩
  · unfold St.fromVorticity
    rw [← hof, fcor2_rescaled, smul_add]
    rfl
  · unfold St.fromWind
    rw [← hof, fcor2_rescaled, smul_add]
    have : Grid.vorticity (S.inUnits a c) ((c / a) • u) ((c / a) • v) = a⁻¹ • Grid.vorticity S u v := by
      change S.spectogrd (c⁻¹ • S.getvrtdivspec ((c / a) • u) ((c / a) • v)).1 = a⁻¹ • S.spectogrd (S.getvrtdivspec u v).1
      rw [hS.lin.getvrtdiv_smul, smul_smul, ← hS.lin.spectogrd_smul, show c⁻¹ * (c / a) = a⁻¹ by field_simp]
      rfl
    rw [this]
    rfl
  · unfold St.vorticity
    rw [hpv, fcor2_rescaled, smul_sub]
    rfl
  · unfold St.streamfunction
    rw [Grid.poisson_eq_degMul, St.vorticitySpectral_rescaled hS.lin, Grid.poisson_eq_degMul]
    refine Eq.trans (congrArg S.spectogrd ?_) (hS.lin.spectogrd_smul (c ^ 2 / a) _)
    refine degMul_smul_mul _ _ _ _ (fun n => ?_) (s.vorticitySpectral S)
    change (if n = 0 then (0 : ℝ) else -1 / ((n : ℝ) * (n + 1) / (c * g.rsphere) ^ 2 + 0)) * a⁻¹ = _
    by_cases h : n = 0
    · simp [h]
    · rw [if_neg h, if_neg h, add_zero, add_zero, mul_pow]
      by_cases hr : g.rsphere = 0
      · simp [hr]
      · have : (n : ℝ) ≠ 0 := by exact_mod_cast h
        have : (n : ℝ) + 1 ≠ 0 := by positivity
        field_simp
  · unfold St.enstrophy; rw [hpv]; funext j i
    change 1 / 2 * (a⁻¹ * s.pv S j i) ^ 2 = (a ^ 2)⁻¹ * (1 / 2 * s.pv S j i ^ 2)
    rw [mul_pow, inv_pow]; ring
  · unfold St.eddyEnstrophy; rw [hpv]; funext j i
    change 1 / 2 * (a⁻¹ * s.pv S j i - (∑ i' : Fin g.nlon, a⁻¹ * s.pv S j i') / g.nlon) ^ 2 = (a ^ 2)⁻¹ * (1 / 2 * (s.pv S j i - (∑ i', s.pv S j i') / g.nlon) ^ 2)
    rw [← Finset.mul_sum, ← inv_pow]; ring
  · unfold St.energy; rw [hu, hv]; funext j i
    change 1 / 2 * (c / a * s.u S j i * (c / a * s.u S j i) + c / a * s.v S j i * (c / a * s.v S j i)) =
      (c / a) ^ 2 * (1 / 2 * (s.u S j i * s.u S j i + s.v S j i * s.v S j i))
    ring
  · unfold St.pvZonalized
    rw [hpv]
    have h1 := (C90_radius { g with omega := g.omega / a } hc.ne' (a⁻¹ • s.pv S) .none "sptrapz").2.1
    have h2 := (C89_zonalize g (inv_pos.mpr ha) 0 (s.pv S) .none "sptrapz").2
    refine h1.trans ?_
    have e : (fun j i => a⁻¹ * s.pv S j i + 0) = a⁻¹ • s.pv S := by funext j i; simp
    have e' : (fun (Z : Fin g.nlat → ℝ) j => a⁻¹ * Z j + 0) = fun z => a⁻¹ • z := by funext Z j; simp
    rw [e, e'] at h2
    exact h2
  · unfold St.falwa
    rw [hpv]
    have h1 := (C90_radius { g with omega := g.omega / a } hc.ne' (a⁻¹ • s.pv S) .none "sptrapz").2.2.2.1
    have h2 := (C89_falwa g (inv_pos.mpr ha) 0 (s.pv S) .none "sptrapz").2.1
    refine h1.trans ?_
    have e : (fun j i => a⁻¹ * s.pv S j i + 0) = a⁻¹ • s.pv S := by funext j i; simp
    rw [e] at h2
    have h3 := falwa_omega (g.omega / a) (a⁻¹ • s.pv S) .none "sptrapz"
    refine (congrArg (Except.map fun (F : Fin g.nlat → Fin g.nlon → Option ℝ) j i => (F j i).map fun v => c * v) (h3.trans h2)).trans ?_
    cases g.falwa (s.pv S) with
    | error e => rfl
    | ok F =>
      refine congrArg Except.ok ?_
      funext j i
      change ((F j i).map fun v => a⁻¹ * v).map (fun v => c * v) = (F j i).map fun x => c / a * x
      cases F j i with
      | none => rfl
      | some x => simp only [Option.map]; congr 1; ring

/-! ## Stationary wavenumber -/

theorem ksSquared_scale {e : ℝ} (he : 0 < e) (b u m : ℝ) : Grid.ksSquared (e * b) (e * u) (e * m) = Grid.ksSquared b u m := by
  have h1 : ∀ x, 0 < e * x ↔ 0 < x := fun x => mul_pos_iff_of_pos_left he
  have h2 : ∀ x, e * x < 0 ↔ x < 0 := fun x => by rw [← neg_pos, ← mul_neg, h1, neg_pos]
  have h3 : ∀ x, e * x = 0 ↔ x = 0 := fun x => by simp [he.ne']
  have hs : FloatX.signInf (e * b) = FloatX.signInf b := by unfold FloatX.signInf; simp only [h1, h2]
  unfold Grid.ksSquared
  rw [abs_mul, abs_of_pos he]
  simp only [mul_le_mul_iff_of_pos_left he, ne_eq, h3]
  split_ifs with h4 h5
  · rw [h5, mul_zero]
  · exact hs
  · simp only [FloatX.div, h3, hs, mul_div_mul_left _ _ he.ne']

theorem derivativeProfile_smul (e : ℝ) (q : Fin g.nlat → ℝ) (order : Order) :
    g.derivativeProfile (e • q) order = (g.derivativeProfile q order).map (e • ·) := by
  by_cases ho : order.Known ∧ order.need ≤ g.nlat
  · obtain ⟨D, h1, h2, -⟩ := C14_structure_1d g order ho.1 ho.2
    have : D (e • q) = e • D q := by
      have h5 := h2 e 0 q 0
      simp only [Pi.zero_apply, mul_zero, add_zero, zero_mul] at h5
      exact h5
    unfold Grid.derivativeProfile
    rw [h1, h1, this]
    simp only [Except.map, dif_pos]
    rfl
  · have he : ∃ e, ∀ v : Fin g.nlat → ℝ, g.derivativeMeridional (.d1 g.nlat v) order = .error e := by
      by_cases hk : order.Known
      · exact ⟨_, fun v => (C14_errors g (.d1 g.nlat v) order).2.2 (by simp [Arr.ndim, Arr.shape]) hk (by
          have : ¬ order.need ≤ g.nlat := fun h => ho ⟨hk, h⟩
          omega)⟩
      · exact ⟨_, fun v => (C14_errors g (.d1 g.nlat v) order).2.1 (by simp [Arr.ndim, Arr.shape]) hk⟩
    obtain ⟨e, he⟩ := he
    unfold Grid.derivativeProfile
    rw [he, he]
    rfl

/-- PV from wind, with the dependence on the grid explicit -/
noncomputable def pvFrom {n : ℕ} (d : Except PyErr (Fin n → ℝ)) (f cosphi : Fin n → ℝ) (r : ℝ) : Except PyErr (Fin n → ℝ) :=
  d.map fun d j => f j + -d j / r / cosphi j

/-- stationary wavenumber, with the dependence on the grid explicit -/
noncomputable def ksFrom {n : ℕ} (D : (Fin n → ℝ) → Except PyErr (Fin n → ℝ)) (cosphi : Fin n → ℝ) (r : ℝ)
    (q : Except PyErr (Fin n → ℝ)) (u : Fin n → ℝ) (minU : ℝ) (kind : String) : Except PyErr (KsResult n) :=
  match q with
  | .error e => .error e
  | .ok q =>
    match D q with
    | .error e => .error e
    | .ok d =>
      let ks2 := fun j : Fin n => Grid.ksSquared (cosphi j ^ 2 * r * d j) (u j) minU
      if kind = "squared" then .ok (.real ks2)
      else if kind = "complex" then .ok (.complex fun j => FloatX.csqrt (ks2 j))
      else if kind = "real" then .ok (.real fun j => FloatX.realVariant (FloatX.csqrt (ks2 j)))
      else .error .valueError

theorem pvFrom_eq (u : Fin g.nlat → ℝ) (order : Order) : g.pvFromWind u order =
    pvFrom (g.derivativeProfile (fun j => u j * Real.cos (g.phi j)) order) (fun j => g.fcor j) (fun j => Real.cos (g.phi j)) g.rsphere := by
  unfold Grid.pvFromWind pvFrom
  cases g.derivativeProfile (fun j => u j * Real.cos (g.phi j)) order <;> rfl

theorem ksFrom_eq (u : ProfileOrField g) (pv : Option (ProfileOrField g)) (order : Order) (minU : ℝ) (kind : String) :
    g.stationaryWavenumber u pv order minU kind = ksFrom (fun q => g.derivativeProfile q order) (fun j => Real.cos (g.phi j)) g.rsphere
      (g.ksPv u pv order) u.zonalMean minU kind := by
  unfold Grid.stationaryWavenumber ksFrom
  cases g.ksPv u pv order with
  | error e => rfl
  | ok q =>
    dsimp only
    cases g.derivativeProfile q order <;> rfl

/-- `ksFrom` is homogeneous. -/
theorem ksFrom_scale {n : ℕ} {D : (Fin n → ℝ) → Except PyErr (Fin n → ℝ)} (hD : ∀ (e : ℝ) q, D (e • q) = (D q).map (e • ·))
    (cosphi : Fin n → ℝ) (r : ℝ) (ha : 0 < a) (hc : 0 < c) (q : Except PyErr (Fin n → ℝ)) (u : Fin n → ℝ) (minU : ℝ) (kind : String) :
    ksFrom D cosphi (c * r) (q.map (a⁻¹ • ·)) ((c / a) • u) (c / a * minU) kind = ksFrom D cosphi r q u minU kind := by
  cases q with
  | error e => rfl
  | ok q =>
    unfold ksFrom
    simp only [Except.map, hD]
    cases D q with
    | error e => rfl
    | ok d =>
      have h : ∀ j, Grid.ksSquared (cosphi j ^ 2 * (c * r) * (a⁻¹ • d) j) (((c / a) • u) j) (c / a * minU) =
          Grid.ksSquared (cosphi j ^ 2 * r * d j) (u j) minU := by
        intro j
        rw [← ksSquared_scale (div_pos hc ha) _ (u j)]
        simp only [Pi.smul_apply, smul_eq_mul]
        congr 1
        ring
      simp only [h]

/-- C99: the stationary wavenumber has no dimension: in other units it is the same (with `min_u` in these units), from wind and PV
or from wind alone, from profiles and from fields, in all variants. -/
theorem C99_wavenumber (g : Grid ℝ) (ha : 0 < a) (hc : 0 < c) (u : ProfileOrField g) (pv : Option (ProfileOrField g)) (order : Order)
    (minU : ℝ) (kind : String) :
    (g.rescaled a c).stationaryWavenumber (u.rescaled a c (c / a)) (pv.map (ProfileOrField.rescaled a c a⁻¹)) order (c / a * minU) kind
      = g.stationaryWavenumber u pv order minU kind := by
  have hz : ∀ (e : ℝ) (x : ProfileOrField g), (x.rescaled a c e).zonalMean = e • x.zonalMean := by
    intro e x
    cases x with
    | profile x => rfl
    | field x =>
      funext j
      change (∑ i : Fin g.nlon, e * x j i) / g.nlon = e * ((∑ i, x j i) / g.nlon)
      rw [← Finset.mul_sum, mul_div_assoc]
  have hq : (g.rescaled a c).ksPv (u.rescaled a c (c / a)) (pv.map (ProfileOrField.rescaled a c a⁻¹)) order =
      (g.ksPv u pv order).map (a⁻¹ • ·) := by
    cases pv with
    | some p => exact congrArg Except.ok (hz _ p)
    | none =>
      change (g.rescaled a c).pvFromWind (u.rescaled a c (c / a)).zonalMean order = (g.pvFromWind u.zonalMean order).map (a⁻¹ • ·)
      rw [hz, pvFrom_eq u.zonalMean]
      refine (pvFrom_eq (g := g.rescaled a c) ((c / a) • u.zonalMean) order).trans ?_
      have h1 : g.derivativeProfile (fun j => ((c / a) • u.zonalMean) j * Real.cos (g.phi j)) order =
          (g.derivativeProfile (fun j => u.zonalMean j * Real.cos (g.phi j)) order).map ((c / a) • ·) := by
        rw [← derivativeProfile_smul]
        congr 1
        funext j
        simp only [Pi.smul_apply, smul_eq_mul]; ring
      refine (congrArg (fun d => pvFrom d (fun j : Fin g.nlat => (g.rescaled a c).fcor j) (fun j => Real.cos (g.phi j)) (c * g.rsphere))
        h1).trans ?_
      cases g.derivativeProfile (fun j => u.zonalMean j * Real.cos (g.phi j)) order with
      | error e => rfl
      | ok d =>
        refine congrArg Except.ok ?_
        funext j
        change 2 * (g.omega / a) * Real.sin (g.phi j) + -(c / a * d j) / (c * g.rsphere) / Real.cos (g.phi j) =
          a⁻¹ * (2 * g.omega * Real.sin (g.phi j) + -d j / g.rsphere / Real.cos (g.phi j))
        rw [show -(c / a * d j) = c * (-(a⁻¹ * d j)) by ring, mul_div_mul_left _ _ hc.ne']
        ring
  refine (ksFrom_eq (g := g.rescaled a c) (u.rescaled a c (c / a)) _ order _ kind).trans ?_
  rw [hq, hz, ksFrom_eq]
  exact ksFrom_scale (fun e q => derivativeProfile_smul e q order) _ _ ha hc _ _ _ _

/-! ## Runs -/

/-- PV coefficients in other units as linear map -/
noncomputable def smulMap {T : ℕ} (e : ℝ) : SpecField T →ₗ[ℝ] SpecField T := e • LinearMap.id

theorem diffusion_rescaled (ha : 0 < a) (hc : 0 < c) (coeff dt : ℝ) (order : ℕ) (q : g.Spc) :
    Grid.solveDiffusionSpectral (g := g.rescaled a c) (a⁻¹ • q) (c ^ (2 * order) / a * coeff) (a * dt) order =
      a⁻¹ • Grid.solveDiffusionSpectral q coeff dt order := by
  rw [Grid.diffusion_eq_degMul]
  refine (Grid.diffusion_eq_degMul (g := g.rescaled a c) (a⁻¹ • q) _ _ _).trans ?_
  refine degMul_smul_mul _ _ _ _ (fun n => ?_) q
  change 1 / (1 + a * dt * (c ^ (2 * order) / a * coeff) * ((n : ℝ) * (n + 1) / (c * g.rsphere) ^ 2) ^ order) * a⁻¹ =
    a⁻¹ * (1 / (1 + dt * coeff * ((n : ℝ) * (n + 1) / g.rsphere ^ 2) ^ order))
  rw [mul_comm]
  congr 3
  have h1 : (n : ℝ) * (n + 1) / (c * g.rsphere) ^ 2 = (c ^ 2)⁻¹ * ((n : ℝ) * (n + 1) / g.rsphere ^ 2) := by
    rw [mul_pow, mul_comm (c ^ 2), ← div_div, div_eq_inv_mul _ (c ^ 2)]
  rw [h1, mul_pow, inv_pow, ← pow_mul]
  have : c ^ (2 * order) ≠ 0 := pow_ne_zero _ hc.ne'
  field_simp

theorem applyDiffusion_rescaled (hS : S.IsLinear) (ha : 0 < a) (hc : 0 < c) {M : BModel g} {M' : BModel (g.rescaled a c)}
    (hM : M.Rescales a c M') (dt : ℝ) (q : g.Spc) :
    M'.applyDiffusion (S.inUnits a c) (a * dt) (a⁻¹ • q) = a⁻¹ • M.applyDiffusion S dt q := by
  unfold BModel.applyDiffusion
  rw [hM.order, hM.coeff, hM.bg]
  cases M.diffusionBg with
  | none => exact diffusion_rescaled ha hc _ _ _ _
  | some b =>
    have h1 : Grid.toSpectral (g := g.rescaled a c) (S.inUnits a c) (a⁻¹ • b) = a⁻¹ • Grid.toSpectral S b := hS.grdtospec_smul _ _
    simp only [Option.map]
    rw [h1, smul_add]
    refine congrArg (· + a⁻¹ • Grid.toSpectral S b) ?_
    refine Eq.trans ?_ (diffusion_rescaled ha hc _ _ _ _)
    refine congrArg (fun x => Grid.solveDiffusionSpectral (g := g.rescaled a c) x _ _ _) ?_
    exact (smul_sub a⁻¹ q (Grid.toSpectral S b)).symm

theorem tendency_rescaled (hS : S.IsLinear) (ha : 0 < a) (hc : 0 < c) {M : BModel g} {M' : BModel (g.rescaled a c)}
    (hM : M.Rescales a c M') (s : St PyTime g) (hs : ∃ x, s.time = .num x) :
    M'.tendency (S.inUnits a c) (s.rescaled a c) = (M.tendency S s).map ((a ^ 2)⁻¹ • ·) := by
  unfold BModel.tendency
  rw [St.flux_rescaled hS hc.ne']
  cases hr : M.rhs with
  | none =>
    rw [hM.none hr]
    exact congrArg Except.ok (smul_neg _ _).symm
  | some f =>
    obtain ⟨f', h3, h4⟩ := hM.rhs f hr
    rw [h3]
    dsimp only
    rw [h4 s hs]
    cases f s with
    | error e => rfl
    | ok r =>
      refine congrArg Except.ok ?_
      have h1 : Grid.toSpectral (g := g.rescaled a c) (S.inUnits a c) ((a ^ 2)⁻¹ • r) = (a ^ 2)⁻¹ • Grid.toSpectral S r :=
        hS.grdtospec_smul _ _
      dsimp only
      rw [h1, smul_add, smul_neg]
      rfl

/-- changing units carries the runs of a model to those of the model in other units -/
theorem rescale_runMap (hS : S.IsLinear) (ha : 0 < a) (hc : 0 < c) {M : BModel g} {M' : BModel (g.rescaled a c)} (hM : M.Rescales a c M') :
    RunMap S (S.inUnits a c) M M' a (smulMap a⁻¹ : g.Spc →ₗ[ℝ] g.Spc) (PyTime.rescaled a) (PyDelta.rescaled a) (fun t => ∃ x, t = .num x)
      (fun d => ∃ x, d = .num x) where
  seconds d := by rintro ⟨x, rfl⟩; rfl
  add t d := by
    rintro ⟨x, rfl⟩ ⟨y, rfl⟩
    simp only [PyTime.rescaled, PyDelta.rescaled, PyTime.add, Except.map, mul_add]
  sub t d := by
    rintro ⟨x, rfl⟩ ⟨y, rfl⟩
    simp only [PyTime.rescaled, PyDelta.rescaled, PyTime.sub, Except.map, mul_sub]
  lt t d := by
    rintro ⟨x, rfl⟩ ⟨y, rfl⟩
    simp only [PyTime.rescaled, PyTime.lt, mul_lt_mul_iff_of_pos_left ha]
  add_ok t d t' := by
    rintro ⟨x, rfl⟩ ⟨y, rfl⟩ h
    cases h; exact ⟨_, rfl⟩
  sub_ok t d t' := by
    rintro ⟨x, rfl⟩ ⟨y, rfl⟩ h
    cases h; exact ⟨_, rfl⟩
  tendency s hs := by
    refine (congrArg (Except.map (a • ·)) (tendency_rescaled hS ha hc hM s hs)).trans ?_
    cases M.tendency S s with
    | error e => rfl
    | ok t =>
      refine congrArg Except.ok ?_
      change a • (a ^ 2)⁻¹ • t = a⁻¹ • t
      rw [smul_smul]
      congr 1
      field_simp
  diffusion dt q := applyDiffusion_rescaled hS ha hc hM dt q

/-- C99: a run in other units is the run, with all results in these units: the same states at the same times, the same exceptions.
Times are numbers; the time step, the end time and the saving interval are given in the other units. -/
theorem C99_run (hS : Spharm.Lawful S) (ha : 0 < a) (hc : 0 < c) {M : BModel g} {M' : BModel (g.rescaled a c)} (hM : M.Rescales a c M')
    (s : St PyTime g) (t0 dt tend se : ℝ) (hs : s.time = .num t0) (fuel : ℕ) :
    M'.run (S.inUnits a c) (s.rescaled a c) (.num (a * dt)) (.num (a * tend)) (a * se) fuel =
      (M.run S s (.num dt) (.num tend) se fuel).map (St.rescaled a c) := by
  refine (rescale_runMap hS.lin ha hc hM).run ha (se := se) (.inr ?_) s (.num dt) (.num tend) fuel ⟨_, hs⟩ ⟨_, rfl⟩ ⟨_, rfl⟩
  rintro t x ⟨y, rfl⟩
  simp only [PyTime.rescaled, PyTime.ge, mul_le_mul_iff_of_pos_left ha]

/-! ## Forcings -/

/-- C99: forcings in other units: sums of terms with the same dimension, products, the switch, relaxation (the rate is an inverse
time), and orographic forcing (solid body rotation is a wind, the reference Coriolis parameter an inverse time; the heights
and the scale height occur only as a ratio and may be given in either units). -/
theorem C99_forcing (hS : Spharm.Lawful S) (ha : 0 < a) (hc : 0 < c) :
    (∀ (e : ℝ) (t₁ t₂ : Term g) (t₁' t₂' : Term (g.rescaled a c)), t₁.Rescales a c e t₁' → t₂.Rescales a c e t₂' →
      (Term.sum t₁ t₂).Rescales a c e (.sum t₁' t₂')) ∧
    (∀ (e e' : ℝ) (t₁ t₂ : Term g) (t₁' t₂' : Term (g.rescaled a c)), t₁.Rescales a c e t₁' → t₂.Rescales a c e' t₂' →
      (Term.prod t₁ t₂).Rescales a c (e * e') (.prod t₁' t₂')) ∧
    (∀ tend, (Term.timedOffSwitch (.num tend) : Term g).Rescales a c 1 (.timedOffSwitch (.num (a * tend)))) ∧
    (∀ rate ref, (Term.linearRelaxation S rate ref).Rescales a c (a ^ 2)⁻¹
      (.linearRelaxation (S.inUnits a c) (rate / a) (ref.rescaled a c a⁻¹))) ∧
    (∀ o o' : Orog, (∃ e : ℝ, e ≠ 0 ∧ o'.scaleHeight = e * o.scaleHeight ∧
        o'.kind.orography (g.rescaled a c) = (o.kind.orography g).map (e • ·)) →
      o'.wind = (match o.wind with | .act f => .act f | .zon f => .zon f | .sbr f => .sbr (c / a * f)) →
      o'.fcorRef = o.fcorRef.map (a⁻¹ * ·) → (o.term S).Rescales a c (a ^ 2)⁻¹ (o'.term (S.inUnits a c))) ∧
    (∀ (t : Term g) (t' : Term (g.rescaled a c)), t.Rescales a c (a ^ 2)⁻¹ t' →
      ∀ s : St PyTime g, (∃ x, s.time = .num x) → t'.toRhs (s.rescaled a c) = (t.toRhs s).map fun r => (a ^ 2)⁻¹ • r) := by
  have key : ∀ (e e' e'' : ℝ) (t₁ t₂ : Term g) (t₁' t₂' : Term (g.rescaled a c)), t₁.Rescales a c e t₁' → t₂.Rescales a c e' t₂' →
      ∀ (op : RVal g → RVal g → RVal g) (op' : RVal (g.rescaled a c) → RVal (g.rescaled a c) → RVal (g.rescaled a c)),
      (∀ x y, op' (x.rescaled a c e) (y.rescaled a c e') = (op x y).rescaled a c e'') → ∀ s : St PyTime g, (∃ x, s.time = .num x) →
      (do let x ← t₁'.call (s.rescaled a c); let y ← t₂'.call (s.rescaled a c); return op' x y) =
      (do let x ← t₁.call s; let y ← t₂.call s; return op x y).map (RVal.rescaled a c e'') := by
    intro e e' e'' t₁ t₂ t₁' t₂' h1 h2 op op' hop s hs
    rw [h1 s hs, h2 s hs]
    cases t₁.call s with
    | error e => rfl
    | ok x =>
      cases t₂.call s with
      | error e => rfl
      | ok y => exact congrArg Except.ok (hop x y)
  refine ⟨fun e t₁ t₂ t₁' t₂' h1 h2 s hs => ?_, fun e e' t₁ t₂ t₁' t₂' h1 h2 s hs => ?_, fun tend s hs => ?_, fun rate ref s _ => ?_,
    fun o o' h1 h2 h3 s _ => ?_, fun t t' h s hs => ?_⟩
  · refine key e e e t₁ t₂ t₁' t₂' h1 h2 RVal.add RVal.add (fun x y => ?_) s hs
    cases x with
    | num x =>
      cases y with
      | num y => exact congrArg RVal.num (mul_add _ _ _).symm
      | fld y => exact congrArg RVal.fld (funext fun j => funext fun i => (mul_add _ _ _).symm)
    | fld x =>
      cases y with
      | num y => exact congrArg RVal.fld (funext fun j => funext fun i => (mul_add _ _ _).symm)
      | fld y => exact congrArg RVal.fld (funext fun j => funext fun i => (mul_add _ _ _).symm)
  · refine key e e' _ t₁ t₂ t₁' t₂' h1 h2 RVal.mul RVal.mul (fun x y => ?_) s hs
    cases x with
    | num x =>
      cases y with
      | num y => exact congrArg RVal.num (mul_mul_mul_comm _ _ _ _)
      | fld y => exact congrArg RVal.fld (funext fun j => funext fun i => mul_mul_mul_comm _ _ _ _)
    | fld x =>
      cases y with
      | num y => exact congrArg RVal.fld (funext fun j => funext fun i => mul_mul_mul_comm _ _ _ _)
      | fld y => exact congrArg RVal.fld (funext fun j => funext fun i => mul_mul_mul_comm _ _ _ _)
  · obtain ⟨x, hx⟩ := hs
    have : (s.rescaled a c).time = .num (a * x) := by
      change PyTime.rescaled a s.time = _
      rw [hx]; rfl
    unfold Term.timedOffSwitch Term.call
    simp only [this, hx, PyTime.le, mul_le_mul_iff_of_pos_left ha]
    by_cases h : x ≤ tend <;> simp [h, Except.map, RVal.rescaled]
  · unfold Term.linearRelaxation Term.call
    dsimp only
    rw [St.pv_rescaled hS.lin]
    refine congrArg Except.ok ?_
    cases ref with
    | num x =>
      refine congrArg RVal.fld (funext fun j => funext fun i => ?_)
      change rate / a * (a⁻¹ * x - a⁻¹ * s.pv S j i) = (a ^ 2)⁻¹ * (rate * (x - s.pv S j i))
      field_simp
    | fld f =>
      refine congrArg RVal.fld (funext fun j => funext fun i => ?_)
      change rate / a * (a⁻¹ * f j i - a⁻¹ * s.pv S j i) = (a ^ 2)⁻¹ * (rate * (f j i - s.pv S j i))
      field_simp
  · obtain ⟨e, he, h0, h1⟩ := h1
    have hgr : o'.gradient (S.inUnits a c) = (o.gradient S).map fun p => (c⁻¹ * e) • p := by
      unfold Orog.gradient
      rw [h1]
      cases o.kind.orography g with
      | error e => rfl
      | ok f =>
        refine congrArg Except.ok ?_
        change c⁻¹ • S.getgrad (S.grdtospec (e • f)) = (c⁻¹ * e) • S.getgrad (S.grdtospec f)
        rw [hS.lin.grdtospec_smul, hS.lin.getgrad_smul, smul_smul]
    have hw : o'.getWind (S.inUnits a c) (s.rescaled a c) = (c / a) • o.getWind S s := by
      unfold Orog.getWind
      rw [h2, St.u_rescaled hS.lin, St.v_rescaled hS.lin]
      cases o.wind with
      | act f =>
        refine Prod.ext ?_ ?_
        · funext j i; change f * (c / a * s.u S j i) = c / a * (f * s.u S j i); ring
        · funext j i; change f * (c / a * s.v S j i) = c / a * (f * s.v S j i); ring
      | zon f =>
        refine Prod.ext ?_ ?_
        · funext j i
          change f * ((∑ i' : Fin g.nlon, c / a * s.u S j i') / g.nlon) = c / a * (f * ((∑ i', s.u S j i') / g.nlon))
          rw [← Finset.mul_sum]; ring
        · funext j i; exact (mul_zero (c / a)).symm
      | sbr f =>
        refine Prod.ext ?_ ?_
        · funext j i; change c / a * f * Real.cos (g.phi j) = c / a * (f * Real.cos (g.phi j)); ring
        · funext j i; exact (mul_zero (c / a)).symm
    unfold Orog.term Term.call Orog.force
    dsimp only
    rw [hgr, hw]
    cases o.gradient S with
    | error e => rfl
    | ok gr =>
      refine congrArg Except.ok (congrArg RVal.fld ?_)
      funext j i
      change Orog.combine (g := g.rescaled a c) o' ((c / a) • o.getWind S s) ((c⁻¹ * e) • gr) j i = (a ^ 2)⁻¹ * o.combine (o.getWind S s) gr j i
      have hf : (g.rescaled a c).fcor2 j i = a⁻¹ * g.fcor2 j i := congrFun (congrFun (fcor2_rescaled a c) j) i
      have hlin : ∀ f u v x y : ℝ, -(a⁻¹ * f) / (e * o.scaleHeight) * (c / a * u * (c⁻¹ * e * x) + c / a * v * (c⁻¹ * e * y)) =
          (a ^ 2)⁻¹ * (-f / o.scaleHeight * (u * x + v * y)) := by
        intro f u v x y
        by_cases hh : o.scaleHeight = 0
        · simp [hh]
        · field_simp
      unfold Orog.combine
      rw [h0, h3]
      cases o.fcorRef with
      | none =>
        simp only [Option.map, hf]
        exact hlin (g.fcor2 j i) _ _ _ _
      | some x => exact hlin x _ _ _ _
  · unfold Term.toRhs
    rw [h s hs]
    cases t.call s with
    | error e => rfl
    | ok x => cases x <;> rfl

/-- C99: what has no unit: the mountains are the same functions on the sphere in all units, and the height may be given in other
units. -/
theorem C99_mountains (g : Grid ℝ) (a c e height clon clat slon slat : ℝ) (k : ℤ) :
    (OrogKind.gaussian (e * height) clon clat slon slat).orography (g.rescaled a c) =
      ((OrogKind.gaussian height clon clat slon slat).orography g).map (e • ·) ∧
    (OrogKind.sine (e * height) clat slat k).orography (g.rescaled a c) = ((OrogKind.sine height clat slat k).orography g).map (e • ·) := by
  constructor
  · refine congrArg Except.ok ?_
    funext j i
    change OrogKind.gaussianHeight (e * height) clon clat slon slat (g.lon2 j i) (g.lat2 j i) =
      e * OrogKind.gaussianHeight height clon clat slon slat (g.lon2 j i) (g.lat2 j i)
    unfold OrogKind.gaussianHeight
    ring
  · refine congrArg Except.ok ?_
    funext j i
    change OrogKind.sineHeight (e * height) clat slat k (g.lam i) (g.lat2 j i) =
      e * OrogKind.sineHeight height clat slat k (g.lam i) (g.lat2 j i)
    unfold OrogKind.sineHeight
    ring

/-- C99: the default of `min_u` is 0.001 in any units, so that it has to be converted by the user: with the unconverted value
the stationary wavenumber depends on the units. -/
theorem C99_min_u_refuted : ∃ (g : Grid ℝ) (u pv : ProfileOrField g) (c : ℝ), g.Valid ∧ 0 < c ∧
    (g.rescaled 1 c).stationaryWavenumber (u.rescaled 1 c (c / 1)) (some (pv.rescaled 1 c 1⁻¹)) (.int 2) (1 / 1000) "squared"
      ≠ g.stationaryWavenumber u (some pv) (.int 2) (1 / 1000) "squared" := by
  refine ⟨grid30, .profile fun _ => 1 / 2000, .profile fun j => (j.val : ℝ), 10, grid30_valid, by norm_num, fun h => ?_⟩
  have h0 := C99_wavenumber (a := 1) (c := 10) grid30 one_pos (by norm_num) (.profile fun _ => 1 / 2000)
    (some (.profile fun j => (j.val : ℝ))) (.int 2) (1 / 10000) "squared"
  rw [show (10 : ℝ) / 1 * (1 / 10000) = 1 / 1000 by norm_num] at h0
  have h1 := h0.symm.trans h
  have hn : 3 ≤ grid30.nlat := grid30_valid.nlat_ge
  have h7 := grid30_nlat
  obtain ⟨d, hd, hd1⟩ : ∃ d, grid30.derivativeProfile (fun j => (j.val : ℝ)) (.int 2) = .ok d ∧ d ⟨1, by omega⟩ ≠ 0 := by
    refine ⟨fun j => Grid.stencil2 false grid30.nlat (Grid.col fun j : Fin grid30.nlat => (j.val : ℝ)) j / 2 / grid30.dphi, ?_, ?_⟩
    · unfold Grid.derivativeProfile Grid.derivativeMeridional Grid.derivative2
      rw [if_neg (by simp [Arr.ndim, Arr.shape]), if_pos rfl, if_neg (by omega)]
      simp
    · have hp : grid30.dphi ≠ 0 := by
        unfold Grid.dphi Grid.dlat grid30 deg2rad
        have := Real.pi_pos
        simp [this.ne']
      have : Grid.stencil2 false grid30.nlat (Grid.col fun j : Fin grid30.nlat => (j.val : ℝ)) 1 = 2 := by
        rw [h7]
        unfold Grid.stencil2
        norm_num [Grid.col, h7]
      change Grid.stencil2 false grid30.nlat _ 1 / 2 / grid30.dphi ≠ 0
      rw [this]
      simp [hp]
  unfold Grid.stationaryWavenumber at h1
  simp only [Grid.ksPv, ProfileOrField.zonalMean, hd, if_true] at h1
  injection h1 with h1
  injection h1 with h1
  have h2 := congrFun h1 ⟨1, by omega⟩
  have hc : Real.cos (grid30.phi 1) ≠ 0 := by
    have e1 := Grid.phi_strictAnti grid30_valid (show 0 < 1 by norm_num)
    have e2 := Grid.phi_strictAnti grid30_valid (show 1 < grid30.nlat - 1 by omega)
    rw [Grid.phi_zero grid30_valid] at e1
    rw [Grid.phi_last grid30_valid] at e2
    exact (Real.cos_pos_of_mem_Ioo ⟨e2, e1⟩).ne'
  have hb : Real.cos (grid30.phi 1) ^ 2 * grid30.rsphere * d ⟨1, by omega⟩ ≠ 0 := by
    have : grid30.rsphere ≠ 0 := by unfold grid30; norm_num
    positivity
  unfold Grid.ksSquared at h2
  rw [if_neg (by norm_num [abs_of_pos]), if_pos (by norm_num [abs_of_pos]), if_pos hb] at h2
  simp only [FloatX.div, FloatX.mul, FloatX.signInf] at h2
  norm_num at h2
  split_ifs at h2

/-! Non-vacuity: a forced run in metres and seconds and the same in kilometres and days. -/

example : ∃ (M : BModel grid30) (M' : BModel (grid30.rescaled (1 / 86400) (1 / 1000))), M.Rescales (1 / 86400) (1 / 1000) M' ∧
    M.rhs ≠ none ∧ M.diffusionBg ≠ none ∧ Spharm.Lawful wave30 ∧
    ∃ sf saved, M.Returns wave30 (Init.motionless wave30 (.num 0)) (.num 600) (.num 3600) 1200 sf saved := by
  have hf := C99_forcing (a := 1 / 86400) (c := 1 / 1000) wave30_lawful (by norm_num) (by norm_num)
  have hm := (C99_mountains grid30 (1 / 86400) (1 / 1000) (1 / 1000) 1000 0 0 5 5 2).2
  have h1 := hf.2.2.2.2.1 ⟨.sine 1000 0 5 2, 10000, .sbr 10, none⟩
    ⟨.sine (1 / 1000 * 1000) 0 5 2, 1 / 1000 * 10000, .sbr (1 / 1000 / (1 / 86400) * 10), none⟩ ⟨1 / 1000, by norm_num, rfl, hm⟩ rfl rfl
  have h2 := hf.1 _ _ _ _ _ (hf.2.2.2.1 (1 / 1000) (.num 0)) h1
  have h3 := hf.2.2.2.2.2 _ _ h2
  refine ⟨⟨some (Term.toRhs _), 2, 1, some fun _ _ => 1⟩, ⟨some (Term.toRhs _), 2, (1 / 1000) ^ (2 * 2) / (1 / 86400) * 1,
    some ((1 / 86400 : ℝ)⁻¹ • fun _ _ => 1)⟩,
    { order := rfl, coeff := rfl, bg := rfl, none := (fun h => by cases h), rhs := (fun f hh => by cases hh; exact ⟨_, rfl, h3⟩) },
    by simp, by simp, wave30_lawful, ?_⟩
  refine C42_returns ?_ (Init.motionless wave30 (.num 0)) (.num 600) (.num 3600) 1200 trivial trivial (by norm_num [toSeconds])
      (.inr ⟨0, rfl⟩) (by norm_num [Init.motionless, St.ofPv, PyTime.sec])
  intro f hh s
  cases hh
  exact ⟨_, rfl⟩

end Barotropic
