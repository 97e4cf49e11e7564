import Verif.Spec.Quad
import Verif.Lemmas.PLInterp

/-!
# C15 – C18: quadrature
-/

namespace Barotropic
open Real Set MeasureTheory Grid

/-- `quad_meridional(y, z, "sptrapz")` is on every meridian `r` times the integral of the interpolated `y` times
`cos φ` over the latitudes where the interpolated `z` is non-negative. -/
theorem C15_exact_integral (g : Grid ℝ) (hg : g.Valid) (w : ℕ) (hw : w ≤ g.nlon) (y z : Fin g.nlat → Fin w → ℝ)
    (Y Z : Fin w → ℝ → ℝ) (hY : ∀ i, IsPLInterp g.phi (fun j => y j i) (Y i))
    (hZ : ∀ i, IsPLInterp g.phi (fun j => z j i) (Z i)) :
    ∃ out : Fin w → ℝ, g.quadMeridional (.d2 g.nlat w y) (some z) "sptrapz" = .ok (.d1 w out) ∧
      ∀ i, IntervalIntegrable (fun φ => if 0 ≤ Z i φ then Y i φ * cos φ else 0) volume (-(π / 2)) (π / 2) ∧
        out i = g.rsphere * ∫ φ in -(π / 2)..(π / 2), if 0 ≤ Z i φ then Y i φ * cos φ else 0 := by
  refine ⟨_, quadMeridional_ok (.inr ⟨rfl, hw⟩) y (some z), ?_⟩
  intro i
  have := col_integral g.rsphere (col fun j => y j i) (col fun j => z j i) (phi_seg hg)
    (fun φ => if 0 ≤ Z i φ then Y i φ * cos φ else 0) ?_
  · rw [phi_last hg, phi_zero hg] at this
    refine ⟨this.1, ?_⟩
    rw [← this.2]
    rfl
  · intro j hj φ hφ
    have hj' : j + 1 < g.nlat := by omega
    have hφ := Ioo_subset_Icc_self hφ
    have e1 := interp_aff (hY i) hj' (phi_seg hg j hj) hφ
    have e2 := interp_aff (hZ i) hj' (phi_seg hg j hj) hφ
    unfold segFun
    rw [col_of_lt _ (show j < g.nlat by omega), col_of_lt _ hj', col_of_lt _ (show j < g.nlat by omega), col_of_lt _ hj']
    simp only [e1, e2]

/-- Without `z` the integral extends from pole to pole. -/
theorem C15_exact_integral_all (g : Grid ℝ) (hg : g.Valid) (w : ℕ) (hw : w ≤ g.nlon) (y : Fin g.nlat → Fin w → ℝ)
    (Y : Fin w → ℝ → ℝ) (hY : ∀ i, IsPLInterp g.phi (fun j => y j i) (Y i)) :
    ∃ out : Fin w → ℝ, g.quadMeridional (.d2 g.nlat w y) none "sptrapz" = .ok (.d1 w out) ∧
      ∀ i, out i = g.rsphere * ∫ φ in -(π / 2)..(π / 2), Y i φ * cos φ := by
  obtain ⟨out, h1, h2⟩ := C15_exact_integral g hg w hw y (fun _ _ => 1) Y (fun _ _ => 1) hY
    (fun i j _ t _ _ => by ring)
  refine ⟨out, ?_, fun i => ?_⟩
  · have e1 := quadMeridional_ok (.inr ⟨rfl, hw⟩) y (some fun _ _ => 1)
    have e2 := quadMeridional_ok (.inr ⟨rfl, hw⟩) y none
    exact e2.trans (e1.symm.trans h1)
  · rw [(h2 i).2]
    simp only [zero_le_one, if_true]

/-- Non-vacuity of C15: interpolants of arbitrary fields exist on every valid grid (`interp_exists`). -/
example (g : Grid ℝ) (hg : g.Valid) (w : ℕ) (y : Fin g.nlat → Fin w → ℝ) :
    ∃ Y : Fin w → ℝ → ℝ, ∀ i, IsPLInterp g.phi (fun j => y j i) (Y i) :=
  ⟨fun i => (interp_exists hg fun j => y j i).choose, fun i => (interp_exists hg fun j => y j i).choose_spec⟩

/-! ## C16 -/

/-- Full property under the proviso that the declared longitude spacing is the true one; the general value. -/
theorem C16_sphere_area_partial (g : Grid ℝ) (hg : g.Valid) (m : String) (hm : KnownMethod m) :
    g.quad (.d2 g.nlat g.nlon fun _ _ => 1) none m
      = .ok (4 * π * g.rsphere ^ 2 * (g.resolution * g.nlon / 360)) ∧
    (g.resolution * g.nlon = 360 → g.quad (.d2 g.nlat g.nlon fun _ _ => 1) none m = .ok (4 * π * g.rsphere ^ 2)) := by
  have hm' : g.OkMethod m g.nlon := hm.imp_right fun h => ⟨h, le_rfl⟩
  have key : g.quad (.d2 g.nlat g.nlon fun _ _ => 1) none m
      = .ok (4 * π * g.rsphere ^ 2 * (g.resolution * g.nlon / 360)) := by
    refine (quad_ok hm' (fun _ _ => 1) none).trans ?_
    congr 1
    have : ∀ i : Fin g.nlon, g.colQuad m (fun _ => 1) (fun j => (none : Option (Fin g.nlat → Fin g.nlon → ℝ)).getD (fun _ _ => 1) j i)
        = 2 * g.rsphere := fun i => (colQuad_one hg m _).2.2.2.2.1 fun j => zero_le_one
    rw [Finset.sum_congr rfl fun i _ => this i]
    simp only [Finset.sum_const, Finset.card_univ, Fintype.card_fin, nsmul_eq_mul]
    unfold dlam deg2rad dlon
    ring
  refine ⟨key, fun h => ?_⟩
  rw [key, h]
  simp

/-- A 7° grid has 51 longitudes covering only 357°: the surface integral of one is not the area of the sphere. -/
theorem C16_sphere_area_refuted :
    ∃ g : Grid ℝ, Grid.make 7 1 1 none = .ok g ∧
      ∀ m, KnownMethod m → g.quad (.d2 g.nlat g.nlon fun _ _ => 1) none m ≠ .ok (4 * π * g.rsphere ^ 2) := by
  have f1 : ⌊360 / (7 : ℝ)⌋₊ = 51 := by rw [Nat.floor_eq_iff (by norm_num)]; constructor <;> norm_num
  have f2 : ⌊180 / (7 : ℝ)⌋₊ = 25 := by rw [Nat.floor_eq_iff (by norm_num)]; constructor <;> norm_num
  have h1 : nlonOf (7 : ℝ) = 51 := by unfold nlonOf; simp only [f1]
  have h2 : nlatOf (7 : ℝ) = 26 := by unfold nlatOf; simp only [f2]
  have hv : (⟨7, 1, 1, 25⟩ : Grid ℝ).Valid := ⟨by norm_num, by norm_num, by unfold nlon; rw [h1]; norm_num,
    by unfold nlat; rw [h2]; norm_num, by unfold nlat; rw [h2]⟩
  refine ⟨⟨7, 1, 1, 25⟩, ?_, ?_⟩
  · have := make_of_valid hv
    unfold make at this ⊢
    rw [h1, h2] at this ⊢
    simpa using this
  · intro m hm h
    rw [(C16_sphere_area_partial _ hv m hm).1] at h
    injection h with h
    have : (Grid.mk (7 : ℝ) 1 1 25).nlon = 51 := h1
    rw [this] at h
    have := pi_pos
    norm_num at h

/-- Non-vacuity: on a 30° grid the proviso of the partial theorem holds. -/
example : ∃ g : Grid ℝ, g.Valid ∧ g.resolution * g.nlon = 360 := by
  have h1 : (⟨30, 1, 1, 2⟩ : Grid ℝ).nlat = 7 := by
    have : ⌊180 / (30 : ℝ)⌋₊ = 6 := by rw [Nat.floor_eq_iff (by norm_num)]; constructor <;> norm_num
    unfold Grid.nlat nlatOf; simp only [this]
  have h2 : (⟨30, 1, 1, 2⟩ : Grid ℝ).nlon = 12 := by
    have : ⌊360 / (30 : ℝ)⌋₊ = 12 := by rw [Nat.floor_eq_iff (by norm_num)]; constructor <;> norm_num
    unfold Grid.nlon nlonOf; simp only [this]
  exact ⟨⟨30, 1, 1, 2⟩, ⟨by norm_num, by norm_num, by rw [h2]; norm_num, by rw [h1]; norm_num, by rw [h1]; norm_num⟩,
    by rw [h2]; norm_num⟩

/-! ## C17 -/

/-- Both quadratures (for fields not wider than the grid) are a functional `Q y z` that is linear in `y`, non-negative
for non-negative `y`, then monotone in the domain field, equal to the full integral whenever the domain field is
non-negative everywhere, and additive over a domain and its complement. -/
theorem C17_quadrature (g : Grid ℝ) (hg : g.Valid) (m : String) (hm : KnownMethod m) (w : ℕ) (hw : w ≤ g.nlon) :
    ∃ (Q : (Fin g.nlat → Fin w → ℝ) → (Fin g.nlat → Fin w → ℝ) → ℝ) (Qall : (Fin g.nlat → Fin w → ℝ) → ℝ),
      (∀ y z, g.quad (.d2 g.nlat w y) (some z) m = .ok (Q y z)) ∧
      (∀ y, g.quad (.d2 g.nlat w y) none m = .ok (Qall y)) ∧
      (∀ a b y u z, Q (fun j i => a * y j i + b * u j i) z = a * Q y z + b * Q u z) ∧
      (∀ y z, (∀ j i, 0 ≤ y j i) → 0 ≤ Q y z) ∧
      (∀ y z v, (∀ j i, 0 ≤ y j i) → (∀ j i, z j i ≤ v j i) → Q y z ≤ Q y v) ∧
      (∀ y z, (∀ j i, 0 ≤ z j i) → Q y z = Qall y) ∧
      (∀ y z, (∀ j i, z j i ≠ 0) → Q y z + Q y (fun j i => -z j i) = Qall y) := by
  have hm' : g.OkMethod m w := hm.imp_right fun h => ⟨h, hw⟩
  have hr := hg.rsphere_pos
  have hd := dlam_pos hg
  have hs : 0 ≤ g.rsphere * g.dlam := by positivity
  refine ⟨fun y z => g.rsphere * g.dlam * ∑ i, g.colQuad m (fun j => y j i) (fun j => z j i),
    fun y => g.rsphere * g.dlam * ∑ i, g.colQuad m (fun j => y j i) (fun _ => 1), ?_, ?_, ?_, ?_, ?_, ?_, ?_⟩
  · intro y z; exact quad_ok hm' y (some z)
  · intro y; exact quad_ok hm' y none
  · intro a b y u z
    dsimp only
    have : ∀ i, g.colQuad m (fun j => a * y j i + b * u j i) (fun j => z j i)
        = a * g.colQuad m (fun j => y j i) (fun j => z j i) + b * g.colQuad m (fun j => u j i) (fun j => z j i) :=
      fun i => colQuad_linear m a b _ _ _
    rw [Finset.sum_congr rfl fun i _ => this i, Finset.sum_add_distrib, ← Finset.mul_sum, ← Finset.mul_sum]
    ring
  · intro y z hy
    exact mul_nonneg hs (Finset.sum_nonneg fun i _ => colQuad_nonneg hg m fun j => hy j i)
  · intro y z v hy hz
    exact mul_le_mul_of_nonneg_left (Finset.sum_le_sum fun i _ => colQuad_mono hg m (fun j => hy j i) fun j => hz j i) hs
  · intro y z hz
    dsimp only
    rw [Finset.sum_congr rfl fun i _ => colQuad_full hg m (fun j => y j i) (fun j => hz j i)]
  · intro y z hz
    dsimp only
    rw [← mul_add, ← Finset.sum_add_distrib,
      Finset.sum_congr rfl fun i _ => colQuad_complement hg m (fun j => y j i) (fun j => hz j i)]

/-- Non-vacuity of C17: a 30° grid and a field as wide as the grid. -/
example : ∃ g : Grid ℝ, g.Valid ∧ KnownMethod "sptrapz" ∧ g.nlon ≤ g.nlon := by
  have h1 : (⟨30, 1, 1, 2⟩ : Grid ℝ).nlat = 7 := by
    have : ⌊180 / (30 : ℝ)⌋₊ = 6 := by rw [Nat.floor_eq_iff (by norm_num)]; constructor <;> norm_num
    unfold Grid.nlat nlatOf; simp only [this]
  have h2 : (⟨30, 1, 1, 2⟩ : Grid ℝ).nlon = 12 := by
    have : ⌊360 / (30 : ℝ)⌋₊ = 12 := by rw [Nat.floor_eq_iff (by norm_num)]; constructor <;> norm_num
    unfold Grid.nlon nlonOf; simp only [this]
  exact ⟨⟨30, 1, 1, 2⟩, ⟨by norm_num, by norm_num, by rw [h2]; norm_num, by rw [h1]; norm_num, by rw [h1]; norm_num⟩,
    .inr rfl, le_rfl⟩

/-! ## C18 -/

/-- Bad shapes → AssertionError (before the method is looked at), unknown methods → ValueError. -/
theorem C18_errors (g : Grid ℝ) (y : Arr ℝ) (z : Option y.Like) (m : String) :
    ((∀ w, y.shape ≠ [g.nlat, w]) → g.quadMeridional y z m = .error .assertionError) ∧
    (y.WF → (∃ w, y.shape = [g.nlat, w]) → ¬ KnownMethod m → g.quadMeridional y z m = .error .valueError) := by
  constructor
  · intro h
    cases y with
    | d2 hh w v =>
      unfold quadMeridional
      dsimp only
      rw [dif_neg]
      rintro rfl
      exact h w rfl
    | _ => rfl
  · rintro hwf ⟨w, h⟩ hm
    cases y with
    | d2 hh w' v =>
      have e : hh = g.nlat := by simpa [Arr.shape] using (List.cons.inj h).1
      unfold quadMeridional
      dsimp only
      rw [dif_pos e]
      have : ∀ y z, g.quadMeridionalCore (w := w') y z m = .error .valueError := by
        intro y z
        unfold quadMeridionalCore
        dsimp only
        rw [if_neg fun e => hm (.inl e), if_neg fun e => hm (.inr e)]
      rw [this]
    | d0 x => simp [Arr.shape] at h
    | d1 n v => simp [Arr.shape] at h
    | nd s =>
      simp only [Arr.shape] at h
      simp [Arr.WF, h] at hwf

/-- For a known method the result has one value per column and each depends on its column only. -/
theorem C18_columns (g : Grid ℝ) (m : String) (hm : KnownMethod m) :
    ∃ M : (Fin g.nlat → ℝ) → (Fin g.nlat → ℝ) → ℝ, ∀ (w : ℕ), w ≤ g.nlon → ∀ y z : Fin g.nlat → Fin w → ℝ,
      g.quadMeridional (.d2 g.nlat w y) (some z) m = .ok (.d1 w fun i => M (fun j => y j i) (fun j => z j i)) ∧
      g.quad (.d2 g.nlat w y) (some z) m
        = .ok (g.rsphere * g.dlam * ∑ i, M (fun j => y j i) (fun j => z j i)) :=
  ⟨g.colQuad m, fun _ hw y z => ⟨quadMeridional_ok (hm.imp_right fun h => ⟨h, hw⟩) y (some z),
    quad_ok (hm.imp_right fun h => ⟨h, hw⟩) y (some z)⟩⟩

/-- Non-vacuity of C18: a 1-dimensional array is a bad shape; "simpson" is not a known method. -/
example : (∀ w : ℕ, (Arr.d1 3 fun _ => (0 : ℝ)).shape ≠ [3, w]) ∧ ¬ KnownMethod "simpson" := by
  constructor
  · intro w; simp [Arr.shape]
  · rintro (h | h) <;> simp at h

end Barotropic
