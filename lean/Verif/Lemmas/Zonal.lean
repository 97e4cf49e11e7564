import Verif.Lemmas.Run
import Verif.Lemmas.Spectral
import Verif.Model.Init

/-! # Zonally symmetric states -/

namespace Barotropic

theorem rotate_of_symm {nlat nlon : ℕ} {f : GridField nlat nlon} (h : ZonallySymmetric f) (d : ℕ) : rotate d f = f := by
  funext j i; exact h j _ _

theorem symm_of_rotate {nlat nlon : ℕ} {f : GridField nlat nlon} (h : ∀ d, rotate d f = f) : ZonallySymmetric f := by
  have key : ∀ j (i i' : Fin nlon), i.val ≤ i'.val → f j i = f j i' := by
    intro j i i' hle
    have := congrFun (congrFun (h (i'.val - i.val)) j) i
    rw [← this]
    unfold rotate
    congr 1
    apply Fin.ext
    show (i.val + (i'.val - i.val)) % nlon = i'.val
    rw [Nat.add_sub_cancel' hle, Nat.mod_eq_of_lt i'.isLt]
  intro j i i'
  rcases Nat.le_total i.val i'.val with h1 | h1
  · exact key j i i' h1
  · exact (key j i' i h1).symm

/-- Invariance of a spectrum under all rotations. -/
def PhaseInv {T : ℕ} (nlon : ℕ) (s : SpecField T) : Prop := ∀ d, phaseShift nlon d s = s

namespace PhaseInv
variable {T n : ℕ} {s s' : SpecField T}

theorem add (h : PhaseInv n s) (h' : PhaseInv n s') : PhaseInv n (s + s') := by
  intro d; funext k
  have h1 := congrFun (h d) k
  have h2 := congrFun (h' d) k
  simp only [phaseShift, Pi.add_apply] at h1 h2 ⊢
  rw [mul_add, h1, h2]

theorem smul (h : PhaseInv n s) (c : ℂ) : PhaseInv n (c • s) := by
  intro d; funext k
  have h1 := congrFun (h d) k
  simp only [phaseShift, Pi.smul_apply, smul_eq_mul] at h1 ⊢
  rw [mul_left_comm, h1]

theorem neg (h : PhaseInv n s) : PhaseInv n (-s) := by
  intro d; funext k
  have h1 := congrFun (h d) k
  simp only [phaseShift, Pi.neg_apply] at h1 ⊢
  rw [mul_neg, h1]

theorem sub (h : PhaseInv n s) (h' : PhaseInv n s') : PhaseInv n (s - s') := by
  rw [sub_eq_add_neg]; exact h.add h'.neg

theorem degMul (h : PhaseInv n s) (c : ℕ → ℝ) : PhaseInv n (degMul c s) := by
  intro d; rw [← Grid.degMul_phase, h d]

/-- A spectrum with zonal wavenumbers below nlon that is invariant under rotations contains only m = 0. -/
theorem modes (h : PhaseInv n s) (hT : T < n) {k : Fin (nspec T)} (hm : specM k ≠ 0) : s k = 0 := by
  have h1 := congrFun (h 1) k
  simp only [phaseShift] at h1
  by_contra hne
  have h2 : Complex.exp (2 * Real.pi * Complex.I * (specM k * (1 : ℕ) / n)) = 1 := by
    have : (Complex.exp (2 * Real.pi * Complex.I * (specM k * (1 : ℕ) / n)) - 1) * s k = 0 := by
      rw [sub_mul, h1]; ring
    rcases mul_eq_zero.mp this with h | h
    · exact sub_eq_zero.mp h
    · exact absurd h hne
  rw [Complex.exp_eq_one_iff] at h2
  obtain ⟨z, hz⟩ := h2
  have hn : (n : ℂ) ≠ 0 := by exact_mod_cast (by omega : n ≠ 0)
  have hpi : (2 * Real.pi * Complex.I : ℂ) ≠ 0 := Complex.two_pi_I_ne_zero
  have h3 : (specM k : ℂ) / n = z := by
    have h3 : (2 * Real.pi * Complex.I : ℂ) * (specM k / n) = (2 * Real.pi * Complex.I) * z := by
      rw [mul_comm _ (z : ℂ), ← hz]; push_cast; ring
    exact mul_left_cancel₀ hpi h3
  have h4 : (specM k : ℂ) = z * n := by rw [← h3]; field_simp
  have h5 : (specM k : ℤ) = z * n := by exact_mod_cast h4
  have hlt : specM k < n := lt_of_le_of_lt ((specM_le_specN k).trans (specN_le k)) hT
  have hz0 : 0 < z * n := by rw [← h5]; exact_mod_cast Nat.pos_of_ne_zero hm
  have hnpos : (0 : ℤ) < n := by omega
  have hzp : 0 < z := pos_of_mul_pos_left hz0 hnpos.le
  have : (n : ℤ) ≤ z * n := by nlinarith
  omega

end PhaseInv

namespace Spharm.Rotations
variable {nlat nlon T : ℕ} {S : Spharm nlat nlon T}

theorem analysis (h : S.Rotations) {f : GridField nlat nlon} (hf : ZonallySymmetric f) : PhaseInv nlon (S.grdtospec f) := by
  intro d; rw [← h.grdtospec_rotate, rotate_of_symm hf]

theorem synthesis (h : S.Rotations) {s : SpecField T} (hs : PhaseInv nlon s) : ZonallySymmetric (S.spectogrd s) :=
  symm_of_rotate fun d => by rw [← h.spectogrd_phase, hs d]

theorem uv (h : S.Rotations) {a b : SpecField T} (ha : PhaseInv nlon a) (hb : PhaseInv nlon b) :
    ZonallySymmetric (S.getuv a b).1 ∧ ZonallySymmetric (S.getuv a b).2 := by
  constructor <;> refine symm_of_rotate fun d => ?_
  · have := h.getuv_phase d a b
    rw [ha d, hb d] at this
    exact (congrArg Prod.fst this).symm
  · have := h.getuv_phase d a b
    rw [ha d, hb d] at this
    exact (congrArg Prod.snd this).symm

theorem vrtdiv (h : S.Rotations) {u v : GridField nlat nlon} (hu : ZonallySymmetric u) (hv : ZonallySymmetric v) :
    PhaseInv nlon (S.getvrtdivspec u v).1 ∧ PhaseInv nlon (S.getvrtdivspec u v).2 := by
  constructor <;> intro d
  · have := h.getvrtdiv_rotate d u v
    rw [rotate_of_symm hu, rotate_of_symm hv] at this
    exact (congrArg Prod.fst this).symm
  · have := h.getvrtdiv_rotate d u v
    rw [rotate_of_symm hu, rotate_of_symm hv] at this
    exact (congrArg Prod.snd this).symm

end Spharm.Rotations

theorem PhaseInv.zero {T n : ℕ} : PhaseInv n (0 : SpecField T) := fun d => by funext k; simp [phaseShift]

theorem ZonallySymmetric.mul {a b : ℕ} {f f' : GridField a b} (h : ZonallySymmetric f) (h' : ZonallySymmetric f') :
    ZonallySymmetric (f * f') := by
  intro j i i'; simp only [Pi.mul_apply]; rw [h j i i', h' j i i']

theorem ZonallySymmetric.add {a b : ℕ} {f f' : GridField a b} (h : ZonallySymmetric f) (h' : ZonallySymmetric f') :
    ZonallySymmetric (f + f') := by
  intro j i i'; simp only [Pi.add_apply]; rw [h j i i', h' j i i']

namespace Grid
variable {g : Grid ℝ} {S : g.Sph}

theorem ntrunc_lt_nlon (hg : g.Valid) : g.ntrunc < g.nlon := by
  have h1 := hg.ntrunc_le
  have h2 := hg.nlat_ge
  have hr := hg.res_pos
  have : 2 * ⌊180 / g.resolution⌋₊ ≤ ⌊360 / g.resolution⌋₊ := by
    apply Nat.le_floor
    push_cast
    have := Nat.floor_le (show 0 ≤ 180 / g.resolution by positivity)
    calc (2 : ℝ) * ⌊180 / g.resolution⌋₊ ≤ 2 * (180 / g.resolution) := by linarith
      _ = 360 / g.resolution := by ring
  change g.ntrunc ≤ ⌊180 / g.resolution⌋₊ + 1 - 1 at h1
  change 3 ≤ ⌊180 / g.resolution⌋₊ + 1 at h2
  change g.ntrunc < ⌊360 / g.resolution⌋₊
  omega

theorem fcor2_symm : ZonallySymmetric g.fcor2 := fun _ _ _ => rfl

theorem fcor2Spectral_phaseInv (h : S.Rotations) : PhaseInv g.nlon (fcor2Spectral S) := h.analysis fcor2_symm

end Grid

namespace St
variable {τ : Type} {g : Grid ℝ} {S : g.Sph}

theorem symm_pv (h : S.Rotations) {s : St τ g} (hs : PhaseInv g.nlon s.q) : ZonallySymmetric (s.pv S) := h.synthesis hs

theorem symm_uv (h : S.Rotations) {s : St τ g} (hs : PhaseInv g.nlon s.q) :
    ZonallySymmetric (s.u S) ∧ ZonallySymmetric (s.v S) :=
  h.uv (hs.sub (Grid.fcor2Spectral_phaseInv h)) PhaseInv.zero

theorem symm_flux (h : S.Rotations) {s : St τ g} (hs : PhaseInv g.nlon s.q) : PhaseInv g.nlon (s.pvFluxSpectral S) :=
  (h.vrtdiv ((symm_pv h hs).mul (symm_uv h hs).1) ((symm_pv h hs).mul (symm_uv h hs).2)).2

theorem zonal_v (hg : g.Valid) (h : S.Rotations) {s : St τ g} (hs : PhaseInv g.nlon s.q) : s.v S = 0 :=
  h.zonal_v _ fun _ hm => (hs.sub (Grid.fcor2Spectral_phaseInv h)).modes (Grid.ntrunc_lt_nlon hg) hm

theorem zonal_flux (hg : g.Valid) (h : S.Rotations) {s : St τ g} (hs : PhaseInv g.nlon s.q) : s.pvFluxSpectral S = 0 := by
  unfold pvFluxSpectral
  rw [zonal_v hg h hs, mul_zero]
  exact h.zonal_div _ ((symm_pv h hs).mul (symm_uv h hs).1)

end St

namespace BModel
variable {g : Grid ℝ} {S : g.Sph} {M : BModel g}

theorem applyDiffusion_phaseInv (h : S.Rotations) (hbg : ∀ b, M.diffusionBg = some b → ZonallySymmetric b) {q : g.Spc}
    (hq : PhaseInv g.nlon q) (dt : ℝ) : PhaseInv g.nlon (M.applyDiffusion S dt q) := by
  unfold applyDiffusion
  cases hb : M.diffusionBg with
  | none => simp only [Grid.diffusion_eq_degMul]; exact hq.degMul _
  | some b =>
    simp only [Grid.diffusion_eq_degMul]
    have := h.analysis (hbg b hb)
    exact ((hq.sub this).degMul _).add this

/-- The constant mode is not diffused. -/
theorem applyDiffusion_mean (ho : 1 ≤ M.diffusionOrder) (dt : ℝ) (q : g.Spc) {k : Fin (nspec g.ntrunc)}
    (hk : specN k = 0) : M.applyDiffusion S dt q k = q k := by
  have h0 : g.eig k ^ M.diffusionOrder = 0 := by rw [Grid.eig_zero hk]; exact zero_pow (by omega)
  unfold applyDiffusion
  cases M.diffusionBg with
  | none => simp [Grid.solveDiffusionSpectral, h0]
  | some b => simp [Grid.solveDiffusionSpectral, h0]

end BModel
end Barotropic
