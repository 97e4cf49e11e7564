import Verif.Lemmas.SpharmZonal

/-! # Lemmas on spectral operators -/

namespace Barotropic
namespace Grid
variable {g : Grid ℝ}

theorem eig_eq (k : Fin (nspec g.ntrunc)) :
    g.eig k = (specN k : ℝ) * (specN k + 1) / g.rsphere ^ 2 := by
  unfold eig; rw [div_div, pow_two]; ring

theorem eig_nonneg (k : Fin (nspec g.ntrunc)) : 0 ≤ g.eig k := by
  rw [eig_eq]; positivity

theorem eig_pos (hr : g.rsphere ≠ 0) {k : Fin (nspec g.ntrunc)} (h : specN k ≠ 0) : 0 < g.eig k := by
  rw [eig_eq]
  have : 0 < specN k := Nat.pos_of_ne_zero h
  positivity

theorem eig_zero {k : Fin (nspec g.ntrunc)} (h : specN k = 0) : g.eig k = 0 := by
  rw [eig_eq, h]; simp

theorem eig_mono {k l : Fin (nspec g.ntrunc)} (h : specN k ≤ specN l) : g.eig k ≤ g.eig l := by
  rw [eig_eq, eig_eq]
  have : (specN k : ℝ) ≤ specN l := by exact_mod_cast h
  gcongr

theorem laplace_eq_degMul (f : g.Spc) :
    laplaceSpectral f = degMul (fun n => -((n : ℝ) * (n + 1) / g.rsphere ^ 2)) f := by
  funext k; unfold laplaceSpectral degMul; rw [eig_eq]; push_cast; ring

theorem poisson_eq_degMul (f : g.Spc) (a : ℝ) :
    solvePoissonSpectral f a =
      degMul (fun n => if n = 0 then 0 else -1 / ((n : ℝ) * (n + 1) / g.rsphere ^ 2 + a)) f := by
  funext k; unfold solvePoissonSpectral degMul
  by_cases h : specN k = 0
  · rw [if_pos (specN_eq_zero.mp h)]; simp [h]
  · rw [if_neg (fun e => h (specN_eq_zero.mpr e)), eig_eq]; dsimp only; rw [if_neg h]; push_cast; ring

theorem diffusion_eq_degMul (f : g.Spc) (coeff dt : ℝ) (order : ℕ) :
    solveDiffusionSpectral f coeff dt order =
      degMul (fun n => 1 / (1 + dt * coeff * ((n : ℝ) * (n + 1) / g.rsphere ^ 2) ^ order)) f := by
  funext k; unfold solveDiffusionSpectral degMul
  rw [eig_eq]; push_cast; ring

theorem dropMean_eq_degMul {T : ℕ} (f : SpecField T) : dropMean f = degMul (fun n => if n = 0 then 0 else 1) f := by
  funext k; simp only [dropMean, degMul]; split_ifs <;> simp

theorem degMul_add {T : ℕ} (c : ℕ → ℝ) (f f' : SpecField T) : degMul c (f + f') = degMul c f + degMul c f' := by
  funext k; simp [degMul, mul_add]

theorem degMul_smul {T : ℕ} (c : ℕ → ℝ) (a : ℝ) (f : SpecField T) : degMul c (a • f) = a • degMul c f := by
  funext k; simp [degMul]; ring

theorem degMul_degMul {T : ℕ} (c c' : ℕ → ℝ) (f : SpecField T) :
    degMul c (degMul c' f) = degMul (fun n => c n * c' n) f := by
  funext k; simp [degMul]; ring

theorem degMul_phase {T : ℕ} (c : ℕ → ℝ) (n d : ℕ) (f : SpecField T) :
    degMul c (phaseShift n d f) = phaseShift n d (degMul c f) := by
  funext k; simp [degMul, phaseShift]; ring

theorem laplace_iterate (n : ℕ) (f : g.Spc) (k : Fin (nspec g.ntrunc)) :
    (laplaceSpectral^[n] f) k = (-1) ^ n * ((g.eig k ^ n : ℝ) : ℂ) * f k := by
  induction n with
  | zero => simp
  | succ n ih =>
    rw [Function.iterate_succ_apply', laplaceSpectral, ih]; push_cast; ring

end Grid

namespace Spharm
variable {nlat nlon T : ℕ} {S : Spharm nlat nlon T}

theorem IsLinear.grdtospec_zero (h : S.IsLinear) : S.grdtospec 0 = 0 := by
  have := h.grdtospec_smul 0 0; simpa using this
theorem IsLinear.spectogrd_zero (h : S.IsLinear) : S.spectogrd 0 = 0 := by
  have := h.spectogrd_smul 0 0; simpa using this
theorem IsLinear.getuv_zero (h : S.IsLinear) : S.getuv 0 0 = 0 := by
  have := h.getuv_smul 0 0 0; simpa using this
theorem IsLinear.getvrtdiv_zero (h : S.IsLinear) : S.getvrtdivspec 0 0 = 0 := by
  have := h.getvrtdiv_smul 0 0 0; simpa using this
theorem IsLinear.grdtospec_sub (h : S.IsLinear) (f f') : S.grdtospec (f - f') = S.grdtospec f - S.grdtospec f' := by
  have := h.grdtospec_add f ((-1 : ℝ) • f')
  rw [h.grdtospec_smul] at this
  simpa [sub_eq_add_neg] using this
theorem IsLinear.spectogrd_sub (h : S.IsLinear) (f f') : S.spectogrd (f - f') = S.spectogrd f - S.spectogrd f' := by
  have := h.spectogrd_add f ((-1 : ℝ) • f')
  rw [h.spectogrd_smul] at this
  simpa [sub_eq_add_neg] using this

theorem Adm.add (hl : S.IsLinear) {s s'} (h : S.Adm s) (h' : S.Adm s') : S.Adm (s + s') := by
  unfold Adm at *; rw [hl.spectogrd_add, hl.grdtospec_add, h, h']
theorem Adm.sub (hl : S.IsLinear) {s s'} (h : S.Adm s) (h' : S.Adm s') : S.Adm (s - s') := by
  unfold Adm at *; rw [hl.spectogrd_sub, hl.grdtospec_sub, h, h']
theorem Adm.smul (hl : S.IsLinear) {s} (c : ℝ) (h : S.Adm s) : S.Adm (c • s) := by
  unfold Adm at *; rw [hl.spectogrd_smul, hl.grdtospec_smul, h]

end Spharm
end Barotropic
