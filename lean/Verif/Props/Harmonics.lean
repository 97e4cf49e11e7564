import Verif.Lemmas.Sphere
import Verif.Lemmas.Spectral
import Verif.Model.State
import Verif.Props.Spectral
import Mathlib.LinearAlgebra.Dimension.Constructions
import Mathlib.LinearAlgebra.FiniteDimensional.Basic

/-!
# Spherical harmonics: C105, C106
-/

namespace Barotropic
open Complex

variable {g : Grid ℝ} {N : ℕ → ℕ → ℝ} {B : ℕ} {S : g.Sph}

/-- C105: on every grid there is a spherical harmonic transform that is exact up to degree `nlat - 2`. -/
theorem C105_exists (hg : g.Valid) (hB : B + 2 ≤ g.nlat) (hN : ∀ n m, N n m ≠ 0) : ∃ S : g.Sph, Spharm.Exact N B S ∧ S.Mirrors :=
  exists_exact hg hB hN

/-- C105: all laws that theorems assume of the transform hold for transforms that are exact up to the truncation. -/
theorem C105_lawful (hg : g.Valid) (hT : 1 ≤ g.ntrunc) (hB : g.ntrunc ≤ B) (h : Spharm.Exact N B S) : Spharm.Lawful S :=
  h.lawful hg hT hB

theorem modeSum_sum {T : ℕ} {ι : Type*} (P : ℕ → ℕ → ℝ → ℝ) (J : Finset ι) (s : ι → SpecField T) (x y : ℝ) :
    modeSum N P (∑ i ∈ J, s i) x y = ∑ i ∈ J, modeSum N P (s i) x y := by
  classical
  induction J using Finset.induction_on with
  | empty => simp [modeSum]
  | insert a J ha ih => rw [Finset.sum_insert ha, Finset.sum_insert ha, modeSum_add, ih]

/-- C105 is false for the default truncation `nlat - 1`: harmonics of order 1 cannot be told apart on the grid, whatever the method. -/
theorem C105_default_refuted (hg : g.Valid) (hT : g.ntrunc + 1 = g.nlat) (hB : g.ntrunc ≤ B) : ¬ ∃ S : g.Sph, Spharm.Exact N B S := by
  rintro ⟨S, h⟩
  have h3 := hg.nlat_ge
  have hk : ∀ i : Fin g.ntrunc, ∃ k : Fin (nspec g.ntrunc), specM k = 1 ∧ specN k = i.val + 1 := by
    intro i
    have hm : (1, i.val + 1) ∈ specIndex g.ntrunc := mem_specIndex.mpr ⟨by omega, by have := i.isLt; omega⟩
    obtain ⟨k, hk⟩ := List.mem_iff_get.mp hm
    exact ⟨k, congrArg Prod.fst hk, congrArg Prod.snd hk⟩
  choose κ hκ1 hκ2 using hk
  have hinj : Function.Injective κ := by
    intro a b e
    have := congrArg specN e
    rw [hκ2, hκ2] at this
    exact Fin.ext (by omega)
  -- a combination that vanishes at all latitudes
  let L : (Fin g.ntrunc → ℝ) →ₗ[ℝ] (Fin (g.nlat - 2) → ℝ) :=
    { toFun := fun c j => ∑ i, c i * legendre (i.val + 1) 1 (g.phi (j.val + 1))
      map_add' := fun c c' => by
        funext j
        simp only [Pi.add_apply, add_mul, Finset.sum_add_distrib]
      map_smul' := fun a c => by
        funext j
        simp only [Pi.smul_apply, smul_eq_mul, RingHom.id_apply, Finset.mul_sum]
        exact Finset.sum_congr rfl fun i _ => by ring }
  obtain ⟨c, hc, hc0⟩ : ∃ c, L c = 0 ∧ c ≠ 0 := by
    have := LinearMap.ker_ne_bot_of_finrank_lt (f := L) (by simp; omega)
    obtain ⟨c, hc, h0⟩ := (Submodule.ne_bot_iff _).mp this
    exact ⟨c, LinearMap.mem_ker.mp hc, h0⟩
  let s : g.Spc := ∑ i, (fun k => if k = κ i then ((c i / N (i.val + 1) 1 : ℝ) : ℂ) else 0)
  have hsk : ∀ i, s (κ i) = ((c i / N (i.val + 1) 1 : ℝ) : ℂ) := by
    intro i
    simp only [s, Finset.sum_apply]
    rw [Finset.sum_eq_single i]
    · simp
    · intro b _ hb
      rw [if_neg fun e => hb (hinj e).symm]
    · simp
  have hs0 : ∀ k, specM k = 0 → s k = 0 := by
    intro k hk
    simp only [s, Finset.sum_apply]
    refine Finset.sum_eq_zero fun i _ => if_neg ?_
    rintro rfl
    rw [hκ1] at hk; omega
  have hf : S.spectogrd s = 0 := by
    rw [h.synthesis]
    funext j i
    unfold Grid.sample harmonicSum
    rw [modeSum_sum]
    have e : ∀ a : Fin g.ntrunc, modeSum N legendre (fun k => if k = κ a then ((c a / N (a.val + 1) 1 : ℝ) : ℂ) else 0)
        (g.lam i) (g.phi j) = c a * legendre (a.val + 1) 1 (g.phi j) * Real.cos (g.lam i) := by
      intro a
      rw [modeSum_single N legendre (κ a) (fun l hl => if_neg hl), if_pos rfl, hκ1, hκ2, Complex.re_ofReal_mul]
      have := h.norm_ne (a.val + 1) 1
      rw [mul_comm I, Complex.exp_ofReal_mul_I_re]
      simp only [Nat.cast_one, one_mul]
      field_simp
    simp only [e]
    rw [← Finset.sum_mul]
    suffices h0 : ∑ a, c a * legendre (a.val + 1) 1 (g.phi j) = 0 by rw [h0]; simp
    by_cases hj : 0 < j.val ∧ j.val + 1 < g.nlat
    · have := congrFun hc ⟨j.val - 1, by omega⟩
      simp only [L, LinearMap.coe_mk, AddHom.coe_mk, Pi.zero_apply] at this
      rwa [show j.val - 1 + 1 = j.val by omega] at this
    · refine Finset.sum_eq_zero fun a _ => ?_
      have hcos : Real.cos (g.phi j) = 0 := by
        have hj' : j.val = 0 ∨ j.val = g.nlat - 1 := by have := j.isLt; omega
        rcases hj' with hj' | hj' <;> rw [hj']
        · rw [Grid.phi_zero hg]; exact Real.cos_pi_div_two
        · rw [Grid.phi_last hg, Real.cos_neg]; exact Real.cos_pi_div_two
      unfold legendre
      rw [hcos]; simp
  have hz : S.grdtospec 0 = 0 := by
    have := h.analysis_smul 0 0
    rwa [zero_smul, zero_smul] at this
  have hs := h.analysis s (fun k hk => by rw [hs0 k hk]; rfl) (.of_le hB s)
  rw [hf, hz] at hs
  refine hc0 (funext fun i => ?_)
  have := hsk i
  rw [← hs] at this
  have hn := h.norm_ne (i.val + 1) 1
  have : c i / N (i.val + 1) 1 = 0 := Complex.ofReal_eq_zero.mp this.symm
  rcases div_eq_zero_iff.mp this with h | h
  · exact h
  · exact absurd h hn

/-! ## C106 -/

theorem harmonicSum_smooth {T : ℕ} (s : SpecField T) : SphereSmooth (harmonicSum N s) := modeSum_smooth N legendre_contDiff s

theorem dlon_harmonicSum {T : ℕ} (s : SpecField T) (x y : ℝ) : dlon (harmonicSum N s) x y = lamDeriv N s x y * Real.cos y := by
  unfold harmonicSum lamDeriv
  rw [dlon_modeSum, ← modeSum_mulP]
  exact modeSum_congrP N (fun n m => (legendreOverCos_mul_cos n m y).symm) _ _

theorem dlat_harmonicSum {T : ℕ} (s : SpecField T) (x y : ℝ) : dlat (harmonicSum N s) x y = phiDeriv N s x y :=
  dlat_modeSum N (fun n m => ((legendre_contDiff n m).differentiable (by simp) y).hasDerivAt) s x

/-- Curl and divergence of the wind with given streamfunction and velocity potential -/
theorem sphere_wind {T : ℕ} (r : ℝ) (a b : SpecField T) {y : ℝ} (hy : Real.cos y ≠ 0) (x : ℝ) :
    sphereCurl r (fun x y => (-phiDeriv N a x y + lamDeriv N b x y) / r) (fun x y => (lamDeriv N a x y + phiDeriv N b x y) / r) x y =
      -harmonicSum N (degMul (fun n => n * (n + 1) / r ^ 2) a) x y ∧
    sphereDiv r (fun x y => (-phiDeriv N a x y + lamDeriv N b x y) / r) (fun x y => (lamDeriv N a x y + phiDeriv N b x y) / r) x y =
      -harmonicSum N (degMul (fun n => n * (n + 1) / r ^ 2) b) x y := by
  -- derivatives of the four parts
  have lonW : ∀ s : SpecField T, HasDerivAt (fun x => lamDeriv N s x y) (-modeSum N (fun n m y => m * legendreOverCos n m y) s x y) x := by
    intro s
    have := hasDerivAt_modeSum_lon N legendreOverCos (timesI s) x y
    rwa [modeSum_timesI_timesI] at this
  have lonP : ∀ s : SpecField T, HasDerivAt (fun x => phiDeriv N s x y)
      (modeSum N (fun n m y => m * deriv (legendre n m) y) (timesI s) x y) x := fun s => hasDerivAt_modeSum_lon N _ s x y
  have latP : ∀ s : SpecField T, HasDerivAt (fun y => phiDeriv N s x y * Real.cos y)
      (modeSum N (fun n m y => m * legendreOverCos n m y - n * (n + 1) * Real.cos y * legendre n m y) s x y) y := by
    intro s
    have := hasDerivAt_modeSum_lat N (P := fun n m y => deriv (legendre n m) y * Real.cos y)
      (P' := fun n m y => m * legendreOverCos n m y - n * (n + 1) * Real.cos y * legendre n m y)
      (fun n m => hasDerivAt_cos_mul_deriv_legendre n m y) s x
    simp only [modeSum_mulP] at this
    exact this
  have latW : ∀ s : SpecField T, HasDerivAt (fun y => lamDeriv N s x y * Real.cos y)
      (modeSum N (fun n m y => m * deriv (legendre n m) y) (timesI s) x y) y := by
    intro s
    have e : ∀ y, lamDeriv N s x y * Real.cos y = modeSum N (fun n m y => m * legendre n m y) (timesI s) x y := by
      intro y
      unfold lamDeriv
      rw [← modeSum_mulP]
      exact modeSum_congrP N (fun n m => legendreOverCos_mul_cos n m y) _ _
    simp only [e]
    exact hasDerivAt_modeSum_lat N (fun n m => (((legendre_contDiff n m).differentiable (by simp) y).hasDerivAt).const_mul _) _ x
  have split : ∀ s : SpecField T, modeSum N (fun n m y => m * legendreOverCos n m y - n * (n + 1) * Real.cos y * legendre n m y) s x y =
      modeSum N (fun n m y => m * legendreOverCos n m y) s x y - Real.cos y * modeSum N (fun n m y => n * (n + 1) * legendre n m y) s x y := by
    intro s
    rw [mul_comm (Real.cos y), ← modeSum_mulP, sub_eq_add_neg, ← neg_one_mul, ← mul_comm, ← modeSum_mulP N _ (fun _ => -1), ← modeSum_addP]
    exact modeSum_congrP N (fun n m => by ring) _ _
  have eig : ∀ s : SpecField T, harmonicSum N (degMul (fun n => n * (n + 1) / r ^ 2) s) x y =
      modeSum N (fun n m y => n * (n + 1) * legendre n m y) s x y / r ^ 2 := by
    intro s
    unfold harmonicSum
    rw [modeSum_degMul, div_eq_mul_inv, ← modeSum_mulP N _ (fun _ => (r ^ 2)⁻¹)]
    exact modeSum_congrP N (fun n m => by rw [div_eq_mul_inv]; ring) _ _
  by_cases hr : r = 0
  · subst hr
    rw [eig, eig]
    constructor <;> simp [sphereCurl, sphereDiv]
  constructor
  · have h1 := ((lonW a).add (lonP b)).div_const r
    have h2 := ((latP a).neg.add (latW b)).div_const r
    have e2 : (fun y => (-phiDeriv N a x y + lamDeriv N b x y) / r * Real.cos y) =
        fun y => (-(phiDeriv N a x y * Real.cos y) + lamDeriv N b x y * Real.cos y) / r := by funext y; ring
    unfold sphereCurl dlon dlat
    rw [e2]
    have d1 := h1.deriv
    have d2 := h2.deriv
    simp only [Pi.add_apply, Pi.neg_apply] at d1 d2
    rw [show (fun x => (lamDeriv N a x y + phiDeriv N b x y) / r) = fun x => ((fun x => lamDeriv N a x y) x + (fun x => phiDeriv N b x y) x) / r from rfl,
      d1, d2, eig, split]
    field_simp
    ring
  · have h1 := ((lonP a).neg.add (lonW b)).div_const r
    have h2 := ((latW a).add (latP b)).div_const r
    have e2 : (fun y => (lamDeriv N a x y + phiDeriv N b x y) / r * Real.cos y) =
        fun y => (lamDeriv N a x y * Real.cos y + phiDeriv N b x y * Real.cos y) / r := by funext y; ring
    unfold sphereDiv dlon dlat
    rw [e2]
    have d1 := h1.deriv
    have d2 := h2.deriv
    simp only [Pi.add_apply, Pi.neg_apply] at d1 d2
    rw [d1, d2, eig, split]
    field_simp
    ring

theorem laplaceSpectral_degMul (s : g.Spc) : Grid.laplaceSpectral s = -degMul (fun n => n * (n + 1) / g.rsphere ^ 2) s := by
  funext k
  unfold Grid.laplaceSpectral degMul Grid.eig
  simp only [Pi.neg_apply]
  push_cast
  ring

theorem poisson_eq_invLaplace (s : g.Spc) : Grid.solvePoissonSpectral s 0 = invLaplace g.rsphere s := by
  funext k
  unfold Grid.solvePoissonSpectral invLaplace degMul Grid.eig
  simp only
  by_cases hk : k.val = 0
  · rw [if_pos hk, if_pos (specN_eq_zero.mpr hk)]; simp
  · have hk' : specN k ≠ 0 := fun h => hk (specN_eq_zero.mp h)
    rw [if_neg hk, if_neg hk']
    push_cast
    rw [add_zero, div_div, neg_mul, neg_div, div_div_eq_mul_div, div_mul_eq_mul_div, sq]
    ring

theorem degMul_invLaplace (hr : g.rsphere ≠ 0) (s : g.Spc) :
    -degMul (fun n => n * (n + 1) / g.rsphere ^ 2) (invLaplace g.rsphere s) = dropMean s := by
  rw [← laplaceSpectral_degMul, ← poisson_eq_invLaplace]
  exact (C28_inverse hr s).1

theorem harmonicSum_neg {T : ℕ} (s : SpecField T) (x y : ℝ) : harmonicSum N (-s) x y = -harmonicSum N s x y := modeSum_neg ..

/-- C106: the synthesised field is a smooth function on the sphere. `gradient` returns its gradient and `laplace` its Laplacian:
for gridded fields that are resolved, and the spectral methods for all spectral coefficients. The fields `(Fx, Fy)` and `L` are
smooth also at the poles. -/
theorem C106_operators (hg : g.Valid) (h : Spharm.Exact N B S) (s : g.Spc) :
    let F := harmonicSum N s
    let L := harmonicSum N (Grid.laplaceSpectral s)
    ∃ Fx Fy : ℝ → ℝ → ℝ,
      Grid.toGrid S s = g.sample F ∧ SphereSmooth F ∧
      S.getgrad s = (g.sample Fx, g.sample Fy) ∧ SphereSmooth Fx ∧ SphereSmooth Fy ∧
      Grid.toGrid S (Grid.laplaceSpectral s) = g.sample L ∧ SphereSmooth L ∧
      (∀ x y, Real.cos y ≠ 0 → (Fx x y, Fy x y) = sphereGrad g.rsphere F x y ∧ L x y = sphereLaplacian g.rsphere F x y) ∧
      (RealZonal s → BandLimited B s → Grid.gradient S (g.sample F) = (g.sample Fx, g.sample Fy) ∧ Grid.laplace S (g.sample F) = g.sample L) := by
  intro F L
  have hr := hg.rsphere_pos.ne'
  refine ⟨fun x y => lamDeriv N s x y / g.rsphere, fun x y => phiDeriv N s x y / g.rsphere, h.synthesis s, harmonicSum_smooth s,
    h.gradient s, ?_, ?_, h.synthesis _, harmonicSum_smooth _, fun x y hy => ⟨?_, ?_⟩, fun h1 h2 => ?_⟩
  · have := modeSum_smooth N legendreOverCos_contDiff (timesI s)
    exact ⟨this.smooth.div_const _, fun x y => congrArg (· / g.rsphere) (this.periodic x y)⟩
  · have := modeSum_smooth N derivLegendre_contDiff s
    exact ⟨this.smooth.div_const _, fun x y => congrArg (· / g.rsphere) (this.periodic x y)⟩
  · unfold sphereGrad
    rw [dlon_harmonicSum, dlat_harmonicSum]
    refine Prod.ext ?_ rfl
    simp only
    field_simp
  · have e := (sphere_wind (N := N) g.rsphere 0 s hy x).2
    have z1 : ∀ x y, phiDeriv N (0 : g.Spc) x y = 0 := fun x y => modeSum_eq_zero N _ (fun _ => .inl rfl) x y
    have z2 : ∀ x y, lamDeriv N (0 : g.Spc) x y = 0 := fun x y => modeSum_eq_zero N _ (fun _ => .inl (by simp [timesI])) x y
    simp only [z1, z2, neg_zero, zero_add] at e
    change harmonicSum N (Grid.laplaceSpectral s) x y = _
    rw [laplaceSpectral_degMul, harmonicSum_neg, ← e]
    unfold sphereLaplacian sphereDiv
    congr 2
    · unfold dlon
      congr 1
      funext x
      change _ = dlon (harmonicSum N s) x y / (g.rsphere * Real.cos y)
      rw [dlon_harmonicSum]
      simp only
      field_simp
    · unfold dlat
      congr 1
      funext y
      change _ = dlat (harmonicSum N s) x y / g.rsphere * Real.cos y
      rw [dlat_harmonicSum]
  · have e : g.sample F = S.spectogrd s := (h.synthesis s).symm
    constructor
    · unfold Grid.gradient Grid.toSpectral
      rw [e, h.analysis s h1 h2, h.gradient]
    · unfold Grid.laplace Grid.toSpectral Grid.toGrid
      rw [e, h.analysis s h1 h2, h.synthesis]

/-- C106: `wind` returns values of a vector field that has the given vorticity and divergence everywhere (but their means, which
are zero for all vector fields); `solve_poisson` returns its streamfunction and velocity potential. -/
theorem C106_wind (hg : g.Valid) (h : Spharm.Exact N B S) (a b : g.Spc) :
    let Ψ := harmonicSum N (Grid.solvePoissonSpectral a 0)
    let X := harmonicSum N (Grid.solvePoissonSpectral b 0)
    ∃ U V : ℝ → ℝ → ℝ, Grid.wind S (.inr a) (.inr b) = (g.sample U, g.sample V) ∧ SphereSmooth U ∧ SphereSmooth V ∧
      (∀ x y, Real.cos y ≠ 0 → sphereCurl g.rsphere U V x y = harmonicSum N (dropMean a) x y ∧
        sphereDiv g.rsphere U V x y = harmonicSum N (dropMean b) x y ∧
        U x y = -(sphereGrad g.rsphere Ψ x y).2 + (sphereGrad g.rsphere X x y).1 ∧
        V x y = (sphereGrad g.rsphere Ψ x y).1 + (sphereGrad g.rsphere X x y).2) ∧
      (RealZonal a → RealZonal b → BandLimited B a → BandLimited B b →
        Grid.vorticity S (g.sample U) (g.sample V) = g.sample (harmonicSum N (dropMean a)) ∧
        Grid.divergence S (g.sample U) (g.sample V) = g.sample (harmonicSum N (dropMean b))) := by
  intro Ψ X
  have hr := hg.rsphere_pos.ne'
  refine ⟨_, _, h.wind a b, ?_, ?_, fun x y hy => ?_, fun h1 h2 h3 h4 => ?_⟩
  · have h1 := modeSum_smooth N derivLegendre_contDiff (invLaplace g.rsphere a)
    have h2 := modeSum_smooth N legendreOverCos_contDiff (timesI (invLaplace g.rsphere b))
    exact ⟨(h1.smooth.neg.add h2.smooth).div_const _, fun x y =>
      congrArg (· / g.rsphere) (congrArg₂ (fun p q => -p + q) (h1.periodic x y) (h2.periodic x y))⟩
  · have h1 := modeSum_smooth N derivLegendre_contDiff (invLaplace g.rsphere b)
    have h2 := modeSum_smooth N legendreOverCos_contDiff (timesI (invLaplace g.rsphere a))
    exact ⟨(h2.smooth.add h1.smooth).div_const _, fun x y =>
      congrArg (· / g.rsphere) (congrArg₂ (fun p q => p + q) (h2.periodic x y) (h1.periodic x y))⟩
  · have := sphere_wind (N := N) g.rsphere (invLaplace g.rsphere a) (invLaplace g.rsphere b) hy x
    rw [this.1, this.2, ← harmonicSum_neg, ← harmonicSum_neg, degMul_invLaplace hr, degMul_invLaplace hr]
    refine ⟨rfl, rfl, ?_, ?_⟩
    · simp only [Ψ, X, sphereGrad, dlon_harmonicSum, dlat_harmonicSum, poisson_eq_invLaplace]
      field_simp
    · simp only [Ψ, X, sphereGrad, dlon_harmonicSum, dlat_harmonicSum, poisson_eq_invLaplace]
      field_simp
  · have e := h.vrtdiv a b h1 h2 h3 h4
    rw [h.wind] at e
    constructor
    · unfold Grid.vorticity Grid.vorticitySpectral Grid.vorticityDivergenceSpectral Grid.toGrid
      rw [e, h.synthesis]
    · unfold Grid.divergence Grid.divergenceSpectral Grid.vorticityDivergenceSpectral Grid.toGrid
      rw [e, h.synthesis]

/-- C106 for states: the wind of a state is that of a non-divergent flow whose absolute vorticity is the PV of the state (but its mean,
which should be zero), and `streamfunction` is its streamfunction. -/
theorem C106_state {τ : Type} (hg : g.Valid) (hT : 1 ≤ g.ntrunc) (hB : 1 ≤ B) (h : Spharm.Exact N B S) (s : St τ g) :
    let Q := harmonicSum N s.q
    let Ψ := harmonicSum N (Grid.solvePoissonSpectral (s.vorticitySpectral S) 0)
    ∃ (U V : ℝ → ℝ → ℝ) (mean : ℝ), s.pv S = g.sample Q ∧ s.streamfunction S = g.sample Ψ ∧ s.u S = g.sample U ∧ s.v S = g.sample V ∧
      SphereSmooth Q ∧ SphereSmooth Ψ ∧ SphereSmooth U ∧ SphereSmooth V ∧
      (∀ x y, Real.cos y ≠ 0 → sphereCurl g.rsphere U V x y + 2 * g.omega * Real.sin y = Q x y - mean ∧ sphereDiv g.rsphere U V x y = 0 ∧
        U x y = -(sphereGrad g.rsphere Ψ x y).2 ∧ V x y = (sphereGrad g.rsphere Ψ x y).1 ∧
        sphereLaplacian g.rsphere Ψ x y = sphereCurl g.rsphere U V x y) ∧
      (s.q (k0 _) = 0 → mean = 0) := by
  intro Q Ψ
  have hr := hg.rsphere_pos.ne'
  have hcor : Grid.fcor2Spectral S = zonalMode (k1 hT) (g.omega / N 1 0) := by
    unfold Grid.fcor2Spectral Grid.toSpectral
    rw [← h.coriolis_field hT]
    refine h.analysis _ (zonalMode_real _ _) fun k hk => ?_
    have : k ≠ k1 hT := by rintro rfl; simp at hk; omega
    simp [zonalMode, this]
  obtain ⟨U, V, e, hU, hV, hc, -⟩ := C106_wind hg h (s.vorticitySpectral S) 0
  have hmean : ∀ x y, harmonicSum N (dropMean (s.vorticitySpectral S)) x y + 2 * g.omega * Real.sin y =
      Q x y - N 0 0 * (s.q (k0 _)).re := by
    intro x y
    have e1 : s.q = dropMean (s.vorticitySpectral S) + (zonalMode (k1 hT) (g.omega / N 1 0) + fun k => if k = k0 _ then s.q (k0 _) else 0) := by
      funext k
      unfold St.vorticitySpectral dropMean zonalMode
      rw [hcor]
      unfold zonalMode
      simp only [Pi.add_apply, Pi.sub_apply]
      by_cases hk : k = k0 _
      · subst hk
        simp [k0_ne_k1 hT]
      · have : specN k ≠ 0 := fun e => hk (eq_k0_of_specN e)
        rw [if_neg this, if_neg hk]
        ring
    have e2 : harmonicSum N (fun k : Fin (nspec g.ntrunc) => if k = k0 _ then s.q (k0 _) else 0) x y = N 0 0 * (s.q (k0 _)).re := by
      unfold harmonicSum
      rw [modeSum_single N legendre (k0 _) (fun l hl => if_neg hl)]
      simp [legendre_zero]
    have e3 : harmonicSum N (zonalMode (k1 hT) (g.omega / N 1 0)) x y = 2 * g.omega * Real.sin y := by
      unfold harmonicSum
      rw [modeSum_single N legendre (k1 hT) (by intro l hl; simp [zonalMode, hl])]
      have := h.norm_ne 1 0
      simp [zonalMode, legendre_one]
      field_simp
    have e4 : Q x y = _ := congrFun (congrFun (congrArg (harmonicSum N) e1) x) y
    rw [e4]
    unfold harmonicSum at e2 e3 ⊢
    rw [modeSum_add, modeSum_add, e2, e3]
    ring
  refine ⟨U, V, N 0 0 * (s.q (k0 _)).re, h.synthesis _, h.synthesis _, congrArg Prod.fst e, congrArg Prod.snd e,
    harmonicSum_smooth _, harmonicSum_smooth _, hU, hV, fun x y hy => ?_, fun h0 => by rw [h0]; simp⟩
  obtain ⟨c1, c2, c3, c4⟩ := hc x y hy
  have hz : ∀ x y, harmonicSum N (0 : g.Spc) x y = 0 := fun x y => modeSum_eq_zero N _ (fun _ => .inl rfl) x y
  have e0 : Grid.solvePoissonSpectral (0 : g.Spc) 0 = 0 := by
    funext k; unfold Grid.solvePoissonSpectral; split_ifs <;> simp
  have eg : sphereGrad g.rsphere (harmonicSum N (Grid.solvePoissonSpectral (0 : g.Spc) 0)) x y = (0, 0) := by
    unfold sphereGrad dlon dlat
    simp only [e0, hz, deriv_const, zero_div]
  have ed : dropMean (0 : g.Spc) = 0 := by funext k; unfold dropMean; split_ifs <;> rfl
  rw [eg] at c3 c4
  refine ⟨by rw [c1]; exact hmean x y, by rw [c2, ed, hz], by rw [c3, add_zero], by rw [c4, add_zero], ?_⟩
  obtain ⟨_, _, _, _, _, _, _, _, _, hL, -⟩ := C106_operators hg h (Grid.solvePoissonSpectral (s.vorticitySpectral S) 0)
  rw [c1, ← (hL x y hy).2, (C28_inverse hr _).1]

/-- There are such transforms on the example grid and on the grid with the default truncation. -/
example : ∃ S : grid30.Sph, Spharm.Exact (fun _ _ => 1) 5 S ∧ S.Mirrors ∧ Spharm.Lawful S := by
  obtain ⟨S, h1, h2⟩ := C105_exists (N := fun _ _ => 1) (B := 5) grid30_valid
    (by rw [show grid30.nlat = 7 by unfold Grid.nlat Grid.nlatOf grid30; norm_num]) (fun _ _ => one_ne_zero)
  exact ⟨S, h1, h2, C105_lawful grid30_valid (by unfold grid30; norm_num) (by unfold grid30; norm_num) h1⟩

/-- The example grid with the default truncation -/
theorem grid30_default_valid : ({ grid30 with ntrunc := 6 } : Grid ℝ).Valid :=
  { grid30_valid with
    ntrunc_le := by
      rw [show ({ grid30 with ntrunc := 6 } : Grid ℝ).nlat = 7 by unfold Grid.nlat Grid.nlatOf grid30; norm_num] }

example : (∃ S : ({ grid30 with ntrunc := 6 } : Grid ℝ).Sph, Spharm.Exact (fun _ _ => 1) 5 S) ∧
    ¬ ∃ S : ({ grid30 with ntrunc := 6 } : Grid ℝ).Sph, Spharm.Exact (fun _ _ => 1) 6 S := by
  have h7 : ({ grid30 with ntrunc := 6 } : Grid ℝ).nlat = 7 := by unfold Grid.nlat Grid.nlatOf grid30; norm_num
  refine ⟨?_, C105_default_refuted grid30_default_valid (by rw [h7]) le_rfl⟩
  obtain ⟨S, h, -⟩ := C105_exists (N := fun _ _ => 1) (B := 5) grid30_default_valid (by rw [h7]) (fun _ _ => one_ne_zero)
  exact ⟨S, h⟩

end Barotropic
