import Verif.Lemmas.Stability
import Verif.Props.Isotropy
import Verif.Props.RotationRate
import Verif.Props.Spectrum

/-!
# Exchange between three fields

`exchange a b c` is the integral of `a` times the advection of `b` by the flow with streamfunction `c`. It changes its sign when two fields are exchanged.
-/

namespace Barotropic
open Real (cos sin)
open Matrix

variable {T : ℕ} {N : ℕ → ℕ → ℝ} {g : Grid ℝ} {S : g.Sph} {τ : Type}

noncomputable def exchange (N : ℕ → ℕ → ℝ) (r : ℝ) (a b c : SpecField T) : ℝ := spherePair r (harmonicSum N a) (advect N r b c)

theorem advect_add_left (r : ℝ) (b b' c : SpecField T) (x y : ℝ) : advect N r (b + b') c x y = advect N r b c x y + advect N r b' c x y := by
  unfold advect
  rw [lamDeriv_add, phiDeriv_add]
  ring

theorem advect_skew (r : ℝ) (b c : SpecField T) (x y : ℝ) : advect N r b c x y = -advect N r c b x y := by
  unfold advect
  ring

theorem advect_smul_right (r k : ℝ) (b c : SpecField T) (x y : ℝ) : advect N r b (k • c) x y = k * advect N r b c x y := by
  unfold advect
  rw [lamDeriv_smul, phiDeriv_smul]
  ring

theorem pair_add (r : ℝ) {F G H : ℝ → ℝ → ℝ} (hF : SphereSmooth F) (hG : SphereSmooth G) (hH : SphereSmooth H) :
    spherePair r F (fun x y => G x y + H x y) = spherePair r F G + spherePair r F H := by
  have := sphereIntegral_lin (hF.mul hG) (hF.mul hH) r 1 1
  rw [one_mul, one_mul] at this
  unfold spherePair
  rw [← this]
  exact sphereIntegral_congr _ fun x y _ => by ring

theorem pair_smul (r k : ℝ) {F G : ℝ → ℝ → ℝ} (hF : SphereSmooth F) (hG : SphereSmooth G) : spherePair r F (fun x y => k * G x y) = k * spherePair r F G := by
  have := sphereIntegral_lin (hF.mul hG) (hF.mul hG) r k 0
  rw [zero_mul, add_zero] at this
  unfold spherePair
  rw [← this]
  exact sphereIntegral_congr _ fun x y _ => by ring

theorem exchange_add_mid (r : ℝ) (a b b' c : SpecField T) : exchange N r a (b + b') c = exchange N r a b c + exchange N r a b' c := by
  unfold exchange
  rw [← pair_add r (harmonicSum_smooth a) (advect_smooth r b c) (advect_smooth r b' c)]
  congr 1
  funext x y
  exact advect_add_left r b b' c x y

theorem exchange_smul_right (r k : ℝ) (a b c : SpecField T) : exchange N r a b (k • c) = k * exchange N r a b c := by
  unfold exchange
  rw [← pair_smul r k (harmonicSum_smooth a) (advect_smooth r b c)]
  congr 1
  funext x y
  exact advect_smul_right r k b c x y

theorem exchange_skew (r : ℝ) (a b c : SpecField T) : exchange N r a b c = -exchange N r a c b := by
  unfold exchange
  have := pair_smul r (-1) (harmonicSum_smooth (N := N) a) (advect_smooth (N := N) r c b)
  rw [neg_one_mul] at this
  rw [← this]
  congr 1
  funext x y
  rw [advect_skew]
  ring

theorem exchange_add_right (r : ℝ) (a b c c' : SpecField T) : exchange N r a b (c + c') = exchange N r a b c + exchange N r a b c' := by
  rw [exchange_skew, exchange_add_mid, exchange_skew r a c, exchange_skew r a c']
  ring

theorem exchange_self {r : ℝ} (hr : r ≠ 0) (a c : SpecField T) : exchange N r a a c = 0 := advect_self hr a c

theorem exchange_add_left (r : ℝ) (a a' b c : SpecField T) : exchange N r (a + a') b c = exchange N r a b c + exchange N r a' b c := by
  unfold exchange
  have := spherePair_lin (N := N) r (advect_smooth (N := N) r b c) a a' 1
  rw [one_smul, one_mul] at this
  rw [spherePair_comm, this, spherePair_comm r _ (harmonicSum N a), spherePair_comm r _ (harmonicSum N a')]

theorem exchange_swap {r : ℝ} (hr : r ≠ 0) (a b c : SpecField T) : exchange N r a b c = -exchange N r b a c := by
  have h := exchange_self (N := N) hr (a + b) c
  rw [exchange_add_mid, exchange_add_left, exchange_add_left, exchange_self hr, exchange_self hr] at h
  linarith

/-- Factor of `invLaplace` -/
noncomputable def invFactor (r : ℝ) (n : ℕ) : ℝ := if n = 0 then 0 else -(r ^ 2 / (n * (n + 1)))

theorem invFactor_inj {r : ℝ} (hr : r ≠ 0) {l n : ℕ} (h : invFactor r l = invFactor r n) : l = n := by
  have hr2 : 0 < r ^ 2 := by positivity
  have hpos : ∀ m : ℕ, m ≠ 0 → 0 < r ^ 2 / ((m : ℝ) * (m + 1)) := fun m hm => by
    have : (0 : ℝ) < m := by exact_mod_cast Nat.pos_of_ne_zero hm
    positivity
  unfold invFactor at h
  split_ifs at h with h1 h2 h2
  · rw [h1, h2]
  · have := hpos n h2; linarith
  · have := hpos l h1; linarith
  · have l0 : (0 : ℝ) < l := by exact_mod_cast Nat.pos_of_ne_zero h1
    have n0 : (0 : ℝ) < n := by exact_mod_cast Nat.pos_of_ne_zero h2
    have e := neg_injective h
    rw [div_eq_div_iff (by positivity) (by positivity)] at e
    have e2 := mul_left_cancel₀ hr2.ne' e
    have : ((l : ℝ) - n) * (l + n + 1) = 0 := by linarith
    rcases mul_eq_zero.mp this with h3 | h3
    · exact_mod_cast sub_eq_zero.mp h3
    · linarith

theorem invLaplace_degree (r : ℝ) {l : ℕ} {b : SpecField T} (hb : ∀ k, specN k ≠ l → b k = 0) : invLaplace r b = invFactor r l • b := by
  funext k
  by_cases hk : specN k = l
  · simp only [invLaplace, degMul, invFactor, hk, Pi.smul_apply, Complex.real_smul]
  · simp only [invLaplace, degMul, hb k hk, Pi.smul_apply, mul_zero, smul_zero]

theorem flux_exchange (hg : g.Valid) (h : Spharm.Dealiased N S) (h1 : 1 ≤ g.ntrunc) (hT : 2 * g.ntrunc + 1 ≤ g.nlat) (s : St τ g) (p : g.Spc) :
    spherePair g.rsphere (harmonicSum N p) (harmonicSum N (s.pvFluxSpectral S)) = exchange N g.rsphere p s.q (invLaplace g.rsphere (s.vorticitySpectral S)) := by
  have e := C119_projection hg h h1 hT s p
  unfold St.fluxFn at e
  rw [e]
  unfold exchange spherePair
  refine sphereIntegral_congr _ fun x y hy => ?_
  rw [streamFn_eq]
  unfold St.pvFn
  rw [advect_flux _ _ _ hy]

/-- A degree of the flux vanishes if it is orthogonal to all fields of that degree. -/
theorem flux_degree (hg : g.Valid) (h : Spharm.Dealiased N S) (h1 : 1 ≤ g.ntrunc) (hT : 2 * g.ntrunc + 1 ≤ g.nlat) (s : St τ g) {l : ℕ}
    (hp : ∀ p : g.Spc, (∀ k, specN k ≠ l → p k = 0) → exchange N g.rsphere p s.q (invLaplace g.rsphere (s.vorticitySpectral S)) = 0) {k : Fin (nspec g.ntrunc)}
    (hk : specN k = l) : s.pvFluxSpectral S k = 0 := by
  have hr := hg.rsphere_pos.ne'
  obtain ⟨-, -, -, -, -, -, -, hreal, -⟩ := dealiased_flow hg h h1 hT s
  have e := hp (degreePart l (s.pvFluxSpectral S)) fun k hk => if_neg hk
  rw [← flux_exchange hg h h1 hT, parseval hr] at e
  have hnn : ∀ j ∈ Finset.univ, 0 ≤ modeNorm g.rsphere N j * modeDot (specM j) (degreePart l (s.pvFluxSpectral S) j) (s.pvFluxSpectral S j) := fun j _ => by
    refine mul_nonneg (modeNorm_pos hr h.exact.norm_ne j).le ?_
    unfold degreePart
    split_ifs
    · exact modeDot_self_nonneg _ _
    · rw [modeDot_zero]
  have e2 := (Finset.sum_eq_zero_iff_of_nonneg hnn).mp e k (Finset.mem_univ _)
  have e3 := (mul_eq_zero.mp e2).resolve_left (modeNorm_pos hr h.exact.norm_ne k).ne'
  unfold degreePart at e3
  rw [if_pos hk] at e3
  unfold modeDot at e3
  by_cases hm : specM k = 0
  · rw [if_pos hm, add_zero, mul_self_eq_zero] at e3
    exact Complex.ext e3 (hreal k hm)
  · rw [if_neg hm] at e3
    have hre := mul_self_nonneg (s.pvFluxSpectral S k).re
    have him := mul_self_nonneg (s.pvFluxSpectral S k).im
    exact Complex.ext (mul_self_eq_zero.mp (by linarith)) (mul_self_eq_zero.mp (by linarith))

end Barotropic
