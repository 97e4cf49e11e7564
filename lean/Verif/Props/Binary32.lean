import Verif.Lemmas.Binary32Error
import Mathlib.Tactic.NormNum
import Mathlib.Data.Rat.Floor

/-!
# C122: diffusion in single precision
-/

set_option linter.unusedSectionVars false

namespace Barotropic

open Binary32
open Binary64 (two_zpow_pos)

variable {K : Type*} [Field K] [LinearOrder K] [IsStrictOrderedRing K] [FloorRing K]

/-- Operations are rounded to the nearest number. -/
theorem C122_rounding (x : K) : IsNearestSingle x (rnd x) := rnd_nearest x

/-- numpy's order of multiplications gives the power that was asked for. -/
theorem C122_order (k : ℕ) : (powTree k).order = k := powTree_order k

theorem solve_some {r dt coeff x y : K} {t : PowTree} {n : ℕ} (h : solveDiffusion r dt coeff t n x = some y) :
    ∃ l e c, eig r n = some l ∧ t.eval l = some e ∧ c = rnd (Binary64.rnd (dt * coeff)) ∧ y = divide x (c * e) := by
  unfold solveDiffusion at h
  simp only [Option.bind_eq_some_iff, Option.map_eq_some_iff] at h
  obtain ⟨l, hl, e, he, c, hc, hy⟩ := h
  exact ⟨l, e, c, hl, he, fin_some hc, hy.symm⟩

/-- Diffusion of any order never amplifies or changes the sign of a coefficient, and damps higher degrees at least as much, in spite of all
rounding errors. -/
theorem C122_damping {r dt coeff x : K} (hr : 0 < r) (hc : 0 ≤ dt * coeff) (hx : IsSingle x) (t : PowTree) {n : ℕ} {y : K}
    (h : solveDiffusion r dt coeff t n x = some y) :
    |y| ≤ |x| ∧ 0 ≤ x * y ∧ ∀ n' y', n ≤ n' → solveDiffusion r dt coeff t n' x = some y' → |y'| ≤ |y| := by
  obtain ⟨l, e, c, hl, he, rfl, rfl⟩ := solve_some h
  have c0 : 0 ≤ rnd (Binary64.rnd (dt * coeff)) := rnd_nonneg (Binary64.rnd_nonneg hc)
  have e0 := (PowTree.eval_mono (eig_mono hr le_rfl hl hl).1 le_rfl t e e he he).1
  have p0 := mul_nonneg c0 e0
  have key : ∀ x : K, 0 ≤ x → IsSingle x → |divide x (rnd (Binary64.rnd (dt * coeff)) * e)| ≤ |x| ∧
      0 ≤ x * divide x (rnd (Binary64.rnd (dt * coeff)) * e) ∧
      ∀ p', rnd (Binary64.rnd (dt * coeff)) * e ≤ p' → |divide x p'| ≤ |divide x (rnd (Binary64.rnd (dt * coeff)) * e)| := by
    intro x hx hs
    have d0 := divide_nonneg hx p0
    refine ⟨?_, mul_nonneg hx d0, fun p' hp' => ?_⟩
    · rw [abs_of_nonneg d0, abs_of_nonneg hx]
      exact divide_le hs hx p0
    · rw [abs_of_nonneg d0, abs_of_nonneg (divide_nonneg hx (p0.trans hp'))]
      exact divide_anti hx p0 hp'
  have all : |divide x (rnd (Binary64.rnd (dt * coeff)) * e)| ≤ |x| ∧ 0 ≤ x * divide x (rnd (Binary64.rnd (dt * coeff)) * e) ∧
      ∀ p', rnd (Binary64.rnd (dt * coeff)) * e ≤ p' → |divide x p'| ≤ |divide x (rnd (Binary64.rnd (dt * coeff)) * e)| := by
    rcases le_total 0 x with h0 | h0
    · exact key x h0 hx
    · have := key (-x) (by linarith) (isSingle_neg hx)
      simpa only [divide_neg, abs_neg, neg_mul_neg] using this
  refine ⟨all.1, all.2.1, fun n' y' hn h' => ?_⟩
  obtain ⟨l', e', c', hl', he', rfl, rfl⟩ := solve_some h'
  exact all.2.2 _ (mul_le_mul_of_nonneg_left (PowTree.eval_mono (eig_mono hr le_rfl hl hl).1 (eig_mono hr hn hl hl').2 t e e' he he').2 c0)

/-- The global mean (degree 0) is conserved exactly. -/
theorem C122_mean {r dt coeff x : K} (hc : 0 ≤ dt * coeff) (hc' : dt * coeff ≤ 2 ^ 127) (hx : IsSingle x) {t : PowTree} (ht : 1 ≤ t.order) :
    solveDiffusion r dt coeff t 0 x = some x := by
  have hl : eig r 0 = some 0 := by
    unfold eig
    simp only [Nat.cast_zero, zero_mul, Binary64.rnd_zero, zero_div]
    rw [fin_of_lt (by rw [rnd_zero]; norm_num), rnd_zero]
  have h1 : Binary64.rnd (dt * coeff) ≤ 2 ^ 127 :=
    (Binary64.rnd_mono hc').trans_eq (Binary64.rnd_double ⟨1, 127, by norm_num, by norm_num⟩)
  have h2 : rnd (Binary64.rnd (dt * coeff)) ≤ 2 ^ 127 := rnd_le_single ⟨1, 127, by norm_num, by norm_num, by norm_num⟩ h1
  have h0 : 0 ≤ rnd (Binary64.rnd (dt * coeff)) := rnd_nonneg (Binary64.rnd_nonneg hc)
  have hf : fin (Binary64.rnd (dt * coeff)) = some (rnd (Binary64.rnd (dt * coeff))) := by
    apply fin_of_lt
    rw [abs_of_nonneg h0]
    exact h2.trans_lt (by norm_num)
  unfold solveDiffusion
  rw [hl, Option.bind_some, PowTree.eval_zero ht, Option.bind_some, hf, Option.map_some]
  congr 1
  unfold divide
  rw [mul_zero, rnd_zero, add_zero, rnd_one, div_one, rnd_one, mul_one, rnd_single hx]
  norm_num

/-- Eigenvalues in double precision are accurate, … -/
theorem eig64_near {r : K} (hr : 0 < r) (n : ℕ) :
    0 ≤ Binary64.rnd (Binary64.rnd (Binary64.rnd ((n : K) * Binary64.rnd (1 + (n : K))) / r) / r) ∧
    Near ((1 - 1 / 2 ^ 53) ^ 4) (n * (n + 1) / r ^ 2 : K)
      (Binary64.rnd (Binary64.rnd (Binary64.rnd ((n : K) * Binary64.rnd (1 + (n : K))) / r) / r)) := by
  have v0 : (0 : K) ≤ 1 - 1 / 2 ^ 53 := by norm_num
  have n1 : (0 : K) ≤ 1 + n := by positivity
  have a1 := (near_rnd64 n1).left (n : K) (by positivity)
  have b0 := Binary64.rnd_nonneg n1
  have b1 : (0 : K) ≤ n * Binary64.rnd (1 + n : K) := mul_nonneg (by positivity) b0
  have a2 := (a1.trans v0 v0 (near_rnd64 b1)).div hr
  have b2 := div_nonneg (Binary64.rnd_nonneg b1) hr.le
  have a3 := (a2.trans (mul_nonneg v0 v0) v0 (near_rnd64 b2)).div hr
  have b3 := div_nonneg (Binary64.rnd_nonneg b2) hr.le
  have a4 := a3.trans (mul_nonneg (mul_nonneg v0 v0) v0) v0 (near_rnd64 b3)
  have b4 := Binary64.rnd_nonneg b3
  rw [show (1 - 1 / 2 ^ 53 : K) * (1 - 1 / 2 ^ 53) * (1 - 1 / 2 ^ 53) * (1 - 1 / 2 ^ 53) = (1 - 1 / 2 ^ 53) ^ 4 by ring,
    show (n : K) * (1 + n) / r / r = n * (n + 1) / r ^ 2 by rw [div_div, add_comm]; ring] at a4
  exact ⟨b4, a4⟩

/-- … and those in single precision. -/
theorem eig_near {r : K} (hr : 0 < r) {n : ℕ} (h1 : 2 ^ (-125 : ℤ) ≤ (n * (n + 1) / r ^ 2 : K)) (h2 : (n * (n + 1) / r ^ 2 : K) ≤ 1 / 2) :
    ∃ l, eig r n = some l ∧ 0 ≤ l ∧ l ≤ 1 ∧ Near ((1 - 1 / 2 ^ 53) ^ 4 * (1 - 1 / 2 ^ 24)) (n * (n + 1) / r ^ 2 : K) l := by
  obtain ⟨b4, a4⟩ := eig64_near hr n
  have hv : (1 / 2 : K) ≤ (1 - 1 / 2 ^ 53) ^ 4 := by norm_num
  have hn : (2 : K) ^ (-126 : ℤ) ≤ Binary64.rnd (Binary64.rnd (Binary64.rnd ((n : K) * Binary64.rnd (1 + (n : K))) / r) / r) := by
    refine le_trans ?_ a4.1
    calc (2 : K) ^ (-126 : ℤ) = 2 ^ (-125 : ℤ) * (1 / 2) := by
          rw [show (-125 : ℤ) = -126 + 1 by norm_num, zpow_add₀ (by norm_num), zpow_one]; ring
      _ ≤ _ := mul_le_mul h1 hv (by norm_num) ((two_zpow_pos _).le.trans h1)
  have a5 := a4.trans (by norm_num) (by norm_num) (near_rnd hn)
  have b5 := rnd_nonneg b4
  have hle : rnd (Binary64.rnd (Binary64.rnd (Binary64.rnd ((n : K) * Binary64.rnd (1 + (n : K))) / r) / r)) ≤ 1 := by
    have h3 : (1 / 2 : K) ≤ (1 - 1 / 2 ^ 53) ^ 4 * (1 - 1 / 2 ^ 24) := by norm_num
    have h4 := mul_le_mul_of_nonneg_left h3 b5
    have h5 := a5.2
    linarith
  refine ⟨_, fin_of_lt ?_, b5, hle, a5⟩
  rw [abs_of_nonneg b5]
  exact hle.trans_lt (by norm_num)

/-- Powers of eigenvalues are accurate as long as they do not underflow. -/
theorem eval_near {a l E U : K} (ha : 0 < a) (ha1 : a ≤ 1) (l0 : 0 ≤ l) (l1 : l ≤ 1) (hE : 0 < E) (hE1 : E ≤ 1) (hU : U = 1 - 1 / 2 ^ 24)
    (h : Near E a l) {k m : ℕ} (hk : 2 ^ (-125 : ℤ) ≤ a ^ k) (hm : 1 / 2 ≤ E ^ k * U ^ m) (t : PowTree) :
    t.order ≤ k → t.mults ≤ m → ∃ y, t.eval l = some y ∧ 0 ≤ y ∧ y ≤ 1 ∧ Near (E ^ t.order * U ^ t.mults) (a ^ t.order) y := by
  have hU0 : 0 ≤ U := by rw [hU]; norm_num
  have hU1 : U ≤ 1 := by rw [hU]; norm_num
  induction t with
  | zero => exact fun _ _ => ⟨1, rfl, zero_le_one, le_rfl, by simp [PowTree.order, PowTree.mults, Near]⟩
  | one => exact fun _ _ => ⟨l, rfl, l0, l1, by simpa [PowTree.order, PowTree.mults] using h⟩
  | mul b c ihb ihc =>
    intro ho hmu
    simp only [PowTree.order, PowTree.mults] at ho hmu
    obtain ⟨p, hp, p0, p1, pn⟩ := ihb (by omega) (by omega)
    obtain ⟨q, hq, q0, q1, qn⟩ := ihc (by omega) (by omega)
    have pq := pn.mul (mul_nonneg (pow_nonneg hE.le _) (pow_nonneg hU0 _)) (mul_nonneg (pow_nonneg hE.le _) (pow_nonneg hU0 _))
      (pow_nonneg ha.le _) p0 (pow_nonneg ha.le _) q0 qn
    have e1 : E ^ b.order * U ^ b.mults * (E ^ c.order * U ^ c.mults) = E ^ (b.order + c.order) * U ^ (b.mults + c.mults) := by
      rw [pow_add, pow_add]; ring
    rw [e1, ← pow_add] at pq
    have h126 : (2 : K) ^ (-126 : ℤ) ≤ p * q := by
      refine le_trans ?_ pq.1
      have g1 : (2 : K) ^ (-125 : ℤ) ≤ a ^ (b.order + c.order) := hk.trans (pow_le_pow_of_le_one ha.le ha1 ho)
      have g2 : 1 / 2 ≤ E ^ (b.order + c.order) * U ^ (b.mults + c.mults) :=
        hm.trans (mul_le_mul (pow_le_pow_of_le_one hE.le hE1 ho) (pow_le_pow_of_le_one hU0 hU1 (by omega)) (pow_nonneg hU0 _)
          (pow_nonneg hE.le _))
      calc (2 : K) ^ (-126 : ℤ) = 2 ^ (-125 : ℤ) * (1 / 2) := by
            rw [show (-125 : ℤ) = -126 + 1 by norm_num, zpow_add₀ (by norm_num), zpow_one]; ring
        _ ≤ _ := mul_le_mul g1 g2 (by norm_num) ((two_zpow_pos _).le.trans g1)
    have pqn := pq.trans (mul_nonneg (pow_nonneg hE.le _) (pow_nonneg hU0 _)) hU0 (hU ▸ near_rnd h126)
    have r0 := rnd_nonneg (mul_nonneg p0 q0)
    have r1 : rnd (p * q) ≤ 1 := rnd_le_single isSingle_one (mul_le_one₀ p1 q0 q1)
    refine ⟨rnd (p * q), ?_, r0, r1, ?_⟩
    · simp only [PowTree.eval, hp, hq, Option.bind_some]
      apply fin_of_lt
      rw [abs_of_nonneg r0]
      exact r1.trans_lt (by norm_num)
    · simp only [PowTree.order, PowTree.mults]
      rw [pow_succ, ← mul_assoc]
      exact pqn

theorem last_product {x f F δ : K} (hx : 0 ≤ x) (F0 : 0 ≤ F) (f0 : 0 ≤ f) (hδ0 : 0 ≤ δ) (hδ1 : δ ≤ 1 / 2) (h : Near (1 - δ) F f) :
    |rnd (x * f) - F * x| ≤ 2 * (δ + 1 / 2 ^ 24) * |F * x| + 2 ^ (-150 : ℤ) := by
  have z0 := mul_nonneg hx f0
  have Z0 := mul_nonneg F0 hx
  rw [abs_of_nonneg Z0]
  have t1 : |x * f - rnd (x * f)| ≤ x * f / 2 ^ 24 + 2 ^ (-150 : ℤ) := by
    have hp := two_zpow_pos (K := K) (-150)
    have hq : 0 ≤ x * f / 2 ^ 24 := by positivity
    rcases z0.eq_or_lt with h0 | h0
    · rw [← h0, rnd_zero]
      simp only [sub_zero, abs_zero, zero_div, zero_add]
      exact hp.le
    · rcases rnd_rel h0 with h | h
      · linarith
      · exact h.2.trans (le_add_of_nonneg_left hq)
  obtain ⟨n1, n2⟩ := h.left x hx
  rw [mul_comm x F] at n1 n2
  have half : x * f * (1 / 2) ≤ F * x := (mul_le_mul_of_nonneg_left (by linarith) z0).trans n2
  obtain ⟨z, hz⟩ : ∃ z, z = x * f := ⟨_, rfl⟩
  obtain ⟨Z, hZ⟩ : ∃ Z, Z = F * x := ⟨_, rfl⟩
  rw [← hz] at z0 t1 n1 n2 half ⊢
  rw [← hZ] at Z0 n1 n2 half ⊢
  have t2 : |z - Z| ≤ 2 * δ * Z := by
    have b : z * δ ≤ 2 * Z * δ := mul_le_mul_of_nonneg_right (by linarith) hδ0
    have b' : 0 ≤ Z * δ := mul_nonneg Z0 hδ0
    rw [abs_le]
    constructor
    · linarith
    · linarith
  have tri : |rnd z - Z| ≤ |z - rnd z| + |z - Z| := by
    rw [abs_sub_comm z (rnd z)]
    exact abs_sub_le _ _ _
  have t4 : z / 2 ^ 24 ≤ 2 * (1 / 2 ^ 24) * Z := by
    rw [div_le_iff₀ (by norm_num)]
    calc z ≤ 2 * Z := by linarith
      _ = _ := by ring
  calc _ ≤ z / 2 ^ 24 + 2 ^ (-150 : ℤ) + 2 * δ * Z := tri.trans (add_le_add t1 t2)
    _ ≤ _ := by linarith

/-- Missing: powers of eigenvalues below `2 ^ (-125)` (`C122_refuted`). Otherwise the error of a step is a few units in the last place, plus
half of the smallest positive number if the result underflows. -/
theorem C122_accuracy_partial {r dt coeff x : K} (hr : 0 < r) {t : PowTree} {n : ℕ} (hkm : t.order + t.mults ≤ 2 ^ 20)
    (h1 : 2 ^ (-125 : ℤ) ≤ (n * (n + 1) / r ^ 2 : K) ^ t.order) (h2 : (n * (n + 1) / r ^ 2 : K) ≤ 1 / 2) (hk1 : 1 ≤ t.order)
    (hc : 2 ^ (-125 : ℤ) ≤ dt * coeff) (hc' : dt * coeff ≤ 2 ^ 127) (hd : dt * coeff * (n * (n + 1) / r ^ 2) ^ t.order ≤ 2 ^ 120) :
    ∃ y, solveDiffusion r dt coeff t n x = some y ∧
      |y - diffusionFactor r dt coeff t.order n * x| ≤
        2 * (t.order + t.mults + 6) / 2 ^ 24 * |diffusionFactor r dt coeff t.order n * x| + 2 ^ (-150 : ℤ) := by
  obtain ⟨U, hU⟩ : ∃ U : K, U = 1 - 1 / 2 ^ 24 := ⟨_, rfl⟩
  obtain ⟨V, hV⟩ : ∃ V : K, V = 1 - 1 / 2 ^ 53 := ⟨_, rfl⟩
  have hU0 : 0 < U := by rw [hU]; norm_num
  have hU1 : U ≤ 1 := by rw [hU]; norm_num
  have hV0 : 0 < V := by rw [hV]; norm_num
  have hV1 : V ≤ 1 := by rw [hV]; norm_num
  have hkmK : (t.order + t.mults : K) ≤ 2 ^ 20 := by exact_mod_cast hkm
  have hk0 : (0 : K) ≤ t.order := by positivity
  have hm0 : (0 : K) ≤ t.mults := by positivity
  -- all factors together
  have hvv : U ≤ V ^ (4 * t.order + 1) := by
    have h := one_add_mul_le_pow (a := -(1 / 2 ^ 53 : K)) (by norm_num) (4 * t.order + 1)
    rw [← sub_eq_add_neg, ← hV] at h
    refine le_trans ?_ h
    rw [hU]
    push_cast
    have : (4 * t.order + 1 : K) ≤ 2 ^ 23 := by norm_num at hkmK ⊢; linarith
    norm_num at this ⊢
    linarith
  have huu : ∀ j : ℕ, 1 - j / 2 ^ 24 ≤ U ^ j := by
    intro j
    have h := one_add_mul_le_pow (a := -(1 / 2 ^ 24 : K)) (by norm_num) j
    rw [← sub_eq_add_neg, ← hU] at h
    refine le_trans (le_of_eq ?_) h
    ring
  have hPow : ∀ j : ℕ, j ≤ 5 → U ^ (t.order + t.mults + j) ≥ 1 - (t.order + t.mults + 5) / 2 ^ 24 := by
    intro j hj
    refine le_trans ?_ (huu _)
    have : (j : K) ≤ 5 := by exact_mod_cast hj
    push_cast
    rw [sub_le_sub_iff_left, div_le_div_iff_of_pos_right (by norm_num)]
    linarith
  have hhalf : (1 / 2 : K) ≤ 1 - (t.order + t.mults + 5) / 2 ^ 24 := by norm_num at hkmK ⊢; linarith
  obtain ⟨E, hE⟩ : ∃ E : K, E = V ^ 4 * U := ⟨_, rfl⟩
  have hE0 : 0 < E := by rw [hE]; positivity
  have hE1 : E ≤ 1 := by rw [hE]; exact mul_le_one₀ (pow_le_one₀ hV0.le hV1) hU0.le hU1
  have hEpow : U ^ (t.order + t.mults + 1) ≤ E ^ t.order * U ^ t.mults * V := by
    have e : E ^ t.order * U ^ t.mults * V = V ^ (4 * t.order + 1) * U ^ (t.order + t.mults) := by
      rw [hE, mul_pow, ← pow_mul, pow_add, pow_add]; ring
    rw [e, pow_succ, mul_comm]
    exact mul_le_mul_of_nonneg_right hvv (by positivity)
  have hhalf1 : 1 / 2 ≤ E ^ t.order * U ^ t.mults := by
    refine hhalf.trans ((hPow 1 (by norm_num)).trans (hEpow.trans ?_))
    exact mul_le_of_le_one_right (by positivity) hV1
  -- eigenvalue
  obtain ⟨a, ha⟩ : ∃ a : K, a = n * (n + 1) / r ^ 2 := ⟨_, rfl⟩
  have hF : diffusionFactor r dt coeff t.order n = 1 / (1 + dt * coeff * a ^ t.order) := by rw [ha]; rfl
  have hage : (0 : K) ≤ n * (n + 1) / r ^ 2 := by positivity
  rw [hF]
  have h1' : (2 : K) ^ (-125 : ℤ) ≤ n * (n + 1) / r ^ 2 :=
    h1.trans (pow_le_of_le_one hage (h2.trans (by norm_num)) (by omega))
  obtain ⟨l, hl, l0, l1, ln⟩ := eig_near hr h1' h2
  rw [← hV, ← hU, ← hE] at ln
  rw [← ha] at h1 h2 hd ln h1' hage
  have ha0 : 0 < a := (two_zpow_pos _).trans_le h1'
  obtain ⟨e, he, e0, e1, en⟩ := eval_near ha0 (h2.trans (by norm_num)) l0 l1 hE0 hE1 hU ln h1 hhalf1 t le_rfl le_rfl
  -- coefficient
  have c0 : 0 < dt * coeff := (two_zpow_pos _).trans_le hc
  have cn64 := near_rnd64 c0.le
  rw [← hV] at cn64
  have c126 : (2 : K) ^ (-126 : ℤ) ≤ Binary64.rnd (dt * coeff) := by
    refine le_trans ?_ cn64.1
    calc (2 : K) ^ (-126 : ℤ) = 2 ^ (-125 : ℤ) * (1 / 2) := by
          rw [show (-125 : ℤ) = -126 + 1 by norm_num, zpow_add₀ (by norm_num), zpow_one]; ring
      _ ≤ _ := mul_le_mul hc (by rw [hV]; norm_num) (by norm_num) c0.le
  have cn := cn64.trans hV0.le hU0.le (hU ▸ near_rnd c126)
  have d1 : Binary64.rnd (dt * coeff) ≤ 2 ^ 127 :=
    (Binary64.rnd_mono hc').trans_eq (Binary64.rnd_double ⟨1, 127, by norm_num, by norm_num⟩)
  have d2 : rnd (Binary64.rnd (dt * coeff)) ≤ 2 ^ 127 := rnd_le_single ⟨1, 127, by norm_num, by norm_num, by norm_num⟩ d1
  have d0 : 0 ≤ rnd (Binary64.rnd (dt * coeff)) := rnd_nonneg (Binary64.rnd_nonneg c0.le)
  have hf : fin (Binary64.rnd (dt * coeff)) = some (rnd (Binary64.rnd (dt * coeff))) := by
    apply fin_of_lt
    rw [abs_of_nonneg d0]
    exact d2.trans_lt (by norm_num)
  obtain ⟨c, hcdef⟩ : ∃ c, c = rnd (Binary64.rnd (dt * coeff)) := ⟨_, rfl⟩
  rw [← hcdef] at cn d0 hf
  have A0 : 0 ≤ dt * coeff * a ^ t.order := by positivity
  have p0 := mul_nonneg d0 e0
  -- product and denominator
  have pn := cn.mul (by positivity) (by positivity) c0.le d0 (by positivity) e0 en
  have pn' : Near (U ^ (t.order + t.mults + 2)) (dt * coeff * a ^ t.order) (c * e) := by
    refine pn.mono A0 p0 ?_
    rw [show V * U * (E ^ t.order * U ^ t.mults) = (E ^ t.order * U ^ t.mults * V) * U by ring,
      show t.order + t.mults + 2 = (t.order + t.mults + 1) + 1 by ring, pow_succ U (t.order + t.mults + 1)]
    exact mul_le_mul_of_nonneg_right hEpow hU0.le
  have sn := (pn'.one_add (pow_le_one₀ hU0.le hU1)).trans (by positivity) hU0.le (hU ▸ near_one_add_rnd p0)
  rw [← pow_succ] at sn
  have r0 := rnd_nonneg p0
  have s126 : (2 : K) ^ (-126 : ℤ) ≤ 1 + rnd (c * e) := by
    have : (2 : K) ^ (-126 : ℤ) ≤ 1 := zpow_le_one_of_nonpos₀ (by norm_num) (by norm_num)
    linarith
  have dn := sn.trans (by positivity) hU0.le (hU ▸ near_rnd s126)
  rw [← pow_succ] at dn
  have den1 := one_le_den p0
  have big : ∀ z j, j ≤ 5 → 0 ≤ z → z * U ^ (t.order + t.mults + j) ≤ 1 + dt * coeff * a ^ t.order → z ≤ 2 ^ 122 := by
    intro z j hj hz h
    have h3 : z * (1 / 2) ≤ z * U ^ (t.order + t.mults + j) := mul_le_mul_of_nonneg_left (hhalf.trans (hPow j hj)) hz
    have h4 : z * (1 / 2) ≤ 1 + 2 ^ 120 := by linarith
    norm_num at h4 ⊢
    linarith
  have s122 : 1 + rnd (c * e) ≤ 2 ^ 122 := big _ 3 (by norm_num) (by linarith) sn.2
  have den122 : rnd (1 + rnd (c * e)) ≤ 2 ^ 122 := big _ 4 (by norm_num) (by linarith) dn.2
  -- reciprocal
  have i126 : (2 : K) ^ (-126 : ℤ) ≤ 1 / rnd (1 + rnd (c * e)) := by
    rw [le_div_iff₀ (by linarith)]
    calc (2 : K) ^ (-126 : ℤ) * rnd (1 + rnd (c * e)) ≤ 2 ^ (-126 : ℤ) * 2 ^ 122 := mul_le_mul_of_nonneg_left den122 (two_zpow_pos _).le
      _ ≤ 1 := by norm_num
  have fn := (dn.inv (by linarith) (by linarith)).trans (by positivity) hU0.le (hU ▸ near_rnd i126)
  rw [← pow_succ] at fn
  have hsol : solveDiffusion r dt coeff t n x = some (rnd (x * rnd (1 / rnd (1 + rnd (c * e))))) := by
    unfold solveDiffusion
    rw [hl, Option.bind_some, he, Option.bind_some, hf, Option.map_some]
    congr 1
    unfold divide
    rw [if_pos]
    rw [abs_of_nonneg r0]
    refine lt_of_le_of_lt (b := 2 ^ 122) (by linarith) (by norm_num)
  refine ⟨_, hsol, ?_⟩
  have f0 := (recip_mem p0).1
  obtain ⟨f, hfdef⟩ : ∃ f, f = rnd (1 / rnd (1 + rnd (c * e))) := ⟨_, rfl⟩
  obtain ⟨F, hFdef⟩ : ∃ F, F = 1 / (1 + dt * coeff * a ^ t.order) := ⟨_, rfl⟩
  rw [← hfdef] at fn f0 ⊢
  rw [← hFdef] at fn ⊢
  have F0 : 0 ≤ F := by rw [hFdef]; positivity
  obtain ⟨δ, hδ⟩ : ∃ δ : K, δ = (t.order + t.mults + 5) / 2 ^ 24 := ⟨_, rfl⟩
  have hδ0 : 0 ≤ δ := by rw [hδ]; positivity
  have hδ1 : δ ≤ 1 / 2 := by rw [hδ]; linarith
  have hδU : (2 * (t.order + t.mults + 6) / 2 ^ 24 : K) = 2 * (δ + 1 / 2 ^ 24) := by rw [hδ]; ring
  have fn' : Near (1 - δ) F f := fn.mono F0 f0 (by rw [hδ]; exact hPow 5 le_rfl)
  rw [hδU]
  have key := fun x hx => last_product (x := x) hx F0 f0 hδ0 hδ1 fn'
  rcases le_total 0 x with h0 | h0
  · exact key x h0
  · have := key (-x) (by linarith)
    rw [neg_mul, rnd_neg, mul_neg, abs_neg, show -rnd (x * f) - -(F * x) = -(rnd (x * f) - F * x) by ring, abs_neg] at this
    exact this

/-- With numpy's order of multiplications, at most `k` of them -/
theorem C122_numpy_partial {r dt coeff x : K} (hr : 0 < r) {k n : ℕ} (hk1 : 1 ≤ k) (hk : k < 100)
    (h1 : 2 ^ (-125 : ℤ) ≤ (n * (n + 1) / r ^ 2 : K) ^ k) (h2 : (n * (n + 1) / r ^ 2 : K) ≤ 1 / 2)
    (hc : 2 ^ (-125 : ℤ) ≤ dt * coeff) (hc' : dt * coeff ≤ 2 ^ 127) (hd : dt * coeff * (n * (n + 1) / r ^ 2) ^ k ≤ 2 ^ 120) :
    ∃ y, solveDiffusion r dt coeff (powTree k) n x = some y ∧
      |y - diffusionFactor r dt coeff k n * x| ≤ (k + 3) / 2 ^ 22 * |diffusionFactor r dt coeff k n * x| + 2 ^ (-150 : ℤ) := by
  have hm := powTree_mults k
  have ho := powTree_order k
  have := C122_accuracy_partial (x := x) (dt := dt) (coeff := coeff) hr (t := powTree k) (n := n) (by rw [ho]; omega)
    (by rwa [ho]) h2 (by rwa [ho]) hc hc' (by rwa [ho])
  rw [ho] at this
  obtain ⟨y, hy, hb⟩ := this
  refine ⟨y, hy, hb.trans (add_le_add (mul_le_mul_of_nonneg_right ?_ (abs_nonneg _)) le_rfl)⟩
  have hmK : ((powTree k).mults : K) ≤ k := by exact_mod_cast hm
  rw [div_le_div_iff₀ (by norm_num) (by norm_num)]
  linarith

/-- The radius of the Earth (constants.py:2) -/
def earthRadius : K := 6371200

/-- Diffusion of order 1 and 2 (the default of `BarotropicModel`) on Earth is accurate for all degrees from 1 to 1000. -/
theorem C122_earth {dt coeff x : K} {k n : ℕ} (hk1 : 1 ≤ k) (hk : k ≤ 2) (hn : 1 ≤ n) (hn' : n ≤ 1000)
    (hc : 2 ^ (-125 : ℤ) ≤ dt * coeff) (hc' : dt * coeff ≤ 2 ^ 120) :
    ∃ y, solveDiffusion earthRadius dt coeff (powTree k) n x = some y ∧
      |y - diffusionFactor earthRadius dt coeff k n * x| ≤
        5 / 2 ^ 22 * |diffusionFactor earthRadius dt coeff k n * x| + 2 ^ (-150 : ℤ) := by
  have hnK : (1 : K) ≤ n := by exact_mod_cast hn
  have hnK' : (n : K) ≤ 1000 := by exact_mod_cast hn'
  have lo : (1 / 2 ^ 45 : K) ≤ n * (n + 1) / earthRadius ^ 2 := by
    unfold earthRadius
    rw [div_le_div_iff₀ (by norm_num) (by norm_num)]
    have : (2 : K) ≤ n * (n + 1) := by nlinarith
    norm_num
    linarith
  have hi : (n * (n + 1) / earthRadius ^ 2 : K) ≤ 1 / 2 := by
    unfold earthRadius
    rw [div_le_div_iff₀ (by norm_num) (by norm_num)]
    have : (n : K) * (n + 1) ≤ 1000 * 1001 := mul_le_mul hnK' (by linarith) (by positivity) (by norm_num)
    norm_num
    linarith
  have a0 : (0 : K) ≤ n * (n + 1) / earthRadius ^ 2 := le_trans (by norm_num) lo
  have p1 : (2 : K) ^ (-125 : ℤ) ≤ (n * (n + 1) / earthRadius ^ 2) ^ k := by
    calc (2 : K) ^ (-125 : ℤ) ≤ (1 / 2 ^ 45) ^ 2 := by norm_num
      _ ≤ (n * (n + 1) / earthRadius ^ 2) ^ 2 := pow_le_pow_left₀ (by norm_num) lo 2
      _ ≤ _ := pow_le_pow_of_le_one a0 (hi.trans (by norm_num)) hk
  have p2 : (n * (n + 1) / earthRadius ^ 2 : K) ^ k ≤ 1 := pow_le_one₀ a0 (hi.trans (by norm_num))
  have c0 : 0 < dt * coeff := (two_zpow_pos _).trans_le hc
  obtain ⟨y, hy, hb⟩ := C122_numpy_partial (x := x) (dt := dt) (coeff := coeff) (r := earthRadius) (by unfold earthRadius; norm_num) hk1
    (by omega) p1 hi hc (hc'.trans (by norm_num)) ((mul_le_of_le_one_right c0.le p2).trans hc')
  refine ⟨y, hy, hb.trans (add_le_add (mul_le_mul_of_nonneg_right ?_ (abs_nonneg _)) le_rfl)⟩
  have : (k : K) ≤ 2 := by exact_mod_cast hk
  gcongr
  linarith

/-- Small eigenvalues -/
theorem eig_small {r : K} (hr : 0 < r) {n s : ℕ} (hs : s ≤ 149) (h : (n * (n + 1) / r ^ 2 : K) ≤ 999 / 1000 / 2 ^ s) :
    ∃ l : K, eig r n = some l ∧ 0 ≤ l ∧ l ≤ 2 ^ (-(s : ℤ)) := by
  obtain ⟨b, a⟩ := eig64_near hr n
  obtain ⟨z, hz⟩ : ∃ z, z = Binary64.rnd (Binary64.rnd (Binary64.rnd ((n : K) * Binary64.rnd (1 + (n : K))) / r) / r) := ⟨_, rfl⟩
  have hl : eig r n = fin z := by rw [hz]; rfl
  rw [← hz] at a b
  have e : (2 : K) ^ (-(s : ℤ)) = 1 / 2 ^ s := by rw [zpow_neg, zpow_natCast, one_div]
  have hz1 : z ≤ 2 ^ (-(s : ℤ)) := by
    have h1 : z * (999 / 1000) ≤ z * (1 - 1 / 2 ^ 53) ^ 4 := mul_le_mul_of_nonneg_left (by norm_num) b
    have h2 : z * (999 / 1000) ≤ 2 ^ (-(s : ℤ)) * (999 / 1000) := by
      refine h1.trans (a.2.trans (h.trans_eq ?_))
      rw [e]; ring
    exact le_of_mul_le_mul_right h2 (by norm_num)
  have h3 : rnd z ≤ 2 ^ (-(s : ℤ)) := rnd_le_single (isSingle_two_zpow (by omega)) hz1
  have h4 : rnd z ≤ 1 := h3.trans (zpow_le_one_of_nonpos₀ (by norm_num) (by omega))
  refine ⟨rnd z, ?_, rnd_nonneg b, h3⟩
  rw [hl]
  apply fin_of_lt
  rw [abs_of_nonneg (rnd_nonneg b)]
  exact h4.trans_lt (by norm_num)

theorem earth_le {n N s : ℕ} (hn : n ≤ N) (h : 1000 * (N * (N + 1)) * 2 ^ s ≤ 999 * 6371200 ^ 2) :
    (n * (n + 1) / earthRadius ^ 2 : K) ≤ 999 / 1000 / 2 ^ s := by
  have h1 : n * (n + 1) ≤ N * (N + 1) := Nat.mul_le_mul hn (by omega)
  have h2 : 1000 * (n * (n + 1)) * 2 ^ s ≤ 999 * 6371200 ^ 2 := le_trans (by gcongr) h
  have h3 : (1000 * (n * (n + 1)) * 2 ^ s : K) ≤ 999 * 6371200 ^ 2 := by exact_mod_cast h2
  unfold earthRadius
  rw [div_div, div_le_div_iff₀ (by norm_num) (by positivity)]
  linarith

/-- Diffusion of order 5 and higher does not work on Earth: for the degrees up to 193, which are all degrees of grids with the default
resolution of 2.5° or a resolution of 1°, coefficients are either not changed at all or NaN, for all strengths and time steps. Exact
results can be as close to 0 as one wants. -/
theorem C122_refuted {t : PowTree} (ht : 5 ≤ t.order) {n : ℕ} (hn : n ≤ 193) :
    (∀ dt coeff x : K, IsSingle x → solveDiffusion earthRadius dt coeff t n x = some x ∨ solveDiffusion earthRadius dt coeff t n x = none) ∧
      (1 ≤ n → ∀ ε : K, 0 < ε → ∃ coeff : K, 0 < coeff ∧ diffusionFactor earthRadius 1 coeff t.order n < ε) := by
  constructor
  · intro dt coeff x hx
    obtain ⟨l, hl, l0, l1⟩ := eig_small (r := (earthRadius : K)) (by unfold earthRadius; norm_num) (s := 30) (by norm_num)
      (earth_le hn (by norm_num))
    obtain ⟨e, he, -, -, e0⟩ := PowTree.eval_small l0 l1 (by norm_num) t
    have e0 := e0 (by omega)
    subst e0
    unfold solveDiffusion
    rw [hl, Option.bind_some, he, Option.bind_some]
    cases fin (Binary64.rnd (dt * coeff)) with
    | none => right; rfl
    | some c =>
      left
      rw [Option.map_some]
      congr 1
      unfold divide
      rw [mul_zero, rnd_zero, add_zero, rnd_one, div_one, rnd_one, mul_one, rnd_single hx]
      norm_num
  · intro h1 ε hε
    have hr : (0 : K) < earthRadius := by unfold earthRadius; norm_num
    have hnK : (0 : K) < n := by exact_mod_cast h1
    have ha : (0 : K) < (n * (n + 1) / earthRadius ^ 2) ^ t.order := by positivity
    refine ⟨1 / (ε * (n * (n + 1) / earthRadius ^ 2) ^ t.order), by positivity, ?_⟩
    unfold diffusionFactor
    have e : 1 * (1 / (ε * (n * (n + 1) / earthRadius ^ 2) ^ t.order)) * (n * (n + 1) / earthRadius ^ 2) ^ t.order = 1 / ε := by
      field_simp
    rw [e, div_lt_iff₀ (by positivity), mul_add, mul_one_div_cancel hε.ne']
    linarith

/-- With order 4, steps remove at most half of a coefficient of degree 96 or less, however strong the diffusion, or give NaN. -/
theorem C122_order4_refuted {t : PowTree} (ht : t.order = 4) {n : ℕ} (hn : n ≤ 96) {dt coeff x y : K} (hc : 0 ≤ dt * coeff) (hx : 0 ≤ x)
    (h : solveDiffusion earthRadius dt coeff t n x = some y) : rnd (x / 2) ≤ y := by
  obtain ⟨l, hl, l0, l1⟩ := eig_small (r := (earthRadius : K)) (by unfold earthRadius; norm_num) (s := 32) (by norm_num)
    (earth_le hn (by norm_num))
  obtain ⟨e, he, e0, e1, -⟩ := PowTree.eval_small l0 l1 (by norm_num) t
  unfold solveDiffusion at h
  rw [hl, Option.bind_some, he, Option.bind_some, Option.map_eq_some_iff] at h
  obtain ⟨c, hf, rfl⟩ := h
  have hcr := fin_some hf
  have c0 : 0 ≤ c := by rw [hcr]; exact rnd_nonneg (Binary64.rnd_nonneg hc)
  have c1 : c < 2 ^ 128 := by
    unfold fin at hf
    split_ifs at hf with hlt
    rw [hcr]
    exact (le_abs_self _).trans_lt hlt
  have p0 := mul_nonneg c0 e0
  have p1 : c * e ≤ 1 := by
    rw [ht] at e1
    calc c * e ≤ 2 ^ 128 * 2 ^ (-((32 * 4 : ℕ) : ℤ)) := mul_le_mul c1.le e1 e0 (by norm_num)
      _ = 1 := by norm_num
  have r1 : rnd (c * e) ≤ 1 := rnd_le_single isSingle_one p1
  unfold divide
  rw [if_pos (by rw [abs_of_nonneg (rnd_nonneg p0)]; exact r1.trans_lt (by norm_num))]
  refine rnd_mono ?_
  have d2 : rnd (1 + rnd (c * e)) ≤ 2 := rnd_le_single ⟨1, 1, by norm_num, by norm_num, by norm_num⟩ (by linarith)
  have f : (1 / 2 : K) ≤ rnd (1 / rnd (1 + rnd (c * e))) := by
    refine single_le_rnd ⟨1, -1, by norm_num, by norm_num, by norm_num⟩ ?_
    exact one_div_le_one_div_of_le (by linarith [one_le_den p0]) d2
  calc x / 2 = x * (1 / 2) := by ring
    _ ≤ _ := mul_le_mul_of_nonneg_left f hx

/-! ### Examples -/

example : rnd (1 / 3 : ℚ) = 11184811 / 2 ^ 25 := by decide +kernel

example : powTree 5 = .mul (.mul .zero .one) (.mul (.mul .one .one) (.mul .one .one)) := by simp [powTree, powLoop]

/-- The default model on Earth with a time step of 10 minutes -/
example : solveDiffusion earthRadius 600 (10 ^ 15) (powTree 2) 72 (1 : ℚ) = some (16610127 / 2 ^ 24) := by decide +kernel
example : solveDiffusion earthRadius 600 (10 ^ 15) (powTree 2) 36 (1 : ℚ) = some (16766383 / 2 ^ 24) := by decide +kernel
example : solveDiffusion earthRadius 600 (10 ^ 15) (powTree 2) 0 (1 : ℚ) = some 1 := by decide +kernel
example : ∃ y : ℚ, solveDiffusion earthRadius 600 (10 ^ 15) (powTree 2) 72 1 = some y ∧
    |y - diffusionFactor earthRadius 600 (10 ^ 15) 2 72 * 1| ≤
      5 / 2 ^ 22 * |diffusionFactor earthRadius 600 (10 ^ 15) 2 72 * 1| + 2 ^ (-150 : ℤ) :=
  C122_earth (by norm_num) le_rfl (by norm_num) (by norm_num) (by norm_num) (by norm_num)

/-- Order 5: nothing happens with a time step of 10 minutes up to coefficients of about `5 * 10 ^ 35`, then coefficients become NaN. The exact
factor is 1/2 for a coefficient of about `4 * 10 ^ 46`. -/
example : solveDiffusion earthRadius 600 (10 ^ 35) (.mul (.mul .zero .one) (.mul (.mul .one .one) (.mul .one .one))) 72 (1 : ℚ) = some 1 := by
  decide +kernel
example : solveDiffusion earthRadius 600 (10 ^ 36) (.mul (.mul .zero .one) (.mul (.mul .one .one) (.mul .one .one))) 72 (1 : ℚ) = none := by
  decide +kernel
example : 9 / 20 < (diffusionFactor earthRadius 600 (4 * 10 ^ 46) 5 72 : ℚ) ∧ (diffusionFactor earthRadius 600 (4 * 10 ^ 46) 5 72 : ℚ) < 11 / 20 := by
  unfold diffusionFactor earthRadius
  norm_num

/-- Order 4: less than a tenth of the coefficient is removed by the strongest possible diffusion. -/
example : solveDiffusion earthRadius 1 (3 * 10 ^ 38) (.mul .zero (.mul (.mul .one .one) (.mul .one .one))) 72 (1 : ℚ) = some (7736227 / 2 ^ 23) := by
  decide +kernel

end Barotropic
