import Verif.Lemmas.Binary64Interp

set_option linter.unusedSectionVars false

/-!
# C134: contour areas, equivalent latitudes and interpolated profiles in double precision
-/

namespace Barotropic
open Binary64

variable {K : Type*} [Field K] [LinearOrder K] [IsStrictOrderedRing K] [FloorRing K]

/-- The domain `field - thresh >= 0` is the domain `field >= thresh`: subtraction does not move a point across a contour. -/
theorem C134_domain (f q : K) : 0 ≤ rnd (f - q) ↔ q ≤ f := by rw [rnd_nonneg_iff, sub_nonneg]

/-- A sum of non-negative terms in any order: the relative error is at most that of as many roundings as the longest chain of additions. -/
theorem C134_sum {n : ℕ} {t : SumTree} (ht : t.Sums n) {f : ℕ → K} (hf : ∀ i, 0 ≤ f i) :
    (∑ i ∈ Finset.range n, f i) * (1 - 1 / 2 ^ 53) ^ t.depth ≤ t.eval f ∧
      t.eval f ≤ (∑ i ∈ Finset.range n, f i) * (1 + 1 / 2 ^ 53) ^ t.depth := by
  have := SumTree.eval_near hf (fun i => Near.refl (f i)) t
  rw [SumTree.total_sums ht, Nat.zero_add] at this
  exact this

theorem boxLine_antitone {t : SumTree} {r dlam : K} (hr : 0 < r) (hd : 0 < dlam) {a f : ℕ → K} (ha : ∀ j, 0 ≤ a j) {q q' : K} (h : q ≤ q') :
    boxLine t r dlam a f q' ≤ boxLine t r dlam a f q := by
  unfold boxLine
  refine rnd_mono (div_le_div_of_nonneg_right (rnd_mono (div_le_div_of_nonneg_right (SumTree.eval_mono (fun j => ?_) t) hr.le)) hd.le)
  simp only [C134_domain]
  split_ifs with h1 h2 h2
  · exact le_rfl
  · exact absurd (h.trans h1) h2
  · exact rnd_nonneg (by rw [mul_one]; exact ha j)
  · exact le_rfl

theorem boxArea_near {h w : ℕ} {t s : SumTree} (ht : t.Sums h) (hs : s.Sums w) {r dlam : K} (hr : 0 < r) (hd : 0 < dlam)
    {a : ℕ → K} (ha : ∀ j, 0 ≤ a j) (had : ∀ j, IsDouble (a j)) (f : ℕ → ℕ → K) (q : K) :
    Near (t.depth + s.depth + 4) (areaAbove h w a f q) (boxArea t s r dlam a f q) := by
  have h0 : ∀ i j, 0 ≤ (if q ≤ f j i then a j else 0) := fun i j => by split_ifs; exacts [ha j, le_rfl]
  have hline : ∀ i, Near (t.depth + 2) ((∑ j ∈ Finset.range h, if q ≤ f j i then a j else 0) / r / dlam)
      (boxLine t r dlam a (fun j => f j i) q) := by
    intro i
    have e : t.eval (fun j => if 0 ≤ rnd (f j i - q) then rnd (a j * 1) else 0) = t.eval (fun j => if q ≤ f j i then a j else 0) := by
      congr 1; funext j
      simp only [C134_domain, mul_one, rnd_double (had j)]
    have hp : 0 ≤ ∑ j ∈ Finset.range h, (if q ≤ f j i then a j else 0) := Finset.sum_nonneg fun j _ => h0 i j
    unfold boxLine
    rw [e]
    have hn : Near t.depth _ _ := C134_sum ht (h0 i)
    exact ((hn.div hr).rnd (div_nonneg hp hr.le) |>.div hd).rnd
      (div_nonneg (div_nonneg hp hr.le) hd.le)
  have hp : ∀ i, 0 ≤ (∑ j ∈ Finset.range h, if q ≤ f j i then a j else 0) / r / dlam := fun i =>
    div_nonneg (div_nonneg (Finset.sum_nonneg fun j _ => h0 i j) hr.le) hd.le
  have hsum := SumTree.eval_near hp hline s
  rw [SumTree.total_sums hs] at hsum
  have hrd : 0 ≤ r * dlam := (mul_pos hr hd).le
  have hs0 : 0 ≤ ∑ i ∈ Finset.range w, (∑ j ∈ Finset.range h, if q ≤ f j i then a j else 0) / r / dlam := Finset.sum_nonneg fun i _ => hp i
  have := (((Near.refl (r * dlam)).rnd hrd).mul hrd hs0 hsum).rnd (mul_nonneg hrd hs0)
  have e1 : r * dlam * ∑ i ∈ Finset.range w, (∑ j ∈ Finset.range h, if q ≤ f j i then a j else 0) / r / dlam = areaAbove h w a f q := by
    unfold areaAbove
    rw [Finset.mul_sum]
    refine Finset.sum_congr rfl fun i _ => ?_
    field_simp
  rw [e1] at this
  unfold boxArea
  exact this.mono (Finset.sum_nonneg fun i _ => Finset.sum_nonneg fun j _ => h0 i j) (by omega)

/-- Contour areas are never negative and never grow with the threshold, whatever the rounding and the order of summation. -/
theorem C134_area_monotone (t s : SumTree) {r dlam : K} (hr : 0 < r) (hd : 0 < dlam) {a : ℕ → K} (ha : ∀ j, 0 ≤ a j) (f : ℕ → ℕ → K)
    {q q' : K} (h : q ≤ q') : 0 ≤ boxArea t s r dlam a f q' ∧ boxArea t s r dlam a f q' ≤ boxArea t s r dlam a f q := by
  have hrd : 0 ≤ rnd (r * dlam) := rnd_nonneg (mul_pos hr hd).le
  constructor
  · refine rnd_nonneg (mul_nonneg hrd (SumTree.eval_nonneg (fun i => ?_) s))
    refine rnd_nonneg (div_nonneg (rnd_nonneg (div_nonneg (SumTree.eval_nonneg (fun j => ?_) t) hr.le)) hd.le)
    split_ifs
    · exact rnd_nonneg (by rw [mul_one]; exact ha j)
    · exact le_rfl
  · exact rnd_mono (mul_le_mul_of_nonneg_left (SumTree.eval_mono (fun i => boxLine_antitone hr hd ha h) s) hrd)

/-- Contour areas are accurate to the number of roundings on the way. -/
theorem C134_area {h w : ℕ} {t s : SumTree} (ht : t.Sums h) (hs : s.Sums w) {r dlam : K} (hr : 0 < r) (hd : 0 < dlam)
    {a : ℕ → K} (ha : ∀ j, 0 ≤ a j) (had : ∀ j, IsDouble (a j)) (f : ℕ → ℕ → K) (q : K) :
    areaAbove h w a f q * (1 - 1 / 2 ^ 53) ^ (t.depth + s.depth + 4) ≤ boxArea t s r dlam a f q ∧
      boxArea t s r dlam a f q ≤ areaAbove h w a f q * (1 + 1 / 2 ^ 53) ^ (t.depth + s.depth + 4) :=
  boxArea_near ht hs hr hd ha had f q

theorem clip_eq (s : K) : (if (if 1 ≤ s then 1 else s) ≤ -1 then -1 else if 1 ≤ s then 1 else s) = max (-1) (min 1 s) := by
  by_cases h1 : 1 ≤ s
  · rw [if_pos h1, if_neg (by linarith), min_eq_left h1, max_eq_right (by linarith)]
  · rw [if_neg h1, min_eq_right (not_le.1 h1).le]
    by_cases h2 : s ≤ -1
    · rw [if_pos h2, max_eq_left h2]
    · rw [if_neg h2, max_eq_right (not_le.1 h2).le]

theorem sineOf_eq (p r area : K) : sineOf p r area = max (-1) (min 1 (rnd (1 - rnd (rnd (rnd (1 / 2 * area) / p) / rnd (r ^ 2))))) :=
  clip_eq _

/-- The argument of `arcsin` is in its domain and does not grow with the area. -/
theorem C134_sine_monotone {p r : K} (hp : 0 < p) (hr : 0 < r) {A A' : K} (h : A ≤ A') :
    -1 ≤ sineOf p r A' ∧ sineOf p r A' ≤ sineOf p r A ∧ sineOf p r A ≤ 1 := by
  simp only [sineOf_eq]
  refine ⟨le_max_left _ _, max_le_max le_rfl (min_le_min le_rfl (rnd_mono (sub_le_sub_left (rnd_mono ?_) 1))),
    max_le (by norm_num) (min_le_left _ _)⟩
  exact div_le_div_of_nonneg_right (rnd_mono (div_le_div_of_nonneg_right (rnd_mono (by linarith)) hp.le))
    (rnd_nonneg (by positivity))

theorem rad2deg_quarter : Binary64.rad2deg (pi64 : K) (rnd (pi64 / 2)) = 90 := by
  have h : (Binary64.rad2deg pi64 (rnd (pi64 / 2)) : ℚ) = 90 := by decide +kernel
  have h2 : ((Binary64.rad2deg pi64 (rnd (pi64 / 2)) : ℚ) : K) = 90 := by rw [h]; norm_num
  rw [← h2]
  unfold Binary64.rad2deg pi64
  rw [← rnd_cast]
  push_cast
  rw [← rnd_cast, ← rnd_cast]
  push_cast
  rfl

/-- Equivalent latitudes are between the poles and do not grow with the area, for every `np.arcsin` that does not decrease and is
a right angle at ±1. -/
theorem C134_latitude {r : K} (hr : 0 < r) {asin : K → K} (hm : ∀ s s', -1 ≤ s → s ≤ s' → s' ≤ 1 → asin s ≤ asin s')
    (h1 : asin 1 = rnd (pi64 / 2)) (h2 : asin (-1) = -rnd (pi64 / 2)) {A A' : K} (h : A ≤ A') :
    -90 ≤ equivalentLatitude pi64 r asin A' ∧ equivalentLatitude pi64 r asin A' ≤ equivalentLatitude pi64 r asin A ∧
      equivalentLatitude pi64 r asin A ≤ 90 := by
  have hpi : (0 : K) < pi64 := by unfold pi64; positivity
  have hq : (0 : K) ≤ rnd (180 / pi64) := rnd_nonneg (div_nonneg (by norm_num) hpi.le)
  have hmono : ∀ {x y : K}, x ≤ y → Binary64.rad2deg pi64 x ≤ Binary64.rad2deg pi64 y := fun hxy => rnd_mono (mul_le_mul_of_nonneg_right hxy hq)
  obtain ⟨s1, s2, s3⟩ := C134_sine_monotone hpi hr h
  have hneg : Binary64.rad2deg (pi64 : K) (-rnd (pi64 / 2)) = -90 := by
    rw [← rad2deg_quarter]; unfold Binary64.rad2deg; rw [neg_mul, rnd_neg]
  refine ⟨?_, hmono (hm _ _ s1 s2 s3), ?_⟩
  · rw [← hneg, ← h2]; exact hmono (hm _ _ le_rfl s1 (s2.trans s3))
  · rw [← rad2deg_quarter, ← h1]; exact hmono (hm _ _ (s1.trans s2) s3 le_rfl)

/-- Contour latitudes do not decrease with the threshold. -/
theorem C134_contours (t s : SumTree) {r dlam : K} (hr : 0 < r) (hd : 0 < dlam) {asin : K → K}
    (hm : ∀ s s', -1 ≤ s → s ≤ s' → s' ≤ 1 → asin s ≤ asin s') (h1 : asin 1 = rnd (pi64 / 2)) (h2 : asin (-1) = -rnd (pi64 / 2))
    {a : ℕ → K} (ha : ∀ j, 0 ≤ a j) (nlon w : ℕ) (f : ℕ → ℕ → K) {q q' : K} (h : q ≤ q') :
    -90 ≤ contourLatitude t s pi64 r dlam asin a nlon w f q ∧
      contourLatitude t s pi64 r dlam asin a nlon w f q ≤ contourLatitude t s pi64 r dlam asin a nlon w f q' ∧
      contourLatitude t s pi64 r dlam asin a nlon w f q' ≤ 90 :=
  C134_latitude hr hm h1 h2 (rnd_mono (mul_le_mul_of_nonneg_right (C134_area_monotone t s hr hd ha f h).2
    (rnd_nonneg (div_nonneg (Nat.cast_nonneg _) (Nat.cast_nonneg _)))))

theorem Binary64.Near.div_rnd {k : ℕ} {x y c : K} (hx : 0 ≤ x) (hc : 0 < c) (h : Near k x y) : Near (k + 2) (x / c) (y / Binary64.rnd c) := by
  obtain ⟨e, he, hr⟩ := rnd_factor c
  obtain ⟨e1, e2⟩ := abs_le.1 he
  obtain ⟨u, hu⟩ : ∃ u : K, u = 1 / 2 ^ 53 := ⟨_, rfl⟩
  have hu1 : u ≤ 1 / 1000 := by rw [hu]; norm_num
  have hu0 : 0 < u := by rw [hu]; positivity
  unfold Near at *
  rw [← hu] at h e1 e2 ⊢
  have hpos : 0 < 1 + e := by linarith
  have hy : 0 ≤ y := le_trans (mul_nonneg hx (pow_nonneg (by linarith) k)) h.1
  have u2 : u * u ≤ u * (1 / 1000) := mul_le_mul_of_nonneg_left hu1 hu0.le
  have u3 : u * u * u ≤ u * (1 / 1000) := by
    calc u * u * u ≤ u * u * 1 := mul_le_mul_of_nonneg_left (by linarith) (by positivity)
      _ ≤ _ := by linarith
  have l1 : (1 - u) ^ 2 * (1 + e) ≤ 1 := by
    calc (1 - u) ^ 2 * (1 + e) ≤ (1 - u) ^ 2 * (1 + u) := mul_le_mul_of_nonneg_left (by linarith) (by positivity)
      _ = 1 - u - u * u + u * u * u := by ring
      _ ≤ 1 := by nlinarith [mul_pos hu0 hu0]
  have l2 : 1 ≤ (1 + u) ^ 2 * (1 + e) := by
    calc (1 : K) ≤ 1 + u - u * u - u * u * u := by linarith
      _ = (1 + u) ^ 2 * (1 - u) := by ring
      _ ≤ _ := mul_le_mul_of_nonneg_left (by linarith) (by positivity)
  rw [hr]
  constructor
  · rw [le_div_iff₀ (mul_pos hc hpos)]
    calc x / c * (1 - u) ^ (k + 2) * (c * (1 + e)) = x * (1 - u) ^ k * ((1 - u) ^ 2 * (1 + e)) := by rw [pow_add]; field_simp
      _ ≤ x * (1 - u) ^ k * 1 := mul_le_mul_of_nonneg_left l1 (mul_nonneg hx (pow_nonneg (by linarith) k))
      _ ≤ y := by linarith [h.1]
  · rw [div_le_iff₀ (mul_pos hc hpos)]
    calc y ≤ x * (1 + u) ^ k * 1 := by linarith [h.2]
      _ ≤ x * (1 + u) ^ k * ((1 + u) ^ 2 * (1 + e)) := mul_le_mul_of_nonneg_left l2 (mul_nonneg hx (pow_nonneg (by linarith) k))
      _ = x / c * (1 + u) ^ (k + 2) * (c * (1 + e)) := by rw [pow_add]; field_simp

theorem bernoulli_sym (m : ℕ) {u : K} (h0 : 0 ≤ u) (h1 : u ≤ 1) : 1 - (1 - u) ^ m ≤ (1 + u) ^ m - 1 := by
  have a := one_add_mul_le_pow (a := u) (by linarith) m
  have b := one_add_mul_le_pow (a := -u) (by linarith) m
  have : 1 + -u = 1 - u := by ring
  rw [this] at b
  linarith

/-- The sine of the equivalent latitude of a contour is accurate. `areaAbove … * (nlon / w)` is the area without rounding. -/
theorem C134_sine {h w nlon : ℕ} {t s : SumTree} (ht : t.Sums h) (hs : s.Sums w) {p r dlam : K} (hp : 0 < p) (hr : 0 < r)
    (hd : 0 < dlam) {a : ℕ → K} (ha : ∀ j, 0 ≤ a j) (had : ∀ j, IsDouble (a j)) (f : ℕ → ℕ → K) (q : K) {B m : _}
    (hB : B = areaAbove h w a f q * (nlon / w) / (2 * p * r ^ 2)) (hm : m = t.depth + s.depth + 11) :
    |sineOf p r (rnd (boxArea t s r dlam a f q * rnd ((nlon : K) / (w : K)))) - max (-1) (min 1 (1 - B))| ≤
      B * ((1 + 1 / 2 ^ 53) ^ m - 1) + (1 + B * (1 + 1 / 2 ^ 53) ^ m) / 2 ^ 53 := by
  have hA : 0 ≤ areaAbove h w a f q := Finset.sum_nonneg fun i _ => Finset.sum_nonneg fun j _ => by split_ifs; exacts [ha j, le_rfl]
  have hn : (0 : K) ≤ nlon / w := div_nonneg (Nat.cast_nonneg _) (Nat.cast_nonneg _)
  have k1 := ((boxArea_near ht hs hr hd ha had f q).mul hA hn ((Near.refl _).rnd hn)).rnd (mul_nonneg hA hn)
  have hAn := mul_nonneg hA hn
  have k2 := ((Near.refl (1 / 2 : K)).mul (by norm_num) hAn k1).rnd (mul_nonneg (by norm_num) hAn)
  have h2 : (0 : K) ≤ 1 / 2 * (areaAbove h w a f q * (nlon / w)) := mul_nonneg (by norm_num) hAn
  have k3 := (k2.div hp).rnd (div_nonneg h2 hp.le)
  have h3 := div_nonneg h2 hp.le
  have k4 := (Binary64.Near.div_rnd h3 (show 0 < r ^ 2 by positivity) k3).rnd (div_nonneg h3 (by positivity))
  have e : 1 / 2 * (areaAbove h w a f q * (nlon / w)) / p / r ^ 2 = B := by rw [hB]; field_simp
  rw [e] at k4
  have hB0 : 0 ≤ B := by rw [← e]; exact div_nonneg h3 (by positivity)
  have k5 := k4.mono hB0 (show _ ≤ m by rw [hm]; omega)
  rw [sineOf_eq]
  generalize rnd (rnd (rnd (1 / 2 * rnd (boxArea t s r dlam a f q * rnd ((nlon : K) / (w : K)))) / p) / rnd (r ^ 2)) = B' at k5
  have hB' := k5.nonneg hB0
  have hlip : ∀ x y : K, |max (-1) (min 1 x) - max (-1) (min 1 y)| ≤ |x - y| := by
    intro x y
    refine (abs_max_sub_max_le_max _ _ _ _).trans ?_
    refine max_le (by simp) ((abs_min_sub_min_le_max _ _ _ _).trans (max_le (by simp) le_rfl))
  refine (hlip _ _).trans ?_
  have r1 := rnd_rel (1 - B')
  have d1 : |B - B'| ≤ B * ((1 + 1 / 2 ^ 53) ^ m - 1) := by
    have hb := mul_le_mul_of_nonneg_left (bernoulli_sym m (u_pos (K := K)).le (u_lt (K := K)).le) hB0
    rw [abs_le]
    constructor
    · linarith [k5.2]
    · linarith [k5.1]
  have d2 : |1 - B'| ≤ 1 + B * (1 + 1 / 2 ^ 53) ^ m := by
    rw [abs_le]
    have := k5.2
    constructor <;> linarith
  calc |rnd (1 - B') - (1 - B)| = |(B - B') - ((1 - B') - rnd (1 - B'))| := by congr 1; ring
    _ ≤ |B - B'| + |(1 - B') - rnd (1 - B')| := abs_sub _ _
    _ ≤ _ := add_le_add d1 (r1.trans (div_le_div_of_nonneg_right d2 (by positivity)))

/-- Automatic contour levels do not decrease, for every `np.sin` that does not decrease between `-π/2` and `π/2`. -/
theorem C134_levels {p : K} (hp : 0 ≤ p) {sin : K → K} (hm : ∀ x y, -rnd (1 / 2 * p) ≤ x → x ≤ y → y ≤ rnd (1 / 2 * p) → sin x ≤ sin y)
    {lo hi : K} (h : lo ≤ hi) {n k k' : ℕ} (hk : k ≤ k') (hn : k' < n) (hn' : n ≤ 2 ^ 53) :
    contourLevel p sin lo hi n k ≤ contourLevel p sin lo hi n k' := by
  have hq : 0 ≤ rnd (1 / 2 * p) := rnd_nonneg (by positivity)
  have hstep : (0 : K) ≤ rnd (rnd (1 - -1) / ((n + 2 - 1 : ℕ) : K)) :=
    rnd_nonneg (div_nonneg (rnd_nonneg (by norm_num)) (Nat.cast_nonneg _))
  have hd1 : IsDouble (-1 : K) := by have := isDouble_int (K := K) (n := -1) (by norm_num); simpa using this
  have hd2 : IsDouble (2 : K) := by have := isDouble_int (K := K) (n := 2) (by norm_num); simpa using this
  have hd1' : IsDouble (1 : K) := by have := isDouble_int (K := K) (n := 1) (by norm_num); simpa using this
  have r2 : rnd ((1 : K) - -1) = 2 := by rw [show (1 : K) - -1 = 2 by norm_num, rnd_double hd2]
  have hle : ∀ {i : ℕ}, i < n + 1 → Binary64.linspace (-1 : K) 1 (n + 2) i = rnd (rnd (i * rnd (rnd (1 - -1) / ((n + 2 - 1 : ℕ) : K))) + -1) := by
    intro i hi
    unfold Binary64.linspace
    rw [if_neg (by omega)]
  have hlo : (-1 : K) ≤ Binary64.linspace (-1) 1 (n + 2) (k + 1) := by
    rw [hle (by omega)]
    conv_lhs => rw [← rnd_double hd1]
    exact rnd_mono (le_add_of_nonneg_left (rnd_nonneg (mul_nonneg (Nat.cast_nonneg _) hstep)))
  have hmono : Binary64.linspace (-1 : K) 1 (n + 2) (k + 1) ≤ Binary64.linspace (-1) 1 (n + 2) (k' + 1) := by
    rw [hle (by omega), hle (by omega)]
    refine rnd_mono (add_le_add_left (rnd_mono (mul_le_mul_of_nonneg_right ?_ hstep)) _)
    exact_mod_cast Nat.add_le_add_right hk 1
  have hup : Binary64.linspace (-1 : K) 1 (n + 2) (k' + 1) ≤ 1 := by
    rw [hle (by omega)]
    conv_rhs => rw [← rnd_double hd1']
    refine rnd_mono ?_
    have hn1 : (0 : K) < ((n + 2 - 1 : ℕ) : K) := by exact_mod_cast (by omega : 0 < n + 2 - 1)
    have hn2 : ((n + 2 - 1 : ℕ) : K) = n + 1 := by push_cast [show n + 2 - 1 = n + 1 by omega]; ring
    rw [r2, hn2]
    obtain ⟨e, he, hr⟩ := rnd_factor ((2 : K) / (n + 1))
    have e2 := (abs_le.1 he).2
    have hnn : (n : K) ≤ 2 ^ 53 := by exact_mod_cast hn'
    have hkn : ((k' + 1 : ℕ) : K) ≤ n := by exact_mod_cast hn
    have hs0 : (0 : K) ≤ 2 / (n + 1) * (1 + e) := by rw [← hr]; exact rnd_nonneg (by positivity)
    have h2 : rnd (((k' + 1 : ℕ) : K) * rnd (2 / ((n : K) + 1))) ≤ 2 := by
      conv_rhs => rw [← rnd_double hd2]
      refine rnd_mono ?_
      rw [hr]
      calc ((k' + 1 : ℕ) : K) * (2 / (n + 1) * (1 + e)) ≤ n * (2 / (n + 1) * (1 + e)) := mul_le_mul_of_nonneg_right hkn hs0
        _ = 2 * (n * (1 + e) / (n + 1)) := by ring
        _ ≤ 2 * 1 := by
            refine mul_le_mul_of_nonneg_left ?_ (by norm_num)
            rw [div_le_one (by positivity)]
            have : (n : K) * e ≤ n * (1 / 2 ^ 53) := mul_le_mul_of_nonneg_left e2 (Nat.cast_nonneg _)
            have h3 : (n : K) * (1 / 2 ^ 53) ≤ 1 := by rw [mul_one_div, div_le_one (by positivity)]; exact hnn
            linarith [mul_add (n : K) 1 e]
        _ = 2 := by ring
    have h3 : (2 : K) + -1 = 1 := by norm_num
    calc rnd (((k' + 1 : ℕ) : K) * rnd (2 / ((n : K) + 1))) + -1 ≤ 2 + -1 := add_le_add_left h2 _
      _ = 1 := h3
  have hb : ∀ {x : K}, -1 ≤ x → -rnd (1 / 2 * p) ≤ rnd (rnd (1 / 2 * p) * x) := by
    intro x hx
    have : -rnd (1 / 2 * p) = rnd (-rnd (1 / 2 * p)) := by rw [rnd_neg, rnd_double (rnd_isDouble _)]
    rw [this]
    refine rnd_mono ?_
    have := mul_le_mul_of_nonneg_left hx hq
    linarith
  have hb' : ∀ {x : K}, x ≤ 1 → rnd (rnd (1 / 2 * p) * x) ≤ rnd (1 / 2 * p) := by
    intro x hx
    conv_rhs => rw [← rnd_double (rnd_isDouble (1 / 2 * p))]
    refine rnd_mono ?_
    have := mul_le_mul_of_nonneg_left hx hq
    linarith
  unfold contourLevel
  refine rnd_mono (mul_le_mul_of_nonneg_left (rnd_mono (add_le_add_left (rnd_mono (add_le_add_left (rnd_mono
    (mul_le_mul_of_nonneg_left (hm _ _ (hb hlo) (rnd_mono (mul_le_mul_of_nonneg_left hmono hq)) (hb' hup))
      (rnd_nonneg (sub_nonneg.2 h)))) _)) _)) (by norm_num))

/-! ### Interpolation -/

/-- One cell: the interpolated value does not decrease with latitude, is not below the lower value, and differs from the line by at most
`2⁻⁵⁰` of the size of the values. -/
theorem C134_cell {x0 x1 x x' y0 y1 : K} (h : x0 < x1) (h0 : x0 ≤ x) (hx : x ≤ x') (h1 : x' ≤ x1) (hy : y0 ≤ y1) (hd : IsDouble y0) :
    y0 ≤ Binary64.lerp x0 x1 x y0 y1 ∧ Binary64.lerp x0 x1 x y0 y1 ≤ Binary64.lerp x0 x1 x' y0 y1 ∧
      |Binary64.lerp x0 x1 x' y0 y1 - line x0 x1 x' y0 y1| ≤ (|y0| + |y1 - y0|) / 2 ^ 50 :=
  ⟨lerp_lower h hy h0 hd, lerp_mono h hy hx, lerp_close (h0.trans hx) h1 h⟩

theorem Binary64.OnPolygon.cons {x v : K} {l : List (K × K)} (a : K × K) (h : OnPolygon x l v) : OnPolygon x (a :: l) v := by
  cases h with
  | knot hm hx => exact .knot (List.mem_cons_of_mem _ hm) hx
  | cell h1 h2 =>
    rename_i pre post c d
    exact .cell (pre := a :: pre) h1 h2

/-- Every interpolated value is within `3·2⁻⁵⁰` times the largest value of the polygon through the knots. -/
theorem C134_polygon {a : K × K} {l : List (K × K)} {x B : K} (hs : (a :: l).Pairwise fun p q => p.1 ≤ q.1) (h0 : a.1 ≤ x)
    (h1 : ∃ b ∈ a :: l, x ≤ b.1) (hB : ∀ p ∈ a :: l, |p.2| ≤ B) :
    ∃ v, OnPolygon x (a :: l) v ∧ |Binary64.npInterp a l x - v| ≤ 3 * B / 2 ^ 50 := by
  have hB0 : 0 ≤ B := (abs_nonneg _).trans (hB a (by simp))
  have hB3 : 0 ≤ 3 * B / 2 ^ 50 := by positivity
  induction l generalizing a with
  | nil =>
    obtain ⟨b, hb, hbx⟩ := h1
    rw [List.mem_singleton.1 hb] at hbx
    exact ⟨a.2, .knot (by simp) (le_antisymm h0 hbx), by simpa [Binary64.npInterp] using hB3⟩
  | cons b l ih =>
    unfold Binary64.npInterp
    have hs' := List.pairwise_cons.1 hs
    split_ifs with hb ha
    · obtain ⟨c, hc, hcx⟩ := h1
      obtain ⟨v, hv, he⟩ := ih hs'.2 hb
        (by
          rcases List.mem_cons.1 hc with rfl | hc
          · exact ⟨b, by simp, hcx.trans (hs'.1 b (by simp))⟩
          · exact ⟨c, hc, hcx⟩) (fun p hp => hB p (List.mem_cons_of_mem _ hp))
      exact ⟨v, hv.cons a, he⟩
    · exact ⟨a.2, .knot (by simp) ha, by simpa using hB3⟩
    · have hax : a.1 < x := lt_of_le_of_ne h0 ha
      have hxb : x < b.1 := not_le.1 hb
      refine ⟨line a.1 b.1 x a.2 b.2, .cell (pre := []) hax hxb, (lerp_close hax.le hxb.le (hax.trans hxb)).trans ?_⟩
      refine div_le_div_of_nonneg_right ?_ (by positivity)
      have b1 := hB a (by simp)
      have b2 := hB b (by simp)
      have := abs_sub b.2 a.2
      linarith

theorem npInterp_lower {a : K × K} {l : List (K × K)} {x : K} (hs : (a :: l).Pairwise fun p q => p.1 ≤ q.1 ∧ p.2 ≤ q.2)
    (hd : ∀ p ∈ a :: l, IsDouble p.2) (h0 : a.1 ≤ x) : a.2 ≤ Binary64.npInterp a l x := by
  induction l generalizing a with
  | nil => exact le_rfl
  | cons b l ih =>
    unfold Binary64.npInterp
    have hs' := List.pairwise_cons.1 hs
    split_ifs with hb ha
    · exact ((hs'.1 b (by simp)).2).trans (ih hs'.2 (fun p hp => hd p (List.mem_cons_of_mem _ hp)) hb)
    · exact le_rfl
    · exact lerp_lower (lt_of_le_of_lt h0 (not_le.1 hb)) (hs'.1 b (by simp)).2 h0 (hd a (by simp))

theorem line_le {x0 x1 x y0 y1 : K} (h0 : x0 ≤ x) (h1 : x ≤ x1) (hy : y0 ≤ y1) : line x0 x1 x y0 y1 ≤ y1 := by
  unfold line
  have : (x - x0) / (x1 - x0) ≤ 1 := div_le_one_of_le₀ (by linarith) (by linarith)
  have := mul_le_mul_of_nonneg_right this (sub_nonneg.2 hy)
  linarith

/-- A profile through knots whose latitudes and values do not decrease: values at increasing latitudes do not decrease by more than
`3·2⁻⁵⁰` times the largest value. -/
theorem C134_monotone {a : K × K} {l : List (K × K)} {x x' B : K} (hs : (a :: l).Pairwise fun p q => p.1 ≤ q.1 ∧ p.2 ≤ q.2)
    (hd : ∀ p ∈ a :: l, IsDouble p.2) (hB : ∀ p ∈ a :: l, |p.2| ≤ B) (h0 : a.1 ≤ x) (hx : x ≤ x') :
    a.2 ≤ Binary64.npInterp a l x ∧ Binary64.npInterp a l x ≤ Binary64.npInterp a l x' + 3 * B / 2 ^ 50 := by
  refine ⟨npInterp_lower hs hd h0, ?_⟩
  have hB0 : 0 ≤ B := (abs_nonneg _).trans (hB a (by simp))
  have hB3 : 0 ≤ 3 * B / 2 ^ 50 := by positivity
  induction l generalizing a with
  | nil => simpa [Binary64.npInterp] using hB3
  | cons b l ih =>
    have hs' := List.pairwise_cons.1 hs
    have hd' : ∀ p ∈ b :: l, IsDouble p.2 := fun p hp => hd p (List.mem_cons_of_mem _ hp)
    have hab := (hs'.1 b (by simp)).2
    by_cases hb : b.1 ≤ x
    · have e : ∀ {z}, b.1 ≤ z → Binary64.npInterp a (b :: l) z = Binary64.npInterp b l z := fun hz => by
        rw [Binary64.npInterp, if_pos hz]
      rw [e hb, e (hb.trans hx)]
      exact ih hs'.2 hd' (fun p hp => hB p (List.mem_cons_of_mem _ hp)) hb
    · have hxb := not_le.1 hb
      have hlt : a.1 < b.1 := lt_of_le_of_lt h0 hxb
      by_cases hb' : b.1 ≤ x'
      · have h2 : b.2 ≤ Binary64.npInterp a (b :: l) x' := by
          rw [Binary64.npInterp, if_pos hb']; exact npInterp_lower hs'.2 hd' hb'
        have h1 : Binary64.npInterp a (b :: l) x ≤ b.2 + 3 * B / 2 ^ 50 := by
          rw [Binary64.npInterp, if_neg hb]
          split_ifs
          · linarith
          · have hc := (abs_le.1 (lerp_close (y0 := a.2) (y1 := b.2) h0 hxb.le hlt)).2
            have hl := line_le (y0 := a.2) (y1 := b.2) h0 hxb.le hab
            have : (|a.2| + |b.2 - a.2|) / 2 ^ 50 ≤ 3 * B / 2 ^ 50 := by
              refine div_le_div_of_nonneg_right ?_ (by positivity)
              have b1 := hB a (by simp)
              have b2 := hB b (by simp)
              have := abs_sub b.2 a.2
              linarith
            linarith
        linarith
      · rw [Binary64.npInterp, if_neg hb, Binary64.npInterp, if_neg hb']
        split_ifs with h1 h2 h2
        · linarith
        · have := lerp_lower (x := x') hlt hab (h0.trans hx) (hd a (by simp))
          linarith
        · exact absurd (le_antisymm h0 (h2 ▸ hx)) h1
        · have := lerp_mono hlt hab hx
          linarith

/-- Zonalization with `boxcount` and ascending levels between the minimum `lo` and the maximum `hi` of the field, no contour of which is
at a pole: the profile is not below the minimum, exact at the poles, exceeds the maximum by at most `3·2⁻⁵⁰` times the largest
value and does not decrease by more than that from south to north. -/
theorem C134_zonalize (t s : SumTree) {r dlam : K} (hr : 0 < r) (hdl : 0 < dlam) {asin : K → K}
    (hm : ∀ s s', -1 ≤ s → s ≤ s' → s' ≤ 1 → asin s ≤ asin s') (h1 : asin 1 = rnd (pi64 / 2)) (h2 : asin (-1) = -rnd (pi64 / 2))
    {a : ℕ → K} (ha : ∀ j, 0 ≤ a j) (nlon w : ℕ) (f : ℕ → ℕ → K) {lo hi B : K} (hB : |lo| ≤ B ∧ |hi| ≤ B) (hlh : lo ≤ hi) {levels : List K}
    (hl : levels.Pairwise (· ≤ ·)) (hin : ∀ q ∈ levels, lo ≤ q ∧ q ≤ hi) (hdlo : IsDouble lo) (hdhi : IsDouble hi)
    (hdq : ∀ q ∈ levels, IsDouble q)
    (hpole : ∀ q ∈ levels, |contourLatitude t s pi64 r dlam asin a nlon w f q| ≠ 90)
    {R : K → K} (hR : R = Binary64.zonalize t s pi64 r dlam asin a nlon w f lo hi levels) :
    (∀ x, -90 ≤ x → x ≤ 90 → lo ≤ R x ∧ R x ≤ hi + 3 * B / 2 ^ 50) ∧ R (-90) = lo ∧ R 90 = hi ∧
      (∀ x x', -90 ≤ x → x ≤ x' → x' ≤ 90 → R x ≤ R x' + 3 * B / 2 ^ 50) ∧
      ∀ pre q post, levels = pre ++ q :: post →
        (∀ q' ∈ post, contourLatitude t s pi64 r dlam asin a nlon w f q < contourLatitude t s pi64 r dlam asin a nlon w f q') →
        R (contourLatitude t s pi64 r dlam asin a nlon w f q) = q := by
  set c : K → K := contourLatitude t s pi64 r dlam asin a nlon w f with hc
  have hmono : ∀ {q q'}, q ≤ q' → -90 ≤ c q ∧ c q ≤ c q' ∧ c q' ≤ 90 := fun h => C134_contours t s hr hdl hm h1 h2 ha nlon w f h
  set ks := levels.map fun q => (c q, q) with hks
  have hks1 : ks.Pairwise fun p q => p.1 ≤ q.1 ∧ p.2 ≤ q.2 := List.pairwise_map.2 (hl.imp fun h => ⟨(hmono h).2.1, h⟩)
  have hkin : ∀ p ∈ ks, -90 < p.1 ∧ p.1 < 90 := by
    intro p hp
    obtain ⟨q, hq, rfl⟩ := List.mem_map.1 hp
    have hn := hpole q hq
    have hb := hmono (le_refl q)
    constructor
    · exact lt_of_le_of_ne hb.1 fun h => hn (by change -90 = c q at h; rw [← h]; norm_num)
    · exact lt_of_le_of_ne hb.2.2 fun h => hn (by change c q = 90 at h; rw [h]; norm_num)
  have hkv : ∀ p ∈ ks, lo ≤ p.2 ∧ p.2 ≤ hi ∧ IsDouble p.2 := by
    intro p hp
    obtain ⟨q, hq, rfl⟩ := List.mem_map.1 hp
    exact ⟨(hin q hq).1, (hin q hq).2, hdq q hq⟩
  have hR' : ∀ x, R x = Binary64.npInterp (-90, lo) (ks ++ [(90, hi)]) x := by
    intro x
    rw [hR]
    unfold Binary64.zonalize interpolateMeridional
    rw [← hc, ← hks, knots_sorted ks hi lo (hks1.imp fun h => h.1) hkin]
  have hall : ((-90, lo) :: (ks ++ [(90, hi)])).Pairwise fun p q : K × K => p.1 ≤ q.1 ∧ p.2 ≤ q.2 := by
    rw [List.pairwise_cons, List.pairwise_append]
    refine ⟨?_, hks1, List.pairwise_singleton _ _, ?_⟩
    · intro p hp
      rcases List.mem_append.1 hp with hp | hp
      · exact ⟨(hkin p hp).1.le, (hkv p hp).1⟩
      · rw [List.mem_singleton.1 hp]; exact ⟨by norm_num, hlh⟩
    · intro p hp p' hp'
      rw [List.mem_singleton.1 hp']
      exact ⟨(hkin p hp).2.le, (hkv p hp).2.1⟩
  have hdb : ∀ p ∈ ((-90, lo) :: (ks ++ [(90, hi)])), IsDouble p.2 := by
    intro p hp
    simp only [List.mem_cons, List.mem_append, List.not_mem_nil, or_false] at hp
    rcases hp with rfl | hp | rfl
    · exact hdlo
    · exact (hkv p hp).2.2
    · exact hdhi
  have hbd : ∀ p ∈ ((-90, lo) :: (ks ++ [(90, hi)])), |p.2| ≤ B := by
    intro p hp
    simp only [List.mem_cons, List.mem_append, List.not_mem_nil, or_false] at hp
    rcases hp with rfl | hp | rfl
    · exact hB.1
    · obtain ⟨p1, p2, -⟩ := hkv p hp
      exact abs_le.2 ⟨(abs_le.1 hB.1).1.trans p1, p2.trans (abs_le.1 hB.2).2⟩
    · exact hB.2
  -- the last of several equal knots is hit exactly
  have hhit : ∀ (l : List (K × K)) (b a : K × K) (post : List (K × K)), (∀ p ∈ b :: l, p.1 ≤ a.1) → (∀ p ∈ post, a.1 < p.1) →
      Binary64.npInterp b (l ++ a :: post) a.1 = a.2 := by
    intro l
    induction l with
    | nil =>
      intro b a post hb hp
      rw [List.nil_append, Binary64.npInterp, if_pos le_rfl]
      cases post with
      | nil => rfl
      | cons d post => rw [Binary64.npInterp, if_neg (not_le.2 (hp d (by simp))), if_pos rfl]
    | cons d l ih =>
      intro b a post hb hp
      rw [List.cons_append, Binary64.npInterp, if_pos (hb d (by simp))]
      exact ih d a post (fun p hp' => hb p (List.mem_cons_of_mem _ hp')) hp
  have h90 : R 90 = hi := by
    rw [hR']
    exact hhit ks (-90, lo) (90, hi) [] (by
      intro p hp
      rcases List.mem_cons.1 hp with rfl | hp
      · norm_num
      · exact (hkin p hp).2.le) (by simp)
  refine ⟨fun x hx hx' => ?_, ?_, h90, fun x x' hx hxx hx' => ?_, fun pre q post he hlt => ?_⟩
  · have := C134_monotone hall hdb hbd (x := x) (x' := 90) hx hx'
    rw [← hR', ← hR', h90] at this
    exact this
  · rw [hR']
    cases hk : ks ++ [((90 : K), hi)] with
    | nil => simp at hk
    | cons d post =>
      have hd : -90 < d.1 := by
        have : d ∈ ks ++ [((90 : K), hi)] := by rw [hk]; simp
        rcases List.mem_append.1 this with h | h
        · exact (hkin d h).1
        · rw [List.mem_singleton.1 h]; norm_num
      rw [Binary64.npInterp, if_neg (not_le.2 hd), if_pos rfl]
  · have := C134_monotone hall hdb hbd (x := x) (x' := x') hx hxx
    rw [← hR', ← hR'] at this
    exact this.2
  · rw [hR', hks, he, List.map_append, List.map_cons, List.append_assoc, List.cons_append]
    refine hhit (pre.map fun q => (c q, q)) (-90, lo) (c q, q) _ ?_ ?_
    · intro p hp
      rcases List.mem_cons.1 hp with rfl | hp
      · exact (hmono (le_refl q)).1
      · obtain ⟨q', hq', rfl⟩ := List.mem_map.1 hp
        rw [he, List.pairwise_append] at hl
        exact (hmono (hl.2.2 q' hq' q (by simp))).2.1
    · intro p hp
      rcases List.mem_append.1 hp with hp | hp
      · obtain ⟨q', hq', rfl⟩ := List.mem_map.1 hp
        exact hlt q' hq'
      · rw [List.mem_singleton.1 hp]
        exact (hkin (c q, q) (List.mem_map.2 ⟨q, by rw [he]; simp, rfl⟩)).2

/-- The bounds cannot be improved to those without rounding: all knots are doubles in order, but just below the knot at `-39 + 2⁻⁴⁷`
degrees, whose value is the largest of all, the profile exceeds it and so decreases with latitude. -/
theorem C134_overshoot_refuted : ∃ (ks : List (ℚ × ℚ)) (north south x x' : ℚ), (∀ p ∈ ks, IsDouble p.1 ∧ IsDouble p.2) ∧ IsDouble north ∧
    IsDouble south ∧ IsDouble x ∧ IsDouble x' ∧ ks.Pairwise (fun p q => p.1 ≤ q.1 ∧ p.2 ≤ q.2) ∧
    (∀ p ∈ ks, -90 < p.1 ∧ p.1 < 90 ∧ south ≤ p.2 ∧ p.2 ≤ north) ∧ south ≤ north ∧ -90 ≤ x ∧ x < x' ∧ x' ≤ 90 ∧
    north < interpolateMeridional ks north south x ∧ interpolateMeridional ks north south x' < interpolateMeridional ks north south x := by
  have hd : IsDouble (rnd (1 / 10) : ℚ) := rnd_isDouble _
  have hx : IsDouble (-39 + 1 / 2 ^ 47 : ℚ) := ⟨-39 * 2 ^ 47 + 1, -47, by norm_num, by norm_num⟩
  have hk : ∀ x : ℚ, interpolateMeridional [(-39 + 1 / 2 ^ 47, rnd (1 / 10))] (rnd (1 / 10)) (-1) x =
      Binary64.npInterp (-90, -1) [(-39 + 1 / 2 ^ 47, rnd (1 / 10)), (90, rnd (1 / 10))] x := by
    intro x
    unfold interpolateMeridional
    rw [knots_sorted _ _ _ (List.pairwise_singleton _ _) (by simp; norm_num)]
    rfl
  refine ⟨[(-39 + 1 / 2 ^ 47, rnd (1 / 10))], rnd (1 / 10), -1, -39, -39 + 1 / 2 ^ 47, ?_, hd, ⟨-1, 0, by norm_num, by norm_num⟩,
    ⟨-39, 0, by norm_num, by norm_num⟩, hx, List.pairwise_singleton _ _, ?_, by decide +kernel, by norm_num, by norm_num, by norm_num, ?_, ?_⟩
  · intro p hp; rw [List.mem_singleton.1 hp]; exact ⟨hx, hd⟩
  · intro p hp; rw [List.mem_singleton.1 hp]; exact ⟨by norm_num, by norm_num, by decide +kernel, le_rfl⟩
  · rw [hk]; decide +kernel
  · rw [hk, hk]; decide +kernel

/-! ### Non-vacuity -/

/-- Two rows, one column -/
example : (SumTree.node (.leaf 1) (.leaf 0)).Sums 2 ∧ (SumTree.leaf 0).Sums 1 := by
  constructor
  · exact List.Perm.swap _ _ _
  · exact List.Perm.refl _

/-- The order matters: `(0.1 + 0.2) + 0.3` and `0.1 + (0.2 + 0.3)` -/
example : (SumTree.node (.node (.leaf 1) (.leaf 2)) (.leaf 3)).eval (fun i => (rnd (i / 10) : ℚ)) ≠
    (SumTree.node (.leaf 1) (.node (.leaf 2) (.leaf 3))).eval (fun i => (rnd (i / 10) : ℚ)) := by
  decide +kernel

/-- A hemisphere of ones above a hemisphere of zeros: the contour is near the equator. -/
example : let asin : ℚ → ℚ := fun s => rnd (pi64 / 2) * s
    let lat := contourLatitude (.node (.leaf 0) (.leaf 1)) (.leaf 0) pi64 1 (2 * pi64) asin (fun _ => 2 * pi64) 1 1 (fun j _ => 1 - (j : ℚ)) (1 / 2)
    asin 1 = rnd (pi64 / 2) ∧ asin (-1) = -rnd (pi64 / 2) ∧ |lat| ≠ 90 ∧ |lat| ≤ 1 / 2 ^ 40 := by
  decide +kernel

/-- The profile of that field with the level 1/2 -/
example : let R : ℚ → ℚ := (Binary64.zonalize (.node (.leaf 0) (.leaf 1)) (.leaf 0) pi64 1 (2 * pi64) (fun s => rnd (pi64 / 2) * s)
          (fun _ => 2 * pi64) 1 1 (fun j _ => 1 - (j : ℚ)) 0 1 [1 / 2])
    (∀ x, -90 ≤ x → x ≤ 90 → 0 ≤ R x ∧ R x ≤ 1 + 3 * 1 / 2 ^ 50) ∧ R (-90) = 0 ∧ R 90 = 1 := by
  have hpi : (0 : ℚ) ≤ rnd (pi64 / 2) := by decide +kernel
  have := C134_zonalize (K := ℚ) (.node (.leaf 0) (.leaf 1)) (.leaf 0) (r := 1) (dlam := 2 * pi64) (by norm_num) (by decide +kernel)
    (asin := fun s => rnd (pi64 / 2) * s) (fun s s' _ h _ => mul_le_mul_of_nonneg_left h hpi) (by simp) (by simp)
    (a := fun _ => 2 * pi64) (fun _ => by decide +kernel) 1 1 (fun j _ => 1 - (j : ℚ)) (lo := 0) (hi := 1) (B := 1) (by simp) (by norm_num)
    (levels := [1 / 2]) (List.pairwise_singleton _ _) (by simp; norm_num) ⟨0, 0, by norm_num, by norm_num⟩ ⟨1, 0, by norm_num, by norm_num⟩
    (by intro q hq; rw [List.mem_singleton.1 hq]; exact ⟨1, -1, by norm_num, by norm_num⟩)
    (by intro q hq; rw [List.mem_singleton.1 hq]; decide +kernel) rfl
  exact ⟨this.1, this.2.1, this.2.2.1⟩

/-- Three automatic levels of a field between 0 and 2, here with the identity instead of a sine -/
example : contourLevel (pi64 : ℚ) id 0 2 3 0 < contourLevel pi64 id 0 2 3 1 ∧ contourLevel (pi64 : ℚ) id 0 2 3 1 = 1 := by decide +kernel

end Barotropic
