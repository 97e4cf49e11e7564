import Verif.Model.Binary64Run
import Verif.Spec.Binary64Run
import Verif.Lemmas.Binary64Time
import Verif.Props.Binary64

/-!
# Runs in double precision: C133
-/

set_option linter.unusedSectionVars false

namespace Barotropic
open Binary64

variable {K : Type*} [Field K] [LinearOrder K] [IsStrictOrderedRing K] [FloorRing K]

/-! ## Times -/

theorem ulp_le {x : K} (hx : 0 < x) : (2 : K) ^ lastBit x ≤ x / 2 ^ 52 := by
  have := (scaled_mem hx).1
  rw [le_div_iff₀ (two_zpow_pos _)] at this
  rw [le_div_iff₀ (by positivity)]
  linarith

/-- C133: times never decrease and every time step is `dt` up to three units in the last place of the time. The error does not
accumulate with the number of steps. -/
theorem C133_step {t0 dt : K} (h0 : 0 ≤ t0) (hd0 : IsDouble t0) (hdt : 0 < dt) (k : ℕ) :
    (pair t0 dt k).1 ≤ (pair t0 dt (k + 1)).1 ∧
    |(pair t0 dt (k + 1)).1 - (pair t0 dt k).1 - dt| ≤ 3 * ((pair t0 dt (k + 1)).1 / 2 ^ 52) := by
  obtain ⟨-, h2, h3, -, h5⟩ := pair_drift h0 hd0 hdt k
  have hu := ulp_le h3
  refine ⟨h2, ?_⟩
  show |(pair t0 dt k).2 - (pair t0 dt k).1 - dt| ≤ 3 * ((pair t0 dt k).2 / 2 ^ 52)
  have hp := two_zpow_pos (K := K) (lastBit (pair t0 dt k).2)
  rcases h5 with ⟨-, h⟩ | h <;> linarith

theorem pair_mono {t0 dt : K} (h0 : 0 ≤ t0) (hd0 : IsDouble t0) (hdt : 0 < dt) {j k : ℕ} (h : j ≤ k) :
    (pair t0 dt j).1 ≤ (pair t0 dt k).1 := by
  induction h with
  | refl => exact le_rfl
  | step _ ih => exact ih.trans (C133_step h0 hd0 hdt _).1

/-- C133: the time after `k` steps. -/
theorem C133_times {t0 dt : K} (h0 : 0 ≤ t0) (hd0 : IsDouble t0) (hdt : 0 < dt) (k : ℕ) :
    |(pair t0 dt k).1 - (t0 + k * dt)| ≤ k * (3 * ((pair t0 dt k).1 / 2 ^ 52)) := by
  induction k with
  | zero => simp [pair]
  | succ k ih =>
    obtain ⟨h1, h2⟩ := C133_step h0 hd0 hdt k
    have hm : (k : K) * (3 * ((pair t0 dt k).1 / 2 ^ 52)) ≤ k * (3 * ((pair t0 dt (k + 1)).1 / 2 ^ 52)) := by gcongr
    have e : (pair t0 dt (k + 1)).1 - (t0 + (k + 1 : ℕ) * dt) =
        ((pair t0 dt (k + 1)).1 - (pair t0 dt k).1 - dt) + ((pair t0 dt k).1 - (t0 + k * dt)) := by push_cast; ring
    rw [e]
    refine (abs_add_le _ _).trans ?_
    push_cast
    linarith

/-- As long as `6 k (t0 + k dt) ≤ 2^52 dt`, the error of the time is at most one time step. (A million steps of any size from
time 0 make 6 · 10^12 ≤ 4.5 · 10^15.) -/
theorem times_close {t0 dt : K} (h0 : 0 ≤ t0) (hd0 : IsDouble t0) (hdt : 0 < dt) (k : ℕ)
    (hk : 6 * k * (t0 + k * dt) ≤ 2 ^ 52 * dt) : |(pair t0 dt k).1 - (t0 + k * dt)| ≤ dt := by
  have h := C133_times h0 hd0 hdt k
  have hkp : (0 : K) ≤ k := by positivity
  have hk2 : 6 * (k : K) * k ≤ 2 ^ 52 := by
    have h1 : 6 * (k : K) * (k * dt) ≤ 2 ^ 52 * dt := by
      refine le_trans ?_ hk
      gcongr
      linarith
    exact le_of_mul_le_mul_right (by linarith) hdt
  have hk6 : 6 * (k : K) ≤ 2 ^ 52 := by
    rcases Nat.eq_zero_or_pos k with rfl | hpos
    · norm_num
    · have : (1 : K) ≤ k := by exact_mod_cast hpos
      nlinarith
  have hpos : 0 ≤ (pair t0 dt k).1 := (pair_drift h0 hd0 hdt k).1
  have hb : (k : K) * (3 * ((pair t0 dt k).1 / 2 ^ 52)) ≤ (pair t0 dt k).1 / 2 := by
    have : (k : K) * (3 * ((pair t0 dt k).1 / 2 ^ 52)) = (6 * k) * (pair t0 dt k).1 / 2 ^ 53 := by ring
    rw [this, div_le_iff₀ (by positivity)]
    have := mul_le_mul_of_nonneg_right hk6 hpos
    linarith
  have hT : (pair t0 dt k).1 ≤ 2 * (t0 + k * dt) := by
    have := (abs_le.mp h).2
    linarith
  refine h.trans ?_
  have h2 : (k : K) * (3 * ((pair t0 dt k).1 / 2 ^ 52)) ≤ 6 * k * (t0 + k * dt) / 2 ^ 52 := by
    rw [show (k : K) * (3 * ((pair t0 dt k).1 / 2 ^ 52)) = (3 * k * (pair t0 dt k).1) / 2 ^ 52 by ring]
    gcongr ?_ / _
    have := mul_le_mul_of_nonneg_left hT (show (0 : K) ≤ 3 * k by positivity)
    linarith
  refine h2.trans ?_
  rw [div_le_iff₀ (by positivity)]
  linarith

/-! ## The loop -/

theorem loop_spec (t ts : ℕ → K) (tend se : K) : ∀ (fuel k m n : ℕ) (ks : List ℕ),
    loop t ts tend se fuel k m = some (n, ks) →
    k ≤ n ∧ tend ≤ t n ∧ (∀ j, k ≤ j → j < n → t j < tend) ∧ (se ≤ 0 → ks = []) ∧ (0 < se → SavesAt t ts k m n ks) := by
  intro fuel
  induction fuel with
  | zero => intro k m n ks h; cases h
  | succ f ih =>
    intro k m n ks h
    unfold loop at h
    split_ifs at h with h1 h2
    · rw [Option.map_eq_some_iff] at h
      obtain ⟨⟨n', ks'⟩, h3, h4⟩ := h
      cases h4
      obtain ⟨i1, i2, i3, i4, i5⟩ := ih _ _ _ _ h3
      refine ⟨by omega, i2, fun j hj hjn => ?_, fun hse => absurd h2.1 (not_lt.mpr hse), fun hse => ?_⟩
      · rcases hj.eq_or_lt with rfl | hj
        · exact h1
        · exact i3 j hj hjn
      · obtain ⟨s1, s2, s3⟩ := i5 hse
        refine ⟨List.pairwise_cons.mpr ⟨fun j hj => (s2 j hj).1, s1⟩, fun j hj => ?_, fun j hj hjn => ?_⟩
        · rcases List.mem_cons.mp hj with rfl | hj
          · exact ⟨by omega, i1⟩
          · have := s2 j hj; omega
        · rcases (show k + 1 ≤ j from hj).eq_or_lt with rfl | hj'
          · have : List.countP (fun i => decide (i < k + 1)) ((k + 1) :: ks') = 0 := by
              rw [List.countP_eq_zero]
              intro i hi
              rcases List.mem_cons.mp hi with rfl | hi
              · simp
              · have := s2 i hi; simp; omega
            rw [this]
            exact ⟨fun _ => h2.2, fun _ => List.mem_cons_self ..⟩
          · rw [List.mem_cons, List.countP_cons_of_pos (by simpa using hj'), show m + (List.countP (fun i => decide (i < j)) ks' + 1) =
              m + 1 + List.countP (fun i => decide (i < j)) ks' by omega, ← s3 j hj' hjn]
            constructor
            · rintro (h | h)
              · omega
              · exact h
            · exact .inr
    · obtain ⟨i1, i2, i3, i4, i5⟩ := ih _ _ _ _ h
      refine ⟨by omega, i2, fun j hj hjn => ?_, i4, fun hse => ?_⟩
      · rcases hj.eq_or_lt with rfl | hj
        · exact h1
        · exact i3 j hj hjn
      · obtain ⟨s1, s2, s3⟩ := i5 hse
        refine ⟨s1, fun j hj => by have := s2 j hj; omega, fun j hj hjn => ?_⟩
        rcases (show k + 1 ≤ j from hj).eq_or_lt with rfl | hj'
        · have : List.countP (fun i => decide (i < k + 1)) ks = 0 := by
            rw [List.countP_eq_zero]
            intro i hi
            have := s2 i hi; simp; omega
          rw [this]
          exact ⟨fun hm => by have := s2 _ hm; omega, fun hle => absurd ⟨hse, hle⟩ h2⟩
        · exact s3 j hj' hjn
    · cases h
      refine ⟨le_rfl, not_lt.mp h1, fun j hj hjn => by omega, fun _ => rfl, fun _ => ⟨.nil, by simp, fun j hj hjn => by omega⟩⟩

theorem loop_returns (t ts : ℕ → K) (tend se : K) {n : ℕ} (h : tend ≤ t n) : ∀ (fuel k m : ℕ), k ≤ n → n < fuel + k →
    ∃ r, loop t ts tend se fuel k m = some r := by
  intro fuel
  induction fuel with
  | zero => intro k m hk hf; omega
  | succ f ih =>
    intro k m hk hf
    unfold loop
    split_ifs with h1 h2
    · obtain ⟨r, hr⟩ := ih (k + 1) (m + 1) (by
        rcases hk.eq_or_lt with rfl | hk
        · exact absurd h (not_le.mpr h1)
        · exact hk) (by omega)
      exact ⟨_, by rw [hr]; rfl⟩
    · exact ih (k + 1) m (by
        rcases hk.eq_or_lt with rfl | hk
        · exact absurd h (not_le.mpr h1)
        · exact hk) (by omega)
    · exact ⟨_, rfl⟩

theorem loop_congr {t t' ts ts' : ℕ → K} (tend se : K) : ∀ (fuel k m : ℕ), (∀ j ≤ k + fuel, t j = t' j) →
    (∀ j < m + fuel, ts j = ts' j) → loop t ts tend se fuel k m = loop t' ts' tend se fuel k m := by
  intro fuel
  induction fuel with
  | zero => intro k m _ _; rfl
  | succ f ih =>
    intro k m h1 h2
    unfold loop
    rw [h1 k (by omega), h1 (k + 1) (by omega), h2 m (by omega), ih (k + 1) (m + 1) (fun j hj => h1 j (by omega)) (fun j hj => h2 j (by omega)),
      ih (k + 1) m (fun j hj => h1 j (by omega)) (fun j hj => h2 j (by omega))]

/-- C133: the run ends, and the number of iterations is right up to one: `n` is the number for exact times. -/
theorem C133_count {t0 dt tend : K} (se : K) (h0 : 0 ≤ t0) (hd0 : IsDouble t0) (hdt : 0 < dt) (n : ℕ)
    (hlt : ∀ j < n, t0 + j * dt < tend) (hge : tend ≤ t0 + n * dt)
    (hn : 6 * ((n + 1 : ℕ) : K) * (t0 + (n + 1 : ℕ) * dt) ≤ 2 ^ 52 * dt) :
    ∃ n' ks, (∀ fuel, n + 2 ≤ fuel → Binary64.run t0 dt tend se fuel = some (n', ks)) ∧ n ≤ n' + 1 ∧ n' ≤ n + 1 := by
  have hclose : ∀ k ≤ n + 1, |(pair t0 dt k).1 - (t0 + k * dt)| ≤ dt := by
    intro k hk
    refine times_close h0 hd0 hdt k (le_trans ?_ hn)
    have : (k : K) ≤ (n + 1 : ℕ) := by exact_mod_cast hk
    gcongr
  have hstop : tend ≤ (pair t0 dt (n + 1)).1 := by
    have := (abs_le.mp (hclose (n + 1) le_rfl)).1
    push_cast at this
    linarith
  by_cases hb : tend < t0
  · refine ⟨0, [0], fun fuel _ => by unfold Binary64.run; rw [if_pos hb], ?_, by omega⟩
    by_contra hlt'
    have := hlt 0 (by omega)
    simp at this
    linarith
  · obtain ⟨⟨n', ks⟩, hr⟩ := loop_returns (fun k => (pair t0 dt k).1) (tSave se) tend se hstop (n + 2) 0 0 (by omega) (by omega)
    obtain ⟨-, s2, s3, -, -⟩ := loop_spec _ _ _ _ _ _ _ _ _ hr
    refine ⟨n', 0 :: ks, fun fuel hf => ?_, ?_, ?_⟩
    · unfold Binary64.run
      rw [if_neg hb]
      have more : ∀ (f g k m : ℕ) r, loop (fun k => (pair t0 dt k).1) (tSave se) tend se f k m = some r → f ≤ g →
          loop (fun k => (pair t0 dt k).1) (tSave se) tend se g k m = some r := by
        intro f
        induction f with
        | zero => intro g k m r h; cases h
        | succ f ih =>
          intro g k m r h hg
          obtain ⟨g, rfl⟩ : ∃ g', g = g' + 1 := ⟨g - 1, by omega⟩
          unfold loop at h ⊢
          split_ifs at h ⊢ with h1 h2
          · rw [Option.map_eq_some_iff] at h
            obtain ⟨r', h3, rfl⟩ := h
            rw [ih g _ _ _ h3 (by omega)]
            rfl
          · exact ih g _ _ _ h (by omega)
          · exact h
      rw [more _ _ _ _ _ hr hf]
      rfl
    · by_contra hlt'
      have h1 := (abs_le.mp (hclose n' (by omega))).2
      have h2 := hlt (n' + 1) (by omega)
      push_cast at h2
      linarith
    · by_contra hlt'
      have := s3 (n + 1) (by omega) (by omega)
      linarith

/-- C133: which states are saved, for all numbers: every state that has reached the next save time. -/
theorem C133_saved {t0 dt tend se : K} {fuel n : ℕ} {ks : List ℕ} (h : Binary64.run t0 dt tend se fuel = some (n, ks))
    (hb : t0 ≤ tend) :
    tend ≤ (pair t0 dt n).1 ∧ (∀ j < n, (pair t0 dt j).1 < tend) ∧
    ∃ tl, ks = 0 :: tl ∧ (se ≤ 0 → tl = []) ∧ (0 < se → SavesAt (fun k => (pair t0 dt k).1) (tSave se) 0 0 n tl) := by
  unfold Binary64.run at h
  rw [if_neg (not_lt.mpr hb), Option.map_eq_some_iff] at h
  obtain ⟨⟨n', tl⟩, h1, h2⟩ := h
  cases h2
  obtain ⟨-, i2, i3, i4, i5⟩ := loop_spec _ _ _ _ _ _ _ _ _ h1
  exact ⟨i2, fun j hj => i3 j (by omega) hj, tl, rfl, i4, i5⟩

/-- C133: the save times are the multiples of `save_every` up to rounding. -/
theorem C133_save_times {se : K} (hse : 0 < se) (m : ℕ) (hm : m ≤ 2 ^ 51) :
    |tSave se m - (m + 1) * se| ≤ m * ((m + 1) * se) / 2 ^ 52 := by
  induction m with
  | zero => simp [tSave]
  | succ m ih =>
    have ih := ih (by omega)
    have hmK : ((m : K) + 1) ≤ 2 ^ 51 := by exact_mod_cast hm
    have hmp : (0 : K) ≤ m := by positivity
    have hb : (m : K) * ((m + 1) * se) / 2 ^ 52 ≤ (m + 1) * se / 2 := by
      rw [div_le_div_iff₀ (by positivity) (by norm_num)]
      have : (m : K) * ((m + 1) * se) ≤ 2 ^ 51 * ((m + 1) * se) := by
        gcongr
        linarith
      linarith
    obtain ⟨a1, a2⟩ := abs_le.mp ih
    have hs0 : 0 ≤ tSave se m + se := by
      have : 0 ≤ (m + 1) * se := by positivity
      linarith
    have hr := rnd_rel (tSave se m + se)
    rw [abs_of_nonneg hs0] at hr
    have hup : tSave se m + se ≤ 2 * ((m + 1 + 1) * se) := by
      have : 0 ≤ (m + 1) * se := by positivity
      linarith
    have e : tSave se (m + 1) - ((m + 1 : ℕ) + 1) * se =
        -(tSave se m + se - rnd (tSave se m + se)) + (tSave se m - (m + 1) * se) := by
      show rnd (tSave se m + se) - _ = _
      push_cast
      ring
    rw [e]
    refine (abs_add_le _ _).trans ?_
    rw [abs_neg]
    push_cast
    have h1 : (tSave se m + se) / 2 ^ 53 ≤ (m + 1 + 1) * se / 2 ^ 52 := by
      rw [div_le_div_iff₀ (by positivity) (by positivity)]
      linarith
    have h2 : (m : K) * ((m + 1) * se) / 2 ^ 52 ≤ m * ((m + 1 + 1) * se) / 2 ^ 52 := by
      gcongr
      linarith
    have h3 : (m + 1 : K) * ((m + 1 + 1) * se) / 2 ^ 52 = m * ((m + 1 + 1) * se) / 2 ^ 52 + (m + 1 + 1) * se / 2 ^ 52 := by ring
    linarith

/-- C133: for times with few binary digits (integers, for example) end and saved states are those of exact arithmetic. -/
theorem C133_exact {s : ℕ} {t0 dt se : K} (tend : K) (fuel : ℕ) (h0 : Dyadic s t0) (hd : Dyadic s dt) (hs : Dyadic s se)
    (h1 : (|t0| + (fuel + 1) * |dt|) * 2 ^ s ≤ 2 ^ 53) (h2 : (fuel + 1) * |se| * 2 ^ s ≤ 2 ^ 53) :
    loop (fun k => (pair t0 dt k).1) (tSave se) tend se fuel 0 0 =
      loop (fun k => t0 + k * dt) (fun m => (m + 1) * se) tend se fuel 0 0 := by
  refine loop_congr tend se fuel 0 0 (fun j hj => ?_) fun m hm => ?_
  · rw [C103_exact h0 hd j ((mul_le_mul_of_nonneg_right ?_ (by positivity)).trans h1)]
    have : (j : K) ≤ fuel := by exact_mod_cast (by omega : j ≤ fuel)
    gcongr
  · have key : ∀ m ≤ fuel, tSave se m = (m + 1) * se := by
      intro m
      induction m with
      | zero => intro _; simp [tSave]
      | succ m ih =>
        intro hm
        show rnd (tSave se m + se) = _
        rw [ih (by omega)]
        push_cast
        rw [show ((m : K) + 1) * se + se = (m + 1 + 1) * se by ring]
        refine rnd_dyadic (c := (fuel + 1) * |se|) ?_ ?_ h2
        · have := dyadic_int_mul hs ((m : ℤ) + 1 + 1)
          push_cast at this
          exact this
        · rw [abs_mul, abs_of_nonneg (by positivity)]
          have : ((m + 1 : ℕ) : K) ≤ fuel := by exact_mod_cast hm
          push_cast at this
          gcongr
    exact key m (by omega)

/-- C133 refuted: steps that are too small for the size of the time are lost and the run never ends. -/
theorem C133_stuck_refuted (se : ℚ) (fuel : ℕ) : Binary64.run (2 ^ 53) 1 (2 ^ 53 + 2 : ℚ) se fuel = none := by
  have hp : ∀ k, pair (2 ^ 53 : ℚ) 1 k = (2 ^ 53, 2 ^ 53) := by
    intro k
    induction k with
    | zero => decide +kernel
    | succ k ih =>
      show ((pair (2 ^ 53 : ℚ) 1 k).2, rnd ((pair (2 ^ 53 : ℚ) 1 k).2 + rnd ((pair (2 ^ 53 : ℚ) 1 k).2 - (pair (2 ^ 53 : ℚ) 1 k).1))) = _
      rw [ih]
      decide +kernel
  unfold Binary64.run
  rw [if_neg (by norm_num)]
  have : ∀ k m, loop (fun k => (pair (2 ^ 53 : ℚ) 1 k).1) (tSave se) (2 ^ 53 + 2) se fuel k m = none := by
    induction fuel with
    | zero => intro k m; rfl
    | succ f ih =>
      intro k m
      unfold loop
      rw [hp k, if_pos (by norm_num)]
      split_ifs
      · rw [ih]; rfl
      · exact ih _ _
  rw [this]
  rfl

/-- C133 refuted: saved states are not evenly spaced. With steps of 0.7 (seconds) and save interval 1.4, which is exactly twice
the time step also in binary, a state is saved after 5 steps instead of 4, and the next one after 6. -/
theorem C133_saved_refuted :
    2 * rnd (7 / 10 : ℚ) = rnd (14 / 10) ∧
    Binary64.run 0 (rnd (7 / 10)) (rnd (35 / 10)) (rnd (14 / 10) : ℚ) 10 = some (6, [0, 2, 5, 6]) ∧
    loop (fun k => 0 + k * rnd (7 / 10 : ℚ)) (fun m => ((m : ℚ) + 1) * rnd (14 / 10)) (rnd (35 / 10)) (rnd (14 / 10) : ℚ) 10 0 0 =
      some (6, [2, 4, 6]) := by
  decide +kernel

/-- Non-vacuity of C133: a day with steps of ten minutes from time 0. -/
example : ∃ n' ks, (∀ fuel, 146 ≤ fuel → Binary64.run 0 600 86400 (3600 : ℚ) fuel = some (n', ks)) ∧ 144 ≤ n' + 1 ∧ n' ≤ 144 + 1 :=
  C133_count 3600 le_rfl ⟨0, 0, by norm_num, by norm_num⟩ (by norm_num) 144
    (fun j hj => by have : (j : ℚ) ≤ 143 := by exact_mod_cast Nat.le_pred_of_lt hj
                    linarith)
    (by norm_num) (by norm_num)

/-- With integers everything is exact: saved every hour. -/
example : loop (fun k => (pair (0 : ℚ) 600 k).1) (tSave 3600) 7200 3600 20 0 0 = some (12, [6, 12]) := by
  rw [C133_exact (s := 0) 7200 20 ⟨0, by norm_num⟩ ⟨600, by norm_num⟩ ⟨3600, by norm_num⟩ (by norm_num [abs_of_pos]) (by norm_num [abs_of_pos])]
  decide +kernel

end Barotropic
