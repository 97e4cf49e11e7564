import Verif.Props.Waveguide
import Verif.Props.StationaryAccuracy
import Verif.Spec.WaveguideLimit
import Verif.Lemmas.WaveguideLimit

/-!
# C149: extracted waveguides and those of a continuous profile
-/

namespace Barotropic
open Grid FloatX

variable {g : Grid ℝ}

/-! ### Lists of intervals -/

theorem exists_below (l : List ℝ) (B : ℝ) : ∃ m < B, ∀ a ∈ l, a < B → a ≤ m := by
  induction l with
  | nil => exact ⟨B - 1, by linarith, by simp⟩
  | cons a l ih =>
    obtain ⟨m, h1, h2⟩ := ih
    by_cases ha : a < B
    · refine ⟨max m a, max_lt h1 ha, fun b hb hB => ?_⟩
      rcases List.mem_cons.mp hb with rfl | hb
      · exact le_max_right _ _
      · exact (h2 b hb hB).trans (le_max_left _ _)
    · refine ⟨m, h1, fun b hb hB => ?_⟩
      rcases List.mem_cons.mp hb with rfl | hb
      · exact absurd hB ha
      · exact h2 b hb hB

theorem pairwise_cases {α : Type} {r : α → α → Prop} {l : List α} (h : l.Pairwise r) {a b : α} (ha : a ∈ l) (hb : b ∈ l) :
    a = b ∨ r a b ∨ r b a := by
  induction h with
  | nil => cases ha
  | cons h1 _ ih =>
    rcases List.mem_cons.mp ha with rfl | ha <;> rcases List.mem_cons.mp hb with rfl | hb
    · exact .inl rfl
    · exact .inr (.inl (h1 _ hb))
    · exact .inr (.inr (h1 _ (by assumption)))
    · exact ih ha hb

/-- An interval covered by disjoint closed intervals is in one of them. -/
theorem covered_by_one {C : List (ℝ × ℝ)} (hC : C.Pairwise fun p q => q.1 < p.2) (hle : ∀ p ∈ C, p.2 ≤ p.1) {l r : ℝ} (hlr : l ≤ r)
    (h : ∀ y, l ≤ y → y ≤ r → ∃ p ∈ C, Within p y) : ∃ p ∈ C, p.2 ≤ l ∧ r ≤ p.1 := by
  obtain ⟨p, hp, hp1, hp2⟩ := h r hlr le_rfl
  refine ⟨p, hp, ?_, hp2⟩
  by_contra hlt
  rw [not_le] at hlt
  obtain ⟨m, hm, hm2⟩ := exists_below (l :: C.map Prod.fst) p.2
  have hlm : l ≤ m := hm2 l List.mem_cons_self hlt
  obtain ⟨q, hq, hq1, hq2⟩ := h ((m + p.2) / 2) (by linarith) (by linarith)
  rcases pairwise_cases hC hp hq with rfl | h' | h'
  · linarith
  · have := hm2 q.1 (List.mem_cons_of_mem _ (List.mem_map.mpr ⟨q, hq, rfl⟩)) h'
    linarith
  · have := hle p hp
    linarith

theorem same_guide {C : List (ℝ × ℝ)} (hC : C.Pairwise fun p q => q.1 < p.2) {p q : ℝ × ℝ} (hp : p ∈ C) (hq : q ∈ C) {y : ℝ}
    (h1 : Within p y) (h2 : Within q y) : p = q := by
  rcases pairwise_cases hC hp hq with h | h | h
  · exact h
  · exact absurd (h2.2.trans_lt (h.trans_le h1.1)) (lt_irrefl _)
  · exact absurd (h1.2.trans_lt (h.trans_le h2.1)) (lt_irrefl _)

/-- Two ordered lists with a relation that respects the order and leaves no element out -/
theorem forall2_of_ordered {α β : Type} {R : α → β → Prop} {r : α → α → Prop} {s : β → β → Prop} (hs : ∀ q q', s q q' → ¬ s q' q) {C : List α} {W : List β}
    (hC : C.Pairwise r) (hW : W.Pairwise s) (h1 : ∀ p ∈ C, ∃ q ∈ W, R p q) (h2 : ∀ q ∈ W, ∃ p ∈ C, R p q)
    (h3 : ∀ p p' q q', q ∈ W → q' ∈ W → R p q → R p' q' → r p p' → s q q')
    (h4 : ∀ p q q', q ∈ W → q' ∈ W → R p q → R p q' → ¬ s q q') : List.Forall₂ R C W := by
  induction hC generalizing W with
  | nil =>
    cases W with
    | nil => exact .nil
    | cons q W => obtain ⟨p, hp, -⟩ := h2 q List.mem_cons_self; cases hp
  | @cons p C hp hC ih =>
    cases hW with
    | nil => obtain ⟨q, hq, -⟩ := h1 p List.mem_cons_self; cases hq
    | @cons q W hq hW =>
      have hpq : R p q := by
        obtain ⟨q1, hq1, hR⟩ := h1 p List.mem_cons_self
        rcases List.mem_cons.mp hq1 with rfl | hq1'
        · exact hR
        · obtain ⟨p1, hp1, hR1⟩ := h2 q List.mem_cons_self
          rcases List.mem_cons.mp hp1 with rfl | hp1'
          · exact hR1
          · exact absurd (h3 p p1 q1 q hq1 List.mem_cons_self hR hR1 (hp p1 hp1')) (hs _ _ (hq q1 hq1'))
      refine .cons hpq (ih hW (fun p' hp' => ?_) (fun q' hq' => ?_)
        (fun a a' b b' hb hb' => h3 a a' b b' (List.mem_cons_of_mem _ hb) (List.mem_cons_of_mem _ hb'))
        fun a b b' hb hb' => h4 a b b' (List.mem_cons_of_mem _ hb) (List.mem_cons_of_mem _ hb'))
      · obtain ⟨q', hq', hR⟩ := h1 p' (List.mem_cons_of_mem _ hp')
        rcases List.mem_cons.mp hq' with rfl | h
        · have := h3 p p' q' q' hq' hq' hpq hR (hp p' hp')
          exact absurd this (hs _ _ this)
        · exact ⟨q', h, hR⟩
      · obtain ⟨p', hp', hR⟩ := h2 q' (List.mem_cons_of_mem _ hq')
        rcases List.mem_cons.mp hp' with rfl | h
        · exact absurd (hq q' hq') (h4 p' q q' List.mem_cons_self (List.mem_cons_of_mem _ hq') hpq hR)
        · exact ⟨p', h, hR⟩

/-! ### Robustness -/

theorem exists_cell (hg : g.Valid) (hsp : g.resolution * ((g.nlat : ℝ) - 1) = 180) {y : ℝ} (h1 : -90 ≤ y) (h2 : y ≤ 90) :
    ∃ i, i + 1 < g.nlat ∧ ∃ t, 0 ≤ t ∧ t ≤ 1 ∧ y = g.lat i - t * g.resolution := by
  have hr := hg.res_pos
  have hn := hg.nlat_ge
  obtain ⟨s, hs⟩ : ∃ s, s = (90 - y) / g.resolution := ⟨_, rfl⟩
  have hsy : s * g.resolution = 90 - y := by rw [hs]; field_simp
  have hs0 : 0 ≤ s := by rw [hs]; exact div_nonneg (by linarith) hr.le
  have hs1 : s ≤ (g.nlat : ℝ) - 1 := by
    by_contra h
    rw [not_le] at h
    nlinarith
  have hfl := Nat.floor_le hs0
  have hlt := Nat.lt_floor_add_one s
  have hlat : ∀ j, g.lat j = 90 - j * g.resolution := lat_spacing hg hsp
  by_cases hc : ⌊s⌋₊ + 1 < g.nlat
  · refine ⟨⌊s⌋₊, hc, s - ⌊s⌋₊, by linarith, by linarith, ?_⟩
    rw [hlat]
    linarith
  · have hge : (g.nlat : ℝ) ≤ (⌊s⌋₊ : ℝ) + 1 := by exact_mod_cast not_lt.mp hc
    have hse : s = (g.nlat : ℝ) - 1 := by linarith
    refine ⟨g.nlat - 2, by omega, 1, zero_le_one, le_rfl, ?_⟩
    rw [hlat, Nat.cast_sub (by omega)]
    push_cast
    rw [hse] at hsy
    linarith

section
variable (hg : g.Valid) (hsp : g.resolution * ((g.nlat : ℝ) - 1) = 180) (z : Fin g.nlat → FloatX × FloatX) (k : FloatX × FloatX) (x : ℕ → ℝ) (c : ℝ)
  (hz : ∀ j : Fin g.nlat, realVariant (z j) = fin (x j)) (hk : realVariant k = fin c) (f : ℝ → ℝ) {E : ℝ → ℝ}
  (hε : ∀ i, i + 1 < g.nlat → ∀ t, 0 ≤ t → t ≤ 1 → |lin x i t - f (g.lat i - t * g.resolution)| ≤ E (g.lat i - t * g.resolution))
include hg hsp hz hk hε

/-- C149: the waveguides of a wavenumber profile whose interpolation differs from `f` by at most `E` contain the latitudes where `f` exceeds the wavenumber by
more than `E` and no latitudes where it is lower by more than `E`; at their edges `f` is the wavenumber up to `E`. -/
theorem C149_robust :
    ∃ C : List (ℝ × ℝ), g.extractKsWaveguides (List.ofFn z) k = .ok (C.map toX) ∧ (C.Pairwise fun p q => q.1 < p.2) ∧
      (∀ p ∈ C, -90 ≤ p.2 ∧ p.2 ≤ p.1 ∧ p.1 ≤ 90) ∧
      (∀ y, -90 ≤ y → y ≤ 90 → c + E y < f y → ∃ p ∈ C, Within p y) ∧
      (∀ p ∈ C, ∀ y, Within p y → c - E y ≤ f y) ∧
      (∀ p ∈ C, (p.1 = 90 ∨ |f p.1 - c| ≤ E p.1) ∧ (p.2 = -90 ∨ |f p.2 - c| ≤ E p.2)) := by
  obtain ⟨C, h1, h2, h3, h4, h5, h6, h7⟩ := C66_finite_partial hg hsp z k x c hz hk
  refine ⟨C, h1, h2, h3, fun y hy1 hy2 hy => ?_, fun p hp y hy => ?_, fun p hp => ⟨?_, ?_⟩⟩
  · obtain ⟨i, hi, t, t0, t1, rfl⟩ := exists_cell hg hsp hy1 hy2
    have := abs_le.mp (hε i hi t t0 t1)
    exact h4 i hi t t0 t1 (by linarith)
  · obtain ⟨i, hi, t, t0, t1, rfl⟩ := exists_cell hg hsp ((h3 p hp).1.trans hy.1) (hy.2.trans (h3 p hp).2.2)
    have := abs_le.mp (hε i hi t t0 t1)
    have := h5 i hi t t0 t1 p hp hy
    linarith
  · rcases h6 p hp with h | ⟨i, hi, t, t0, t1, e1, e2, -⟩
    · exact .inl h.1
    · right
      rw [e1, abs_sub_comm, ← e2]
      exact hε i hi t t0 t1.le
  · rcases h7 p hp with h | ⟨i, hi, t, t0, t1, e1, e2, -⟩
    · exact .inl h.1
    · right
      rw [e1, abs_sub_comm, ← e2]
      exact hε i hi t t0 t1.le

/-- C149: the extracted waveguides are those of `f`: as many, in the same order, with edges that differ by at most `δ`. -/
theorem C149_guides {δ : ℝ} {W : List (ℝ × ℝ)} (hW : RobustGuides f c E δ g.resolution W) :
    ∃ C : List (ℝ × ℝ), g.extractKsWaveguides (List.ofFn z) k = .ok (C.map toX) ∧
      List.Forall₂ (fun p q => |p.1 - q.1| ≤ δ ∧ |p.2 - q.2| ≤ δ) C W := by
  obtain ⟨C, h1, h2, h3, h4, h5, h6, -⟩ := C66_finite_partial hg hsp z k x c hz hk
  have hr := hg.res_pos
  have hn := hg.nlat_ge
  have hδ := hW.nonneg
  have hcell := hW.cell
  have hlat : ∀ j, g.lat j = 90 - j * g.resolution := lat_spacing hg hsp
  have hle : ∀ p ∈ C, p.2 ≤ p.1 := fun p hp => (h3 p hp).2.1
  have hin : ∀ y, -90 ≤ y → y ≤ 90 → c + E y < f y → ∃ p ∈ C, Within p y := by
    intro y hy1 hy2 hy
    obtain ⟨i, hi, t, t0, t1, rfl⟩ := exists_cell hg hsp hy1 hy2
    have := abs_le.mp (hε i hi t t0 t1)
    exact h4 i hi t t0 t1 (by linarith)
  have hout : ∀ p ∈ C, ∀ y, Within p y → c - E y ≤ f y := by
    intro p hp y hy
    obtain ⟨i, hi, t, t0, t1, rfl⟩ := exists_cell hg hsp ((h3 p hp).1.trans hy.1) (hy.2.trans (h3 p hp).2.2)
    have := abs_le.mp (hε i hi t t0 t1)
    have := h5 i hi t t0 t1 p hp hy
    linarith
  have hgridv : ∀ i, i < g.nlat → c + E (g.lat i) < f (g.lat i) → c < x i := by
    intro i hi hf
    by_cases h : i + 1 < g.nlat
    · have := abs_le.mp (hε i h 0 le_rfl zero_le_one)
      simp only [lin, zero_mul, sub_zero, one_mul, add_zero] at this
      linarith
    · have h' : i - 1 + 1 = i := by omega
      have := abs_le.mp (hε (i - 1) (by omega) 1 zero_le_one le_rfl)
      simp only [lin, sub_self, zero_mul, one_mul, zero_add, h'] at this
      have e : g.lat (i - 1) - g.resolution = g.lat i := by
        rw [hlat, hlat, Nat.cast_sub (by omega)]
        push_cast
        ring
      rw [e] at this
      linarith
  have hcore : ∀ q ∈ W, ∀ y, q.2 + δ ≤ y → y ≤ q.1 - δ → -90 ≤ y ∧ y ≤ 90 := by
    intro q hq y hy1 hy2
    have := hW.north q hq
    have := hW.south q hq
    constructor <;> linarith
  -- between two gridpoints that are at or above the wavenumber
  have hseg : ∀ i, i + 1 < g.nlat → c ≤ x i → c ≤ x (i + 1) → (c < x i ∨ c < x (i + 1)) → (∃ p ∈ C, Within p (g.lat i)) →
      (∃ p ∈ C, Within p (g.lat (i + 1))) → ∀ y, g.lat (i + 1) ≤ y → y ≤ g.lat i → ∃ p ∈ C, Within p y := by
    intro i hi ha hb hab hA hB y hy1 hy2
    have e1 : g.lat (i + 1) = g.lat i - g.resolution := by
      rw [hlat, hlat]
      push_cast
      ring
    obtain ⟨t, ht⟩ : ∃ t, t = (g.lat i - y) / g.resolution := ⟨_, rfl⟩
    have hty : t * g.resolution = g.lat i - y := by rw [ht]; field_simp
    have t0 : 0 ≤ t := by rw [ht]; exact div_nonneg (by linarith) hr.le
    have t1 : t ≤ 1 := by
      by_contra h
      rw [not_le] at h
      nlinarith
    rcases t0.eq_or_lt with h | h
    · rw [← h, zero_mul] at hty
      rwa [show y = g.lat i by linarith]
    · rcases t1.eq_or_lt with h' | h'
      · rw [h', one_mul] at hty
        rwa [show y = g.lat (i + 1) by linarith]
      · have := h4 i hi t t0 t1 (by
          unfold lin
          rcases hab with h'' | h'' <;> nlinarith)
        rwa [show g.lat i - t * g.resolution = y by linarith] at this
  -- every waveguide contains a gridpoint
  have hpoint : ∀ p ∈ C, ∃ i < g.nlat, c ≤ x i ∧ Within p (g.lat i) := by
    intro p hp
    rcases h6 p hp with ⟨e, hx⟩ | ⟨i, hi, t, t0, t1, e1, e2, e3⟩
    · refine ⟨0, by omega, hx, ?_⟩
      rw [lat_zero hg hsp, ← e]
      exact ⟨hle p hp, le_rfl⟩
    · refine ⟨i + 1, hi, e3.le, ?_⟩
      have e4 : g.lat (i + 1) = g.lat i - g.resolution := by
        rw [hlat, hlat]
        push_cast
        ring
      have hcov : ∀ y, g.lat (i + 1) ≤ y → y ≤ p.1 → ∃ p ∈ C, Within p y := by
        intro y hy1 hy2
        rcases hy2.eq_or_lt with h | h
        · exact ⟨p, hp, by rw [h]; exact hle p hp, hy2⟩
        · obtain ⟨s, hs⟩ : ∃ s, s = (g.lat i - y) / g.resolution := ⟨_, rfl⟩
          have hsy : s * g.resolution = g.lat i - y := by rw [hs]; field_simp
          have hts : t < s := by
            by_contra h'
            rw [not_lt] at h'
            nlinarith
          have hs1 : s ≤ 1 := by
            by_contra h'
            rw [not_le] at h'
            nlinarith
          have := h4 i hi s (t0.trans hts.le) hs1 (by
            unfold lin at e2 ⊢
            have hd : 0 < x (i + 1) - x i := by
              by_contra h'
              rw [not_lt] at h'
              nlinarith
            nlinarith)
          rwa [show g.lat i - s * g.resolution = y by linarith] at this
      have hl : g.lat (i + 1) ≤ p.1 := by
        rw [e1, e4]
        nlinarith
      obtain ⟨p', hp', h', h''⟩ := covered_by_one h2 hle hl hcov
      have : p = p' := same_guide h2 hp hp' (y := p.1) ⟨hle p hp, le_rfl⟩ ⟨h'.trans hl, h''⟩
      rw [this]
      exact ⟨h', hl.trans (this ▸ le_rfl)⟩
  -- a waveguide stays at one waveguide of `f`
  have hexp : ∀ p ∈ C, ∃ q ∈ W, q.2 - δ ≤ p.2 ∧ p.1 ≤ q.1 + δ := by
    intro p hp
    have hnear : ∀ y, Within p y → ∃ q ∈ W, q.2 - δ ≤ y ∧ y ≤ q.1 + δ := by
      intro y hy
      by_contra hno
      have hf := hW.outside y ((h3 p hp).1.trans hy.1) (hy.2.trans (h3 p hp).2.2) fun q hq => by
        by_contra h'
        rw [not_or, not_lt, not_lt] at h'
        exact hno ⟨q, hq, h'.2, h'.1⟩
      have := hout p hp y hy
      linarith
    obtain ⟨q, hq, hq1, hq2⟩ := hnear p.1 ⟨hle p hp, le_rfl⟩
    refine ⟨q, hq, ?_, hq2⟩
    by_contra hlt
    rw [not_le] at hlt
    obtain ⟨m, hm, hm2⟩ := exists_below (p.2 :: W.map fun q => q.1 + δ) (q.2 - δ)
    have hpm := hm2 p.2 List.mem_cons_self hlt
    obtain ⟨q', hq', e1, e2⟩ := hnear ((m + (q.2 - δ)) / 2) ⟨by linarith, by linarith⟩
    have hw := hW.width q hq
    rcases pairwise_cases hW.gap hq hq' with h | h | h
    · rw [← h] at e1
      linarith
    · have := hm2 (q'.1 + δ) (List.mem_cons_of_mem _ (List.mem_map.mpr ⟨q', hq', rfl⟩)) (by linarith)
      linarith
    · linarith
  -- a waveguide that meets the inner part of one of `f`
  have hmeet : ∀ p ∈ C, ∀ q ∈ W, ∀ y, Within p y → q.2 + δ ≤ y → y ≤ q.1 - δ → |p.1 - q.1| ≤ δ ∧ |p.2 - q.2| ≤ δ := by
    intro p hp q hq y hy hy1 hy2
    obtain ⟨p', hp', e1, e2⟩ := covered_by_one h2 hle (l := q.2 + δ) (r := q.1 - δ) (hy1.trans hy2) fun y' h' h'' =>
      hin y' (hcore q hq y' h' h'').1 (hcore q hq y' h' h'').2 (hW.inside q hq y' h' h'')
    obtain rfl : p = p' := same_guide h2 hp hp' hy ⟨e1.trans hy1, hy2.trans e2⟩
    obtain ⟨q', hq', e3, e4⟩ := hexp p hp
    have hw := hW.width q hq
    rcases pairwise_cases hW.gap hq hq' with rfl | h | h
    · rw [abs_le, abs_le]
      refine ⟨⟨?_, ?_⟩, ?_, ?_⟩ <;> linarith
    · linarith
    · linarith
  -- every waveguide does
  have hreal : ∀ p ∈ C, ∃ q ∈ W, ∃ y, Within p y ∧ q.2 + δ ≤ y ∧ y ≤ q.1 - δ := by
    intro p hp
    obtain ⟨q, hq, e1, e2⟩ := hexp p hp
    refine ⟨q, hq, ?_⟩
    by_contra hno
    have hno' : ∀ y, Within p y → y < q.2 + δ ∨ q.1 - δ < y := by
      intro y hy
      by_contra h'
      rw [not_or, not_lt, not_lt] at h'
      exact hno ⟨y, hy, h'.1, h'.2⟩
    have hw := hW.width q hq
    have hN := hW.north q hq
    have hS := hW.south q hq
    obtain ⟨i, hi, hxi, hpi⟩ := hpoint p hp
    have step : ∀ j, j + 1 = i ∨ i + 1 = j → j < g.nlat → q.2 + δ ≤ g.lat j → g.lat j ≤ q.1 - δ → False := by
      intro j hj hjn hj1 hj2
      have hfj := hW.inside q hq _ hj1 hj2
      have hxj := hgridv j hjn hfj
      obtain ⟨pj, hpj, hpj'⟩ := hin _ (hcore q hq _ hj1 hj2).1 (hcore q hq _ hj1 hj2).2 hfj
      have : Within p (g.lat j) := by
        rcases hj with rfl | rfl
        · have hlt : g.lat (j + 1) ≤ g.lat j := by
            rw [hlat, hlat]
            push_cast
            nlinarith
          obtain ⟨p', hp', e3, e4⟩ := covered_by_one h2 hle hlt
            (hseg j hi hxj.le hxi (.inl hxj) ⟨pj, hpj, hpj'⟩ ⟨p, hp, hpi⟩)
          obtain rfl : p = p' := same_guide h2 hp hp' hpi ⟨e3, hlt.trans e4⟩
          exact ⟨e3.trans hlt, e4⟩
        · have hlt : g.lat (i + 1) ≤ g.lat i := by
            rw [hlat, hlat]
            push_cast
            nlinarith
          obtain ⟨p', hp', e3, e4⟩ := covered_by_one h2 hle hlt
            (hseg i hjn hxi hxj.le (.inr hxj) ⟨p, hp, hpi⟩ ⟨pj, hpj, hpj'⟩)
          obtain rfl : p = p' := same_guide h2 hp hp' hpi ⟨e3.trans hlt, e4⟩
          exact ⟨e3, hlt.trans e4⟩
      exact hno ⟨_, this, hj1, hj2⟩
    rcases hno' _ hpi with h | h
    · have hi0 : 0 < i := by
        rcases Nat.eq_zero_or_pos i with h0 | h0
        · rw [h0, lat_zero hg hsp] at h
          linarith
        · exact h0
      have e : g.lat (i - 1) = g.lat i + g.resolution := by
        rw [hlat, hlat, Nat.cast_sub (by omega)]
        push_cast
        ring
      refine step (i - 1) (.inl (by omega)) (by omega) ?_ ?_
      · rw [e]
        have := hpi.1
        linarith
      · rw [e]
        linarith
    · have hin' : i + 1 < g.nlat := by
        by_contra h0
        have : i = g.nlat - 1 := by omega
        rw [this, lat_last hg hsp] at h
        linarith
      have e : g.lat (i + 1) = g.lat i - g.resolution := by
        rw [hlat, hlat]
        push_cast
        ring
      refine step (i + 1) (.inr rfl) hin' ?_ ?_
      · rw [e]
        linarith
      · rw [e]
        have := hpi.2
        linarith
  refine ⟨C, h1, forall2_of_ordered (r := fun p q => q.1 < p.2) (s := fun q q' => q'.1 + 2 * δ < q.2 ∧ q.2 < q.1 ∧ q'.2 < q'.1) (fun q q' h h' => ?_) h2 ?_
    (fun p hp => ?_) (fun q hq => ?_) (fun p p' q q' hq hq' h h' hpp => ?_) fun p q q' hq hq' h h' hs => ?_⟩
  · linarith [h.1, h.2.1, h.2.2, h'.1]
  · refine List.Pairwise.imp_of_mem (fun {a b} ha hb hab => ?_) hW.gap
    have := hW.width a ha
    have := hW.width b hb
    exact ⟨hab, by linarith, by linarith⟩
  · obtain ⟨q, hq, y, hy, e1, e2⟩ := hreal p hp
    exact ⟨q, hq, hmeet p hp q hq y hy e1 e2⟩
  · have hw := hW.width q hq
    have e : q.2 + δ ≤ q.1 - δ := by linarith
    obtain ⟨p, hp, hp'⟩ := hin _ (hcore q hq (q.2 + δ) le_rfl e).1 (hcore q hq (q.2 + δ) le_rfl e).2 (hW.inside q hq _ le_rfl e)
    exact ⟨p, hp, hmeet p hp q hq _ hp' le_rfl e⟩
  · have w1 := hW.width q hq
    have w2 := hW.width q' hq'
    have a1 := abs_le.mp h.2
    have a2 := abs_le.mp h'.1
    rcases pairwise_cases hW.gap hq hq' with rfl | h'' | h''
    · linarith [a1.1, a1.2, a2.1, a2.2]
    · exact ⟨h'', by linarith, by linarith⟩
    · linarith [a1.1, a1.2, a2.1, a2.2]
  · have a1 := abs_le.mp h.2
    have a2 := abs_le.mp h'.2
    linarith [hs.1, hs.2.2, a1.1, a1.2, a2.1, a2.2]

end

/-! ### Convergence -/

set_option maxHeartbeats 1000000 in
/-- Simple waveguides are robust. -/
theorem robust_of_simple {f : ℝ → ℝ} {c : ℝ} {W : List (ℝ × ℝ)} (hW : SimpleGuides f c W) {M : ℝ} (hM : 0 ≤ M) :
    ∃ h0 > 0, ∃ K > 0, ∀ h, 0 < h → h < h0 → ∃ E, RobustGuides f c E (K * h ^ 2) h W ∧
      ∀ u v t, v ∈ Set.Icc (-90) 90 → u ∈ Set.Icc (-90) 90 → u - v = h → 0 ≤ t → t ≤ 1 →
        M * h ^ 2 + |(1 - t) * f u + t * f v - f ((1 - t) * u + t * v)| ≤ E ((1 - t) * u + t * v) := by
  classical
  obtain ⟨PN, hPN⟩ : ∃ PN : ℝ × ℝ → Prop, PN = fun q => q.1 = 90 ∧ c < f 90 := ⟨_, rfl⟩
  obtain ⟨PS, hPS⟩ : ∃ PS : ℝ × ℝ → Prop, PS = fun q => q.2 = -90 ∧ c < f (-90) := ⟨_, rfl⟩
  -- the edges
  obtain ⟨η1, hη1, hN⟩ := uniform_pos (P := fun (q : ℝ × ℝ) η => PN q ∨ Falls f c q.1 η)
    (fun q r r' h0 hle h => h.imp id fun h => h.mono h0 hle) W fun q hq => by
      rcases hW.north q hq with h | ⟨h1, h2, h3⟩
      · exact ⟨1, one_pos, .inl (by rw [hPN]; exact h)⟩
      · obtain ⟨η, h0, h⟩ := exists_falls h1 h2 h3
        exact ⟨η, h0, .inr h⟩
  obtain ⟨η2, hη2, hS⟩ := uniform_pos (P := fun (q : ℝ × ℝ) η => PS q ∨ Falls (fun y => -f y) (-c) q.2 η)
    (fun q r r' h0 hle h => h.imp id fun h => h.mono h0 hle) W fun q hq => by
      rcases hW.south q hq with h | ⟨h1, h2, h3⟩
      · exact ⟨1, one_pos, .inl (by rw [hPS]; exact h)⟩
      · obtain ⟨η, h0, h⟩ := exists_falls (f := fun y => -f y) (c := -c) (a := q.2) (by rw [h1]) h2.neg (by rw [deriv.fun_neg]; linarith)
        exact ⟨η, h0, .inr h⟩
  obtain ⟨η, hη⟩ : ∃ η, η = min η1 η2 := ⟨_, rfl⟩
  have hη0 : 0 < η := by rw [hη]; exact lt_min hη1 hη2
  replace hN : ∀ q ∈ W, PN q ∨ Falls f c q.1 η := fun q hq => (hN q hq).imp id fun h => h.mono hη0 (by rw [hη]; exact min_le_left _ _)
  replace hS : ∀ q ∈ W, PS q ∨ Falls (fun y => -f y) (-c) q.2 η :=
    fun q hq => (hS q hq).imp id fun h => h.mono hη0 (by rw [hη]; exact min_le_right _ _)
  -- away from them
  obtain ⟨ε1, hε1, hin⟩ := uniform_pos
    (P := fun (q : ℝ × ℝ) ε => ∀ y, (PN q ∧ y ≤ 90 ∨ y ≤ q.1 - η / 2) → (PS q ∧ -90 ≤ y ∨ q.2 + η / 2 ≤ y) → c + ε < f y)
    (fun q r r' h0 hle h y a b => by linarith [h y a b]) W fun q hq => by
      obtain ⟨b1, b2, b3⟩ := hW.bounds q hq
      obtain ⟨n, hn, hn1, hn2⟩ : ∃ n, (∀ y, (PN q ∧ y ≤ 90 ∨ y ≤ q.1 - η / 2) → y ≤ n) ∧ n ≤ 90 ∧ (n = 90 ∧ PN q ∨ n < q.1) := by
        by_cases h : PN q
        · refine ⟨90, fun y hy => ?_, le_rfl, .inl ⟨rfl, h⟩⟩
          rcases hy with h' | h'
          · exact h'.2
          · linarith
        · refine ⟨q.1 - η / 2, fun y hy => ?_, by linarith, .inr (by linarith)⟩
          rcases hy with h' | h'
          · exact absurd h'.1 h
          · exact h'
      obtain ⟨s, hs, hs1, hs2⟩ : ∃ s, (∀ y, (PS q ∧ -90 ≤ y ∨ q.2 + η / 2 ≤ y) → s ≤ y) ∧ -90 ≤ s ∧ (s = -90 ∧ PS q ∨ q.2 < s) := by
        by_cases h : PS q
        · refine ⟨-90, fun y hy => ?_, le_rfl, .inl ⟨rfl, h⟩⟩
          rcases hy with h' | h'
          · exact h'.2
          · linarith
        · refine ⟨q.2 + η / 2, fun y hy => ?_, by linarith, .inr (by linarith)⟩
          rcases hy with h' | h'
          · exact absurd h'.1 h
          · exact h'
      obtain ⟨ε, hε, h⟩ := compact_gap (f := f) (c := c) (S := Set.Icc s n) isCompact_Icc (hW.cont.mono (Set.Icc_subset_Icc hs1 hn1)) (by
          rintro y ⟨ys, yn⟩
          rw [hPN] at hn2
          rw [hPS] at hs2
          rcases (yn.trans hn1).eq_or_lt with e | e
          · rcases hn2 with h | h
            · rw [e]
              exact h.2.2
            · linarith
          · rcases (hs1.trans ys).eq_or_lt with e' | e'
            · rcases hs2 with h | h
              · rw [← e']
                exact h.2.2
              · linarith
            · refine hW.inside q hq y ?_ ?_
              · rcases hs2 with h | h
                · rw [h.2.1]
                  exact e'
                · linarith
              · rcases hn2 with h | h
                · rw [h.2.1]
                  exact e
                · linarith)
      exact ⟨ε, hε, fun y a b => h y ⟨hs y b, hn y a⟩⟩
  obtain ⟨ε2, hε2, hout⟩ := compact_gap (f := fun y => -f y) (c := -c)
    (S := Set.Icc (-90) 90 ∩ ⋂ q ∈ {q | q ∈ W}, {y | q.1 + η / 2 ≤ y ∨ y ≤ q.2 - η / 2})
    (isCompact_Icc.inter_right (isClosed_biInter fun q _ => (isClosed_le continuous_const continuous_id).union (isClosed_le continuous_id continuous_const)))
    (hW.cont.neg.mono Set.inter_subset_left) (by
      rintro y ⟨⟨y1, y2⟩, hy⟩
      have := hW.outside y y1 y2 fun q hq => by
        rcases Set.mem_iInter₂.mp hy q hq with h | h
        · have : q.1 + η / 2 ≤ y := h
          exact .inl (by linarith)
        · have : y ≤ q.2 - η / 2 := h
          exact .inr (by linarith)
      linarith)
  obtain ⟨w, hw, hwidth⟩ := uniform_pos (P := fun (q : ℝ × ℝ) w => q.2 + w < q.1) (fun q r r' _ hle h => by linarith) W fun q hq =>
    ⟨(q.1 - q.2) / 2, by linarith [hW.bounds q hq], by linarith [hW.bounds q hq]⟩
  obtain ⟨γ, hγ, hgap⟩ := uniform_gap hW.separate
  obtain ⟨ε, hε⟩ : ∃ ε, ε = min ε1 ε2 := ⟨_, rfl⟩
  have hε0 : 0 < ε := by rw [hε]; exact lt_min hε1 hε2
  have hεle1 : ε ≤ ε1 := by rw [hε]; exact min_le_left _ _
  have hεle2 : ε ≤ ε2 := by rw [hε]; exact min_le_right _ _
  obtain ⟨d, hd, huc⟩ := Metric.uniformContinuousOn_iff.mp (isCompact_Icc.uniformContinuousOn_of_continuous hW.cont) (ε / 2) (by linarith)
  -- constants
  obtain ⟨K1, hK1⟩ : ∃ K1, K1 = M + 1 / η := ⟨_, rfl⟩
  have hK10 : 0 < K1 := by rw [hK1]; positivity
  obtain ⟨K, hK⟩ : ∃ K, K = (K1 + 1) / η := ⟨_, rfl⟩
  have hK0 : 0 < K := by rw [hK]; positivity
  have hKη : η * K = K1 + 1 := by rw [hK]; field_simp
  obtain ⟨h0, hh0, l1, l2, l3, l4, l5, l6, l7⟩ : ∃ h0 > 0, h0 ≤ 1 ∧ h0 ≤ d ∧ h0 ≤ η / 2 ∧ M * h0 ≤ ε / 2 ∧ 2 * K * h0 ≤ 1 ∧ h0 ≤ w / 2 ∧ h0 ≤ γ := by
    refine ⟨min 1 (min d (min (η / 2) (min (ε / (2 * (M + 1))) (min (1 / (2 * K)) (min (w / 2) γ))))), by positivity, min_le_left _ _, ?_, ?_, ?_, ?_, ?_, ?_⟩
    · exact (min_le_right _ _).trans (min_le_left _ _)
    · exact (min_le_right _ _).trans ((min_le_right _ _).trans (min_le_left _ _))
    · obtain ⟨m, hm, hm'⟩ : ∃ m, m = min 1 (min d (min (η / 2) (min (ε / (2 * (M + 1))) (min (1 / (2 * K)) (min (w / 2) γ))))) ∧ m ≤ ε / (2 * (M + 1)) :=
        ⟨_, rfl, (min_le_right _ _).trans ((min_le_right _ _).trans ((min_le_right _ _).trans (min_le_left _ _)))⟩
      have hm0 : 0 < m := by rw [hm]; positivity
      rw [← hm]
      rw [le_div_iff₀ (by positivity)] at hm'
      nlinarith
    · obtain ⟨m, hm, hm'⟩ : ∃ m, m = min 1 (min d (min (η / 2) (min (ε / (2 * (M + 1))) (min (1 / (2 * K)) (min (w / 2) γ))))) ∧ m ≤ 1 / (2 * K) :=
        ⟨_, rfl, (min_le_right _ _).trans ((min_le_right _ _).trans ((min_le_right _ _).trans ((min_le_right _ _).trans (min_le_left _ _))))⟩
      rw [← hm]
      rw [le_div_iff₀ (by positivity)] at hm'
      linarith
    · exact (min_le_right _ _).trans ((min_le_right _ _).trans ((min_le_right _ _).trans ((min_le_right _ _).trans ((min_le_right _ _).trans (min_le_left _ _)))))
    · exact (min_le_right _ _).trans ((min_le_right _ _).trans ((min_le_right _ _).trans ((min_le_right _ _).trans ((min_le_right _ _).trans (min_le_right _ _)))))
  refine ⟨h0, hh0, K, hK0, fun h hp hlt => ?_⟩
  have hsq : 0 < h ^ 2 := by positivity
  obtain ⟨δ, hδ⟩ : ∃ δ, δ = K * h ^ 2 := ⟨_, rfl⟩
  have hδ0 : 0 < δ := by rw [hδ]; positivity
  have hδh : 2 * δ < h := by
    have : 2 * K * h < 1 := by nlinarith
    rw [hδ]
    nlinarith
  have hδη : K1 * h ^ 2 < η * δ := by
    rw [hδ, ← mul_assoc, hKη]
    linarith
  have hKe : M * h ^ 2 ≤ ε / 2 := by
    have e : h ^ 2 ≤ h0 := by nlinarith
    exact (mul_le_mul_of_nonneg_left e hM).trans l4
  obtain ⟨N, hNdef⟩ : ∃ N : ℝ → Prop, N = fun y => ∃ q ∈ W, (¬ PN q ∧ |y - q.1| < η / 2) ∨ (¬ PS q ∧ |y - q.2| < η / 2) := ⟨_, rfl⟩
  obtain ⟨E, hE⟩ : ∃ E : ℝ → ℝ, E = fun y => if N y then K1 * h ^ 2 else ε := ⟨_, rfl⟩
  have En : ∀ y, N y → E y = K1 * h ^ 2 := fun y hy => by rw [hE]; exact if_pos hy
  have Ef : ∀ y, ¬ N y → E y = ε := fun y hy => by rw [hE]; exact if_neg hy
  rw [← hδ]
  refine ⟨E, ⟨?_, ?_, ?_, ?_, ?_, ?_, hδh, hδ0.le⟩, ?_⟩
  · -- inside
    intro q hq y y1 y2
    have hpos := hW.inside q hq y (by linarith) (by linarith)
    by_cases hy : N y
    · rw [En y hy]
      rw [hNdef] at hy
      obtain ⟨q', hq', ⟨hP, hy⟩ | ⟨hP, hy⟩⟩ := hy
      · have hF := (hN q' hq').resolve_left hP
        have ha := abs_lt.mp hy
        have hlt : y < q'.1 := by
          by_contra hge
          rw [not_lt] at hge
          have := hF.after y hge (by linarith)
          have := mul_nonneg hη0.le (sub_nonneg.mpr hge)
          linarith
        have hb := hF.before y (by linarith) hlt.le
        have : δ ≤ q'.1 - y := by
          have := hW.bounds q hq
          have := hW.bounds q' hq'
          rcases pairwise_cases hW.separate hq hq' with rfl | h' | h'
          · linarith
          · linarith
          · linarith
        have := mul_le_mul_of_nonneg_left this hη0.le
        linarith
      · have hF := (hS q' hq').resolve_left hP
        have ha := abs_lt.mp hy
        have hlt : q'.2 < y := by
          by_contra hge
          rw [not_lt] at hge
          have := hF.before y (by linarith) hge
          have := mul_nonneg hη0.le (sub_nonneg.mpr hge)
          linarith
        have hb := hF.after y hlt.le (by linarith)
        have : δ ≤ y - q'.2 := by
          have := hW.bounds q hq
          have := hW.bounds q' hq'
          rcases pairwise_cases hW.separate hq hq' with rfl | h' | h'
          · linarith
          · linarith
          · linarith
        have := mul_le_mul_of_nonneg_left this hη0.le
        linarith
    · rw [Ef y hy]
      rw [hNdef] at hy
      have hb := hW.bounds q hq
      have := hin q hq y (by
        by_cases hP : PN q
        · exact .inl ⟨hP, by linarith⟩
        · right
          by_contra hc
          exact hy ⟨q, hq, .inl ⟨hP, by rw [abs_lt]; constructor <;> linarith⟩⟩) (by
        by_cases hP : PS q
        · exact .inl ⟨hP, by linarith⟩
        · right
          by_contra hc
          exact hy ⟨q, hq, .inr ⟨hP, by rw [abs_lt]; constructor <;> linarith⟩⟩)
      linarith
  · -- outside
    intro y y1 y2 hy'
    have hneg := hW.outside y y1 y2 fun q hq => (hy' q hq).imp (fun h => by linarith) fun h => by linarith
    by_cases hy : N y
    · rw [En y hy]
      rw [hNdef] at hy
      obtain ⟨q', hq', ⟨hP, hy⟩ | ⟨hP, hy⟩⟩ := hy
      · have hF := (hN q' hq').resolve_left hP
        have ha := abs_lt.mp hy
        have hgt : q'.1 + δ < y := by
          have hb := hW.bounds q' hq'
          refine (hy' q' hq').resolve_right fun h' => ?_
          have := hF.before y (by linarith) (by linarith)
          have := mul_nonneg hη0.le (show 0 ≤ q'.1 - y by linarith)
          linarith
        have := hF.after y (by linarith) (by linarith)
        have := mul_le_mul_of_nonneg_left (show δ ≤ y - q'.1 by linarith) hη0.le
        linarith
      · have hF := (hS q' hq').resolve_left hP
        have ha := abs_lt.mp hy
        have hgt : y < q'.2 - δ := by
          have hb := hW.bounds q' hq'
          refine (hy' q' hq').resolve_left fun h' => ?_
          have := hF.after y (by linarith) (by linarith)
          have := mul_nonneg hη0.le (show 0 ≤ y - q'.2 by linarith)
          linarith
        have := hF.before y (by linarith) (by linarith)
        have := mul_le_mul_of_nonneg_left (show δ ≤ q'.2 - y by linarith) hη0.le
        linarith
    · rw [Ef y hy]
      rw [hNdef] at hy
      have := hout y ⟨⟨y1, y2⟩, Set.mem_iInter₂.mpr fun q hq => by
        rcases hy' q hq with h' | h'
        · left
          show q.1 + η / 2 ≤ y
          by_contra hc
          refine hy ⟨q, hq, .inl ⟨fun hP => ?_, by rw [abs_lt]; constructor <;> linarith⟩⟩
          rw [hPN] at hP
          linarith [hP.1]
        · right
          show y ≤ q.2 - η / 2
          by_contra hc
          refine hy ⟨q, hq, .inr ⟨fun hP => ?_, by rw [abs_lt]; constructor <;> linarith⟩⟩
          rw [hPS] at hP
          linarith [hP.1]⟩
      linarith
  · intro q hq
    have := hwidth q hq
    linarith
  · refine hgap.imp fun {q q'} hqq => ?_
    linarith
  · intro q hq
    linarith [hW.bounds q hq]
  · intro q hq
    linarith [hW.bounds q hq]
  · -- interpolation
    intro u v t hv hu huv t0 t1
    have d1 : |u - ((1 - t) * u + t * v)| ≤ h := by
      rw [show u - ((1 - t) * u + t * v) = t * h by rw [← huv]; ring, abs_of_nonneg (by positivity)]
      nlinarith
    have d2 : |v - ((1 - t) * u + t * v)| ≤ h := by
      rw [show v - ((1 - t) * u + t * v) = -((1 - t) * h) by rw [← huv]; ring, abs_neg, abs_of_nonneg (mul_nonneg (by linarith) hp.le)]
      nlinarith
    obtain ⟨y, hy⟩ : ∃ y, y = (1 - t) * u + t * v := ⟨_, rfl⟩
    rw [← hy] at d1 d2 ⊢
    have key : ∀ F : ℝ → ℝ, ∀ a, |y - a| < η / 2 → (F = f ∨ F = fun y => -f y) → ∀ c, Falls F c a η → |(1 - t) * f u + t * f v - f y| ≤ 1 / η * h ^ 2 := by
      intro F a ha hF c' hFa
      have hh : h < η / 2 := by linarith
      have au : |u - a| < η := by
        have := abs_add_le (u - y) (y - a)
        rw [sub_add_sub_cancel] at this
        linarith
      have av : |v - a| < η := by
        have := abs_add_le (v - y) (y - a)
        rw [sub_add_sub_cancel] at this
        linarith
      have := hFa.interp u v t au av t0 t1
      rw [huv, ← hy] at this
      rcases hF with rfl | rfl
      · exact this.trans_eq (by ring)
      · rw [← abs_neg] at this
        refine (le_of_eq ?_).trans (this.trans_eq (by ring))
        congr 1
        ring
    by_cases hn : N y
    · rw [En y hn, hK1]
      rw [hNdef] at hn
      have : |(1 - t) * f u + t * f v - f y| ≤ 1 / η * h ^ 2 := by
        obtain ⟨q', hq', ⟨hP, hy'⟩ | ⟨hP, hy'⟩⟩ := hn
        · exact key f q'.1 hy' (.inl rfl) c ((hN q' hq').resolve_left hP)
        · exact key _ q'.2 hy' (.inr rfl) (-c) ((hS q' hq').resolve_left hP)
      linarith
    · rw [Ef y hn]
      have hyI : y ∈ Set.Icc (-90 : ℝ) 90 := by
        rw [hy]
        constructor
        · have := mul_le_mul_of_nonneg_left hu.1 (sub_nonneg.mpr t1)
          have := mul_le_mul_of_nonneg_left hv.1 t0
          linarith
        · have := mul_le_mul_of_nonneg_left hu.2 (sub_nonneg.mpr t1)
          have := mul_le_mul_of_nonneg_left hv.2 t0
          linarith
      have e1 := huc u hu y hyI (by rw [Real.dist_eq]; linarith)
      have e2 := huc v hv y hyI (by rw [Real.dist_eq]; linarith)
      rw [Real.dist_eq] at e1 e2
      have a1 := abs_lt.mp e1
      have a2 := abs_lt.mp e2
      have : |(1 - t) * f u + t * f v - f y| ≤ ε / 2 := by
        have m1 := mul_le_mul_of_nonneg_left a1.1.le (sub_nonneg.mpr t1)
        have m2 := mul_le_mul_of_nonneg_left a2.1.le t0
        have m3 := mul_le_mul_of_nonneg_left a1.2.le (sub_nonneg.mpr t1)
        have m4 := mul_le_mul_of_nonneg_left a2.2.le t0
        rw [abs_le]
        constructor <;> linarith
      linarith

/-- C149: waveguides of a continuous wavenumber profile that passes through the wavenumber with nonzero slope are extracted from fine grids, as many, in the same
order, and with edges that are accurate to second order, if the gridpoint values are. -/
theorem C149_converges {f : ℝ → ℝ} {c : ℝ} {W : List (ℝ × ℝ)} (hW : SimpleGuides f c W) {M : ℝ} (hM : 0 ≤ M) :
    ∃ h0 > 0, ∃ K > 0, ∀ g : Grid ℝ, g.Valid → g.resolution * ((g.nlat : ℝ) - 1) = 180 → g.resolution < h0 →
      ∀ (z : Fin g.nlat → FloatX × FloatX) (k : FloatX × FloatX) (x : ℕ → ℝ), realVariant k = fin c → (∀ j : Fin g.nlat, realVariant (z j) = fin (x j)) →
        (∀ j < g.nlat, |x j - f (g.lat j)| ≤ M * g.resolution ^ 2) →
        ∃ C : List (ℝ × ℝ), g.extractKsWaveguides (List.ofFn z) k = .ok (C.map toX) ∧
          List.Forall₂ (fun p q => |p.1 - q.1| ≤ K * g.resolution ^ 2 ∧ |p.2 - q.2| ≤ K * g.resolution ^ 2) C W := by
  obtain ⟨h0, hh0, K, hK, H⟩ := robust_of_simple hW hM
  refine ⟨h0, hh0, K, hK, fun g hg hsp hlt z k x hk hz hx => ?_⟩
  have hr := hg.res_pos
  obtain ⟨E, hE, hint⟩ := H g.resolution hr hlt
  have hlat : ∀ j, g.lat j = 90 - j * g.resolution := lat_spacing hg hsp
  have hI : ∀ j < g.nlat, g.lat j ∈ Set.Icc (-90 : ℝ) 90 := by
    intro j hj
    have : (j : ℝ) ≤ (g.nlat : ℝ) - 1 := by
      have : ((j + 1 : ℕ) : ℝ) ≤ g.nlat := by exact_mod_cast hj
      push_cast at this
      linarith
    have h0 : (0 : ℝ) ≤ j := Nat.cast_nonneg j
    rw [hlat]
    constructor <;> nlinarith
  refine C149_guides hg hsp z k x c hz hk f (fun i hi t t0 t1 => ?_) hE
  have e1 : g.lat (i + 1) = g.lat i - g.resolution := by
    rw [hlat, hlat]
    push_cast
    ring
  have e2 : (1 - t) * g.lat i + t * g.lat (i + 1) = g.lat i - t * g.resolution := by
    rw [e1]
    ring
  have key := hint (g.lat i) (g.lat (i + 1)) t (hI _ hi) (hI _ (by omega)) (by rw [e1]; ring) t0 t1
  rw [e2] at key
  refine le_trans ?_ key
  have a1 := abs_le.mp (hx i (by omega))
  have a2 := abs_le.mp (hx (i + 1) hi)
  obtain ⟨d, hd⟩ : ∃ d, d = (1 - t) * f (g.lat i) + t * f (g.lat (i + 1)) - f (g.lat i - t * g.resolution) := ⟨_, rfl⟩
  rw [← hd]
  have e3 : lin x i t - f (g.lat i - t * g.resolution) = ((1 - t) * (x i - f (g.lat i)) + t * (x (i + 1) - f (g.lat (i + 1)))) + d := by
    rw [hd]
    unfold lin
    ring
  rw [e3]
  refine (abs_add_le _ _).trans (add_le_add_left ?_ _)
  rw [abs_le]
  constructor
  · nlinarith [a1.1, a2.1]
  · nlinarith [a1.2, a2.2]

end Barotropic
