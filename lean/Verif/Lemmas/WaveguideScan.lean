import Verif.Lemmas.Waveguide
import Verif.Spec.Waveguide
import Verif.Lemmas.Example
import Mathlib.Tactic.LinearCombination

/-!
# Invariants of the waveguide scan
-/

namespace Barotropic
open FloatX Grid

variable {g : Grid ℝ}

/-! ### Finite profiles -/

/-- What the scan has found after row `j`, for a finite profile. -/
structure FinInv (g : Grid ℝ) (x : ℕ → ℝ) (c : ℝ) (j : ℕ) (G : List (ℝ × ℝ)) (C : List (ℝ × ℝ)) : Prop where
  pairwise : C.Pairwise fun p q => q.1 < p.2
  bounds : ∀ p ∈ C, g.lat j ≤ p.2 ∧ p.2 ≤ p.1 ∧ p.1 ≤ 90
  complete : ∀ i < j, ∀ t, 0 ≤ t → t ≤ 1 → c < lin x i t → ∃ p ∈ C, p.2 ≤ g.lat i - t * g.resolution ∧ g.lat i - t * g.resolution ≤ p.1
  sound : ∀ i < j, ∀ t, 0 ≤ t → t ≤ 1 → ∀ p ∈ C, p.2 ≤ g.lat i - t * g.resolution → g.lat i - t * g.resolution ≤ p.1 → c ≤ lin x i t
  starts : ∀ p ∈ C, (p.1 = 90 ∧ c ≤ x 0) ∨ ∃ i < j, ∃ t, 0 ≤ t ∧ t < 1 ∧ p.1 = g.lat i - t * g.resolution ∧ lin x i t = c ∧ c < x (i + 1)
  ends : ∀ p ∈ G, ∃ i < j, ∃ t, 0 ≤ t ∧ t < 1 ∧ p.2 = g.lat i - t * g.resolution ∧ lin x i t = c ∧ x (i + 1) < c

def FinState (g : Grid ℝ) (x : ℕ → ℝ) (c : ℝ) (j : ℕ) (s : Scan) : Prop :=
  ∃ G : List (ℝ × ℝ), s.guides = G.map toX ∧
    ((s.active = true ∧ c ≤ x j ∧ ∃ a, s.start = fin a ∧ FinInv g x c j G (G ++ [(a, g.lat j)])) ∨
    (s.active = false ∧ x j ≤ c ∧ (∀ p ∈ G, g.lat j < p.2) ∧ FinInv g x c j G G))

theorem finState_step (hg : g.Valid) (hsp : g.resolution * ((g.nlat : ℝ) - 1) = 180) (x : ℕ → ℝ) (c : ℝ) (j : ℕ) (s : Scan)
    (hP : FinState g x c j s) : FinState g x c (j + 1) (g.scanStep (fin c) s (g.lat j) (fin (x j)) (fin (x (j + 1)))) := by
  have hres := hg.res_pos
  have hlat : ∀ i : ℕ, g.lat i = 90 - i * g.resolution := lat_spacing hg hsp
  have hlat1 : g.lat (j + 1) = g.lat j - g.resolution := by rw [hlat, hlat]; push_cast; ring
  have hup : ∀ i < j, ∀ t : ℝ, t ≤ 1 → g.lat j ≤ g.lat i - t * g.resolution := by
    intro i hi t ht
    rw [hlat, hlat]
    have : (i : ℝ) + 1 ≤ j := by exact_mod_cast hi
    nlinarith
  have hninf : ∀ y : ℝ, ¬ (fin y).isinf := fun y h => h
  obtain ⟨G, hG, ⟨hact, hx, a, ha, inv⟩ | ⟨hact, hx, hend, inv⟩⟩ := hP
  · have hab := inv.bounds (a, g.lat j) (by simp)
    have hGa : ∀ p ∈ G, a < p.2 := by
      intro p hp
      have := List.pairwise_append.mp inv.pairwise
      exact this.2.2 p hp _ (List.mem_singleton_self _)
    have hpwG : G.Pairwise fun p q => q.1 < p.2 := (List.pairwise_append.mp inv.pairwise).1
    have pw : ∀ e : ℝ, (G ++ [(a, e)]).Pairwise fun p q => q.1 < p.2 := by
      intro e
      refine List.pairwise_append.mpr ⟨hpwG, List.pairwise_singleton _ _, fun p hp q hq => ?_⟩
      rw [List.mem_singleton] at hq
      subst hq
      exact hGa p hp
    have oldC : ∀ e : ℝ, e ≤ g.lat j → ∀ i < j, ∀ t, 0 ≤ t → t ≤ 1 → c < lin x i t →
        ∃ p ∈ G ++ [(a, e)], p.2 ≤ g.lat i - t * g.resolution ∧ g.lat i - t * g.resolution ≤ p.1 := by
      intro e he i hi t h0 h1 hc
      obtain ⟨p, hp, h2, h3⟩ := inv.complete i hi t h0 h1 hc
      rcases List.mem_append.mp hp with hp | hp
      · exact ⟨p, List.mem_append_left _ hp, h2, h3⟩
      · rw [List.mem_singleton] at hp
        subst hp
        exact ⟨(a, e), List.mem_append_right _ (List.mem_singleton_self _), he.trans h2, h3⟩
    have oldS : ∀ e : ℝ, ∀ i < j, ∀ t, 0 ≤ t → t ≤ 1 → ∀ p ∈ G ++ [(a, e)], p.2 ≤ g.lat i - t * g.resolution →
        g.lat i - t * g.resolution ≤ p.1 → c ≤ lin x i t := by
      intro e i hi t h0 h1 p hp h2 h3
      rcases List.mem_append.mp hp with hp | hp
      · exact inv.sound i hi t h0 h1 p (List.mem_append_left _ hp) h2 h3
      · rw [List.mem_singleton] at hp
        subst hp
        exact inv.sound i hi t h0 h1 (a, g.lat j) (by simp) (hup i hi t h1) h3
    have oldStart : ∀ e : ℝ, ∀ p ∈ G ++ [(a, e)], (p.1 = 90 ∧ c ≤ x 0) ∨ ∃ i < j + 1, ∃ t, 0 ≤ t ∧ t < 1 ∧
        p.1 = g.lat i - t * g.resolution ∧ lin x i t = c ∧ c < x (i + 1) := by
      intro e p hp
      have : (p.1 = 90 ∧ c ≤ x 0) ∨ ∃ i < j, ∃ t, 0 ≤ t ∧ t < 1 ∧
          p.1 = g.lat i - t * g.resolution ∧ lin x i t = c ∧ c < x (i + 1) := by
        rcases List.mem_append.mp hp with hp | hp
        · exact inv.starts p (List.mem_append_left _ hp)
        · rw [List.mem_singleton] at hp
          subst hp
          exact inv.starts (a, g.lat j) (by simp)
      rcases this with h | ⟨i, hi, h⟩
      · exact Or.inl h
      · exact Or.inr ⟨i, by omega, h⟩
    have oldEnd : ∀ p ∈ G, ∃ i < j + 1, ∃ t, 0 ≤ t ∧ t < 1 ∧ p.2 = g.lat i - t * g.resolution ∧ lin x i t = c ∧ x (i + 1) < c := by
      intro p hp
      obtain ⟨i, hi, h⟩ := inv.ends p hp
      exact ⟨i, by omega, h⟩
    by_cases hdown : x (j + 1) < c
    · -- the waveguide ends
      have hd : 0 < x j - x (j + 1) := by linarith
      set t0 := (x j - c) / (x j - x (j + 1)) with ht0
      have h00 : 0 ≤ t0 := div_nonneg (by linarith) hd.le
      have h01 : t0 < 1 := by rw [ht0, div_lt_one hd]; linarith
      have ht0' : t0 * (x j - x (j + 1)) = x j - c := div_mul_cancel₀ _ hd.ne'
      have hlt0 : lin x j t0 = c := by unfold lin; linarith
      have hstep : g.scanStep (fin c) s (g.lat j) (fin (x j)) (fin (x (j + 1))) =
          { s with active := false, guides := s.guides ++ [(s.start, fin (g.lat j - t0 * g.resolution))] } := by
        unfold scanStep
        rw [if_pos ⟨hact, hdown⟩, if_neg (hninf _), crossing_fin hg hsp (by linarith)]
      have heb : g.lat j - t0 * g.resolution ≤ g.lat j := by nlinarith
      have hel : g.lat (j + 1) < g.lat j - t0 * g.resolution := by rw [hlat1]; nlinarith
      rw [hstep]
      refine ⟨G ++ [(a, g.lat j - t0 * g.resolution)], by simp [hG, ha, toX], Or.inr ⟨rfl, hdown.le, ?_, ?_⟩⟩
      · intro p hp
        rcases List.mem_append.mp hp with hp | hp
        · have := inv.bounds p (List.mem_append_left _ hp)
          linarith [this.1]
        · rw [List.mem_singleton] at hp
          subst hp
          exact hel
      · refine ⟨pw _, fun p hp => ?_, fun i hi t h0 h1 hc => ?_, fun i hi t h0 h1 p hp h2 h3 => ?_, oldStart _, fun p hp => ?_⟩
        · rcases List.mem_append.mp hp with hp | hp
          · obtain ⟨h1, h2, h3⟩ := inv.bounds p (List.mem_append_left _ hp)
            exact ⟨by linarith, h2, h3⟩
          · rw [List.mem_singleton] at hp
            subst hp
            exact ⟨hel.le, heb.trans hab.2.1, hab.2.2⟩
        · rcases Nat.lt_succ_iff_lt_or_eq.mp hi with hi | rfl
          · exact oldC _ heb i hi t h0 h1 hc
          · refine ⟨(a, g.lat i - t0 * g.resolution), by simp, ?_, ?_⟩
            · have : t < t0 := by
                by_contra hge
                have hge := not_lt.mp hge
                unfold lin at hc
                nlinarith
              have := mul_lt_mul_of_pos_right this hres
              simp only
              linarith
            · have := mul_nonneg h0 hres.le
              simp only
              linarith [hab.2.1]
        · rcases Nat.lt_succ_iff_lt_or_eq.mp hi with hi | rfl
          · exact oldS _ i hi t h0 h1 p hp h2 h3
          · have htr := mul_nonneg h0 hres.le
            rcases List.mem_append.mp hp with hp | hp
            · have := hGa p hp
              have := hab.2.1
              simp only at this
              linarith
            · rw [List.mem_singleton] at hp
              subst hp
              simp only at h2
              have : t ≤ t0 := by
                by_contra hlt
                have := mul_lt_mul_of_pos_right (not_le.mp hlt) hres
                linarith
              unfold lin
              nlinarith
        · rcases List.mem_append.mp hp with hp | hp
          · exact oldEnd p hp
          · rw [List.mem_singleton] at hp
            subst hp
            exact ⟨j, by omega, t0, h00, h01, rfl, hlt0, hdown⟩
    · -- the waveguide goes on
      have hge := not_lt.mp hdown
      have hstep : g.scanStep (fin c) s (g.lat j) (fin (x j)) (fin (x (j + 1))) = s := by
        unfold scanStep
        rw [if_neg (fun h => hdown h.2), if_neg (fun h => by rw [hact] at h; exact absurd h.1 (by decide))]
      rw [hstep]
      refine ⟨G, hG, Or.inl ⟨hact, hge, a, ha, pw _, fun p hp => ?_, fun i hi t h0 h1 hc => ?_, fun i hi t h0 h1 p hp h2 h3 => ?_, oldStart _, oldEnd⟩⟩
      · rcases List.mem_append.mp hp with hp | hp
        · obtain ⟨h1, h2, h3⟩ := inv.bounds p (List.mem_append_left _ hp)
          exact ⟨by linarith, h2, h3⟩
        · rw [List.mem_singleton] at hp
          subst hp
          refine ⟨le_rfl, ?_, hab.2.2⟩
          have := hab.2.1
          simp only at this ⊢
          linarith
      · rcases Nat.lt_succ_iff_lt_or_eq.mp hi with hi | rfl
        · exact oldC _ (by linarith) i hi t h0 h1 hc
        · refine ⟨(a, g.lat (i + 1)), by simp, ?_, ?_⟩
          · simp only
            rw [hlat1]
            nlinarith
          · have := mul_nonneg h0 hres.le
            simp only
            linarith [hab.2.1]
      · rcases Nat.lt_succ_iff_lt_or_eq.mp hi with hi | rfl
        · exact oldS _ i hi t h0 h1 p hp h2 h3
        · unfold lin
          nlinarith
  · by_cases hupc : c < x (j + 1)
    · -- a waveguide starts
      have hd : 0 < x (j + 1) - x j := by linarith
      set t0 := (x j - c) / (x j - x (j + 1)) with ht0
      have h00 : 0 ≤ t0 := div_nonneg_of_nonpos (by linarith) (by linarith)
      have ht0' : t0 * (x j - x (j + 1)) = x j - c := div_mul_cancel₀ _ (by linarith)
      have h01 : t0 < 1 := by nlinarith
      have hlt0 : lin x j t0 = c := by unfold lin; linarith
      have hstep : g.scanStep (fin c) s (g.lat j) (fin (x j)) (fin (x (j + 1))) =
          { s with active := true, start := fin (g.lat j - t0 * g.resolution) } := by
        unfold scanStep
        rw [if_neg (fun h => by rw [hact] at h; exact absurd h.1 (by decide)), if_pos ⟨hact, hupc⟩, if_neg (hninf _),
          crossing_fin hg hsp (by linarith)]
      have hel : g.lat (j + 1) ≤ g.lat j - t0 * g.resolution := by rw [hlat1]; nlinarith
      have hea : g.lat j - t0 * g.resolution ≤ g.lat j := by nlinarith
      rw [hstep]
      refine ⟨G, hG, Or.inl ⟨rfl, hupc.le, _, rfl, ?_, fun p hp => ?_, fun i hi t h0 h1 hc => ?_, fun i hi t h0 h1 p hp h2 h3 => ?_, fun p hp => ?_, fun p hp => ?_⟩⟩
      · refine List.pairwise_append.mpr ⟨inv.pairwise, List.pairwise_singleton _ _, fun p hp q hq => ?_⟩
        rw [List.mem_singleton] at hq
        subst hq
        have := hend p hp
        simp only
        linarith
      · rcases List.mem_append.mp hp with hp | hp
        · obtain ⟨h1, h2, h3⟩ := inv.bounds p hp
          exact ⟨by linarith, h2, h3⟩
        · rw [List.mem_singleton] at hp
          subst hp
          refine ⟨le_rfl, hel, ?_⟩
          have : g.lat j ≤ 90 := by
            rw [hlat]
            have : (0 : ℝ) ≤ j := Nat.cast_nonneg _
            nlinarith
          exact hea.trans this
      · rcases Nat.lt_succ_iff_lt_or_eq.mp hi with hi | rfl
        · obtain ⟨p, hp, h⟩ := inv.complete i hi t h0 h1 hc
          exact ⟨p, List.mem_append_left _ hp, h⟩
        · refine ⟨_, List.mem_append_right _ (List.mem_singleton_self _), ?_, ?_⟩
          · simp only
            rw [hlat1]
            nlinarith
          · have : t0 < t := by
              by_contra hge
              have hge := not_lt.mp hge
              unfold lin at hc
              nlinarith
            have := mul_lt_mul_of_pos_right this hres
            simp only
            linarith
      · rcases Nat.lt_succ_iff_lt_or_eq.mp hi with hi | rfl
        · rcases List.mem_append.mp hp with hp | hp
          · exact inv.sound i hi t h0 h1 p hp h2 h3
          · rw [List.mem_singleton] at hp
            subst hp
            simp only at h3
            have hge := hup i hi t h1
            have htz : t0 * g.resolution = 0 := le_antisymm (by linarith) (mul_nonneg h00 hres.le)
            have ht00 : t0 = 0 := (mul_eq_zero.mp htz).resolve_right hres.ne'
            have hxc : x j = c := by rw [ht00] at ht0'; linarith
            have heq : g.lat i - t * g.resolution = g.lat j := le_antisymm (by linarith) hge
            rw [hlat, hlat] at heq
            have hit : (i : ℝ) + t = j := by
              have : ((i : ℝ) + t - j) * g.resolution = 0 := by linarith
              have := (mul_eq_zero.mp this).resolve_right hres.ne'
              linarith
            have hij : i + 1 = j := by
              have h4 : (j : ℝ) ≤ i + 1 := by linarith
              have h5 : j ≤ i + 1 := by exact_mod_cast h4
              omega
            have ht1 : t = 1 := by
              rw [← hij] at hit
              push_cast at hit
              linarith
            rw [ht1]
            unfold lin
            rw [hij, hxc]
            linarith
        · have htr := mul_nonneg h0 hres.le
          rcases List.mem_append.mp hp with hp | hp
          · have := hend p hp
            linarith
          · rw [List.mem_singleton] at hp
            subst hp
            simp only at h3
            have : t0 ≤ t := by
              by_contra hlt
              have := mul_lt_mul_of_pos_right (not_le.mp hlt) hres
              linarith
            unfold lin
            nlinarith
      · rcases List.mem_append.mp hp with hp | hp
        · rcases inv.starts p hp with h | ⟨i, hi, h⟩
          · exact Or.inl h
          · exact Or.inr ⟨i, by omega, h⟩
        · rw [List.mem_singleton] at hp
          subst hp
          exact Or.inr ⟨j, by omega, t0, h00, h01, rfl, hlt0, hupc⟩
      · obtain ⟨i, hi, h⟩ := inv.ends p hp
        exact ⟨i, by omega, h⟩
    · -- still no waveguide
      have hle := not_lt.mp hupc
      have hstep : g.scanStep (fin c) s (g.lat j) (fin (x j)) (fin (x (j + 1))) = s := by
        unfold scanStep
        rw [if_neg (fun h => by rw [hact] at h; exact absurd h.1 (by decide)), if_neg (fun h => hupc h.2)]
      rw [hstep]
      refine ⟨G, hG, Or.inr ⟨hact, hle, fun p hp => by have := hend p hp; linarith, inv.pairwise, fun p hp => ?_, fun i hi t h0 h1 hc => ?_,
        fun i hi t h0 h1 p hp h2 h3 => ?_, fun p hp => ?_, fun p hp => ?_⟩⟩
      · obtain ⟨h1, h2, h3⟩ := inv.bounds p hp
        exact ⟨by linarith, h2, h3⟩
      · rcases Nat.lt_succ_iff_lt_or_eq.mp hi with hi | rfl
        · exact inv.complete i hi t h0 h1 hc
        · exfalso
          unfold lin at hc
          nlinarith
      · rcases Nat.lt_succ_iff_lt_or_eq.mp hi with hi | rfl
        · exact inv.sound i hi t h0 h1 p hp h2 h3
        · have htr := mul_nonneg h0 hres.le
          have := hend p hp
          linarith
      · rcases inv.starts p hp with h | ⟨i, hi, h⟩
        · exact Or.inl h
        · exact Or.inr ⟨i, by omega, h⟩
      · obtain ⟨i, hi, h⟩ := inv.ends p hp
        exact ⟨i, by omega, h⟩

end Barotropic
