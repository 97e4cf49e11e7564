import Verif.Lemmas.WaveguideScan

/-!
# Invariants of the waveguide scan, profiles with infinite values
-/

namespace Barotropic
open FloatX Grid

variable {g : Grid ℝ}

structure InfInv (g : Grid ℝ) (x : ℕ → FloatX) (c : ℝ) (j : ℕ) (C : List (ℝ × ℝ)) : Prop where
  pairwise : C.Pairwise fun p q => q.1 ≤ p.2
  bounds : ∀ p ∈ C, g.lat j ≤ p.2 ∧ p.2 ≤ p.1 ∧ p.1 ≤ 90
  complete : ∀ i ≤ j, (fin c).Lt (x i) → ∃ p ∈ C, p.2 ≤ g.lat i ∧ g.lat i ≤ p.1
  sound : ∀ i ≤ j, (x i).Lt (fin c) → ∀ p ∈ C, ¬ (p.2 < g.lat i ∧ g.lat i < p.1)

def InfState (g : Grid ℝ) (x : ℕ → FloatX) (c : ℝ) (j : ℕ) (s : Scan) : Prop :=
  ∃ G : List (ℝ × ℝ), s.guides = G.map toX ∧
    ((s.active = true ∧ (fin c).Le (x j) ∧ ∃ a, s.start = fin a ∧ InfInv g x c j (G ++ [(a, g.lat j)])) ∨
    (s.active = false ∧ (x j).Le (fin c) ∧ InfInv g x c j G))

theorem fx_not_lt_of_le {a b : FloatX} (h : a.Le b) : ¬ b.Lt a := by
  cases a <;> cases b <;> simp_all [Le, Lt]

theorem fx_le_of_not_lt {a b : FloatX} (ha : a ≠ nan) (hb : b ≠ nan) (h : ¬ b.Lt a) : a.Le b := by
  cases a <;> cases b <;> simp_all [Le, Lt]

theorem fx_le_of_lt {a b : FloatX} (h : a.Lt b) : a.Le b := by
  cases a <;> cases b <;> simp_all [Le, Lt, _root_.le_of_lt]

/-- End of a waveguide -/
theorem end_point (hg : g.Valid) (hsp : g.resolution * ((g.nlat : ℝ) - 1) = 180) {c : ℝ} {a b : FloatX} (ha : (fin c).Le a)
    (hb : b.Lt (fin c)) (j : ℕ) : ∃ e, g.lat (j + 1) ≤ e ∧ e ≤ g.lat j ∧
      (open Classical in if a.isinf then (fin (g.lat j)).add (fin g.dlat) else g.crossing (fin c) (g.lat j) a b) = fin e := by
  have hres := hg.res_pos
  have hlat1 : g.lat (j + 1) = g.lat j - g.resolution := by
    rw [lat_spacing hg hsp, lat_spacing hg hsp]; push_cast; ring
  cases a with
  | nan => exact absurd ha id
  | ninf => exact absurd ha id
  | pinf =>
    refine ⟨g.lat (j + 1), le_rfl, by linarith, ?_⟩
    rw [if_pos (show pinf.isinf from trivial), hlat1]
    rfl
  | fin a =>
    rw [if_neg (show ¬ (fin a).isinf from id)]
    cases b with
    | nan => exact absurd hb id
    | pinf => exact absurd hb id
    | ninf =>
      refine ⟨g.lat j, by linarith, le_rfl, ?_⟩
      simp [crossing, sub, neg, add, mul, div]
    | fin b =>
      have h1 : c ≤ a := ha
      have h2 : b < c := hb
      rw [crossing_fin hg hsp (by linarith)]
      have hd : 0 < a - b := by linarith
      have h00 : 0 ≤ (a - c) / (a - b) := div_nonneg (by linarith) hd.le
      have h01 : (a - c) / (a - b) < 1 := by rw [div_lt_one hd]; linarith
      exact ⟨_, by rw [hlat1]; nlinarith, by nlinarith, rfl⟩

/-- Start of a waveguide -/
theorem start_point (hg : g.Valid) (hsp : g.resolution * ((g.nlat : ℝ) - 1) = 180) {c : ℝ} {a b : FloatX} (ha : a.Le (fin c))
    (hb : (fin c).Lt b) (hj : ¬ (a = ninf ∧ b ≠ pinf)) (j : ℕ) : ∃ e, g.lat (j + 1) ≤ e ∧ e ≤ g.lat j ∧
      (open Classical in if b.isinf then fin (g.lat j) else g.crossing (fin c) (g.lat j) a b) = fin e := by
  have hres := hg.res_pos
  have hlat1 : g.lat (j + 1) = g.lat j - g.resolution := by
    rw [lat_spacing hg hsp, lat_spacing hg hsp]; push_cast; ring
  cases b with
  | nan => exact absurd hb id
  | ninf => exact absurd hb id
  | pinf => exact ⟨g.lat j, by linarith, le_rfl, if_pos trivial⟩
  | fin b =>
    rw [if_neg (show ¬ (fin b).isinf from id)]
    cases a with
    | nan => exact absurd ha id
    | pinf => exact absurd ha id
    | ninf => exact absurd ⟨rfl, by simp⟩ hj
    | fin a =>
      have h1 : a ≤ c := ha
      have h2 : c < b := hb
      rw [crossing_fin hg hsp (by linarith)]
      have hd : a - b < 0 := by linarith
      have h00 : 0 ≤ (a - c) / (a - b) := div_nonneg_of_nonpos (by linarith) hd.le
      have h01 : (a - c) / (a - b) < 1 := by rw [div_lt_one_of_neg hd]; linarith
      exact ⟨_, by rw [hlat1]; nlinarith, by nlinarith, rfl⟩

theorem infState_step (hg : g.Valid) (hsp : g.resolution * ((g.nlat : ℝ) - 1) = 180) (x : ℕ → FloatX) (c : ℝ) (j : ℕ) (s : Scan)
    (hn : x (j + 1) ≠ nan) (hjump : ¬ (x j = ninf ∧ (fin c).Lt (x (j + 1)) ∧ x (j + 1) ≠ pinf))
    (hP : InfState g x c j s) : InfState g x c (j + 1) (g.scanStep (fin c) s (g.lat j) (x j) (x (j + 1))) := by
  have hres := hg.res_pos
  have hanti := lat_strictAnti hg
  have hlat1 : g.lat (j + 1) < g.lat j := hanti (Nat.lt_succ_self j)
  have h90 : g.lat j ≤ 90 := by
    rw [lat_spacing hg hsp]
    have : (0 : ℝ) ≤ j := Nat.cast_nonneg _
    nlinarith
  obtain ⟨G, hG, ⟨hact, hx, a, ha, inv⟩ | ⟨hact, hx, inv⟩⟩ := hP
  · have hab := inv.bounds (a, g.lat j) (by simp)
    simp only at hab
    have hGa : ∀ p ∈ G, a ≤ p.2 := fun p hp => (List.pairwise_append.mp inv.pairwise).2.2 p hp _ (List.mem_singleton_self _)
    have pw : ∀ e : ℝ, (G ++ [(a, e)]).Pairwise fun p q => q.1 ≤ p.2 := by
      intro e
      refine List.pairwise_append.mpr ⟨(List.pairwise_append.mp inv.pairwise).1, List.pairwise_singleton _ _, fun p hp q hq => ?_⟩
      rw [List.mem_singleton] at hq
      subst hq
      exact hGa p hp
    have bd : ∀ e, g.lat (j + 1) ≤ e → e ≤ g.lat j → ∀ p ∈ G ++ [(a, e)], g.lat (j + 1) ≤ p.2 ∧ p.2 ≤ p.1 ∧ p.1 ≤ 90 := by
      intro e h1 h2 p hp
      rcases List.mem_append.mp hp with hp | hp
      · obtain ⟨h1, h2, h3⟩ := inv.bounds p (List.mem_append_left _ hp)
        exact ⟨by linarith, h2, h3⟩
      · rw [List.mem_singleton] at hp
        subst hp
        exact ⟨h1, by simp only; linarith, hab.2.2⟩
    have oldC : ∀ e : ℝ, e ≤ g.lat j → ∀ i ≤ j, (fin c).Lt (x i) → ∃ p ∈ G ++ [(a, e)], p.2 ≤ g.lat i ∧ g.lat i ≤ p.1 := by
      intro e he i hi hc
      obtain ⟨p, hp, h2, h3⟩ := inv.complete i hi hc
      rcases List.mem_append.mp hp with hp | hp
      · exact ⟨p, List.mem_append_left _ hp, h2, h3⟩
      · rw [List.mem_singleton] at hp
        subst hp
        exact ⟨(a, e), List.mem_append_right _ (List.mem_singleton_self _), he.trans h2, h3⟩
    have snd : ∀ e, g.lat (j + 1) ≤ e → ∀ i ≤ j + 1, (x i).Lt (fin c) → ∀ p ∈ G ++ [(a, e)], ¬ (p.2 < g.lat i ∧ g.lat i < p.1) := by
      intro e he i hi hc p hp ⟨h1, h2⟩
      rcases Nat.lt_or_ge j i with hij | hij
      · have : i = j + 1 := by omega
        subst this
        rcases List.mem_append.mp hp with hp | hp
        · have := (inv.bounds p (List.mem_append_left _ hp)).1
          linarith
        · rw [List.mem_singleton] at hp
          subst hp
          simp only at h1
          linarith
      · rcases List.mem_append.mp hp with hp | hp
        · exact inv.sound i hij hc p (List.mem_append_left _ hp) ⟨h1, h2⟩
        · rw [List.mem_singleton] at hp
          subst hp
          rcases Nat.lt_or_ge i j with hlt | hge
          · exact inv.sound i hij hc (a, g.lat j) (by simp) ⟨hanti hlt, h2⟩
          · have : i = j := by omega
            subst this
            exact fx_not_lt_of_le hx hc
    by_cases hdown : (x (j + 1)).Lt (fin c)
    · obtain ⟨e, he1, he2, he⟩ := end_point hg hsp hx hdown j
      have hstep : g.scanStep (fin c) s (g.lat j) (x j) (x (j + 1)) =
          { s with active := false, guides := s.guides ++ [(s.start, fin e)] } := by
        unfold scanStep
        rw [if_pos ⟨hact, hdown⟩, he]
      rw [hstep]
      refine ⟨G ++ [(a, e)], by simp [hG, ha, toX], Or.inr ⟨rfl, fx_le_of_lt hdown, pw _, bd e he1 he2, fun i hi hc => ?_, snd e he1⟩⟩
      rcases Nat.lt_or_ge j i with hij | hij
      · have : i = j + 1 := by omega
        subst this
        exact absurd hdown (fx_not_lt_of_le (fx_le_of_lt hc))
      · exact oldC e he2 i hij hc
    · have hstep : g.scanStep (fin c) s (g.lat j) (x j) (x (j + 1)) = s := by
        unfold scanStep
        rw [if_neg (fun h => hdown h.2), if_neg (fun h => by rw [hact] at h; exact absurd h.1 (by decide))]
      rw [hstep]
      refine ⟨G, hG, Or.inl ⟨hact, fx_le_of_not_lt (by simp) hn hdown, a, ha, pw _, bd _ le_rfl hlat1.le, fun i hi hc => ?_, snd _ le_rfl⟩⟩
      rcases Nat.lt_or_ge j i with hij | hij
      · have : i = j + 1 := by omega
        subst this
        exact ⟨(a, g.lat (j + 1)), by simp, le_rfl, by simp only; linarith⟩
      · exact oldC _ hlat1.le i hij hc
  · have bd : ∀ p ∈ G, g.lat (j + 1) ≤ p.2 ∧ p.2 ≤ p.1 ∧ p.1 ≤ 90 := by
      intro p hp
      obtain ⟨h1, h2, h3⟩ := inv.bounds p hp
      exact ⟨by linarith, h2, h3⟩
    have snd : ∀ i ≤ j + 1, (x i).Lt (fin c) → ∀ p ∈ G, ¬ (p.2 < g.lat i ∧ g.lat i < p.1) := by
      intro i hi hc p hp ⟨h1, h2⟩
      rcases Nat.lt_or_ge j i with hij | hij
      · have : i = j + 1 := by omega
        subst this
        have := (inv.bounds p hp).1
        linarith
      · exact inv.sound i hij hc p hp ⟨h1, h2⟩
    by_cases hupc : (fin c).Lt (x (j + 1))
    · obtain ⟨a, he1, he2, he⟩ := start_point hg hsp hx hupc (fun h => hjump ⟨h.1, hupc, h.2⟩) j
      have hstep : g.scanStep (fin c) s (g.lat j) (x j) (x (j + 1)) = { s with active := true, start := fin a } := by
        unfold scanStep
        rw [if_neg (fun h => by rw [hact] at h; exact absurd h.1 (by decide)), if_pos ⟨hact, hupc⟩, he]
      rw [hstep]
      refine ⟨G, hG, Or.inl ⟨rfl, fx_le_of_lt hupc, a, rfl, ?_, fun p hp => ?_, fun i hi hc => ?_, fun i hi hc p hp => ?_⟩⟩
      · refine List.pairwise_append.mpr ⟨inv.pairwise, List.pairwise_singleton _ _, fun p hp q hq => ?_⟩
        rw [List.mem_singleton] at hq
        subst hq
        have := (inv.bounds p hp).1
        simp only
        linarith
      · rcases List.mem_append.mp hp with hp | hp
        · exact bd p hp
        · rw [List.mem_singleton] at hp
          subst hp
          exact ⟨le_rfl, he1, he2.trans h90⟩
      · rcases Nat.lt_or_ge j i with hij | hij
        · have : i = j + 1 := by omega
          subst this
          exact ⟨(a, g.lat (j + 1)), by simp, le_rfl, he1⟩
        · obtain ⟨p, hp, h⟩ := inv.complete i hij hc
          exact ⟨p, List.mem_append_left _ hp, h⟩
      · rcases List.mem_append.mp hp with hp | hp
        · exact snd i hi hc p hp
        · rw [List.mem_singleton] at hp
          subst hp
          rintro ⟨h1, h2⟩
          simp only at h1 h2
          have hi1 : i < j + 1 := hanti.lt_iff_gt.mp h1
          have hi2 : g.lat j ≤ g.lat i := hanti.antitone (by omega)
          linarith
    · have hstep : g.scanStep (fin c) s (g.lat j) (x j) (x (j + 1)) = s := by
        unfold scanStep
        rw [if_neg (fun h => by rw [hact] at h; exact absurd h.1 (by decide)), if_neg (fun h => hupc h.2)]
      rw [hstep]
      refine ⟨G, hG, Or.inr ⟨hact, fx_le_of_not_lt hn (by simp) hupc, inv.pairwise, bd, fun i hi hc => ?_, snd⟩⟩
      rcases Nat.lt_or_ge j i with hij | hij
      · have : i = j + 1 := by omega
        subst this
        exact absurd hc hupc
      · exact inv.complete i hij hc

end Barotropic
