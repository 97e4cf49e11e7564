import Verif.Spec.Spharm

/-! # The spectral index list -/

namespace Barotropic

theorem specIndex_eq (T : ℕ) : specIndex T =
    (List.range (T + 1)).map (fun k => (0, k)) ++
      (List.range T).flatMap fun m => (List.range (T - m)).map fun k => (m + 1, m + 1 + k) := by
  unfold specIndex
  rw [List.range_succ_eq_map, List.flatMap_cons, ← List.range_succ_eq_map, List.flatMap_map]
  simp

theorem mem_specIndex {T : ℕ} {p : ℕ × ℕ} : p ∈ specIndex T ↔ p.1 ≤ p.2 ∧ p.2 ≤ T := by
  unfold specIndex
  simp only [List.mem_flatMap, List.mem_map, List.mem_range]
  constructor
  · rintro ⟨m, hm, k, hk, rfl⟩
    simp only; omega
  · rintro ⟨h1, h2⟩
    exact ⟨p.1, by omega, p.2 - p.1, by omega, by ext <;> simp <;> omega⟩

theorem specIndex_get_row {T k : ℕ} (hk : k ≤ T) : ∃ h : k < nspec T, (specIndex T).get ⟨k, h⟩ = (0, k) := by
  have hl : k < nspec T := by
    unfold nspec; rw [specIndex_eq]; simp only [List.length_append, List.length_map, List.length_range]; omega
  refine ⟨hl, ?_⟩
  simp only [List.get_eq_getElem]
  have : (specIndex T)[k]? = some (0, k) := by
    rw [specIndex_eq, List.getElem?_append_left (by simp; omega)]
    simp [List.getElem?_map, List.getElem?_range (show k < T + 1 by omega)]
  rw [List.getElem?_eq_some_iff] at this
  exact this.2

theorem nspec_pos (T : ℕ) : 0 < nspec T := (specIndex_get_row (Nat.zero_le T)).1

theorem one_lt_nspec {T : ℕ} (h : 1 ≤ T) : 1 < nspec T := (specIndex_get_row h).1

/-- index of the constant mode -/
def k0 (T : ℕ) : Fin (nspec T) := ⟨0, nspec_pos T⟩

/-- index of (m,n) = (0,1) -/
def k1 {T : ℕ} (h : 1 ≤ T) : Fin (nspec T) := ⟨1, one_lt_nspec h⟩

@[simp] theorem specN_k0 (T : ℕ) : specN (k0 T) = 0 := by
  exact congrArg Prod.snd (specIndex_get_row (Nat.zero_le T)).2
@[simp] theorem specM_k0 (T : ℕ) : specM (k0 T) = 0 := by
  exact congrArg Prod.fst (specIndex_get_row (Nat.zero_le T)).2
@[simp] theorem specN_k1 {T : ℕ} (h : 1 ≤ T) : specN (k1 h) = 1 := by
  exact congrArg Prod.snd (specIndex_get_row h).2
@[simp] theorem specM_k1 {T : ℕ} (h : 1 ≤ T) : specM (k1 h) = 0 := by
  exact congrArg Prod.fst (specIndex_get_row h).2

theorem k0_ne_k1 {T : ℕ} (h : 1 ≤ T) : k0 T ≠ k1 h := by
  intro e; simp [k0, k1, Fin.ext_iff] at e

theorem specM_le_specN {T : ℕ} (k : Fin (nspec T)) : specM k ≤ specN k :=
  (mem_specIndex.mp (List.get_mem (specIndex T) k)).1

theorem specN_le {T : ℕ} (k : Fin (nspec T)) : specN k ≤ T :=
  (mem_specIndex.mp (List.get_mem (specIndex T) k)).2

theorem specIndex_nodup (T : ℕ) : (specIndex T).Nodup := by
  unfold specIndex
  rw [List.nodup_flatMap]
  constructor
  · intro m _
    refine List.Nodup.map ?_ List.nodup_range
    intro a b h; simpa using h
  · refine List.Pairwise.imp ?_ (List.nodup_range (n := T + 1))
    intro a b hab x hx hy
    simp only [List.mem_map] at hx hy
    obtain ⟨_, _, rfl⟩ := hx
    obtain ⟨_, _, h⟩ := hy
    exact hab (by simpa using (congrArg Prod.fst h).symm)

theorem specIndex_inj {T : ℕ} {k l : Fin (nspec T)} (hm : specM k = specM l) (hn : specN k = specN l) : k = l := by
  have := (List.nodup_iff_injective_get.mp (specIndex_nodup T))
  exact this (Prod.ext hm hn)

theorem eq_k0_of_specN {T : ℕ} {k : Fin (nspec T)} (h : specN k = 0) : k = k0 T :=
  specIndex_inj (by have := specM_le_specN k; simp; omega) (by simp [h])

theorem specN_eq_zero {T : ℕ} {k : Fin (nspec T)} : specN k = 0 ↔ k.val = 0 :=
  ⟨fun h => by rw [eq_k0_of_specN h]; rfl, fun h => by
    have : k = k0 T := Fin.ext h
    rw [this]; simp⟩

theorem eq_k1_of {T : ℕ} (hT : 1 ≤ T) {k : Fin (nspec T)} (hm : specM k = 0) (h : specN k = 1) : k = k1 hT :=
  specIndex_inj (by simp [hm]) (by simp [h])

/-- The list has (T+1)(T+2)/2 entries. -/
theorem nspec_eq (T : ℕ) : 2 * nspec T = (T + 1) * (T + 2) := by
  unfold nspec
  induction T with
  | zero => rfl
  | succ T ih =>
    have key : ∀ T, (specIndex T).length = ((List.range (T + 1)).map fun m => T + 1 - m).sum := by
      intro T
      unfold specIndex
      rw [List.length_flatMap]
      congr 1
      simp
    rw [key] at ih ⊢
    rw [List.range_succ_eq_map, List.map_cons, List.sum_cons, List.map_map]
    have : ((fun m => T + 1 + 1 - m) ∘ Nat.succ) = fun m => T + 1 - m := by
      funext m; simp
    rw [this, Nat.mul_add, ih]
    simp; ring

end Barotropic
