import Verif.Model.Protocol
import Verif.Props.StateList

/-!
# StateList objects and Python's protocols: C83, C84
-/

namespace Barotropic
open SList

variable {τ : Type} {H : GridHeap} {α : Type}

/-- The class `State` of the package: callable attributes are those of the list, and no name with double underscores is an
attribute of states in addition to those. -/
structure IsStateClass (C : StateCls τ H α) : Prop where
  callable : ∀ name, (C.method name).isSome ↔ name ∈ stateCallables
  special : ∀ s, ∀ name ∈ ["__setstate__", "__deepcopy__"], C.attr name s = .error .attributeError

theorem IsStateClass.none {C : StateCls τ H α} (hC : IsStateClass C) {name : String} (h : name ∉ stateCallables) :
    C.method name = none := by
  have := hC.callable name
  cases hm : C.method name with
  | none => rfl
  | some m => rw [hm] at this; exact absurd (this.mp rfl) h

theorem iter_unset {C : StateCls τ H α} (hC : C.method "_states" = none) (limit : ℕ) :
    iter C none limit = .error .recursionError := by
  induction limit with
  | zero => rfl
  | succ n ih =>
    unfold iter
    simp only [hC, ih]
    rfl

theorem reconstruct_fails {C : StateCls τ H α} (hC : IsStateClass C) (limit : ℕ) (dict : SList τ H) :
    reconstruct C limit dict = .error .recursionError := by
  have h1 : C.method "_states" = none := hC.none (by decide)
  have h2 : C.method "__setstate__" = none := hC.none (by decide)
  unfold reconstruct hasattr getattrInst
  simp only [h2, iter_unset h1]
  rfl

/-! ## C83 copies -/

/-- C83 refuted: no StateList can be copied or pickled, whatever the recursion limit. The protocol asks a new instance for
`__setstate__`; `__getattr__` iterates over the instance, whose attribute `_states` does not exist yet. -/
theorem C83_copy_refuted {C : StateCls τ H α} (hC : IsStateClass C) (limit : ℕ) (l : SList τ H) :
    SList.copy C limit l = .error .recursionError := reconstruct_fails hC limit l

/-- C83 refuted for deep copies of non-empty lists, with a way of copying the states that always works. -/
theorem C83_deepcopy_refuted {C : StateCls τ H α} (hC : IsStateClass C) (limit : ℕ) (l : SList τ H)
    (copyStates : SList τ H → Except PyErr (SList τ H)) (hc : ∀ l, ∃ l', copyStates l = .ok l') (s : AnySt τ H)
    (hl : l.states.head? = some s) :
    SList.deepcopy C limit copyStates l = .error .recursionError := by
  have h2 : C.method "__deepcopy__" = none := hC.none (by decide)
  obtain ⟨l', hl'⟩ := hc l
  cases limit with
  | zero =>
    unfold SList.deepcopy getattrInst
    simp only [h2, iter]
    rfl
  | succ n =>
    have h3 : getattrInst C (some l) (n + 1) "__deepcopy__" = .error .attributeError := by
      unfold getattrInst
      simp only [h2, iter]
      cases hs : l.states with
      | nil => rw [hs] at hl; cases hl
      | cons a t =>
        simp only [List.mapM_cons, hC.special a "__deepcopy__" (by simp), Bind.bind, Except.bind]
    unfold SList.deepcopy
    rw [h3]
    simp only [hl', Bind.bind, Except.bind]
    exact reconstruct_fails hC _ _

/-- C83 refuted for deep copies of the empty list: it pretends to have a method `__deepcopy__`, which is an array. -/
theorem C83_deepcopy_empty_refuted {C : StateCls τ H α} (hC : IsStateClass C) (limit : ℕ) (hn : 0 < limit)
    (copyStates : SList τ H → Except PyErr (SList τ H)) :
    SList.deepcopy C limit copyStates ⟨[]⟩ = .error .typeError := by
  have h2 : C.method "__deepcopy__" = none := hC.none (by decide)
  obtain ⟨n, rfl⟩ : ∃ n, limit = n + 1 := ⟨limit - 1, by omega⟩
  have h3 : getattrInst C (some ⟨[]⟩) (n + 1) "__deepcopy__" = .ok (.value (.ndarray ⟨[0], []⟩)) := by
    unfold getattrInst
    simp only [h2, iter, List.mapM_nil, Bind.bind, Except.bind, pure, Except.pure]
    have : convertSequence ([] : List (PyObj τ H)) = .ok (.ndarray ⟨[0], []⟩) := by
      unfold convertSequence
      rw [if_pos (by simp)]
      rfl
    rw [this]
  unfold SList.deepcopy
  rw [h3]

/-! ## C84 attributes that do not exist -/

/-- A complete instance behaves like the list it was made from (`SList.getattr`, C40). -/
theorem C84_getattr (C : StateCls τ H α) (l : SList τ H) (n : ℕ) (name : String) (hm : C.method name = none) :
    getattrInst C (some l) (n + 1) name = l.getattr C name := by
  unfold getattrInst SList.getattr
  rw [hm]
  rfl

/-- C84: a non-empty StateList of states without attribute `name` does not have it either, and says so with AttributeError. -/
theorem C84_missing_partial (C : StateCls τ H α) (l : SList τ H) (n : ℕ) (name : String) (hm : C.method name = none)
    (hl : l.states ≠ []) (ha : ∀ s ∈ l.states, C.attr name s = .error .attributeError) :
    hasattr C (some l) (n + 1) name = .ok false := by
  have : getattrInst C (some l) (n + 1) name = .error .attributeError := by
    unfold getattrInst
    simp only [hm, iter]
    cases hs : l.states with
    | nil => exact absurd hs hl
    | cons a t =>
      simp only [List.mapM_cons, ha a (by rw [hs]; simp), Bind.bind, Except.bind]
  unfold hasattr
  rw [this]

/-- C84: conversely, if it is said not to have the attribute, then some state does not. -/
theorem C84_sound (C : StateCls τ H α) (l : SList τ H) (n : ℕ) (name : String)
    (h : hasattr C (some l) (n + 1) name = .ok false) :
    C.method name = none ∧ ∃ s ∈ l.states, C.attr name s = .error .attributeError := by
  have h1 : getattrInst C (some l) (n + 1) name = .error .attributeError := by
    unfold hasattr at h
    split at h
    · cases h
    · assumption
    · cases h
  unfold getattrInst at h1
  cases hm : C.method name with
  | some m => rw [hm] at h1; cases h1
  | none =>
    refine ⟨rfl, ?_⟩
    simp only [hm, iter, Bind.bind, Except.bind] at h1
    cases hs : l.states.mapM (C.attr name) with
    | ok seq =>
      rw [hs] at h1
      dsimp only at h1
      -- conversion never raises AttributeError
      exfalso
      have hconv : ∀ seq : List (PyObj τ H), convertSequence seq ≠ .error .attributeError := by
        intro seq hc
        unfold convertSequence at hc
        split_ifs at hc
        · unfold stack at hc
          split at hc
          · cases hc
          · rename_i e he
            cases hc
            split at he
            · cases he
            · split_ifs at he
              cases he
        · cases hk : make seq with
          | ok l' => rw [hk] at hc; cases hc
          | error e =>
            rw [hk] at hc
            cases hc
            obtain ⟨_, _, _, _, _, h3⟩ := C39_errors _ _ hk
            rcases h3 with ⟨_, h3⟩ | ⟨_, _, _, h3⟩ <;> cases h3
      cases hc : convertSequence seq with
      | ok c => rw [hc] at h1; cases h1
      | error e => rw [hc] at h1; cases h1; exact hconv _ hc
    | error e =>
      rw [hs] at h1
      cases h1
      clear h
      generalize l.states = L at hs ⊢
      induction L with
      | nil => cases hs
      | cons a t ih =>
        simp only [List.mapM_cons, Bind.bind, Except.bind] at hs
        cases ha : C.attr name a with
        | error e => rw [ha] at hs; cases hs; exact ⟨a, by simp, ha⟩
        | ok b =>
          rw [ha] at hs
          dsimp only at hs
          cases ht : t.mapM (C.attr name) with
          | ok r => rw [ht] at hs; cases hs
          | error e =>
            rw [ht] at hs
            cases hs
            obtain ⟨s, h1, h2⟩ := ih ht
            exact ⟨s, List.mem_cons_of_mem _ h1, h2⟩

/-- C84 refuted for the empty list: it has every attribute, whatever its name. -/
theorem C84_empty_refuted (C : StateCls τ H α) (n : ℕ) (name : String) : hasattr C (some ⟨[]⟩) (n + 1) name = .ok true := by
  unfold hasattr getattrInst
  cases hm : C.method name with
  | some m => rfl
  | none =>
    have : convertSequence ([] : List (PyObj τ H)) = .ok (.ndarray ⟨[0], []⟩) := by
      unfold convertSequence
      rw [if_pos (by simp)]
      rfl
    simp only [iter, List.mapM_nil, Bind.bind, Except.bind, pure, Except.pure, this]

/-- Non-vacuity of C83 and C84: there is a class with exactly the callable attributes of `State`, and a list. -/
example (s : AnySt τ H) : ∃ C : StateCls τ H Unit, IsStateClass C ∧ (⟨[s, s]⟩ : SList τ H).states ≠ [] ∧
    hasattr C (some ⟨[s, s]⟩) 1 "spam" = .ok false ∧ hasattr C (some ⟨[s, s]⟩) 1 "run" = .ok true := by

  let C : StateCls τ H Unit :=
    ⟨fun name => if name ∈ stateCallables then some fun _ _ => .error .typeError else none, fun _ _ => .error .attributeError⟩
  have h1 : "spam" ∉ stateCallables := by decide
  have h2 : "run" ∈ stateCallables := by decide
  have hspam : C.method "spam" = none := by simp [C, h1]
  have hrun : C.method "run" = some fun _ _ => .error .typeError := by simp [C, h2]
  refine ⟨C, ⟨fun name => ?_, fun _ _ _ => rfl⟩, by simp, ?_, ?_⟩
  · by_cases h : name ∈ stateCallables <;> simp [C, h]
  · exact C84_missing_partial C _ 0 _ hspam (by simp) fun _ _ => rfl
  · unfold hasattr getattrInst
    rw [hrun]

end Barotropic
