import Verif.Spec.StateList
import Verif.Lemmas.SpharmZonal
import Verif.Props.Run
import Mathlib.Tactic.Linarith
import Mathlib.Data.List.Forall2

/-!
# StateList: C39 – C41
-/

namespace Barotropic
open SList

variable {τ : Type} {H : GridHeap}

theorem Grid.eq_refl (g : Grid ℝ) : g.eq g := by
  have h : ∀ a : ℝ, isclose a a := by
    intro a; unfold isclose; rw [sub_self, abs_zero]; positivity
  exact ⟨rfl, h _, h _, rfl⟩

theorem PyObj.asState_some {x : PyObj τ H} {s : AnySt τ H} (h : x.asState = some s) : x = .state s := by
  cases x <;> simp_all [PyObj.asState]

/-! ## C39 construction -/

theorem check_ok {first : Option ℕ} {xs : List (PyObj τ H)} {l : List (AnySt τ H)} :
    check first xs = .ok l ↔ xs = l.map .state ∧
      ∀ i, (first.orElse fun _ => l.head?.map (·.1)) = some i → ∀ s ∈ l, (H.grid i).eq (H.grid s.1) := by
  induction xs generalizing first l with
  | nil =>
    unfold check
    constructor
    · intro h; cases h; exact ⟨rfl, fun _ _ s hs => by cases hs⟩
    · rintro ⟨h, _⟩
      cases l with
      | nil => rfl
      | cons a l => simp at h
  | cons x xs ih =>
    unfold check
    cases hx : x.asState with
    | none =>
      dsimp only
      constructor
      · intro h; cases h
      · rintro ⟨h, _⟩
        cases l with
        | nil => simp at h
        | cons a l =>
          simp only [List.map_cons, List.cons.injEq] at h
          rw [h.1] at hx; simp [PyObj.asState] at hx
    | some s =>
      have := PyObj.asState_some hx
      subst this
      dsimp only
      have hfirst : ∀ l' : List (AnySt τ H), (first.orElse fun _ => (s :: l').head?.map (·.1)) = some (first.getD s.1) := by
        intro l'; cases first <;> simp
      split_ifs with hg
      · cases hc : check (some (first.getD s.1)) xs with
        | error e =>
          dsimp only
          constructor
          · intro h; cases h
          · rintro ⟨h, h2⟩
            cases l with
            | nil => simp at h
            | cons a l =>
              simp only [List.map_cons, List.cons.injEq, PyObj.state.injEq] at h
              obtain ⟨rfl, rfl⟩ := h
              have : check (some (first.getD s.1)) (l.map .state) = .ok l := by
                rw [ih]
                refine ⟨rfl, fun i hi t ht => ?_⟩
                simp at hi
                subst hi
                exact h2 _ (hfirst l) t (List.mem_cons_of_mem _ ht)
              rw [this] at hc; cases hc
        | ok l1 =>
          obtain ⟨e1, e2⟩ := ih.mp hc
          dsimp only
          constructor
          · intro h; cases h
            refine ⟨by rw [e1]; rfl, fun i hi t ht => ?_⟩
            rw [hfirst l1] at hi
            cases hi
            rcases List.mem_cons.mp ht with rfl | ht
            · exact hg
            · exact e2 _ rfl t ht
          · rintro ⟨h, h2⟩
            cases l with
            | nil => simp at h
            | cons a l =>
              simp only [List.map_cons, List.cons.injEq, PyObj.state.injEq] at h
              obtain ⟨rfl, h⟩ := h
              rw [e1] at h
              have hinj : Function.Injective (PyObj.state : AnySt τ H → PyObj τ H) := fun a b h => by cases h; rfl
              rw [hinj.list_map h]
      · constructor
        · intro h; cases h
        · rintro ⟨h, h2⟩
          cases l with
          | nil => simp at h
          | cons a l =>
            simp only [List.map_cons, List.cons.injEq, PyObj.state.injEq] at h
            obtain ⟨rfl, _⟩ := h
            exact absurd (h2 _ (hfirst l) s (List.mem_cons_self)) hg

/-- C39: construction succeeds iff all elements are states whose grids equal that of the first one, and then holds exactly
these states in order. -/
theorem C39_success (xs : List (PyObj τ H)) (l : SList τ H) :
    make xs = .ok l ↔ xs = l.states.map .state ∧ Homogeneous l.states := by
  have : make xs = .ok l ↔ check none xs = .ok l.states := by
    unfold make
    cases check none xs with
    | error e => simp
    | ok l' =>
      dsimp only
      constructor
      · intro h; cases h; rfl
      · intro h; cases h; rfl
  rw [this, check_ok]
  refine and_congr_right fun _ => ?_
  unfold Homogeneous
  constructor
  · intro h f hf s hs
    exact h f.1 (by rw [hf]; rfl) s hs
  · intro h i hi s hs
    cases hh : l.states.head? with
    | none => rw [hh] at hi; simp at hi
    | some f =>
      rw [hh] at hi
      simp at hi
      rw [← hi]
      exact h f hh s hs

theorem check_error {first : Option ℕ} {xs : List (PyObj τ H)} {e : PyErr} (h : check first xs = .error e) :
    ∃ (pre : List (AnySt τ H)) (x : PyObj τ H) (post : List (PyObj τ H)), xs = pre.map .state ++ x :: post ∧
      check first (pre.map .state) = .ok pre ∧
      ((x.asState = none ∧ e = .typeError) ∨ ∃ s, x = .state s ∧ e = .assertionError ∧
        ¬ (H.grid (first.getD ((pre ++ [s]).head (by simp)).1)).eq (H.grid s.1)) := by
  induction xs generalizing first with
  | nil => simp [check] at h
  | cons x xs ih =>
    unfold check at h
    cases hx : x.asState with
    | none =>
      rw [hx] at h; cases h
      exact ⟨[], x, xs, rfl, rfl, .inl ⟨hx, rfl⟩⟩
    | some s =>
      have := PyObj.asState_some hx
      subst this
      rw [hx] at h
      dsimp only at h
      split_ifs at h with hg
      · cases hc : check (some (first.getD s.1)) xs with
        | ok l => rw [hc] at h; cases h
        | error e' =>
          rw [hc] at h; cases h
          obtain ⟨pre, x, post, h1, h2, h3⟩ := ih hc
          refine ⟨s :: pre, x, post, by rw [h1]; rfl, ?_, ?_⟩
          · rw [List.map_cons]
            unfold check
            simp only [PyObj.asState, if_pos hg, h2]
          · rcases h3 with h3 | ⟨t, h4, h5, h6⟩
            · exact .inl h3
            · exact .inr ⟨t, h4, h5, by simpa using h6⟩
      · cases h
        exact ⟨[], .state s, xs, rfl, rfl, .inr ⟨s, rfl, rfl, by simpa using hg⟩⟩

/-- C39: failure is due to the first element that is no state (TypeError) or has a grid different from that of the first
state (AssertionError). -/
theorem C39_errors (xs : List (PyObj τ H)) (e : PyErr) (h : make xs = .error e) :
    ∃ (pre : List (AnySt τ H)) (x : PyObj τ H) (post : List (PyObj τ H)), xs = pre.map .state ++ x :: post ∧
      Homogeneous pre ∧
      (((∀ s, x ≠ .state s) ∧ e = .typeError) ∨
        ∃ s, x = .state s ∧ ¬ Homogeneous (pre ++ [s]) ∧ e = .assertionError) := by
  have hc : check none xs = .error e := by
    unfold make at h
    cases hc : check none xs with
    | ok l => rw [hc] at h; cases h
    | error e' => rw [hc] at h; cases h; rfl
  obtain ⟨pre, x, post, h1, h2, h3⟩ := check_error hc
  refine ⟨pre, x, post, h1, ?_, ?_⟩
  · have : make (pre.map .state) = .ok ⟨pre⟩ := by unfold make; rw [h2]
    exact ((C39_success _ _).mp this).2
  · rcases h3 with ⟨h4, h5⟩ | ⟨s, h4, h5, h6⟩
    · exact .inl ⟨fun s hs => by rw [hs] at h4; simp [PyObj.asState] at h4, h5⟩
    · refine .inr ⟨s, h4, fun hh => h6 ?_, h5⟩
      have := hh ((pre ++ [s]).head (by simp)) (List.head?_eq_some_head (by simp)) s (by simp)
      simpa using this

/-- C39: every StateList obtained by construction, concatenation, map, attribute or method access, or run has the invariant. -/
theorem C39_invariant (l : SList τ H) (h : SList.Obtained l) : Homogeneous l.states := by
  have conv : ∀ (seq : List (PyObj τ H)) l', convertSequence seq = .ok (.stateList l') → Homogeneous l'.states := by
    intro seq l' h
    unfold convertSequence at h
    split_ifs at h
    · cases hs : stack (seq.filterMap PyObj.asNdarray) <;> rw [hs] at h <;> cases h
    · cases h
    · cases hs : make seq with
      | error e => rw [hs] at h; cases h
      | ok l1 => rw [hs] at h; cases h; exact ((C39_success _ _).mp hs).2
    · cases h
  have hmap : ∀ (l : SList τ H) f l', l.map f = .ok (.stateList l') → Homogeneous l'.states := by
    intro l f l' h
    unfold SList.map at h
    cases hm : l.states.mapM f with
    | error e => rw [hm] at h; cases h
    | ok seq => rw [hm] at h; exact conv seq l' h
  induction h with
  | make h => exact ((C39_success _ _).mp h).2
  | add _ h _ => exact ((C39_success _ _).mp h).2
  | map _ h _ => exact hmap _ _ _ h
  | @attr α C l name l' _ h _ =>
    unfold getattr at h
    cases hm : C.method name with
    | some m => rw [hm] at h; cases h
    | none =>
      rw [hm] at h
      dsimp only [Bind.bind, Except.bind] at h
      cases hs : l.states.mapM (C.attr name) with
      | error e => rw [hs] at h; cases h
      | ok seq =>
        rw [hs] at h
        dsimp only at h
        cases hc : convertSequence seq with
        | error e => rw [hc] at h; cases h
        | ok c => rw [hc] at h; cases h; exact conv seq l' hc
  | @method α C l name f args l' _ h1 h2 _ =>
    unfold getattr at h1
    cases hm : C.method name with
    | some m => rw [hm] at h1; cases h1; exact hmap _ _ _ h2
    | none =>
      rw [hm] at h1
      dsimp only [Bind.bind, Except.bind] at h1
      cases hs : l.states.mapM (C.attr name) with
      | error e => rw [hs] at h1; cases h1
      | ok seq =>
        rw [hs] at h1
        dsimp only at h1
        cases hc : convertSequence seq with
        | error e => rw [hc] at h1; cases h1
        | ok c => rw [hc] at h1; cases h1
  | @run l mr last steps _ h _ =>
    unfold SList.run at h
    dsimp only [Bind.bind, Except.bind] at h
    cases hs : l.states.mapM mr with
    | error e => rw [hs] at h; cases h
    | ok res =>
      rw [hs] at h
      dsimp only at h
      cases hm : make (res.map fun r => .state r.1) with
      | error e => rw [hm] at h; cases h
      | ok last' => rw [hm] at h; cases h; exact ((C39_success _ _).mp hm).2

/-- C39: concatenation. -/
theorem C39_add (l l' : SList τ H) (other : List (PyObj τ H)) :
    l.add other = .ok l' ↔ ∃ o : List (AnySt τ H), other = o.map .state ∧ l'.states = l.states ++ o ∧ Homogeneous (l.states ++ o) := by
  unfold SList.add
  rw [C39_success]
  have hinj : Function.Injective (PyObj.state : AnySt τ H → PyObj τ H) := fun a b h => by cases h; rfl
  constructor
  · rintro ⟨h1, h2⟩
    rw [List.append_eq_map_iff] at h1
    obtain ⟨a, b, h3, h4, h5⟩ := h1
    have := hinj.list_map h4
    subst this
    exact ⟨b, h5.symm, h3, by rw [← h3]; exact h2⟩
  · rintro ⟨o, rfl, h1, h2⟩
    rw [h1]
    exact ⟨by rw [List.map_append], h2⟩

/-- Non-vacuity of C39: a list of two states on one grid is accepted, anything that is not a state is rejected. -/
example (s : AnySt τ H) : make [.state s, .state s] = .ok ⟨[s, s]⟩ ∧ make [.state s, .other 0] = .error .typeError := by
  constructor
  · rw [C39_success]
    refine ⟨rfl, fun f hf t ht => ?_⟩
    simp only [List.head?_cons, Option.some.injEq] at hf
    simp only [List.mem_cons, List.not_mem_nil, or_false, or_self] at ht
    subst hf; subst ht
    exact Grid.eq_refl _
  · simp [make, check, PyObj.asState, Grid.eq_refl]

/-! ## C40 broadcasting -/

theorem mapM_forall₂ {ε α β : Type} (f : α → Except ε β) : ∀ (l : List α) (r : List β), l.mapM f = .ok r ↔
    List.Forall₂ (fun a b => f a = .ok b) l r := by
  intro l
  induction l with
  | nil =>
    intro r
    simp only [List.mapM_nil, pure, Except.pure, Except.ok.injEq, List.forall₂_nil_left_iff]
    exact eq_comm
  | cons a l ih =>
    intro r
    simp only [List.mapM_cons, Bind.bind, Except.bind, pure, Except.pure]
    cases hf : f a with
    | error e =>
      simp only [reduceCtorEq, false_iff]
      intro h
      cases h with
      | cons h1 _ => rw [hf] at h1; cases h1
    | ok b =>
      dsimp only
      cases hm : l.mapM f with
      | error e =>
        simp only [reduceCtorEq, false_iff]
        intro h
        cases h with
        | cons _ h2 => rw [← ih, hm] at h2; cases h2
      | ok r' =>
        dsimp only
        constructor
        · intro h; cases h
          exact .cons hf ((ih _).mp hm)
        · intro h
          cases h with
          | cons h1 h2 =>
            rw [hf] at h1; cases h1
            rw [← ih, hm] at h2; cases h2; rfl

theorem flatten_slice (p : ℕ) : ∀ (l : List (List ℝ)) (k : ℕ) (hk : k < l.length), (∀ d ∈ l, d.length = p) →
    (l.flatten.drop (k * p)).take p = l[k] := by
  intro l
  induction l with
  | nil => intro k hk; simp at hk
  | cons a l ih =>
    intro k hk h
    have ha : a.length = p := h a (List.mem_cons_self)
    rw [List.flatten_cons]
    cases k with
    | zero =>
      rw [zero_mul, List.drop_zero, ← ha]
      simp
    | succ k =>
      have e : (k + 1) * p = a.length + k * p := by rw [ha]; ring
      rw [e, List.drop_append]
      simp only [List.getElem_cons_succ]
      have h1 : List.drop (a.length + k * p) a = [] := List.drop_eq_nil_of_le (by omega)
      have h2 : a.length + k * p - a.length = k * p := by omega
      rw [h1, h2, List.nil_append]
      exact ih k (by simpa using hk) fun d hd => h d (List.mem_cons_of_mem _ hd)

/-- Everything a container holds, entry by entry. -/
theorem convert_elements (seq : List (PyObj τ H)) (c : Container τ H) (hwf : ∀ a, .ndarray a ∈ seq → a.WF)
    (h : convertSequence seq = .ok c) :
    c.len = seq.length ∧ ∀ k (hk : k < seq.length), ∃ z, c.get k = some z ∧ PyObj.Same seq[k] z := by
  unfold convertSequence at h
  split_ifs at h with h1 h2 h3
  · -- arrays
    obtain ⟨as, rfl⟩ : ∃ as : List NdArr, seq = as.map .ndarray := by
      clear h hwf
      induction seq with
      | nil => exact ⟨[], rfl⟩
      | cons x xs ih =>
        obtain ⟨as, rfl⟩ := ih fun y hy => h1 y (List.mem_cons_of_mem _ hy)
        have := h1 x (List.mem_cons_self)
        cases x with
        | ndarray a => exact ⟨a :: as, rfl⟩
        | number _ => simp [PyObj.asNdarray] at this
        | state _ => simp [PyObj.asNdarray] at this
        | other _ => simp [PyObj.asNdarray] at this
    have hfm : (as.map (PyObj.ndarray (τ := τ) (H := H))).filterMap PyObj.asNdarray = as := by
      rw [List.filterMap_map]
      have : (PyObj.asNdarray ∘ (PyObj.ndarray (τ := τ) (H := H))) = some := by funext a; rfl
      rw [this, List.filterMap_some]
    rw [hfm] at h
    cases as with
    | nil =>
      simp only [stack] at h; cases h
      exact ⟨rfl, fun k hk => by simp at hk⟩
    | cons a rest =>
      unfold stack at h
      dsimp only at h
      split_ifs at h with hs
      · dsimp only at h
        cases h
        refine ⟨by simp [Container.len], fun k hk => ?_⟩
        simp only [List.length_map, List.length_cons] at hk
        have hshape : ∀ b ∈ a :: rest, b.shape = a.shape := by
          intro b hb
          rcases List.mem_cons.mp hb with rfl | hb
          · rfl
          · exact hs b hb
        have hdata : ∀ d ∈ (a :: rest).map NdArr.data, d.length = a.shape.prod := by
          intro d hd
          obtain ⟨b, hb, rfl⟩ := List.mem_map.mp hd
          have := hwf b (List.mem_map_of_mem hb)
          unfold NdArr.WF at this
          rw [this, hshape b hb]
        have hk' : k < ((a :: rest).map NdArr.data).length := by simpa using hk
        have hslice := flatten_slice _ _ k hk' hdata
        have hkb : k < (a :: rest).length := by simpa using hk
        have hmem : (a :: rest)[k] ∈ a :: rest := List.getElem_mem hkb
        have hel : ((a :: rest).map (PyObj.ndarray (τ := τ) (H := H)))[k]'(by simpa using hk) = .ndarray (a :: rest)[k] := by
          rw [List.getElem_map]
        rw [hel]
        cases hsh : a.shape with
        | nil =>
          rw [hsh] at hdata hslice hshape
          have hone : ((a :: rest)[k]).data.length = 1 := by
            have := hdata ((a :: rest)[k]).data (List.mem_map_of_mem hmem)
            simpa using this
          obtain ⟨v, hv⟩ := List.length_eq_one_iff.mp hone
          refine ⟨.number v, ?_, .inr ⟨v, ?_, rfl⟩⟩
          · simp only [Container.get, Option.map_eq_some_iff, PyObj.number.injEq, exists_eq_right]
            rw [List.getElem_map, hv] at hslice
            simp only [List.prod_nil, mul_one] at hslice
            have := congrArg (fun t => t[0]?) hslice
            simpa [List.getElem?_take, List.getElem?_drop] using this
          · have h5 : (a :: rest)[k].shape = [] := hshape _ hmem
            generalize (a :: rest)[k] = b at *
            cases b
            simp_all
        | cons m ms =>
          rw [hsh] at hslice hshape
          refine ⟨.ndarray (a :: rest)[k], ?_, .inl rfl⟩
          simp only [Container.get]
          rw [if_pos hk]
          rw [hslice, List.getElem_map]
          have h5 := hshape _ hmem
          generalize (a :: rest)[k] = b at *
          cases b
          simp_all
  · -- numbers
    obtain ⟨as, rfl⟩ : ∃ as : List ℝ, seq = as.map .number := by
      clear h hwf h1
      induction seq with
      | nil => exact ⟨[], rfl⟩
      | cons x xs ih =>
        obtain ⟨as, rfl⟩ := ih fun y hy => h2 y (List.mem_cons_of_mem _ hy)
        have := h2 x (List.mem_cons_self)
        cases x with
        | number a => exact ⟨a :: as, rfl⟩
        | ndarray _ => simp [PyObj.asNumber] at this
        | state _ => simp [PyObj.asNumber] at this
        | other _ => simp [PyObj.asNumber] at this
    have hfm : (as.map (PyObj.number (τ := τ) (H := H))).filterMap PyObj.asNumber = as := by
      rw [List.filterMap_map]
      have : (PyObj.asNumber ∘ (PyObj.number (τ := τ) (H := H))) = some := by funext a; rfl
      rw [this, List.filterMap_some]
    rw [hfm] at h
    cases h
    refine ⟨by simp [Container.len], fun k hk => ⟨_, ?_, .inl rfl⟩⟩
    have hk' : k < as.length := by simpa using hk
    simp [Container.get, List.getElem?_eq_getElem hk']
  · -- states
    cases hm : make seq with
    | error e => rw [hm] at h; cases h
    | ok l =>
      rw [hm] at h; cases h
      have hseq := ((C39_success _ _).mp hm).1
      subst hseq
      refine ⟨by simp [Container.len], fun k hk => ⟨_, ?_, .inl rfl⟩⟩
      have hk' : k < l.states.length := by simpa using hk
      simp [Container.get, List.getElem?_eq_getElem hk']
  · cases h
    refine ⟨rfl, fun k hk => ⟨_, ?_, .inl rfl⟩⟩
    simp [Container.get, List.getElem?_eq_getElem hk]

/-- C40: the result of `map` has one entry per state, in order, equal to the function value at that state. -/
theorem C40_elements (l : SList τ H) (f : AnySt τ H → Except PyErr (PyObj τ H)) (c : Container τ H)
    (hwf : ∀ s a, f s = .ok (.ndarray a) → a.WF) (h : l.map f = .ok c) :
    c.len = l.states.length ∧ ∀ k (hk : k < l.states.length), ∃ y z, f l.states[k] = .ok y ∧ c.get k = some z ∧ PyObj.Same y z := by
  unfold SList.map at h
  cases hm : l.states.mapM f with
  | error e => rw [hm] at h; cases h
  | ok seq =>
    rw [hm] at h
    have h2 := (mapM_forall₂ f _ _).mp hm
    have hlen := h2.length_eq
    have hget : ∀ k (hk : k < l.states.length), f l.states[k] = .ok (seq[k]'(hlen ▸ hk)) :=
      fun k hk => List.Forall₂.get h2 hk (hlen ▸ hk)
    obtain ⟨e1, e2⟩ := convert_elements seq c (by
      intro a ha
      obtain ⟨k, hk, hka⟩ := List.getElem_of_mem ha
      exact hwf (l.states[k]'(hlen ▸ hk)) a (by rw [hget, hka])) h
    refine ⟨e1.trans hlen.symm, fun k hk => ?_⟩
    obtain ⟨z, hz1, hz2⟩ := e2 k (hlen ▸ hk)
    exact ⟨_, z, hget k hk, hz1, hz2⟩

/-- C40: the kind of container, for non-empty sequences: array iff all arrays or all numbers, StateList iff all states, list
otherwise. -/
theorem C40_container_partial (seq : List (PyObj τ H)) (hne : seq ≠ []) (c : Container τ H) (h : convertSequence seq = .ok c) :
    ((∃ a, c = .ndarray a) ↔ (∀ x ∈ seq, ∃ a, x = .ndarray a) ∨ (∀ x ∈ seq, ∃ v, x = .number v)) ∧
    ((∃ l, c = .stateList l) ↔ ∀ x ∈ seq, ∃ s, x = .state s) ∧
    ((∃ l, c = .list l) ↔ c = .list seq) := by
  have k1 : ∀ x : PyObj τ H, x.asNdarray.isSome ↔ ∃ a, x = .ndarray a := by
    intro x; cases x <;> simp [PyObj.asNdarray]
  have k2 : ∀ x : PyObj τ H, x.asNumber.isSome ↔ ∃ a, x = .number a := by
    intro x; cases x <;> simp [PyObj.asNumber]
  have k3 : ∀ x : PyObj τ H, x.asState.isSome ↔ ∃ a, x = .state a := by
    intro x; cases x <;> simp [PyObj.asState]
  have a1 : (∀ x ∈ seq, x.asNdarray.isSome) ↔ ∀ x ∈ seq, ∃ a, x = .ndarray a :=
    forall_congr' fun x => forall_congr' fun _ => k1 x
  have a2 : (∀ x ∈ seq, x.asNumber.isSome) ↔ ∀ x ∈ seq, ∃ a, x = .number a :=
    forall_congr' fun x => forall_congr' fun _ => k2 x
  have a3 : (∀ x ∈ seq, x.asState.isSome) ↔ ∀ x ∈ seq, ∃ a, x = .state a :=
    forall_congr' fun x => forall_congr' fun _ => k3 x
  obtain ⟨x0, hx0⟩ := List.exists_mem_of_ne_nil seq hne
  unfold convertSequence at h
  split_ifs at h with h1 h2 h3
  · have h1' := a1.mp h1
    have hns : ¬ ∀ x ∈ seq, ∃ s, x = .state s := by
      intro hs
      obtain ⟨a, ha⟩ := h1' x0 hx0
      obtain ⟨b, hb⟩ := hs x0 hx0
      rw [ha] at hb; cases hb
    cases hs : stack (seq.filterMap PyObj.asNdarray) with
    | error e => rw [hs] at h; cases h
    | ok a =>
      rw [hs] at h; cases h
      refine ⟨⟨fun _ => .inl h1', fun _ => ⟨_, rfl⟩⟩, ⟨fun ⟨l, hl⟩ => (by cases hl), fun h => absurd h hns⟩,
        ⟨fun ⟨l, hl⟩ => (by cases hl), fun h => (by cases h)⟩⟩
  · have h2' := a2.mp h2
    have hns : ¬ ∀ x ∈ seq, ∃ s, x = .state s := by
      intro hs
      obtain ⟨a, ha⟩ := h2' x0 hx0
      obtain ⟨b, hb⟩ := hs x0 hx0
      rw [ha] at hb; cases hb
    cases h
    refine ⟨⟨fun _ => .inr h2', fun _ => ⟨_, rfl⟩⟩, ⟨fun ⟨l, hl⟩ => (by cases hl), fun h => absurd h hns⟩,
      ⟨fun ⟨l, hl⟩ => (by cases hl), fun h => (by cases h)⟩⟩
  · have h3' := a3.mp h3
    cases hs : make seq with
    | error e => rw [hs] at h; cases h
    | ok a =>
      rw [hs] at h; cases h
      refine ⟨⟨fun ⟨l, hl⟩ => (by cases hl), ?_⟩, ⟨fun _ => h3', fun _ => ⟨_, rfl⟩⟩,
        ⟨fun ⟨l, hl⟩ => (by cases hl), fun h => (by cases h)⟩⟩
      rintro (h | h)
      · exact absurd (a1.mpr h) h1
      · exact absurd (a2.mpr h) h2
  · cases h
    refine ⟨⟨fun ⟨l, hl⟩ => (by cases hl), ?_⟩, ⟨fun ⟨l, hl⟩ => (by cases hl), fun h => absurd (a3.mpr h) h3⟩,
      ⟨fun _ => rfl, fun h => ⟨_, h⟩⟩⟩
    rintro (h | h)
    · exact absurd (a1.mpr h) h1
    · exact absurd (a2.mpr h) h2

/-- C40 does not hold for the empty list: mapping a function that returns states over an empty StateList returns an (empty)
array, not a StateList; the same for attributes. -/
theorem C40_empty_refuted (f : AnySt τ H → Except PyErr (PyObj τ H)) :
    (⟨[]⟩ : SList τ H).map f = .ok (.ndarray ⟨[0], []⟩) := by
  unfold SList.map convertSequence
  simp [pure, Except.pure, Bind.bind, Except.bind, stack]

/-- C40: attribute access is `map` of the attribute, method access is `map` of the method. -/
theorem C40_getattr {α : Type} (C : StateCls τ H α) (l : SList τ H) (name : String) :
    (∀ m, C.method name = some m → ∃ f, l.getattr C name = .ok (.bound f) ∧ ∀ args, f args = l.map fun s => m s args) ∧
    (C.method name = none → l.getattr C name = (l.map (C.attr name)).map AttrRes.value) := by
  constructor
  · intro m hm
    unfold getattr
    rw [hm]
    exact ⟨_, rfl, fun _ => rfl⟩
  · intro hm
    unfold getattr SList.map
    rw [hm]
    dsimp only [Bind.bind, Except.bind]
    cases l.states.mapM (C.attr name) with
    | error e => rfl
    | ok seq =>
      dsimp only
      cases convertSequence seq <;> rfl

/-- C40: an exception raised for the first states that fails is the exception of the whole access. -/
theorem C40_exception (l : SList τ H) (f : AnySt τ H → Except PyErr (PyObj τ H)) (pre post : List (AnySt τ H)) (s : AnySt τ H)
    (e : PyErr) (hl : l.states = pre ++ s :: post) (hpre : ∀ x ∈ pre, ∃ y, f x = .ok y) (hs : f s = .error e) :
    l.map f = .error e := by
  unfold SList.map
  have : l.states.mapM f = .error e := by
    rw [hl]
    clear hl
    induction pre with
    | nil => simp [List.mapM_cons, hs, Bind.bind, Except.bind]
    | cons a pre ih =>
      obtain ⟨y, hy⟩ := hpre a (List.mem_cons_self)
      simp only [List.cons_append, List.mapM_cons, hy, Bind.bind, Except.bind]
      have := ih fun x hx => hpre x (List.mem_cons_of_mem _ hx)
      rw [this]
  rw [this]; rfl

/-- Non-vacuity of C40: arrays of equal shape are stacked. -/
example : convertSequence (τ := τ) (H := H) [.ndarray ⟨[2], [1, 2]⟩, .ndarray ⟨[2], [3, 4]⟩] =
    .ok (.ndarray ⟨[2, 2], [1, 2, 3, 4]⟩) ∧ (⟨[2], [1, 2]⟩ : NdArr).WF := by
  constructor
  · simp [convertSequence, PyObj.asNdarray, stack]
  · simp [NdArr.WF]

/-! ## C41 runs -/

/-- C41: what `run` returns is pointwise: final states and outputs are in order, those of each state alone. -/
theorem C41_pointwise (l : SList τ H) (mr : AnySt τ H → Except Fail (AnySt τ H × Steps τ H)) (last : SList τ H)
    (steps : List (Steps τ H)) (h : l.run mr = .ok (last, steps)) :
    last.states.length = l.states.length ∧ steps.length = l.states.length ∧
    ∀ k (hk : k < l.states.length), ∃ a b, mr l.states[k] = .ok (a, b) ∧ last.states[k]? = some a ∧ steps[k]? = some b := by
  unfold SList.run at h
  dsimp only [Bind.bind, Except.bind] at h
  cases hs : l.states.mapM mr with
  | error e => rw [hs] at h; cases h
  | ok res =>
    rw [hs] at h
    dsimp only at h
    cases hm : make (res.map fun r => .state r.1) with
    | error e => rw [hm] at h; cases h
    | ok last' =>
      rw [hm] at h; cases h
      have h1 := ((C39_success _ _).mp hm).1
      have hinj : Function.Injective (PyObj.state : AnySt τ H → PyObj τ H) := fun a b h => by cases h; rfl
      have h2 : res.map Prod.fst = last.states := by
        apply hinj.list_map
        rw [← h1, List.map_map]; rfl
      have h3 := (mapM_forall₂ mr _ _).mp hs
      have hlen := h3.length_eq
      refine ⟨by rw [← h2, List.length_map, hlen], by rw [List.length_map, hlen], fun k hk => ?_⟩
      have hk' : k < res.length := hlen ▸ hk
      refine ⟨res[k].1, res[k].2, List.Forall₂.get h3 hk hk', ?_, ?_⟩
      · rw [← h2]; simp [List.getElem?_eq_getElem hk']
      · simp [List.getElem?_eq_getElem hk']

theorem homogeneous_of_addr {l l' : List (AnySt τ H)} (h : l.map (fun s => s.1) = l'.map (fun s => s.1))
    (hl : Homogeneous l) : Homogeneous l' := by
  intro f hf s hs
  have h1 : (l'.map (fun s => s.1)).head? = some f.1 := by rw [List.head?_map, hf]; rfl
  rw [← h, List.head?_map, Option.map_eq_some_iff] at h1
  obtain ⟨f0, hf0, e1⟩ := h1
  have h2 : s.1 ∈ l'.map (fun s => s.1) := List.mem_map_of_mem hs
  rw [← h] at h2
  obtain ⟨s0, hs0, e2⟩ := List.mem_map.mp h2
  rw [← e1, ← e2]
  exact hl f0 hf0 s0 hs0

/-- C41: conversely, if the model runs on every state, then the run of the list succeeds (models keep the grid). -/
theorem C41_succeeds (l : SList τ H) (hl : Homogeneous l.states) (mr : AnySt τ H → Except Fail (AnySt τ H × Steps τ H))
    (hgrid : ∀ s a b, mr s = .ok (a, b) → a.1 = s.1) (hok : ∀ s ∈ l.states, ∃ r, mr s = .ok r) :
    ∃ last steps, l.run mr = .ok (last, steps) := by
  obtain ⟨res, hres⟩ : ∃ res, l.states.mapM mr = .ok res := by
    have : ∃ res, List.Forall₂ (fun a b => mr a = .ok b) l.states res := by
      generalize l.states = ls at hok
      induction ls with
      | nil => exact ⟨[], .nil⟩
      | cons a ls ih =>
        obtain ⟨r, hr⟩ := hok a (List.mem_cons_self)
        obtain ⟨rs, hrs⟩ := ih fun s hs => hok s (List.mem_cons_of_mem _ hs)
        exact ⟨r :: rs, .cons hr hrs⟩
    obtain ⟨res, h⟩ := this
    exact ⟨res, (mapM_forall₂ mr _ _).mpr h⟩
  have h3 := (mapM_forall₂ mr _ _).mp hres
  have hlen := h3.length_eq
  have hgr : l.states.map (fun s => s.1) = (res.map Prod.fst).map (fun s : AnySt τ H => s.1) := by
    rw [List.map_map]
    clear hlen hres hok hl
    generalize l.states = ls at h3
    induction h3 with
    | nil => rfl
    | @cons a b l1 l2 h1 h2 ih =>
      simp only [List.map_cons, Function.comp] at ih ⊢
      rw [hgrid a b.1 b.2 h1, ih]
  have hm : make (res.map fun r => .state r.1) = .ok ⟨res.map Prod.fst⟩ := by
    rw [C39_success]
    exact ⟨by simp [List.map_map, Function.comp_def], homogeneous_of_addr hgr hl⟩
  refine ⟨⟨res.map Prod.fst⟩, res.map Prod.snd, ?_⟩
  unfold SList.run
  rw [hres]
  simp only [Bind.bind, Except.bind, hm, pure, Except.pure]

/-- C41 for the barotropic model: if the forcing never raises, dt > 0 and all times are compatible, then the run of a list
terminates, and its k-th results are those of `model.run` on the k-th state. -/
theorem C41_barotropic (M : ∀ i, BModel (H.grid i)) (l : SList PyTime H) (hl : Homogeneous l.states) (dt : PyDelta)
    (tend : PyTime) (se : ℝ) (hM : ∀ i, (M i).Total) (hd : 0 < toSeconds dt)
    (hc : ∀ s ∈ l.states, s.2.time.Compatible dt) (hk : ∀ s ∈ l.states, s.2.time.SameKind tend)
    (hse : ∀ s ∈ l.states, se ≤ 0 ∨ ∃ x, s.2.time = .num x) :
    ∃ N, ∀ fuel ≥ N, ∃ last steps, l.run (modelRunAny M dt tend se fuel) = .ok (last, steps) ∧
      ∀ k (h : k < l.states.length),
        (tend.sec < (l.states[k]).2.time.sec ∧ last.states[k]? = some l.states[k] ∧
          steps[k]? = some (.plain [l.states[k]])) ∨
        ∃ (sf : St PyTime (H.grid (l.states[k]).1)) (saved : List (St PyTime (H.grid (l.states[k]).1))),
          (M (l.states[k]).1).Returns (H.sph (l.states[k]).1) (l.states[k]).2 dt tend se sf saved ∧
          last.states[k]? = some ⟨(l.states[k]).1, sf⟩ ∧
          steps[k]? = some (.stateList ⟨saved.map fun x => ⟨(l.states[k]).1, x⟩⟩) := by
  -- one bound for all states
  obtain ⟨N, hN⟩ : ∃ N, ∀ s ∈ l.states, ∀ fuel ≥ N,
      (M s.1).run (H.sph s.1) s.2 dt tend se fuel ≠ .outOfFuel := by
    have hall : ∀ s ∈ l.states, ∃ N, ∀ fuel ≥ N, (M s.1).run (H.sph s.1) s.2 dt tend se fuel ≠ .outOfFuel := by
      intro s hs
      obtain ⟨N, hN⟩ := C42_terminates (S := H.sph s.1) (M := M s.1) s.2 dt tend se (hc s hs) (hk s hs) hd
      exact ⟨N, fun fuel hf => by rw [(hN fuel hf).1]; exact (hN fuel hf).2⟩
    generalize l.states = ls at hall
    clear hl hc hk hse
    induction ls with
    | nil => exact ⟨0, fun s hs => by cases hs⟩
    | cons a ls ih =>
      obtain ⟨N1, h1⟩ := hall a (List.mem_cons_self)
      obtain ⟨N2, h2⟩ := ih fun s hs => hall s (List.mem_cons_of_mem _ hs)
      refine ⟨max N1 N2, fun s hs fuel hf => ?_⟩
      rcases List.mem_cons.mp hs with rfl | hs
      · exact h1 fuel (le_trans (le_max_left _ _) hf)
      · exact h2 s hs fuel (le_trans (le_max_right _ _) hf)
  refine ⟨N, fun fuel hf => ?_⟩
  -- what each run gives
  have hrun : ∀ s ∈ l.states,
      (tend.sec < s.2.time.sec ∧ modelRunAny M dt tend se fuel s = .ok (s, .plain [s])) ∨
      ∃ (sf : St PyTime (H.grid s.1)) (saved : List (St PyTime (H.grid s.1))),
        (M s.1).Returns (H.sph s.1) s.2 dt tend se sf saved ∧ modelRunAny M dt tend se fuel s = .ok (⟨s.1, sf⟩, .stateList ⟨saved.map fun x => ⟨s.1, x⟩⟩) := by
    intro s hs
    by_cases hlt : tend.sec < s.2.time.sec
    · refine .inl ⟨hlt, ?_⟩
      unfold modelRunAny
      rw [C42_early s.2 dt tend se (hk s hs) hlt fuel]
      rfl
    · right
      have h1 := not_lt.mp hlt
      have hlt0 : tend.lt s.2.time = .ok false := by
        rw [lt_sec (SameKind.symm (hk s hs))]; simp [h1]
      cases hr : (M s.1).run (H.sph s.1) s.2 dt tend se fuel with
      | outOfFuel => exact absurd hr (hN s hs fuel hf)
      | early sf sv =>
        exfalso
        unfold BModel.run at hr
        rw [hlt0] at hr
        dsimp only at hr
        cases he : (M s.1).euler (H.sph s.1) s.2 dt with
        | error e => rw [he] at hr; cases hr
        | ok s1 =>
          rw [he] at hr
          dsimp only at hr
          rcases loop_not_raised (hM s.1) (hc s hs) (hk s hs) (hse s hs) fuel 0 ⟨s.2, s1, [s.2], se⟩ (AtStep.zero he) with h | ⟨a, b, h⟩
          · rw [h] at hr; cases hr
          · rw [h] at hr; cases hr
      | raised e =>
        exfalso
        obtain ⟨sf, saved, f2, h2⟩ := C42_returns (S := H.sph s.1) (hM s.1) s.2 dt tend se (hc s hs) (hk s hs) hd (hse s hs) h1
        obtain ⟨_, s1, he, _⟩ := run_done h2
        unfold BModel.run at hr
        rw [hlt0] at hr
        dsimp only at hr
        rw [he] at hr
        dsimp only at hr
        rcases loop_not_raised (hM s.1) (hc s hs) (hk s hs) (hse s hs) fuel 0 ⟨s.2, s1, [s.2], se⟩ (AtStep.zero he) with h | ⟨a, b, h⟩
        · rw [h] at hr; cases hr
        · rw [h] at hr; cases hr
      | done sf saved =>
        refine ⟨sf, saved, ⟨fuel, hr⟩, ?_⟩
        unfold modelRunAny
        rw [hr]
        have hm : SList.make (τ := PyTime) (H := H) (saved.map fun x => .state ⟨s.1, x⟩) = .ok ⟨saved.map fun x => ⟨s.1, x⟩⟩ := by
          rw [C39_success]
          refine ⟨by simp [List.map_map, Function.comp_def], fun f hf t ht => ?_⟩
          obtain ⟨x, _, rfl⟩ := List.mem_map.mp ht
          obtain ⟨y, _, rfl⟩ := List.mem_map.mp (List.mem_of_mem_head? hf)
          exact Grid.eq_refl _
        dsimp only
        rw [hm]
  obtain ⟨last, steps, h⟩ := C41_succeeds l hl (modelRunAny M dt tend se fuel) (by
    intro s a b hab
    unfold modelRunAny at hab
    cases hr : (M s.1).run (H.sph s.1) s.2 dt tend se fuel with
    | outOfFuel => rw [hr] at hab; cases hab
    | raised e => rw [hr] at hab; cases hab
    | early sf sv => rw [hr] at hab; cases hab; rfl
    | done sf sv =>
      rw [hr] at hab
      dsimp only at hab
      cases hm : SList.make (τ := PyTime) (H := H) (sv.map fun x => .state ⟨s.1, x⟩) with
      | error e => rw [hm] at hab; cases hab
      | ok sl => rw [hm] at hab; cases hab; rfl) (by
    intro s hs
    rcases hrun s hs with ⟨_, h⟩ | ⟨_, _, _, h⟩
    · exact ⟨_, h⟩
    · exact ⟨_, h⟩)
  refine ⟨last, steps, h, fun k hk' => ?_⟩
  obtain ⟨_, _, hp⟩ := C41_pointwise l _ last steps h
  obtain ⟨a, b, h1, h2, h3⟩ := hp k hk'
  rcases hrun l.states[k] (List.getElem_mem hk') with ⟨hlt, h4⟩ | ⟨sf, saved, hret, h4⟩
  · rw [h4] at h1; cases h1
    exact .inl ⟨hlt, h2, h3⟩
  · rw [h4] at h1; cases h1
    exact .inr ⟨sf, saved, hret, h2, h3⟩

/-- Non-vacuity of C41: a homogeneous list with compatible times. -/
example (s : St PyTime (H.grid 0)) (hs : s.time = .num 0) :
    Homogeneous (H := H) [⟨0, s⟩] ∧ s.time.Compatible (.num 600) ∧ s.time.SameKind (.num 3600) := by
  refine ⟨fun f hf t ht => ?_, by rw [hs]; trivial, by rw [hs]; trivial⟩
  simp only [List.head?_cons, Option.some.injEq] at hf
  simp only [List.mem_cons, List.not_mem_nil, or_false] at ht
  subst hf; subst ht
  exact Grid.eq_refl _

end Barotropic
