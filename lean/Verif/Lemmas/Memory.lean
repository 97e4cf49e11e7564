import Verif.Spec.Memory

/-!
# Memory: reading after writing
-/

namespace Barotropic
open Mp

namespace Mem
variable {ι κ α β : Type} [Stored α] [Stored β]

theorem Unchanged.refl (m : Mem) : m.Unchanged m := ⟨le_rfl, fun _ _ => rfl⟩

theorem Unchanged.trans {m m' m'' : Mem} (h : m.Unchanged m') (h' : m'.Unchanged m'') : m.Unchanged m'' :=
  ⟨h.1.trans h'.1, fun b hb => (h'.2 b (hb.trans_le h.1)).trans (h.2 b hb)⟩

theorem Unchanged.alloc [Flat ι] {m m' : Mem} (h : m.Unchanged m') (v : ι → α) : m.Unchanged (m'.alloc v) := by
  refine ⟨h.1.trans (Nat.le_succ _), fun b hb => ?_⟩
  simp only [Mem.alloc]
  rw [Function.update_of_ne (by have := h.1; omega)]
  exact h.2 b hb

theorem Unchanged.store {m m' : Mem} (h : m.Unchanged m') (a : Nd ι α) (ha : m.next ≤ a.buf) (v : ι → α) :
    m.Unchanged (m'.store a v) := by
  refine ⟨h.1, fun b hb => ?_⟩
  simp only [Mem.store]
  rw [Function.update_of_ne (by omega)]
  exact h.2 b hb

@[simp] theorem next_alloc [Flat ι] (m : Mem) (v : ι → α) : (m.alloc v).next = m.next + 1 := rfl
@[simp] theorem next_store (m : Mem) (a : Nd ι α) (v : ι → α) : (m.store a v).next = m.next := rfl

theorem read_unchanged {m m' : Mem} (h : m.Unchanged m') (a : Nd ι α) (ha : a.buf < m.next) : m'.read a = m.read a := by
  funext i
  simp only [Mem.read, h.2 a.buf ha]

theorem read_alloc_self [Flat ι] (m : Mem) (v : ι → α) : (m.alloc v).read ⟨m.next, Flat.flat⟩ = v := by
  funext i
  simp [Mem.read, Mem.alloc, Flat.flat_injective.extend_apply, Stored.ofCell_toCell]

theorem read_alloc_ne [Flat κ] (m : Mem) (v : κ → β) (a : Nd ι α) (ha : a.buf ≠ m.next) :
    (m.alloc v).read a = m.read a := by
  funext i
  simp only [Mem.read, Mem.alloc]
  rw [Function.update_of_ne ha]

theorem read_store_ne (m : Mem) (b : Nd κ β) (v : κ → β) (a : Nd ι α) (ha : a.buf ≠ b.buf) :
    (m.store b v).read a = m.read a := by
  funext i
  simp only [Mem.read, Mem.store]
  rw [Function.update_of_ne ha]

theorem read_sub (m : Mem) (a : Nd ι α) (e : κ → ι) : m.read (a.sub e) = fun k => m.read a (e k) := rfl

theorem read_store_sub (m : Mem) (a : Nd ι α) (ha : Function.Injective a.pos) (e : κ → ι) (he : Function.Injective e)
    (v : κ → α) : (m.store (a.sub e) v).read a = Function.extend e v (m.read a) := by
  funext i
  simp only [Mem.read, Mem.store, Nd.sub, Function.update_self]
  by_cases h : ∃ k, e k = i
  · obtain ⟨k, rfl⟩ := h
    have : a.pos (e k) = (a.pos ∘ e) k := rfl
    rw [this, (ha.comp he).extend_apply, he.extend_apply, Stored.ofCell_toCell]
  · rw [Function.extend_apply' _ _ _ h, Function.extend_apply']
    · rfl
    · rintro ⟨k, hk⟩
      exact h ⟨k, ha hk⟩

theorem extend_subtype {p : ι → Prop} [DecidablePred p] (v : {i // p i} → α) (f : ι → α) (i : ι) :
    Function.extend (fun k : {i // p i} => k.val) v f i = if h : p i then v ⟨i, h⟩ else f i := by
  split
  case isTrue h =>
    exact Subtype.val_injective.extend_apply v f ⟨i, h⟩
  case isFalse h =>
    refine Function.extend_apply' _ _ _ ?_
    rintro ⟨k, rfl⟩
    exact h k.2

/-- Assignment to the elements that satisfy `p` -/
theorem read_store_where (m : Mem) (a : Nd ι α) (ha : Function.Injective a.pos) (p : ι → Prop) [DecidablePred p]
    (v : {i // p i} → α) :
    (m.store (a.sub fun k : {i // p i} => k.val) v).read a = fun i => if h : p i then v ⟨i, h⟩ else m.read a i := by
  funext i
  rw [read_store_sub m a ha _ Subtype.val_injective, extend_subtype]

/-- Assignment to rows -/
theorem read_store_rows {h : ℕ} (m : Mem) (a : Nd (Fin h × κ) α) (ha : Function.Injective a.pos) (p : Fin h → Prop)
    [DecidablePred p] (v : {j // p j} × κ → α) (j : Fin h) (i : κ) :
    (m.store (Grid.rows a p) v).read a (j, i) = if hj : p j then v (⟨j, hj⟩, i) else m.read a (j, i) := by
  have he : Function.Injective fun k : {j // p j} × κ => ((k.1.val, k.2) : Fin h × κ) := by
    rintro ⟨⟨a, _⟩, b⟩ ⟨⟨c, _⟩, d⟩ h
    simp only [Prod.mk.injEq] at h
    obtain ⟨rfl, rfl⟩ := h
    rfl
  rw [Grid.rows, read_store_sub m a ha _ he]
  split
  case isTrue hj => exact he.extend_apply v _ (⟨j, hj⟩, i)
  case isFalse hj =>
    refine Function.extend_apply' _ _ _ ?_
    rintro ⟨k, hk⟩
    simp only [Prod.mk.injEq] at hk
    exact hj (hk.1 ▸ k.1.2)

theorem read_store_rows_ne {h : ℕ} (m : Mem) (b : Nd (Fin h × κ) β) (p : Fin h → Prop) (v : {j // p j} × κ → β)
    (a : Nd ι α) (ha : a.buf ≠ b.buf) : (m.store (Grid.rows b p) v).read a = m.read a :=
  read_store_ne m _ v a ha

theorem read_store_sub_ne {μ : Type} (m : Mem) (b : Nd μ β) (e : κ → μ) (v : κ → β) (a : Nd ι α) (ha : a.buf ≠ b.buf) :
    (m.store (b.sub e) v).read a = m.read a :=
  read_store_ne m _ v a ha

theorem read_store_self (m : Mem) (a : Nd ι α) (ha : Function.Injective a.pos) (v : ι → α) :
    (m.store a v).read a = v := by
  have := read_store_sub m a ha id Function.injective_id v
  rw [show a.sub id = a from rfl] at this
  rw [this]
  funext i
  exact Function.injective_id.extend_apply v _ i

end Mem

theorem Mp.bind_ok {β γ : Type} {p : Mp β} {f : β → Mp γ} {m m' : Mem} {x : β} (h : p m = (.ok x, m')) :
    (p >>= f) m = f x m' := by
  change (match p m with | (.ok a, m') => f a m' | (.error e, m') => (.error e, m')) = _
  rw [h]

theorem Mp.bind_error {β γ : Type} {p : Mp β} {f : β → Mp γ} {m m' : Mem} {e : PyErr} (h : p m = (.error e, m')) :
    (p >>= f) m = (.error e, m') := by
  change (match p m with | (.ok a, m') => f a m' | (.error e, m') => (.error e, m')) = _
  rw [h]

theorem Does.mono {β : Type} {m : Mem} {p : Mp β} {R Q : β → Mem → Prop} (h : Does m p R)
    (hq : ∀ x m', m.Unchanged m' → R x m' → Q x m') : Does m p Q := by
  obtain ⟨x, m', h1, h2, h3⟩ := h
  exact ⟨x, m', h1, h2, hq x m' h2 h3⟩

theorem Does.bind {β γ : Type} {m : Mem} {p : Mp β} {f : β → Mp γ} {R : β → Mem → Prop} {Q : γ → Mem → Prop}
    (h : Does m p R) (hf : ∀ x m', m.Unchanged m' → R x m' → Does m' (f x) Q) : Does m (p >>= f) Q := by
  obtain ⟨x, m', h1, h2, h3⟩ := h
  obtain ⟨y, m'', k1, k2, k3⟩ := hf x m' h2 h3
  refine ⟨y, m'', ?_, h2.trans k2, k3⟩
  change (match p m with | (.ok a, m') => f a m' | (.error e, m') => (.error e, m')) = _
  rw [h1]
  exact k1

theorem Refines.bind {β γ β' γ' : Type} {m : Mem} {p : Mp β} {f : β → Mp β'} {r : Except PyErr γ}
    {k : γ → Except PyErr γ'} {R : β → γ → Mem → Prop} {Q : β' → γ' → Mem → Prop} (h : Refines m p r R)
    (hf : ∀ x c m', m.Unchanged m' → R x c m' → Refines m' (f x) (k c) Q) : Refines m (p >>= f) (r >>= k) Q := by
  cases r with
  | error e =>
    obtain ⟨m', h1, h2⟩ := h
    refine ⟨m', ?_, h2⟩
    change (match p m with | (.ok a, m') => f a m' | (.error e, m') => (.error e, m')) = _
    rw [h1]
  | ok c =>
    obtain ⟨x, m', h1, h2, h3⟩ := h
    have h4 := hf x c m' h2 h3
    have h5 : (p >>= f) m = f x m' := by
      change (match p m with | (.ok a, m') => f a m' | (.error e, m') => (.error e, m')) = _
      rw [h1]
    change Refines m (p >>= f) (k c) Q
    cases hk : k c with
    | error e =>
      rw [hk] at h4
      obtain ⟨m'', k1, k2⟩ := h4
      exact ⟨m'', h5.trans k1, h2.trans k2⟩
    | ok d =>
      rw [hk] at h4
      obtain ⟨y, m'', k1, k2, k3⟩ := h4
      exact ⟨y, m'', h5.trans k1, h2.trans k2, k3⟩

theorem Does.bindR {β β' γ' : Type} {m : Mem} {p : Mp β} {f : β → Mp β'} {r : Except PyErr γ'}
    {R : β → Mem → Prop} {Q : β' → γ' → Mem → Prop} (h : Does m p R)
    (hf : ∀ x m', m.Unchanged m' → R x m' → Refines m' (f x) r Q) : Refines m (p >>= f) r Q := by
  have h' : Refines m p (.ok ()) fun x _ m' => R x m' := h
  exact h'.bind (k := fun _ => r) fun x _ m' hu hr => hf x m' hu hr

theorem Does.pure {β : Type} {m : Mem} {x : β} {R : β → Mem → Prop} (h : R x m) : Does m (Pure.pure x) R :=
  ⟨x, m, rfl, .refl m, h⟩

theorem Does.load {ι α : Type} [Stored α] {m : Mem} (a : Nd ι α) : Does m (Mp.load a) fun v m' => v = m.read a ∧ m = m' :=
  ⟨_, m, rfl, .refl m, rfl, rfl⟩

theorem Does.new {ι α : Type} [Stored α] [Flat ι] (m : Mem) (v : ι → α) : YieldsNew m (Mp.new v) v :=
  ⟨_, _, rfl, (Mem.Unchanged.refl m).alloc v, le_rfl, Nat.lt_succ_self _, m.read_alloc_self v⟩

end Barotropic
