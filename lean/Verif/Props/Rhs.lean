import Verif.Lemmas.Rhs
import Verif.Props.RunPhysics

/-!
# Forcing terms: C52 – C55
-/

namespace Barotropic
open BModel

variable {g : Grid ℝ} {S : g.Sph}

/-! ## C52 sums and products -/

theorem Term.call_sum (a b : Term g) (s : St PyTime g) : (Term.sum a b).call s =
    (a.call s).bind fun x => (b.call s).bind fun y => .ok (x.add y) := by
  conv_lhs => unfold Term.call
  rfl

theorem Term.call_sum_ok {a b : Term g} {s : St PyTime g} {v : RVal g} :
    (Term.sum a b).call s = .ok v ↔ ∃ x y, a.call s = .ok x ∧ b.call s = .ok y ∧ v = x.add y := by
  rw [Term.call_sum]
  cases ha : a.call s with
  | error e => simp [Except.bind]
  | ok x =>
    cases hb : b.call s with
    | error e => simp [Except.bind]
    | ok y => simp [Except.bind, eq_comm]

theorem Term.call_prod (a b : Term g) (s : St PyTime g) : (Term.prod a b).call s =
    (a.call s).bind fun x => (b.call s).bind fun y => .ok (x.mul y) := by
  conv_lhs => unfold Term.call
  rfl

theorem Term.call_prod_ok {a b : Term g} {s : St PyTime g} {v : RVal g} :
    (Term.prod a b).call s = .ok v ↔ ∃ x y, a.call s = .ok x ∧ b.call s = .ok y ∧ v = x.mul y := by
  rw [Term.call_prod]
  cases ha : a.call s with
  | error e => simp [Except.bind]
  | ok x =>
    cases hb : b.call s with
    | error e => simp [Except.bind]
    | ok y => simp [Except.bind, eq_comm]

theorem Term.pyAdd_ok {a b t : Term g} (h : a.pyAdd b = .ok t) :
    t = .sum a b ∨ ∃ x y, a = .number x ∧ b = .number y ∧ t = .number (x + y) := by
  unfold Term.pyAdd at h
  split_ifs at h with h1 h2
  · cases h; exact .inl rfl
  · cases h; exact .inl rfl
  · cases a <;> cases b <;> cases h
    exact .inr ⟨_, _, rfl, rfl, rfl⟩

theorem Term.pyMul_ok {a b t : Term g} (h : a.pyMul b = .ok t) :
    t = .prod a b ∨ ∃ x y, a = .number x ∧ b = .number y ∧ t = .number (x * y) := by
  unfold Term.pyMul at h
  split_ifs at h with h1 h2
  · cases h; exact .inl rfl
  · cases h; exact .inl rfl
  · cases a <;> cases b <;> cases h
    exact .inr ⟨_, _, rfl, rfl, rfl⟩

theorem build_add_ok {a b : RExpr g} {t : Term g} (h : (RExpr.add a b).build = .ok t) :
    ∃ x y, a.build = .ok x ∧ b.build = .ok y ∧ x.pyAdd y = .ok t := by
  unfold RExpr.build at h
  cases ha : a.build with
  | error e => rw [ha] at h; cases h
  | ok x =>
    cases hb : b.build with
    | error e => rw [ha, hb] at h; cases h
    | ok y => rw [ha, hb] at h; exact ⟨x, y, rfl, rfl, h⟩

theorem build_mul_ok {a b : RExpr g} {t : Term g} (h : (RExpr.mul a b).build = .ok t) :
    ∃ x y, a.build = .ok x ∧ b.build = .ok y ∧ x.pyMul y = .ok t := by
  unfold RExpr.build at h
  cases ha : a.build with
  | error e => rw [ha] at h; cases h
  | ok x =>
    cases hb : b.build with
    | error e => rw [ha, hb] at h; cases h
    | ok y => rw [ha, hb] at h; exact ⟨x, y, rfl, rfl, h⟩

/-- A built number comes from number leaves. -/
theorem build_number {e : RExpr g} {x : ℝ} (h : e.build = .ok (.number x)) : ∃ y, Term.number y ∈ e.leaves := by
  induction e generalizing x with
  | leaf t => cases h; exact ⟨x, by simp [RExpr.leaves]⟩
  | add a b iha ihb =>
    obtain ⟨p, q, ha, hb, hab⟩ := build_add_ok h
    rcases Term.pyAdd_ok hab with h' | ⟨_, _, rfl, _, _⟩
    · cases h'
    · obtain ⟨y, hy⟩ := iha ha
      exact ⟨y, by simp [RExpr.leaves, hy]⟩
  | mul a b iha ihb =>
    obtain ⟨p, q, ha, hb, hab⟩ := build_mul_ok h
    rcases Term.pyMul_ok hab with h' | ⟨_, _, rfl, _, _⟩
    · cases h'
    · obtain ⟨y, hy⟩ := iha ha
      exact ⟨y, by simp [RExpr.leaves, hy]⟩

/-- C52: two terms can be added and multiplied iff one of them is an RHS object or both are numbers; two plain functions (or a plain
function and a number) raise TypeError. -/
theorem C52_operands (a b : Term g) :
    ((∃ t, a.pyAdd b = .ok t) ↔ a.isRhs ∨ b.isRhs ∨ ∃ x y, a = .number x ∧ b = .number y) ∧
    ((∃ t, a.pyMul b = .ok t) ↔ a.isRhs ∨ b.isRhs ∨ ∃ x y, a = .number x ∧ b = .number y) ∧
    (∀ e, a.pyAdd b = .error e → e = .typeError) ∧ ∀ e, a.pyMul b = .error e → e = .typeError := by
  cases a <;> cases b <;> simp [Term.pyAdd, Term.pyMul, Term.isRhs]

/-- C52: no expression of sums and products raises anything but TypeError when it is written down. -/
theorem C52_construct (e : RExpr g) (x : PyErr) (h : e.build = .error x) : x = .typeError := by
  induction e with
  | leaf t => cases h
  | add a b iha ihb =>
    unfold RExpr.build at h
    cases ha : a.build with
    | error e => rw [ha] at h; cases h; exact iha ha
    | ok p =>
      cases hb : b.build with
      | error e => rw [ha, hb] at h; cases h; exact ihb hb
      | ok q => rw [ha, hb] at h; exact (C52_operands p q).2.2.1 _ h
  | mul a b iha ihb =>
    unfold RExpr.build at h
    cases ha : a.build with
    | error e => rw [ha] at h; cases h; exact iha ha
    | ok p =>
      cases hb : b.build with
      | error e => rw [ha, hb] at h; cases h; exact ihb hb
      | ok q => rw [ha, hb] at h; exact (C52_operands p q).2.2.2 _ h

/-- C52: every expression of sums and products that Python accepts evaluates, at every gridpoint, to the same expression of
the values of its terms. -/
theorem C52_pointwise (e : RExpr g) (t : Term g) (ht : e.build = .ok t) (s : St PyTime g) (v : Term g → RVal g)
    (hv : ∀ l ∈ e.leaves, l.call s = .ok (v l)) :
    ∃ w, t.call s = .ok w ∧ ∀ j i, w.at j i = e.value fun l => (v l).at j i := by
  induction e generalizing t with
  | leaf l =>
    cases ht
    exact ⟨v l, hv l (by simp [RExpr.leaves]), fun _ _ => rfl⟩
  | add a b iha ihb =>
    obtain ⟨p, q, ha, hb, hab⟩ := build_add_ok ht
    obtain ⟨x, hx, hx'⟩ := iha p ha fun l hl => hv l (by simp [RExpr.leaves, hl])
    obtain ⟨y, hy, hy'⟩ := ihb q hb fun l hl => hv l (by simp [RExpr.leaves, hl])
    rcases Term.pyAdd_ok hab with rfl | ⟨_, _, rfl, _, _⟩
    · exact ⟨_, Term.call_sum_ok.mpr ⟨x, y, hx, hy, rfl⟩, fun j i => by rw [RVal.at_add, hx', hy']; rfl⟩
    · cases hx
  | mul a b iha ihb =>
    obtain ⟨p, q, ha, hb, hab⟩ := build_mul_ok ht
    obtain ⟨x, hx, hx'⟩ := iha p ha fun l hl => hv l (by simp [RExpr.leaves, hl])
    obtain ⟨y, hy, hy'⟩ := ihb q hb fun l hl => hv l (by simp [RExpr.leaves, hl])
    rcases Term.pyMul_ok hab with rfl | ⟨_, _, rfl, _, _⟩
    · exact ⟨_, Term.call_prod_ok.mpr ⟨x, y, hx, hy, rfl⟩, fun j i => by rw [RVal.at_mul, hx', hy']; rfl⟩
    · cases hx

/-- C52: if a term raises, evaluation of the expression raises the exception of the leftmost such term. -/
theorem C52_error (e : RExpr g) (t : Term g) (ht : e.build = .ok t) (s : St PyTime g)
    (hn : ∀ x, Term.number x ∉ e.leaves) (pre post : List (Term g)) (l : Term g) (er : PyErr)
    (hl : e.leaves = pre ++ l :: post) (hpre : ∀ l' ∈ pre, ∃ v, l'.call s = .ok v) (her : l.call s = .error er) :
    t.call s = .error er := by
  induction e generalizing t pre post with
  | leaf l' =>
    cases ht
    simp only [RExpr.leaves] at hl
    cases pre with
    | nil => simp only [List.nil_append, List.cons.injEq] at hl; rw [hl.1, her]
    | cons p ps => simp at hl
  | add a b iha ihb =>
    obtain ⟨p, q, ha, hb, hab⟩ := build_add_ok ht
    have hna : ∀ x, Term.number x ∉ a.leaves := fun x h => hn x (by simp [RExpr.leaves, h])
    have hnb : ∀ x, Term.number x ∉ b.leaves := fun x h => hn x (by simp [RExpr.leaves, h])
    rcases Term.pyAdd_ok hab with rfl | ⟨_, _, rfl, _, _⟩
    · simp only [RExpr.leaves] at hl
      rcases List.append_eq_append_iff.mp hl with ⟨m, h1, h2⟩ | ⟨m, h1, h2⟩
      · -- the term is in b
        classical
        have hall : ∀ l' ∈ a.leaves, ∃ v, l'.call s = .ok v := fun l' h => hpre l' (by rw [h1]; simp [h])
        obtain ⟨x, hx, -⟩ := C52_pointwise a p ha s (fun l' => if h : ∃ v, l'.call s = .ok v then h.choose else .num 0)
          (fun l' h' => by
            have h := hall l' h'
            rw [dif_pos h]; exact h.choose_spec)
        have := ihb q hb hnb m post h2 (fun l' h => hpre l' (by rw [h1]; simp [h]))
        rw [Term.call_sum, hx, this]; rfl
      · cases m with
        | nil =>
          simp only [List.append_nil, List.nil_append] at h1 h2
          classical
          have hall : ∀ l' ∈ a.leaves, ∃ v, l'.call s = .ok v := fun l' h => hpre l' (by rw [← h1]; exact h)
          obtain ⟨x, hx, -⟩ := C52_pointwise a p ha s (fun l' => if h : ∃ v, l'.call s = .ok v then h.choose else .num 0)
            (fun l' h' => by
              have h := hall l' h'
              rw [dif_pos h]; exact h.choose_spec)
          have := ihb q hb hnb [] post (by simpa using h2.symm) (by simp)
          rw [Term.call_sum, hx, this]; rfl
        | cons m ms =>
          simp only [List.cons_append, List.cons.injEq] at h2
          obtain ⟨rfl, h2⟩ := h2
          have := iha p ha hna pre ms h1 hpre
          rw [Term.call_sum, this]; rfl
    · obtain ⟨y, hy⟩ := build_number ha
      exact absurd hy (hna y)
  | mul a b iha ihb =>
    obtain ⟨p, q, ha, hb, hab⟩ := build_mul_ok ht
    have hna : ∀ x, Term.number x ∉ a.leaves := fun x h => hn x (by simp [RExpr.leaves, h])
    have hnb : ∀ x, Term.number x ∉ b.leaves := fun x h => hn x (by simp [RExpr.leaves, h])
    rcases Term.pyMul_ok hab with rfl | ⟨_, _, rfl, _, _⟩
    · simp only [RExpr.leaves] at hl
      rcases List.append_eq_append_iff.mp hl with ⟨m, h1, h2⟩ | ⟨m, h1, h2⟩
      · classical
        have hall : ∀ l' ∈ a.leaves, ∃ v, l'.call s = .ok v := fun l' h => hpre l' (by rw [h1]; simp [h])
        obtain ⟨x, hx, -⟩ := C52_pointwise a p ha s (fun l' => if h : ∃ v, l'.call s = .ok v then h.choose else .num 0)
          (fun l' h' => by
            have h := hall l' h'
            rw [dif_pos h]; exact h.choose_spec)
        have := ihb q hb hnb m post h2 (fun l' h => hpre l' (by rw [h1]; simp [h]))
        rw [Term.call_prod, hx, this]; rfl
      · cases m with
        | nil =>
          simp only [List.append_nil, List.nil_append] at h1 h2
          classical
          have hall : ∀ l' ∈ a.leaves, ∃ v, l'.call s = .ok v := fun l' h => hpre l' (by rw [← h1]; exact h)
          obtain ⟨x, hx, -⟩ := C52_pointwise a p ha s (fun l' => if h : ∃ v, l'.call s = .ok v then h.choose else .num 0)
            (fun l' h' => by
              have h := hall l' h'
              rw [dif_pos h]; exact h.choose_spec)
          have := ihb q hb hnb [] post (by simpa using h2.symm) (by simp)
          rw [Term.call_prod, hx, this]; rfl
        | cons m ms =>
          simp only [List.cons_append, List.cons.injEq] at h2
          obtain ⟨rfl, h2⟩ := h2
          have := iha p ha hna pre ms h1 hpre
          rw [Term.call_prod, this]; rfl
    · obtain ⟨y, hy⟩ := build_number ha
      exact absurd hy (hna y)

theorem build_isRhs (e : RExpr g) (h : ∀ l ∈ e.leaves, l.isRhs) : ∃ t, e.build = .ok t ∧ t.isRhs := by
  induction e with
  | leaf l => exact ⟨l, rfl, h l (by simp [RExpr.leaves])⟩
  | add a b iha ihb =>
    obtain ⟨x, hx, hx'⟩ := iha fun l hl => h l (by simp [RExpr.leaves, hl])
    obtain ⟨y, hy, hy'⟩ := ihb fun l hl => h l (by simp [RExpr.leaves, hl])
    refine ⟨.sum x y, ?_, rfl⟩
    unfold RExpr.build Term.pyAdd
    simp only [hx, hy, Bind.bind, Except.bind]
    rw [if_pos hx']
  | mul a b iha ihb =>
    obtain ⟨x, hx, hx'⟩ := iha fun l hl => h l (by simp [RExpr.leaves, hl])
    obtain ⟨y, hy, hy'⟩ := ihb fun l hl => h l (by simp [RExpr.leaves, hl])
    refine ⟨.prod x y, ?_, rfl⟩
    unfold RExpr.build Term.pyMul
    simp only [hx, hy, Bind.bind, Except.bind]
    rw [if_pos hx']

/-- C52: expressions of `RHS` objects are always accepted; a plain function on one side of an operator is accepted, on both
sides it is not. -/
theorem C52_accepted (e : RExpr g) (h : ∀ l ∈ e.leaves, l.isRhs) (f f' : St PyTime g → Except PyErr (RVal g)) :
    (∃ t, e.build = .ok t) ∧ (∃ t, (RExpr.add e (.leaf (.func f))).build = .ok t) ∧
    (∃ t, (RExpr.mul (.leaf (.func f)) e).build = .ok t) ∧
    (RExpr.add (g := g) (.leaf (.func f)) (.leaf (.func f'))).build = .error .typeError := by
  obtain ⟨t, ht, ht'⟩ := build_isRhs e h
  refine ⟨⟨t, ht⟩, ⟨.sum t (.func f), ?_⟩, ⟨.prod (.func f) t, ?_⟩, rfl⟩
  · unfold RExpr.build Term.pyAdd
    rw [ht]
    simp only [RExpr.build, Bind.bind, Except.bind]
    rw [if_pos ht']
  · unfold RExpr.build Term.pyMul
    rw [ht]
    simp only [RExpr.build, Bind.bind, Except.bind]
    rw [if_neg (by simp [Term.isRhs]), if_pos ht']

/-- `call` returns iff all leaves return; the result is a number iff all leaves are. -/
theorem call_ok_leaves (e : RExpr g) (t : Term g) (ht : e.build = .ok t) (s : St PyTime g) (w : RVal g)
    (h : t.call s = .ok w) : (∀ l ∈ e.leaves, ∃ v, l.call s = .ok v) ∧
      ((∃ x, w = .num x) ↔ ∀ l ∈ e.leaves, ∃ x, l.call s = .ok (.num x)) := by
  induction e generalizing t w with
  | leaf l =>
    cases ht
    refine ⟨by simpa [RExpr.leaves] using ⟨w, h⟩, ?_⟩
    simp [RExpr.leaves, h]
  | add a b iha ihb =>
    obtain ⟨p, q, ha, hb, hab⟩ := build_add_ok ht
    rcases Term.pyAdd_ok hab with rfl | ⟨_, _, _, _, rfl⟩
    · obtain ⟨x, y, hx, hy, rfl⟩ := Term.call_sum_ok.mp h
      obtain ⟨h1, h2⟩ := iha p ha x hx
      obtain ⟨h3, h4⟩ := ihb q hb y hy
      constructor
      · intro l hl
        rcases List.mem_append.mp hl with hl | hl
        · exact h1 l hl
        · exact h3 l hl
      · have : (∀ l ∈ (a.add b).leaves, ∃ x, l.call s = .ok (.num x)) ↔
            (∀ l ∈ a.leaves, ∃ x, l.call s = .ok (.num x)) ∧ (∀ l ∈ b.leaves, ∃ x, l.call s = .ok (.num x)) := by
          simp only [RExpr.leaves, List.mem_append]
          constructor
          · intro h; exact ⟨fun l hl => h l (.inl hl), fun l hl => h l (.inr hl)⟩
          · rintro ⟨h, h'⟩ l (hl | hl)
            · exact h l hl
            · exact h' l hl
        rw [this, ← h2, ← h4]
        cases x <;> cases y <;> simp [RVal.add]
    · cases h
  | mul a b iha ihb =>
    obtain ⟨p, q, ha, hb, hab⟩ := build_mul_ok ht
    rcases Term.pyMul_ok hab with rfl | ⟨_, _, _, _, rfl⟩
    · obtain ⟨x, y, hx, hy, rfl⟩ := Term.call_prod_ok.mp h
      obtain ⟨h1, h2⟩ := iha p ha x hx
      obtain ⟨h3, h4⟩ := ihb q hb y hy
      constructor
      · intro l hl
        rcases List.mem_append.mp hl with hl | hl
        · exact h1 l hl
        · exact h3 l hl
      · have : (∀ l ∈ (a.mul b).leaves, ∃ x, l.call s = .ok (.num x)) ↔
            (∀ l ∈ a.leaves, ∃ x, l.call s = .ok (.num x)) ∧ (∀ l ∈ b.leaves, ∃ x, l.call s = .ok (.num x)) := by
          simp only [RExpr.leaves, List.mem_append]
          constructor
          · intro h; exact ⟨fun l hl => h l (.inl hl), fun l hl => h l (.inr hl)⟩
          · rintro ⟨h, h'⟩ l (hl | hl)
            · exact h l hl
            · exact h' l hl
        rw [this, ← h2, ← h4]
        cases x <;> cases y <;> simp [RVal.mul]
    · cases h

theorem toRhs_ok {t : Term g} {s : St PyTime g} {f : g.Fld} : t.toRhs s = .ok f ↔ t.call s = .ok (.fld f) := by
  unfold Term.toRhs
  cases t.call s with
  | error e => simp
  | ok v => cases v <;> simp

/-- C52: two expressions made of the same terms that are equal as real expressions have the same effect on every run of
every model. -/
theorem C52_effect (e e' : RExpr g) (hl : ∀ l, l ∈ e.leaves ↔ l ∈ e'.leaves) (hv : ∀ val, e.value val = e'.value val) :
    e.SameEffect e' := by
  classical
  have key : ∀ (e e' : RExpr g), (∀ l, l ∈ e.leaves ↔ l ∈ e'.leaves) → (∀ val, e.value val = e'.value val) →
      ∀ t t', e.build = .ok t → e'.build = .ok t' → ∀ s r, t.toRhs s = .ok r → t'.toRhs s = .ok r := by
    intro e e' hl hv t t' ht ht' s r h
    rw [toRhs_ok] at h ⊢
    obtain ⟨h1, h2⟩ := call_ok_leaves e t ht s _ h
    set v : Term g → RVal g := fun l => if h : ∃ v, l.call s = .ok v then h.choose else .num 0 with hvdef
    have hvl : ∀ l ∈ e.leaves, l.call s = .ok (v l) := by
      intro l hl
      have := h1 l hl
      simp only [hvdef]
      rw [dif_pos this]; exact this.choose_spec
    obtain ⟨w, hw, hw'⟩ := C52_pointwise e t ht s v hvl
    obtain ⟨w2, hw2, hw2'⟩ := C52_pointwise e' t' ht' s v fun l h => hvl l ((hl l).mpr h)
    rw [h] at hw
    cases hw
    have h3 := (call_ok_leaves e' t' ht' s w2 hw2).2
    have hnum : ¬ ∃ x, w2 = .num x := by
      rw [h3]
      intro h4
      obtain ⟨x, hx⟩ := h2.mpr fun l hl' => h4 l ((hl l).mp hl')
      cases hx
    cases w2 with
    | num x => exact absurd ⟨x, rfl⟩ hnum
    | fld f =>
      rw [hw2]
      congr 2
      funext j i
      have a := hw' j i
      have b := hw2' j i
      rw [← hv, ← a] at b
      exact b
  intro t t' ht ht' S M s dt tend se sf saved
  exact returns_congr_rhs M (fun s r => ⟨key e e' hl hv t t' ht ht' s r,
    key e' e (fun l => (hl l).symm) (fun val => (hv val).symm) t' t ht' ht s r⟩) s dt tend se sf saved

/-- C52: the laws of a commutative semiring (without constants) hold in effect on the model. -/
theorem C52_laws (a b c : RExpr g) :
    (a.add b).SameEffect (b.add a) ∧ ((a.add b).add c).SameEffect (a.add (b.add c)) ∧
    (a.mul b).SameEffect (b.mul a) ∧ ((a.mul b).mul c).SameEffect (a.mul (b.mul c)) ∧
    (a.mul (b.add c)).SameEffect ((a.mul b).add (a.mul c)) ∧ ((a.add b).mul c).SameEffect ((a.mul c).add (b.mul c)) := by
  refine ⟨C52_effect _ _ ?_ ?_, C52_effect _ _ ?_ ?_, C52_effect _ _ ?_ ?_, C52_effect _ _ ?_ ?_, C52_effect _ _ ?_ ?_,
    C52_effect _ _ ?_ ?_⟩ <;> intro x <;> simp only [RExpr.leaves, RExpr.value, List.mem_append] <;> first | tauto | ring

/-- Non-vacuity of C52: an expression of a switch, a relaxation and a plain function is accepted and evaluates. -/
example (s : St PyTime grid30) (x : ℝ) (hs : s.time = .num x) :
    ∃ t, (RExpr.add (.mul (.leaf (.timedOffSwitch (.num 10))) (.leaf (.linearRelaxation sph30 1 (.num 0))))
      (.leaf (.func fun _ => .ok (.num 2)))).build = .ok t ∧ ∃ w, t.call s = .ok w := by
  refine ⟨_, rfl, ?_⟩
  simp only [Term.call, Term.timedOffSwitch, Term.linearRelaxation, PyTime.le, hs]
  by_cases h : x ≤ 10 <;> simp [h, Bind.bind, Except.bind, pure, Except.pure]

/-! ## C53 numbers -/

/-- C53 is false: products and sums of a number and a term are constructed without complaint, but evaluating them never
succeeds; it raises TypeError (`'float' object is not callable`), unless the term itself, evaluated first, raises. -/
theorem C53_numbers_refuted (x : ℝ) (t : Term g) (ht : t.isRhs) :
    (∃ p, (Term.number x).pyMul t = .ok p ∧ ∀ s, p.call s = .error .typeError) ∧
    (∃ p, t.pyMul (.number x) = .ok p ∧ ∀ s, (∀ v, t.call s = .ok v → p.call s = .error .typeError) ∧
      (∀ e, t.call s = .error e → p.call s = .error e)) ∧
    (∃ p, (Term.number x).pyAdd t = .ok p ∧ ∀ s, p.call s = .error .typeError) ∧
    (∃ p, t.pyAdd (.number x) = .ok p ∧ ∀ s v, p.call s ≠ .ok v) := by
  refine ⟨⟨.prod (.number x) t, ?_, fun s => ?_⟩, ⟨.prod t (.number x), ?_, fun s => ⟨fun v hv => ?_, fun e he => ?_⟩⟩,
    ⟨.sum (.number x) t, ?_, fun s => ?_⟩, ⟨.sum t (.number x), ?_, fun s v => ?_⟩⟩
  · unfold Term.pyMul; rw [if_neg (by simp [Term.isRhs]), if_pos ht]
  · rfl
  · unfold Term.pyMul; rw [if_pos ht]
  · rw [Term.call_prod, hv]; rfl
  · rw [Term.call_prod, he]; rfl
  · unfold Term.pyAdd; rw [if_neg (by simp [Term.isRhs]), if_pos ht]
  · rfl
  · unfold Term.pyAdd; rw [if_pos ht]
  · intro h
    obtain ⟨_, _, _, h, _⟩ := Term.call_sum_ok.mp h
    cases h

/-- C53, what does hold: a constant given as a function scales a term. Missing: plain numbers, see `C53_numbers_refuted`. -/
theorem C53_scaling_partial (x : ℝ) (t : Term g) (ht : t.isRhs) (s : St PyTime g) (v : RVal g) (hv : t.call s = .ok v) :
    ∃ p p', Term.pyMul (.func fun _ => .ok (.num x)) t = .ok p ∧ t.pyMul (.func fun _ => .ok (.num x)) = .ok p' ∧
      ∃ w w', p.call s = .ok w ∧ p'.call s = .ok w' ∧ ∀ j i, w.at j i = x * v.at j i ∧ w'.at j i = x * v.at j i := by
  refine ⟨.prod (.func fun _ => .ok (.num x)) t, .prod t (.func fun _ => .ok (.num x)), ?_, ?_,
    (RVal.num x).mul v, v.mul (.num x), ?_, ?_, fun j i => ⟨?_, ?_⟩⟩
  · unfold Term.pyMul; rw [if_neg (by simp [Term.isRhs]), if_pos ht]
  · unfold Term.pyMul; rw [if_pos ht]
  · exact Term.call_prod_ok.mpr ⟨_, v, rfl, hv, rfl⟩
  · exact Term.call_prod_ok.mpr ⟨v, _, hv, rfl, rfl⟩
  · rw [RVal.at_mul]; rfl
  · rw [RVal.at_mul, mul_comm]; rfl

/-- Non-vacuity of C53: switches and relaxation terms are such terms. -/
example : (Term.timedOffSwitch (.num 10) : Term grid30).isRhs ∧ (Term.linearRelaxation sph30 1 (.num 0)).isRhs := ⟨rfl, rfl⟩

/-! ## C54 switch -/

theorem le_sec {a b : PyTime} (h : a.SameKind b) : a.le b = .ok (decide (a.sec ≤ b.sec)) := by
  cases a with
  | num x => cases b with
    | num y => rfl
    | datetime y => exact absurd h id
  | datetime x => cases b with
    | num y => exact absurd h id
    | datetime y =>
      have : (x : ℝ) / 10 ^ 6 ≤ y / 10 ^ 6 ↔ x ≤ y := by
        rw [div_le_div_iff_of_pos_right (by norm_num)]; exact Int.cast_le
      exact congrArg Except.ok (decide_eq_decide.mpr this.symm)

theorem Term.switch_mul (tend : PyTime) (t : Term g) :
    (Term.timedOffSwitch tend).pyMul t = .ok (.prod (.timedOffSwitch tend) t) := rfl

theorem Term.call_switch {tend : PyTime} {s : St PyTime g} (hk : s.time.SameKind tend) :
    (Term.timedOffSwitch tend).call s = .ok (.num (if s.time.sec ≤ tend.sec then 1 else 0)) := by
  have : (Term.timedOffSwitch tend).call s = match s.time.le tend with
    | .error e => .error e
    | .ok true => .ok (.num 1)
    | .ok false => .ok (.num 0) := rfl
  rw [this, le_sec hk]
  by_cases h : s.time.sec ≤ tend.sec <;> simp [h]

/-- C54: `switch * forcing` is the forcing up to and including the switch-off time and zero everywhere after it (the forcing
is still evaluated, its exceptions are raised at all times). -/
theorem C54_switch (tend : PyTime) (t : Term g) (s : St PyTime g) (hk : s.time.SameKind tend) :
    ∃ p, (Term.timedOffSwitch tend).pyMul t = .ok p ∧
      (∀ v, t.call s = .ok v → ∃ w, p.call s = .ok w ∧
        (s.time.sec ≤ tend.sec → w = v) ∧ (tend.sec < s.time.sec → ∀ j i, w.at j i = 0)) ∧
      (∀ e, t.call s = .error e → p.call s = .error e) := by
  refine ⟨.prod (.timedOffSwitch tend) t, Term.switch_mul tend t, ?_, ?_⟩
  · intro v hv
    have hsw := Term.call_switch hk
    refine ⟨_, Term.call_prod_ok.mpr ⟨_, v, hsw, hv, rfl⟩, fun h => ?_, fun h j i => ?_⟩
    · rw [if_pos h]
      cases v <;> simp [RVal.mul]
    · rw [if_neg (not_le.mpr h), RVal.at_mul]
      exact zero_mul _
  · intro e he
    rw [Term.call_prod, Term.call_switch hk, he]; rfl

/-- C54: once off, the switch stays off; before `tend` it has always been on. -/
theorem C54_stays_off (tend : PyTime) (s s' : St PyTime g) (hk : s.time.SameKind tend) (hk' : s'.time.SameKind tend)
    (h : s.time.sec ≤ s'.time.sec) :
    ((Term.timedOffSwitch tend).call s = .ok (.num 0) → (Term.timedOffSwitch tend).call s' = .ok (.num 0)) ∧
    ((Term.timedOffSwitch tend).call s' = .ok (.num 1) → (Term.timedOffSwitch tend).call s = .ok (.num 1)) := by
  rw [Term.call_switch hk, Term.call_switch hk']
  by_cases h1 : s.time.sec ≤ tend.sec <;> by_cases h2 : s'.time.sec ≤ tend.sec <;> simp [h1, h2]
  exact absurd (h.trans h2) h1

/-- Mixing numbers and datetimes raises TypeError. -/
theorem C54_mixed (tend : PyTime) (s : St PyTime g) (hk : ¬ s.time.SameKind tend) :
    (Term.timedOffSwitch tend).call s = .error .typeError := by
  have h : (Term.timedOffSwitch tend).call s = match s.time.le tend with
    | .error e => .error e
    | .ok true => .ok (.num 1)
    | .ok false => .ok (.num 0) := rfl
  rw [h]
  cases h1 : s.time <;> cases h2 : tend <;> simp_all [PyTime.SameKind, PyTime.le]

theorem tendency_off (hl : S.IsLinear) (M : BModel g) (tend : PyTime) (t p : Term g)
    (hp : (Term.timedOffSwitch tend).pyMul t = .ok p) (s : St PyTime g) (hk : s.time.SameKind tend)
    (hoff : tend.sec < s.time.sec) (f : g.Fld) (hf : t.call s = .ok (.fld f)) :
    BModel.tendency S { M with rhs := some p.toRhs } s = BModel.tendency S { M with rhs := none } s := by
  have hp' : p = .prod (.timedOffSwitch tend) t := by
    rw [Term.switch_mul] at hp; cases hp; rfl
  have h0 : p.toRhs s = .ok 0 := by
    rw [toRhs_ok, hp']
    refine Term.call_prod_ok.mpr ⟨.num 0, _, ?_, hf, ?_⟩
    · rw [Term.call_switch hk, if_neg (not_le.mpr hoff)]
    · simp only [RVal.mul, zero_mul]; rfl
  have hz : Grid.toSpectral S (0 : g.Fld) = 0 := hl.grdtospec_zero
  unfold BModel.tendency
  simp only [h0, hz, add_zero]

/-- C54: time steps taken from states after switch-off are those of the unforced model. -/
theorem C54_step (hl : S.IsLinear) (M : BModel g) (tend : PyTime) (t p : Term g)
    (hp : (Term.timedOffSwitch tend).pyMul t = .ok p) (s : St PyTime g) (hk : s.time.SameKind tend)
    (hoff : tend.sec < s.time.sec) (f : g.Fld) (hf : t.call s = .ok (.fld f)) (dt : PyDelta) (old : St PyTime g) (c : ℝ) :
    BModel.euler S { M with rhs := some p.toRhs } s dt = BModel.euler S { M with rhs := none } s dt ∧
    BModel.leapfrog S { M with rhs := some p.toRhs } old s c = BModel.leapfrog S { M with rhs := none } old s c := by
  have ht := tendency_off hl M tend t p hp s hk hoff f hf
  unfold BModel.euler BModel.leapfrog
  rw [ht]
  exact ⟨rfl, rfl⟩

/-- C54: a run that starts after switch-off is that of the unforced model. -/
theorem C54_run (hl : S.IsLinear) (M : BModel g) (toff : PyTime) (t p : Term g)
    (hp : (Term.timedOffSwitch toff).pyMul t = .ok p) (hf : ∀ s, ∃ f, t.call s = .ok (.fld f))
    (s : St PyTime g) (hk : s.time.SameKind toff) (hoff : toff.sec < s.time.sec)
    (dt : PyDelta) (hd : 0 < toSeconds dt) (tend : PyTime) (se : ℝ) (sf : St PyTime g) (saved : List (St PyTime g)) :
    BModel.Returns S { M with rhs := some p.toRhs } s dt tend se sf saved ↔
    BModel.Returns S { M with rhs := none } s dt tend se sf saved := by
  have ht : ∀ s : St PyTime g, s.time.SameKind toff → toff.sec < s.time.sec →
      BModel.tendency S { M with rhs := some p.toRhs } s = BModel.tendency S { M with rhs := none } s := by
    intro s hk hoff
    obtain ⟨f, hf⟩ := hf s
    exact tendency_off hl M toff t p hp s hk hoff f hf
  have haddsec : ∀ (a b : PyTime) (d : PyDelta), a.add d = .ok b → a.SameKind toff → b.SameKind toff ∧
      b.sec = a.sec + toSeconds d := by
    intro a b d h hk
    cases a <;> cases d <;> cases h <;> refine ⟨by cases toff <;> exact hk, ?_⟩ <;> simp [PyTime.sec, toSeconds, add_div]
  have hsubsec : ∀ (a b : PyTime) (d : PyDelta), b.sub a = .ok d → toSeconds d = b.sec - a.sec := by
    intro a b d h
    cases a <;> cases b <;> cases h <;> simp [PyTime.sec, toSeconds, sub_div]
  refine returns_congr (M := { M with rhs := some p.toRhs }) (M' := { M with rhs := none }) (fun _ _ => rfl)
    (fun a b => a.time.SameKind toff ∧ b.time.SameKind toff ∧ toff.sec < a.time.sec ∧ a.time.sec < b.time.sec)
    (fun t => by rw [ht s hk hoff]) ?_ ?_ ?_ sf saved
  · intro s1 he
    obtain ⟨_, t, _, hadd, rfl⟩ := euler_ok_iff.mp he
    obtain ⟨h1, h2⟩ := haddsec _ _ _ hadd hk
    exact ⟨hk, h1, hoff, by dsimp only; rw [h2]; linarith⟩
  · rintro a b q ⟨ha, hb, hao, hab⟩ hq
    obtain ⟨d, _, t, hsub, _, hadd, rfl⟩ := leapfrog_ok_iff.mp hq
    obtain ⟨h1, h2⟩ := haddsec _ _ _ hadd hb
    have h3 := hsubsec _ _ _ hsub
    exact ⟨hb, h1, hao.trans hab, by dsimp only; rw [h2, h3]; linarith⟩
  · rintro a b t ⟨ha, hb, hao, hab⟩
    rw [ht b hb (hao.trans hab)]

/-- Non-vacuity of C54: times before and after the switch-off time. -/
example : PyTime.SameKind (.num 5) (.num 10) ∧ (PyTime.num 5).sec ≤ (PyTime.num 10).sec ∧
    (PyTime.num 10).sec < (PyTime.num 15).sec ∧ PyTime.SameKind (.datetime 5) (.datetime 10) :=
  ⟨trivial, by norm_num [PyTime.sec], by norm_num [PyTime.sec], trivial⟩

/-! ## C55 relaxation -/

/-- C55: the forcing is `rate·(reference − pv)`; it vanishes exactly where PV equals the reference and points towards the
reference. -/
theorem C55_relaxation (rate : ℝ) (ref : RVal g) (s : St PyTime g) :
    ∃ f : g.Fld, (Term.linearRelaxation S rate ref).call s = .ok (.fld f) ∧ ∀ j i,
      f j i = rate * (ref.at j i - s.pv S j i) ∧
      (rate ≠ 0 → (f j i = 0 ↔ s.pv S j i = ref.at j i)) ∧
      (0 < rate → (0 < f j i ↔ s.pv S j i < ref.at j i) ∧ (f j i < 0 ↔ ref.at j i < s.pv S j i)) := by
  refine ⟨fun j i => rate * (ref.at j i - s.pv S j i), ?_, fun j i => ⟨rfl, fun h => ?_, fun h => ⟨?_, ?_⟩⟩⟩
  · cases ref <;> rfl
  · rw [mul_eq_zero, or_iff_right h, sub_eq_zero, eq_comm]
  · rw [mul_pos_iff_of_pos_left h, sub_pos]
  · rw [← neg_pos, ← mul_neg, mul_pos_iff_of_pos_left h, neg_sub, sub_pos]

/-- C55: adding `dt` times the forcing multiplies the distance to the reference by `|1 − rate·dt|`, at every gridpoint. -/
theorem C55_euler_pointwise (rate dt : ℝ) (ref : RVal g) (s : St PyTime g) (f : g.Fld)
    (hf : (Term.linearRelaxation S rate ref).call s = .ok (.fld f)) (j : Fin g.nlat) (i : Fin g.nlon) :
    |s.pv S j i + dt * f j i - ref.at j i| = |1 - rate * dt| * |s.pv S j i - ref.at j i| ∧
    (0 ≤ rate * dt → rate * dt ≤ 1 → |s.pv S j i + dt * f j i - ref.at j i| ≤ |s.pv S j i - ref.at j i|) := by
  obtain ⟨f', hf', h⟩ := C55_relaxation (S := S) rate ref s
  rw [hf] at hf'; cases hf'
  have e : |s.pv S j i + dt * f j i - ref.at j i| = |1 - rate * dt| * |s.pv S j i - ref.at j i| := by
    rw [(h j i).1, ← abs_mul]; congr 1; ring
  refine ⟨e, fun h0 h1 => ?_⟩
  rw [e, abs_of_nonneg (by linarith)]
  exact mul_le_of_le_one_left (abs_nonneg _) (by linarith)

/-- C55 for the model: where advection vanishes (zonally symmetric states) and without diffusion, the Euler step of the model
does exactly that, if the reference is resolved by the truncation. -/
theorem C55_euler_model (hS : Spharm.Lawful S) (hg : g.Valid) (M : BModel g) (hM : M.diffusionCoeff = 0) (rate d : ℝ)
    (r : g.Spc) (s : St PyTime g) (hs : S.Adm s.q) (hsym : ZonallySymmetric (s.pv S)) (t0 : ℝ) (ht0 : s.time = .num t0) :
    ∃ s1, BModel.euler S { M with rhs := some (Term.linearRelaxation S rate (.fld (Grid.toGrid S r))).toRhs } s (.num d) = .ok s1 ∧
      s1.time = .num (t0 + d) ∧ ∀ j i, s1.pv S j i - Grid.toGrid S r j i = (1 - rate * d) * (s.pv S j i - Grid.toGrid S r j i) := by
  obtain ⟨f, hf, hf'⟩ := C55_relaxation (S := S) rate (.fld (Grid.toGrid S r)) s
  have hfe : f = Grid.toGrid S (rate • (r - s.q)) := by
    funext j i
    rw [(hf' j i).1]
    unfold Grid.toGrid
    rw [hS.lin.spectogrd_smul, sub_eq_add_neg r s.q, hS.lin.spectogrd_add, ← neg_one_smul ℝ s.q, hS.lin.spectogrd_smul]
    simp only [RVal.at, St.pv, Grid.toGrid, Pi.smul_apply, Pi.add_apply, smul_eq_mul]
    ring
  have hq0 : PhaseInv g.nlon s.q := by
    have := hS.rot.analysis hsym
    rwa [show S.grdtospec (s.pv S) = s.q from hs] at this
  have htend : BModel.tendency S { M with rhs := some (Term.linearRelaxation S rate (.fld (Grid.toGrid S r))).toRhs } s =
      .ok (Grid.toSpectral S f) := by
    unfold BModel.tendency
    dsimp only
    rw [toRhs_ok.mpr hf, St.zonal_flux hg hS.rot hq0]
    simp
  refine ⟨_, euler_ok_iff.mpr ⟨_, .num (t0 + d), htend, by rw [ht0]; rfl, rfl⟩, rfl, fun j i => ?_⟩
  have hdiff : ∀ q, BModel.applyDiffusion S
      { M with rhs := some (Term.linearRelaxation S rate (.fld (Grid.toGrid S r))).toRhs } (toSeconds (.num d)) q = q := by
    intro q
    unfold BModel.applyDiffusion
    dsimp only
    cases M.diffusionBg with
    | none => funext k; simp [Grid.solveDiffusionSpectral, hM]
    | some b => funext k; simp [Grid.solveDiffusionSpectral, hM]
  rw [hdiff]
  have hpv : St.pv S (⟨.num (t0 + d), s.q + ((toSeconds (.num d) : ℝ) : ℂ) • Grid.toSpectral S f⟩ : St PyTime g) =
      s.pv S + d • f := by
    unfold St.pv
    dsimp only
    have e : ((toSeconds (.num d) : ℝ) : ℂ) • Grid.toSpectral S f = d • Grid.toSpectral S f := by
      funext k; simp [toSeconds]
    rw [e]
    unfold Grid.toGrid Grid.toSpectral
    rw [hS.lin.spectogrd_add, hS.lin.spectogrd_smul]
    congr 2
    rw [hfe]
    exact hS.rt.synth_again _
  rw [hpv]
  simp only [Pi.add_apply, Pi.smul_apply, smul_eq_mul]
  rw [(hf' j i).1]
  simp only [RVal.at]
  ring

/-- Non-vacuity of C55: the motionless state satisfies the hypotheses of the model statement. -/
example : sph30.Adm (Init.motionless sph30 (.num 0) : St PyTime grid30).q ∧
    ZonallySymmetric ((Init.motionless sph30 (.num 0) : St PyTime grid30).pv sph30) ∧ Spharm.Lawful sph30 ∧ grid30.Valid :=
  ⟨sph30_lawful.rt.adm_analysis _, St.symm_pv sph30_lawful.rot (sph30_lawful.rot.analysis Grid.fcor2_symm), sph30_lawful,
    grid30_valid⟩

end Barotropic
