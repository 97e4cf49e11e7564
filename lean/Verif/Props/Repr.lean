import Verif.Spec.Repr
import Verif.Lemmas.SpecIndex
import Mathlib.Tactic.FieldSimp
import Mathlib.Tactic.LinearCombination
import Mathlib.Tactic.FinCases

/-!
# Text representations: C85, C86
-/

namespace Barotropic
open Repr

theorem isDigit_mem {c : Char} (h : c.isDigit = true) : c ∈ "0123456789".toList := by
  have h' : 48 ≤ c.toNat ∧ c.toNat ≤ 57 := by
    simp only [Char.isDigit, Bool.and_eq_true, decide_eq_true_eq] at h
    exact ⟨by have := h.1; exact this, by have := h.2; exact this⟩
  have e : c = Char.ofNat c.toNat := (Char.ofNat_toNat c).symm
  rw [e]
  obtain ⟨h1, h2⟩ := h'
  interval_cases hc : c.toNat <;> decide

theorem read_digits (digit : Char → Option ℕ) (tr : Char → Char)
    (h : ∀ c ∈ "0123456789".toList, digit (tr c) = some (c.toNat - '0'.toNat)) (n : ℕ) :
    readNumber digit (String.ofList ((toString n).toList.map tr)) = some n := by
  have key : ∀ (l : List Char) (a : ℕ), (∀ c ∈ l, c.isDigit) →
      (l.map tr).foldl (fun acc c => acc.bind fun a => (digit c).map fun d => 10 * a + d) (some a) =
        some (Nat.ofDigitChars 10 l a) := by
    intro l
    induction l with
    | nil => intro a _; simp
    | cons c l ih =>
      intro a hc
      rw [List.map_cons, List.foldl_cons, Nat.ofDigitChars_cons]
      have hd := h c (isDigit_mem (hc c List.mem_cons_self))
      rw [show ((some a).bind fun a => (digit (tr c)).map fun d => 10 * a + d) = some (10 * a + (c.toNat - '0'.toNat)) by
        rw [hd]; rfl]
      exact ih _ fun c' hc' => hc c' (List.mem_cons_of_mem _ hc')
  unfold readNumber
  rw [String.toList_ofList, Nat.toString_eq_repr, Nat.toList_repr, key, Nat.ofDigitChars_ten_toDigits]
  intro c hc
  exact Nat.isDigit_of_mem_toDigits (by decide) (by decide) hc

/-! ## C85 the equation of a model -/

/-- C85: a number in superscript reads as that number. -/
theorem C85_sup (n : ℕ) : readNumber supDigit (sup (toString n)) = some n :=
  read_digits _ _ (by decide) n

/-- C85: a number in subscript reads as that number. -/
theorem C85_sub (n : ℕ) : readNumber subDigit (sub (toString n)) = some n :=
  read_digits _ _ (by decide) n

/-- C85: the exponent that is shown. -/
theorem C85_exponent (order : ℕ) : readNumber supDigit (modelExponent order) = some (2 * order) := C85_sup _

/-- C85: for models with even order of diffusion (like the default 2) the diffusion step is an implicit Euler step for the
equation that is shown. -/
theorem C85_equation_partial {g : Grid ℝ} (M : BModel g) (he : Even M.diffusionOrder) (q : g.Spc) (dt : ℝ)
    (hdt : 0 ≤ dt * M.diffusionCoeff) (k : Fin (nspec g.ntrunc)) (e : ℕ)
    (hshown : readNumber supDigit (modelExponent M.diffusionOrder) = some e) :
    let q' := Grid.solveDiffusionSpectral q M.diffusionCoeff dt M.diffusionOrder
    q' k - q k = (dt : ℂ) * (shownDiffusion M.diffusionCoeff (g.eig k) e : ℂ) * q' k := by
  intro q'
  rw [C85_exponent] at hshown
  cases hshown
  have heig : 0 ≤ g.eig k ^ M.diffusionOrder := he.pow_nonneg _
  have hpos : (0 : ℝ) < 1 + dt * M.diffusionCoeff * g.eig k ^ M.diffusionOrder := by
    have := mul_nonneg hdt heig; linarith
  have hne : ((1 + dt * M.diffusionCoeff * g.eig k ^ M.diffusionOrder : ℝ) : ℂ) ≠ 0 := by exact_mod_cast hpos.ne'
  unfold shownDiffusion
  rw [show 2 * M.diffusionOrder / 2 = M.diffusionOrder by omega, he.neg_pow]
  simp only [q', Grid.solveDiffusionSpectral]
  field_simp
  push_cast
  ring

/-- C85 refuted: for odd order the equation that is shown has the opposite sign (for order 1, `-κ∇²q` instead of `+κ∇²q`):
with positive coefficient and time step, no harmonic with non-zero degree and amplitude follows it. -/
theorem C85_odd_refuted {g : Grid ℝ} (hr : 0 < g.rsphere) (M : BModel g) (ho : Odd M.diffusionOrder) (q : g.Spc) (dt : ℝ)
    (hdt : 0 < dt) (hc : 0 < M.diffusionCoeff) (k : Fin (nspec g.ntrunc)) (hk : specN k ≠ 0) (hq : q k ≠ 0) (e : ℕ)
    (hshown : readNumber supDigit (modelExponent M.diffusionOrder) = some e) :
    let q' := Grid.solveDiffusionSpectral q M.diffusionCoeff dt M.diffusionOrder
    q' k - q k ≠ (dt : ℂ) * (shownDiffusion M.diffusionCoeff (g.eig k) e : ℂ) * q' k := by
  intro q' h
  rw [C85_exponent] at hshown
  cases hshown
  have heig : 0 < g.eig k := by
    unfold Grid.eig
    have : (0 : ℝ) < specN k := by exact_mod_cast Nat.pos_of_ne_zero hk
    positivity
  have hx : (0 : ℝ) < dt * M.diffusionCoeff * g.eig k ^ M.diffusionOrder := by positivity
  have hne : ((1 + dt * M.diffusionCoeff * g.eig k ^ M.diffusionOrder : ℝ) : ℂ) ≠ 0 := by
    exact_mod_cast (by linarith : (1 + dt * M.diffusionCoeff * g.eig k ^ M.diffusionOrder : ℝ) ≠ 0)
  unfold shownDiffusion at h
  rw [show 2 * M.diffusionOrder / 2 = M.diffusionOrder by omega, ho.neg_pow] at h
  simp only [q', Grid.solveDiffusionSpectral] at h
  have h2 : q k * ((2 * (dt * M.diffusionCoeff * g.eig k ^ M.diffusionOrder) : ℝ) : ℂ) = 0 := by
    field_simp at h
    push_cast at h ⊢
    linear_combination (-(q k)) * h
  rcases mul_eq_zero.mp h2 with h3 | h3
  · exact hq h3
  · have : (2 * (dt * M.diffusionCoeff * g.eig k ^ M.diffusionOrder) : ℝ) = 0 := by exact_mod_cast h3
    linarith

/-- Non-vacuity of C85: the default model, and its text. -/
example : Even (2 : ℕ) ∧ modelEquation 2 = "    ∂q/∂t = -∇(u·q) - κ∇⁴q + RHS " ∧ modelExponent 6 = "¹²" :=
  ⟨by decide, by decide +kernel, by decide +kernel⟩

/-! ## C86 the text of a forcing -/

theorem rhsRepr_unique : ∀ (a b : Tree) (x y : List Tok), rhsRepr a ++ x = rhsRepr b ++ y → a = b ∧ x = y := by
  intro a
  induction a with
  | leaf s =>
    intro b x y h
    cases b with
    | leaf t => simp only [rhsRepr, List.cons_append, List.nil_append, List.cons.injEq, Tok.leaf.injEq] at h; exact ⟨by rw [h.1], h.2⟩
    | sum b1 b2 => simp [rhsRepr] at h
    | prod b1 b2 => simp [rhsRepr] at h
  | sum a1 a2 ih1 ih2 =>
    intro b x y h
    cases b with
    | leaf t => simp [rhsRepr] at h
    | sum b1 b2 =>
      simp only [rhsRepr, List.append_assoc, List.cons_append, List.nil_append, List.cons.injEq, true_and] at h
      obtain ⟨rfl, h2⟩ := ih1 _ _ _ h
      simp only [List.cons.injEq, true_and] at h2
      obtain ⟨rfl, h3⟩ := ih2 _ _ _ h2
      simp only [List.cons.injEq, true_and] at h3
      exact ⟨rfl, h3⟩
    | prod b1 b2 =>
      simp only [rhsRepr, List.append_assoc, List.cons_append, List.nil_append, List.cons.injEq, true_and] at h
      obtain ⟨rfl, h2⟩ := ih1 _ _ _ h
      simp at h2
  | prod a1 a2 ih1 ih2 =>
    intro b x y h
    cases b with
    | leaf t => simp [rhsRepr] at h
    | prod b1 b2 =>
      simp only [rhsRepr, List.append_assoc, List.cons_append, List.nil_append, List.cons.injEq, true_and] at h
      obtain ⟨rfl, h2⟩ := ih1 _ _ _ h
      simp only [List.cons.injEq, true_and] at h2
      obtain ⟨rfl, h3⟩ := ih2 _ _ _ h2
      simp only [List.cons.injEq, true_and] at h3
      exact ⟨rfl, h3⟩
    | sum b1 b2 =>
      simp only [rhsRepr, List.append_assoc, List.cons_append, List.nil_append, List.cons.injEq, true_and] at h
      obtain ⟨rfl, h2⟩ := ih1 _ _ _ h
      simp at h2

/-- C86: different combinations of forcing terms never have the same text. -/
theorem C86_unambiguous (a b : Tree) (h : rhsRepr a = rhsRepr b) : a = b :=
  (rhsRepr_unique a b [] [] (by simpa using h)).1

/-- Non-vacuity of C86: the same operands in the same order, combined differently. -/
example : rhsRepr (.prod (.sum (.leaf "a") (.leaf "b")) (.leaf "c")) ≠ rhsRepr (.sum (.leaf "a") (.prod (.leaf "b") (.leaf "c"))) := by
  decide

end Barotropic
