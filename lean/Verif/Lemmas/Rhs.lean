import Verif.Spec.Rhs
import Verif.Lemmas.Run

/-! # Lemmas on forcing terms -/

namespace Barotropic
open BModel
variable {g : Grid ℝ} {S : g.Sph}

theorem RVal.at_add (x y : RVal g) (j : Fin g.nlat) (i : Fin g.nlon) : (x.add y).at j i = x.at j i + y.at j i := by
  cases x <;> cases y <;> rfl

theorem RVal.at_sub (x y : RVal g) (j : Fin g.nlat) (i : Fin g.nlon) : (x.sub y).at j i = x.at j i - y.at j i := by
  cases x <;> cases y <;> rfl

theorem RVal.at_mul (x y : RVal g) (j : Fin g.nlat) (i : Fin g.nlon) : (x.mul y).at j i = x.at j i * y.at j i := by
  cases x <;> cases y <;> rfl

/-- Two models with the same diffusion whose tendencies agree along the integration return the same. -/
theorem returns_congr {M M' : BModel g} {s : St PyTime g} {dt : PyDelta} {tend : PyTime} {se : ℝ}
    (hd : ∀ dt q, M.applyDiffusion S dt q = M'.applyDiffusion S dt q) (Q : St PyTime g → St PyTime g → Prop)
    (h0 : ∀ t, M.tendency S s = .ok t ↔ M'.tendency S s = .ok t)
    (hQ0 : ∀ s1, M.euler S s dt = .ok s1 → Q s s1)
    (hQ : ∀ a b p, Q a b → M.leapfrog S a b (2 / 10) = .ok p → Q p.1 p.2)
    (hT : ∀ a b t, Q a b → (M.tendency S b = .ok t ↔ M'.tendency S b = .ok t))
    (sf : St PyTime g) (saved : List (St PyTime g)) :
    M.Returns S s dt tend se sf saved ↔ M'.Returns S s dt tend se sf saved := by
  have he : ∀ s1, M.euler S s dt = .ok s1 ↔ M'.euler S s dt = .ok s1 := by
    intro s1; simp only [euler_ok_iff, h0, hd]
  have hl : ∀ a b p, Q a b → (M.leapfrog S a b (2 / 10) = .ok p ↔ M'.leapfrog S a b (2 / 10) = .ok p) := by
    intro a b p hq; simp only [leapfrog_ok_iff, hT a b _ hq, hd]
  have hb : ∀ l l' : Loop g, Q l.state l.stateNew → (M.body S se l = .ok l' ↔ M'.body S se l = .ok l') := by
    intro l l' hq; simp only [body_ok_iff, hl _ _ _ hq]
  have hbQ : ∀ l l' : Loop g, Q l.state l.stateNew → M.body S se l = .ok l' → Q l'.state l'.stateNew := by
    intro l l' hq h
    obtain ⟨p, hp, h3⟩ := body_ok_iff.mp h
    have := hQ _ _ _ hq hp
    rcases h3 with ⟨_, rfl⟩ | ⟨_, _, rfl⟩ | ⟨_, _, rfl⟩ <;> exact this
  have hloop : ∀ (fuel : ℕ) (l : Loop g), Q l.state l.stateNew →
      (M.loop S tend se fuel l = .done sf saved ↔ M'.loop S tend se fuel l = .done sf saved) := by
    intro fuel
    induction fuel with
    | zero => intro l _; simp [BModel.loop]
    | succ n ih =>
      intro l hq
      unfold BModel.loop
      cases h1 : l.state.time.lt tend with
      | error e => simp
      | ok b =>
        cases b with
        | false => simp
        | true =>
          dsimp only
          cases h2 : M.body S se l with
          | ok l' =>
            rw [(hb l l' hq).mp h2]
            exact ih l' (hbQ l l' hq h2)
          | error e =>
            cases h3 : M'.body S se l with
            | ok l' => rw [(hb l l' hq).mpr h3] at h2; cases h2
            | error e' => simp
  unfold BModel.Returns
  refine exists_congr fun fuel => ?_
  unfold BModel.run
  cases h1 : tend.lt s.time with
  | error e => simp
  | ok b =>
    cases b with
    | true => simp
    | false =>
      dsimp only
      cases h2 : M.euler S s dt with
      | ok s1 =>
        rw [(he s1).mp h2]
        exact hloop fuel _ (hQ0 s1 h2)
      | error e =>
        cases h3 : M'.euler S s dt with
        | ok l' => rw [(he l').mpr h3] at h2; cases h2
        | error e' => simp

/-- Forcings that return the same values whenever they return. -/
theorem returns_congr_rhs (M : BModel g) {f f' : St PyTime g → Except PyErr g.Fld}
    (h : ∀ s r, f s = .ok r ↔ f' s = .ok r) (s : St PyTime g) (dt : PyDelta) (tend : PyTime) (se : ℝ)
    (sf : St PyTime g) (saved : List (St PyTime g)) :
    BModel.Returns S { M with rhs := some f } s dt tend se sf saved ↔
    BModel.Returns S { M with rhs := some f' } s dt tend se sf saved := by
  have ht : ∀ (a : St PyTime g) t, BModel.tendency S { M with rhs := some f } a = .ok t ↔
      BModel.tendency S { M with rhs := some f' } a = .ok t := by
    intro a t
    unfold BModel.tendency
    dsimp only
    cases h1 : f a with
    | ok r => rw [(h a r).mp h1]
    | error e =>
      cases h2 : f' a with
      | ok r => rw [(h a r).mpr h2] at h1; cases h1
      | error e' => simp
  exact returns_congr (M := { M with rhs := some f }) (M' := { M with rhs := some f' }) (fun _ _ => rfl) (fun _ _ => True) (ht s) (fun _ _ => trivial) (fun _ _ _ _ _ => trivial)
    (fun _ b t _ => ht b t) sf saved

end Barotropic
