import Verif.Lemmas.GridReal
import Verif.Lemmas.Region
import Mathlib.Algebra.BigOperators.Ring.Finset
import Mathlib.Algebra.BigOperators.Field
import Mathlib.Algebra.Order.BigOperators.Group.Finset
import Mathlib.Algebra.Order.BigOperators.Ring.Finset
import Mathlib.Data.Fintype.BigOperators

namespace Barotropic
open Finset

/-- Summing over the entries of a duplicate-free index list = summing over the indices that occur in it. -/
theorem sum_get_eq {n : ℕ} {M : Type*} [AddCommMonoid M] {l : List (Fin n)} (hl : l.Nodup) (F : Fin n → M) :
    ∑ k, F (l.get k) = ∑ i, if i ∈ l then F i else 0 := by
  rw [← Finset.sum_filter]
  have : (Finset.univ.filter fun i => i ∈ l) = Finset.univ.image l.get := by
    ext i
    simp [List.mem_iff_get]
  rw [this, Finset.sum_image]
  intro a _ b _ hab
  exact hl.injective_get hab

theorem sum_get_full {n : ℕ} {M : Type*} [AddCommMonoid M] {l : List (Fin n)} (hl : l.Nodup) (hn : l.length = n)
    (F : Fin n → M) : ∑ k, F (l.get k) = ∑ i, F i := by
  rw [sum_get_eq hl]
  apply Finset.sum_congr rfl
  intro i _
  rw [if_pos]
  have h1 : l.toFinset = Finset.univ := by
    apply Finset.eq_univ_of_card
    rw [List.toFinset_card_of_nodup hl, hn, Fintype.card_fin]
  rw [← List.mem_toFinset, h1]
  simp

/-- A strictly increasing index list of full length is the identity. -/
theorem sorted_full {n : ℕ} {l : List (Fin n)} (hl : l.Pairwise (· < ·)) (hn : l.length = n) :
    l = List.finRange n := by
  have hnd : l.Nodup := hl.imp (fun h => h.ne)
  have h1 : l.toFinset = Finset.univ := by
    apply Finset.eq_univ_of_card
    rw [List.toFinset_card_of_nodup hnd, hn, Fintype.card_fin]
  have hperm : l.Perm (List.finRange n) := by
    rw [List.perm_ext_iff_of_nodup hnd (List.nodup_finRange n)]
    intro a
    rw [← List.mem_toFinset, h1]
    simp
  exact List.Perm.eq_of_pairwise (fun a b _ _ h1 h2 => (lt_asymm h1 h2).elim) hl (List.pairwise_lt_finRange n) hperm
  

end Barotropic
