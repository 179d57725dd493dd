import Verif.MergeDiff
import Mathlib.Algebra.Order.Group.Multiset

/-!
C46: the lists of operators removed from and added to the trace are the multiset differences
of the old and new operators.
-/

namespace CTHyb

variable {α : Type} [DecidableEq α]

theorem swapPop_perm (l : List α) (x : α) (h : x ∈ l) :
    (swapPop l (l.idxOf x)).Perm (l.erase x) := by
  induction l with
  | nil => simp at h
  | cons a l ih =>
    by_cases hax : a = x
    · subst hax
      cases l with
      | nil => simp [swapPop]
      | cons b l =>
        simp only [swapPop, List.idxOf_cons_self, List.erase_cons_head]
        rw [List.getLast?_cons_cons]
        have hne : (b :: l) ≠ [] := by simp
        rw [List.getLast?_eq_some_getLast hne]
        simp only [List.set_cons_zero, List.dropLast_cons₂]
        conv_rhs => rw [← List.dropLast_concat_getLast hne]
        exact (List.perm_append_singleton _ _).symm
    · have hxl : x ∈ l := by simpa [Ne.symm hax] using h
      have hne : l ≠ [] := List.ne_nil_of_mem hxl
      have hih := ih hxl
      rw [List.erase_cons_tail (by simpa using hax)]
      rw [List.idxOf_cons_ne _ hax]
      obtain ⟨b, l', rfl⟩ := List.exists_cons_of_ne_nil hne
      simp only [swapPop] at hih ⊢
      rw [List.getLast?_cons_cons]
      rw [List.getLast?_eq_some_getLast hne] at hih ⊢
      simp only [Nat.succ_eq_add_one, List.set_cons_succ] at hih ⊢
      have hne2 : (b :: l').set (List.idxOf x (b :: l')) ((b :: l').getLast hne) ≠ [] := by
        intro hc
        have := congrArg List.length hc
        simp at this
      rw [List.dropLast_cons_of_ne_nil hne2]
      exact hih.cons a

theorem mergeDiffImpl_spec (R P : Multiset α) (rem add new : List α)
    (hr : (rem : Multiset α) = R - P) (ha : (add : Multiset α) = P - R) :
    ((mergeDiffImpl rem add new).1 : Multiset α) = R - (P + (new : Multiset α)) ∧
    ((mergeDiffImpl rem add new).2 : Multiset α) = (P + (new : Multiset α)) - R := by
  induction new generalizing rem add P with
  | nil => simp [mergeDiffImpl, hr, ha]
  | cons x new ih =>
    have key : ((mergeDiffStep (rem, add) x).1 : Multiset α) = R - (P + {x}) ∧
        ((mergeDiffStep (rem, add) x).2 : Multiset α) = (P + {x}) - R := by
      unfold mergeDiffStep
      have hcnt : ∀ y, rem.count y = R.count y - P.count y := by
        intro y
        have := congrArg (Multiset.count y) hr
        simpa using this
      have hcnt2 : ∀ y, add.count y = P.count y - R.count y := by
        intro y
        have := congrArg (Multiset.count y) ha
        simpa using this
      by_cases hx : x ∈ rem
      · have hpos : 0 < rem.count x := List.count_pos_iff.2 hx
        simp only [hx, if_true]
        constructor
        · rw [Multiset.coe_eq_coe.2 (swapPop_perm rem x hx), ← Multiset.coe_erase, hr]
          rw [tsub_add_eq_tsub_tsub, Multiset.sub_singleton]
        · rw [ha]
          ext y
          simp only [Multiset.count_sub, Multiset.count_add, Multiset.count_singleton]
          have h1 := hcnt y
          have h2 := hcnt x
          split
          · subst_vars; omega
          · omega
      · have hz : rem.count x = 0 := List.count_eq_zero.2 hx
        simp only [hx, if_false]
        constructor
        · rw [hr]; ext y
          simp only [Multiset.count_sub, Multiset.count_add, Multiset.count_singleton]
          have h1 := hcnt y
          split
          · subst_vars; omega
          · omega
        · rw [← Multiset.coe_add, ha]; ext y
          simp only [Multiset.count_sub, Multiset.count_add, Multiset.coe_singleton,
            Multiset.count_singleton]
          have h1 := hcnt y
          split
          · subst_vars; omega
          · omega
    have := ih (P + {x}) (mergeDiffStep (rem, add) x).1 (mergeDiffStep (rem, add) x).2 key.1 key.2
    have e : P + ((x :: new : List α) : Multiset α) = P + {x} + (new : Multiset α) := by
      rw [← Multiset.cons_coe, ← Multiset.singleton_add, add_assoc]
    rw [e]
    exact this

/-- **C46.**  `merge_diff` computes the two multiset differences between the old operators
(bath operators to remove and old worm) and the new operators (bath operators to add and new
worm): nothing is lost, nothing is duplicated. -/
theorem C46_merge_diff (hybRem hybAdd wormRem wormAdd : List α) :
    ((mergeDiff hybRem hybAdd wormRem wormAdd).1 : Multiset α) =
      ((hybRem : Multiset α) + (wormRem : Multiset α)) - ((hybAdd : Multiset α) + (wormAdd : Multiset α)) ∧
    ((mergeDiff hybRem hybAdd wormRem wormAdd).2 : Multiset α) =
      ((hybAdd : Multiset α) + (wormAdd : Multiset α)) - ((hybRem : Multiset α) + (wormRem : Multiset α)) := by
  unfold mergeDiff
  have h1 := mergeDiffImpl_spec ((hybRem : Multiset α) + (wormRem : Multiset α)) 0 (hybRem ++ wormRem) [] hybAdd
    (by simp) (by rw [Multiset.zero_sub]; rfl)
  rw [zero_add] at h1
  exact mergeDiffImpl_spec ((hybRem : Multiset α) + (wormRem : Multiset α)) (hybAdd : Multiset α) _ _ wormAdd
    h1.1 h1.2

/-- **C46 (no operator is both removed and added).** -/
theorem C46_no_common (hybRem hybAdd wormRem wormAdd : List α) (x : α)
    (h1 : x ∈ (mergeDiff hybRem hybAdd wormRem wormAdd).1)
    (h2 : x ∈ (mergeDiff hybRem hybAdd wormRem wormAdd).2) : False := by
  obtain ⟨e1, e2⟩ := C46_merge_diff hybRem hybAdd wormRem wormAdd
  have c1 : x ∈ ((mergeDiff hybRem hybAdd wormRem wormAdd).1 : Multiset α) := by simpa using h1
  have c2 : x ∈ ((mergeDiff hybRem hybAdd wormRem wormAdd).2 : Multiset α) := by simpa using h2
  rw [e1, ← Multiset.count_pos, Multiset.count_sub] at c1
  rw [e2, ← Multiset.count_pos, Multiset.count_sub] at c2
  omega

/-- **C46 (net effect).**  Starting from any collection `S` that contains the old operators,
removing `op_rem` and adding `op_add` has the same result as removing all old bath and worm
operators and adding all new ones. -/
theorem C46_net_effect (S : Multiset α) (hybRem hybAdd wormRem wormAdd : List α)
    (hS : (hybRem : Multiset α) + (wormRem : Multiset α) ≤ S) :
    S - ((mergeDiff hybRem hybAdd wormRem wormAdd).1 : Multiset α) +
        ((mergeDiff hybRem hybAdd wormRem wormAdd).2 : Multiset α) =
      S - ((hybRem : Multiset α) + (wormRem : Multiset α)) + ((hybAdd : Multiset α) + (wormAdd : Multiset α)) := by
  obtain ⟨e1, e2⟩ := C46_merge_diff hybRem hybAdd wormRem wormAdd
  rw [e1, e2]
  ext y
  have := Multiset.count_le_of_le y hS
  simp only [Multiset.count_sub, Multiset.count_add] at this ⊢
  omega

/-- Non-vacuity: bath operator 1 is turned into a worm operator and vice versa (they cancel),
3 is really removed and 4 really added. -/
example : mergeDiff [1, 3] [2, 4] [2] [1] = ([3], [4]) ∧
    (([1, 3] : List ℕ) : Multiset ℕ) + ([2] : List ℕ) ≤ (([1, 2, 3, 7] : List ℕ) : Multiset ℕ) := by
  decide

end CTHyb
