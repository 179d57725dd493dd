import Verif.LazyTrace
import Mathlib.Algebra.Order.BigOperators.Group.Finset
import Mathlib.Algebra.Order.BigOperators.Ring.Finset
import Mathlib.Algebra.Order.AbsoluteValue.Basic
import Mathlib.Algebra.Order.Ring.Abs
import Mathlib.Data.Fintype.BigOperators
import Mathlib.Algebra.Ring.Rat
import Mathlib.Algebra.Order.Ring.Rat
import Mathlib.Algebra.BigOperators.Fin
import Mathlib.Tactic.Linarith
import Mathlib.Tactic.NormNum
import Mathlib.Tactic.Ring
import Mathlib.Tactic.Positivity

/-! C25: lazy evaluation of the trace. -/

namespace CTHyb

variable {R K ι : Type} [Field R] [LinearOrder R] [IsStrictOrderedRing R] [Ring K] [Fintype ι]
  [DecidableEq ι]

theorem abs_sum_le_sum (abs : AbsoluteValue K R) (tr : ι → K) (bound : ι → R) (S : Finset ι)
    (hb : ∀ i ∈ S, abs (tr i) ≤ bound i) : abs (∑ i ∈ S, tr i) ≤ ∑ i ∈ S, bound i := by
  classical
  induction S using Finset.induction_on with
  | empty => simp
  | insert a S ha ih =>
    rw [Finset.sum_insert ha, Finset.sum_insert ha]
    refine le_trans (abs.add_le _ _) (add_le_add (hb a (Finset.mem_insert_self _ _)) ?_)
    exact ih (fun i hi => hb i (Finset.mem_insert_of_mem hi))

/-- What the result says about the exact sum. -/
def LazyGood (eps : R) (abs : AbsoluteValue K R) (exact : K) (cutoff : R) (card : ℕ)
    (r : Bool × K) : Prop :=
  (r = (false, 0) ∧ abs exact < cutoff) ∨
  (r.1 = decide (cutoff < abs r.2) ∧ abs (exact - r.2) ≤ card * (eps * abs r.2))

theorem lazyLoop_good (eps : R) (abs : AbsoluteValue K R) (tr : ι → K) (cutoff : R) :
    ∀ (rest : List ι) (bound : ι → R) (sum : K) (S : Finset ι), 0 ≤ eps → rest.Nodup →
      (∀ i, abs (tr i) ≤ bound i) → (∀ i, i ∈ rest ↔ i ∉ S) → sum = ∑ i ∈ S, tr i →
      rest.Pairwise (fun i j => bound j ≤ bound i) →
      LazyGood eps abs (∑ i, tr i) cutoff (Fintype.card ι)
          (lazyLoop eps abs tr cutoff rest bound sum).1 ∧
        ∀ i, abs (tr i) ≤ (lazyLoop eps abs tr cutoff rest bound sum).2 i := by
  intro rest
  induction rest with
  | nil =>
    intro bound sum S he _ hb hS hsum _
    refine ⟨Or.inr ⟨rfl, ?_⟩, hb⟩
    have : S = Finset.univ := by
      ext i; simpa using (hS i)
    subst this
    simp only [lazyLoop, hsum, sub_self, map_zero]
    have := abs.nonneg (∑ i, tr i)
    positivity
  | cons i rest ih =>
    intro bound sum S he hnd hb hS hsum hsort
    rw [List.pairwise_cons] at hsort
    rw [List.nodup_cons] at hnd
    unfold lazyLoop
    split
    · rename_i hlt
      refine ⟨Or.inr ⟨rfl, ?_⟩, hb⟩
      simp only
      have hsplit : ∑ j, tr j - sum = ∑ j ∈ Sᶜ, tr j := by
        rw [hsum, ← Finset.sum_add_sum_compl S, add_sub_cancel_left]
      rw [hsplit]
      refine le_trans (abs_sum_le_sum abs tr bound _ (fun j _ => hb j)) ?_
      have hall : ∀ j ∈ Sᶜ, bound j ≤ eps * abs sum := by
        intro j hj
        have : j ∈ i :: rest := (hS j).2 (by simpa using hj)
        rcases List.mem_cons.1 this with rfl | h
        · exact hlt.le
        · exact le_trans (hsort.1 j h) hlt.le
      refine le_trans (Finset.sum_le_card_nsmul _ _ _ hall) ?_
      rw [nsmul_eq_mul]
      have h0 : 0 ≤ eps * abs sum := mul_nonneg he (abs.nonneg _)
      have hc : ((Sᶜ : Finset ι).card : R) ≤ (Fintype.card ι : R) := by
        exact_mod_cast Finset.card_le_univ _
      exact mul_le_mul_of_nonneg_right hc h0
    · have hb' : ∀ j, abs (tr j) ≤ Function.update bound i (abs (tr i)) j := by
        intro j
        by_cases hj : j = i
        · subst hj; simp
        · rw [Function.update_of_ne hj]; exact hb j
      simp only
      split
      · rename_i hlt
        refine ⟨Or.inl ⟨rfl, lt_of_le_of_lt ?_ hlt⟩, hb'⟩
        exact abs_sum_le_sum abs tr _ _ (fun j _ => hb' j)
      · have hi : i ∉ S := (hS i).1 List.mem_cons_self
        refine ih _ _ (insert i S) he hnd.2 hb' ?_ ?_ ?_
        · intro j
          rw [Finset.mem_insert, not_or]
          constructor
          · intro h
            exact ⟨fun e => hnd.1 (e ▸ h), (hS j).1 (List.mem_cons_of_mem _ h)⟩
          · rintro ⟨h1, h2⟩
            exact (List.mem_cons.1 ((hS j).2 h2)).resolve_left h1
        · rw [Finset.sum_insert hi, hsum, add_comm]
        · refine List.Pairwise.imp_of_mem ?_ hsort.2
          intro a b ha hb h
          have na : a ≠ i := by rintro rfl; exact hnd.1 ha
          have nb : b ≠ i := by rintro rfl; exact hnd.1 hb
          rw [Function.update_of_ne na, Function.update_of_ne nb]
          exact h

/-- What `std::sort` guarantees: all indices once, in decreasing order of the bounds. -/
structure SortedByBound (bound : ι → R) (order : List ι) : Prop where
  nodup : order.Nodup
  all : ∀ i, i ∈ order
  sorted : order.Pairwise (fun i j => bound j ≤ bound i)

theorem lazyEval_good (eps : R) (he : 0 ≤ eps) (abs : AbsoluteValue K R) (tr : ι → K) (cutoff : R)
    (order : List ι) (bound : ι → R) (ho : SortedByBound bound order)
    (hb : ∀ i, abs (tr i) ≤ bound i) :
    LazyGood eps abs (∑ i, tr i) cutoff (Fintype.card ι)
        (lazyEvalTrace eps abs tr cutoff order bound).1 ∧
      ∀ i, abs (tr i) ≤ (lazyEvalTrace eps abs tr cutoff order bound).2 i :=
  lazyLoop_good eps abs tr cutoff order bound 0 ∅ he ho.nodup hb (by simpa using ho.all) (by simp)
    ho.sorted

/-- **C25.** With valid bounds, if the lazy evaluation rejects, the exact trace does not exceed the
cutoff, up to `N·eps` times the absolute value of the returned trace (which is 0 if the rejection
came early: then the exact trace is strictly below the cutoff). -/
theorem C25_reject (eps : R) (he : 0 ≤ eps) (abs : AbsoluteValue K R) (tr : ι → K) (cutoff : R)
    (order : List ι) (bound : ι → R) (ho : SortedByBound bound order)
    (hb : ∀ i, abs (tr i) ≤ bound i)
    (h : (lazyEvalTrace eps abs tr cutoff order bound).1.1 = false) :
    abs (∑ i, tr i) ≤ cutoff +
      Fintype.card ι * (eps * abs (lazyEvalTrace eps abs tr cutoff order bound).1.2) := by
  obtain ⟨hg, -⟩ := lazyEval_good eps he abs tr cutoff order bound ho hb
  rcases hg with ⟨e, hlt⟩ | ⟨e, hd⟩
  · rw [e]; simpa using hlt.le
  · rw [h] at e
    have hle : abs (lazyEvalTrace eps abs tr cutoff order bound).1.2 ≤ cutoff := by
      by_contra hc
      rw [decide_eq_true (not_le.1 hc)] at e
      cases e
    have h3 := abs.add_le (∑ i, tr i - (lazyEvalTrace eps abs tr cutoff order bound).1.2)
      (lazyEvalTrace eps abs tr cutoff order bound).1.2
    rw [sub_add_cancel] at h3
    linarith

/-- **C25.** If it accepts, the returned trace exceeds the cutoff and is within `N·eps` (relative) of
the exact one. -/
theorem C25_accept (eps : R) (he : 0 ≤ eps) (abs : AbsoluteValue K R) (tr : ι → K) (cutoff : R)
    (order : List ι) (bound : ι → R) (ho : SortedByBound bound order)
    (hb : ∀ i, abs (tr i) ≤ bound i)
    (h : (lazyEvalTrace eps abs tr cutoff order bound).1.1 = true) :
    cutoff < abs (lazyEvalTrace eps abs tr cutoff order bound).1.2 ∧
    abs (∑ i, tr i - (lazyEvalTrace eps abs tr cutoff order bound).1.2) ≤
      Fintype.card ι * (eps * abs (lazyEvalTrace eps abs tr cutoff order bound).1.2) := by
  obtain ⟨hg, -⟩ := lazyEval_good eps he abs tr cutoff order bound ho hb
  rcases hg with ⟨e, hlt⟩ | ⟨e, hd⟩
  · rw [e] at h; cases h
  · refine ⟨?_, hd⟩
    rw [h] at e
    exact of_decide_eq_true e.symm

/-- **C25.** The decision differs from that of the exact trace only if the exact trace is within
`N·eps·|returned trace|` of the cutoff. -/
theorem C25_decision (eps : R) (he : 0 ≤ eps) (abs : AbsoluteValue K R) (tr : ι → K) (cutoff : R)
    (order : List ι) (bound : ι → R) (ho : SortedByBound bound order)
    (hb : ∀ i, abs (tr i) ≤ bound i)
    (h : (lazyEvalTrace eps abs tr cutoff order bound).1.1 ≠ decide (cutoff < abs (∑ i, tr i))) :
    |abs (∑ i, tr i) - cutoff| ≤
      Fintype.card ι * (eps * abs (lazyEvalTrace eps abs tr cutoff order bound).1.2) := by
  by_cases hr : (lazyEvalTrace eps abs tr cutoff order bound).1.1 = true
  · obtain ⟨h1, h2⟩ := C25_accept eps he abs tr cutoff order bound ho hb hr
    rw [hr] at h
    have hle : abs (∑ i, tr i) ≤ cutoff := by
      by_contra hc
      exact h (decide_eq_true (not_le.1 hc)).symm
    have h3 := abs.sub_le (0 : K) (lazyEvalTrace eps abs tr cutoff order bound).1.2 0
    have h4 := abs.add_le (∑ i, tr i)
      ((lazyEvalTrace eps abs tr cutoff order bound).1.2 - ∑ i, tr i)
    rw [add_sub_cancel, abs.map_sub] at h4
    rw [abs_le]; constructor <;> linarith
  · have hf : (lazyEvalTrace eps abs tr cutoff order bound).1.1 = false := by simpa using hr
    have h1 := C25_reject eps he abs tr cutoff order bound ho hb hf
    rw [hf] at h
    have hlt : cutoff < abs (∑ i, tr i) := by
      by_contra hc
      exact h (decide_eq_false hc).symm
    rw [abs_le]; constructor <;> linarith

/-- **C25.** Without neglected terms (`eps = 0`) the decision is that of the exact trace, and so is
the value if accepted. -/
theorem C25_exact (abs : AbsoluteValue K R) (tr : ι → K) (cutoff : R)
    (order : List ι) (bound : ι → R) (ho : SortedByBound bound order)
    (hb : ∀ i, abs (tr i) ≤ bound i) :
    (lazyEvalTrace 0 abs tr cutoff order bound).1.1 = decide (cutoff < abs (∑ i, tr i)) ∧
    ((lazyEvalTrace 0 abs tr cutoff order bound).1.1 = true →
      (lazyEvalTrace 0 abs tr cutoff order bound).1.2 = ∑ i, tr i) := by
  obtain ⟨hg, -⟩ := lazyEval_good 0 le_rfl abs tr cutoff order bound ho hb
  rcases hg with ⟨e, hlt⟩ | ⟨e, hd⟩
  · rw [e]
    exact ⟨(decide_eq_false (not_lt.2 hlt.le)).symm, fun h => by cases h⟩
  · have : ∑ i, tr i = (lazyEvalTrace 0 abs tr cutoff order bound).1.2 := by
      rw [← sub_eq_zero, ← abs.eq_zero]
      exact le_antisymm (by simpa using hd) (abs.nonneg _)
    rw [this]
    exact ⟨e, fun _ => rfl⟩

/-- **C25.** The vector of bounds handed back still consists of upper bounds. -/
theorem C25_bounds_stay_valid (eps : R) (he : 0 ≤ eps) (abs : AbsoluteValue K R) (tr : ι → K)
    (cutoff : R) (order : List ι) (bound : ι → R) (ho : SortedByBound bound order)
    (hb : ∀ i, abs (tr i) ≤ bound i) :
    ∀ i, abs (tr i) ≤ (lazyEvalTrace eps abs tr cutoff order bound).2 i :=
  (lazyEval_good eps he abs tr cutoff order bound ho hb).2

/-! Concrete cases: three outer states with traces 5, -2, 0. -/

/-- Traces of the example. -/
def exTr : Fin 3 → ℚ := fun i => if i = 0 then 5 else if i = 1 then -2 else 0

/-- Bounds of the example. -/
def exBound : Fin 3 → ℚ := fun i => if i = 0 then 6 else if i = 1 then 20 else 1 / 1000

example : SortedByBound exBound [1, 0, 2] ∧ ∀ i, |exTr i| ≤ exBound i := by
  refine ⟨⟨by decide, by decide, by decide +kernel⟩, by decide +kernel⟩

/-- Accepted, third state neglected; and rejected early for a high cutoff. -/
example : (lazyEvalTrace (1 / 100) AbsoluteValue.abs exTr 2 [1, 0, 2] exBound).1 = (true, 3) ∧
    (lazyEvalTrace (1 / 100) AbsoluteValue.abs exTr 9 [1, 0, 2] exBound).1 = (false, 0) := by
  simp [lazyEvalTrace, lazyLoop, exTr, exBound, Fin.sum_univ_three, Function.update_apply]
  norm_num

/-- The hypothesis on the order is needed: with the bounds in the wrong order a large contribution is
neglected. -/
theorem C25_unsorted_counterexample :
    (lazyEvalTrace (1 / 100) AbsoluteValue.abs exTr 4 [1, 2, 0] exBound).1.1 = false ∧
    (lazyEvalTrace (1 / 100) AbsoluteValue.abs (fun i => if i = 0 then 9 else exTr i) 4 [1, 2, 0]
      (fun i => if i = 0 then 9 else exBound i)).1 = (false, -2) ∧
    |∑ i, (fun i : Fin 3 => if i = 0 then (9 : ℚ) else exTr i) i| = 7 := by
  simp [lazyEvalTrace, lazyLoop, exTr, exBound, Fin.sum_univ_three, Function.update_apply]
  norm_num

end CTHyb
