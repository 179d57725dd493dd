import Verif.ZMeas
import Mathlib.Algebra.BigOperators.Fin

/-!
Property C68: histogram of the expansion orders and mean orders.

Specification: the fraction of the calls in which flavor `f` has order `n`, and the mean of the order of flavor `f`.
-/

set_option linter.unusedSectionVars false

namespace CTHyb

open Rand

section spec

/-- Fraction of the calls in which flavor `f` has order `n`. -/
def orderFraction (calls : List (List ℕ)) (f n : ℕ) : ℚ := calls.countP (fun k => k[f]? == some n) / calls.length

end spec

/-- **C68, orders.**  `count_creation_operators` returns for each flavor the number of its creation operators. -/
theorem C68_counts {T : Type} (nf : ℕ) (cdagg : List (Psi T)) :
    (countCreation nf cdagg).length = nf ∧
    ∀ f < nf, (countCreation nf cdagg)[f]? = some (cdagg.countP fun o => o.flavor == f) := by
  have key : ∀ (l : List (Psi T)) (v : List ℕ),
      (l.foldl (fun n o => n.set o.flavor (n.getD o.flavor 0 + 1)) v).length = v.length ∧
      ∀ f < v.length, (l.foldl (fun n o => n.set o.flavor (n.getD o.flavor 0 + 1)) v)[f]? =
        some (v.getD f 0 + l.countP fun o => o.flavor == f) := by
    intro l
    induction l with
    | nil =>
      intro v
      refine ⟨rfl, fun f hf => ?_⟩
      simp [List.getD_eq_getElem?_getD, List.getElem?_eq_getElem hf]
    | cons o l ih =>
      intro v
      obtain ⟨h1, h2⟩ := ih (v.set o.flavor (v.getD o.flavor 0 + 1))
      refine ⟨by rw [List.foldl_cons, h1, List.length_set], fun f hf => ?_⟩
      rw [List.foldl_cons, h2 f (by rwa [List.length_set]), List.countP_cons]
      congr 1
      simp only [List.getD_eq_getElem?_getD]
      by_cases e : o.flavor = f
      · subst e
        simp only [List.getElem?_set_self hf, Option.getD_some, beq_self_eq_true, if_true]
        omega
      · rw [List.getElem?_set_ne e]
        simp [e]
  obtain ⟨h1, h2⟩ := key cdagg (List.replicate nf 0)
  refine ⟨by unfold countCreation; rw [h1, List.length_replicate], fun f hf => ?_⟩
  unfold countCreation
  rw [h2 f (by rwa [List.length_replicate])]
  simp [List.getD_eq_getElem?_getD, hf]

example : countCreation 3 [(⟨1, .creation, 2⟩ : Psi ℕ), ⟨4, .creation, 0⟩, ⟨7, .creation, 2⟩] = [1, 0, 2] := by decide

/-- What one call adds to entry `f * nOrder + n` of the histogram. -/
theorem orderRecords_sum {nOrder : ℕ} (counts : List ℕ) {f n : ℕ} (hf : f < counts.length) (hn : n < nOrder) :
    ((orderRecords nOrder counts).map fun v => v.getD (f * nOrder + n) 0).sum =
      if counts[f]? == some n then (1 : ℚ) else 0 := by
  unfold orderRecords
  rw [List.map_map]
  have hlt : f * nOrder + n < counts.length * nOrder := by
    have := Nat.mul_le_mul_right nOrder (Nat.succ_le_of_lt hf)
    rw [Nat.succ_mul] at this
    omega
  have hent : ∀ g ∈ List.range counts.length, ((fun v : List ℚ => v.getD (f * nOrder + n) 0) ∘ fun f =>
      let v := List.replicate (counts.length * nOrder) (0 : ℚ)
      if counts.getD f 0 < nOrder then v.set (f * nOrder + counts.getD f 0) 1 else v) g =
      if g = f then (if counts[f]? == some n then (1 : ℚ) else 0) else 0 := by
    intro g hg
    have hg' := List.mem_range.1 hg
    simp only [Function.comp, List.getD_eq_getElem?_getD]
    rw [List.getElem?_eq_getElem hg', Option.getD_some]
    split_ifs with h1 h2 h3 h3
    · subst h2
      rw [List.getElem?_eq_getElem hg', beq_iff_eq, Option.some.injEq] at h3
      rw [h3, List.getElem?_set_self (by rw [List.length_replicate]; exact hlt), Option.getD_some]
    · subst h2
      rw [List.getElem?_eq_getElem hg', beq_iff_eq, Option.some.injEq] at h3
      rw [List.getElem?_set_ne (by omega)]
      simp [hlt]
    · have hne : g * nOrder + counts[g] ≠ f * nOrder + n := by
        intro e
        apply h2
        have e1 : (g * nOrder + counts[g]) / nOrder = g := by
          rw [Nat.mul_comm, Nat.mul_add_div (by omega), Nat.div_eq_of_lt h1, Nat.add_zero]
        have e2 : (f * nOrder + n) / nOrder = f := by
          rw [Nat.mul_comm, Nat.mul_add_div (by omega), Nat.div_eq_of_lt hn, Nat.add_zero]
        rw [← e1, ← e2, e]
      rw [List.getElem?_set_ne hne]
      simp [hlt]
    · subst h3
      rename_i h4
      rw [List.getElem?_eq_getElem hg', beq_iff_eq, Option.some.injEq] at h4
      omega
    · simp [hlt]
    · simp [hlt]
  rw [List.map_congr_left hent]
  have : ∀ (m : ℕ) (x : ℚ), ((List.range m).map fun g => if g = f then x else 0).sum = if f < m then x else 0 := by
    intro m x
    induction m with
    | zero => simp
    | succ m ih =>
      rw [List.range_succ, List.map_append, List.sum_append, ih]
      by_cases h : f < m
      · have : m ≠ f := by omega
        simp [h, this, Nat.lt_succ_of_lt h]
      · by_cases h' : m = f
        · subst h'; simp
        · have : ¬ f < m + 1 := by omega
          simp [h, h', this]
  rw [this, if_pos hf]

/-- **C68, histogram.**  After any calls the mean of `order` is, for flavor `f` and order `n` below the length of the histogram, the
fraction of the calls with this order divided by the number of flavors.  Missing for the full statement: the factor
(`C68_histogram_violated`). -/
theorem C68_histogram_partial {nf nOrder : ℕ} (calls : List (List ℕ)) (hl : ∀ k ∈ calls, k.length = nf) {f n : ℕ} (hf : f < nf)
    (hn : n < nOrder) :
    recordedMean (calls.flatMap (orderRecords nOrder)) (f * nOrder + n) = orderFraction calls f n / nf := by
  have h1 : ((calls.flatMap (orderRecords nOrder)).map fun v => v.getD (f * nOrder + n) 0).sum =
      (calls.countP (fun k => k[f]? == some n) : ℚ) := by
    induction calls with
    | nil => simp
    | cons k calls ih =>
      rw [List.flatMap_cons, List.map_append, List.sum_append, ih (fun k hk => hl k (List.mem_cons_of_mem _ hk)),
        orderRecords_sum k (by rw [hl k List.mem_cons_self]; exact hf) hn, List.countP_cons]
      split_ifs
      · push_cast; ring
      · simp
  have h2 : (calls.flatMap (orderRecords nOrder)).length = calls.length * nf := by
    clear h1
    induction calls with
    | nil => simp
    | cons k calls ih =>
      rw [List.flatMap_cons, List.length_append, ih (fun k hk => hl k (List.mem_cons_of_mem _ hk)), List.length_cons]
      unfold orderRecords
      rw [List.length_map, List.length_range, hl k List.mem_cons_self]
      ring
  unfold recordedMean orderFraction
  rw [h1, h2, Nat.cast_mul, div_div]

/-- Two flavors, three calls. -/
example : recordedMean ([[1, 0], [2, 0], [1, 5]].flatMap (orderRecords 3)) (0 * 3 + 1) = 1 / 3 ∧
    orderFraction [[1, 0], [2, 0], [1, 5]] 0 1 = 2 / 3 := by
  refine ⟨?_, ?_⟩
  · rw [C68_histogram_partial (nf := 2) _ (by simp) (by norm_num) (by norm_num)]
    norm_num [orderFraction]
  · norm_num [orderFraction]

/-- **C68, histogram: it is not normalised.**  Whenever there is more than one flavor and some order of a flavor occurs in the histogram,
the entry is not the fraction of the calls; if all orders of a flavor lie in the histogram, its entries add up to `1/FLAVORS` instead
of `1`. -/
theorem C68_histogram_violated {nf nOrder : ℕ} (hnf : 2 ≤ nf) (calls : List (List ℕ)) (hc : calls ≠ [])
    (hl : ∀ k ∈ calls, k.length = nf) {f : ℕ} (hf : f < nf) :
    (∀ n < nOrder, orderFraction calls f n ≠ 0 →
      recordedMean (calls.flatMap (orderRecords nOrder)) (f * nOrder + n) ≠ orderFraction calls f n) ∧
    ((∀ k ∈ calls, k.getD f 0 < nOrder) → ∑ n ∈ Finset.range nOrder, orderFraction calls f n = 1 ∧
      ∑ n ∈ Finset.range nOrder, recordedMean (calls.flatMap (orderRecords nOrder)) (f * nOrder + n) = 1 / nf) := by
  have hnf' : (2 : ℚ) ≤ nf := by exact_mod_cast hnf
  refine ⟨fun n hn h0 h => ?_, fun hk => ?_⟩
  · rw [C68_histogram_partial calls hl hf hn, div_eq_iff (by linarith)] at h
    have : orderFraction calls f n * ((nf : ℚ) - 1) = 0 := by linear_combination -h
    rcases mul_eq_zero.1 this with h1 | h1
    · exact h0 h1
    · linarith
  · have hs : ∑ n ∈ Finset.range nOrder, orderFraction calls f n = 1 := by
      have hlen : (calls.length : ℚ) ≠ 0 := by
        simpa using hc
      unfold orderFraction
      rw [← Finset.sum_div, div_eq_one_iff_eq hlen]
      clear hlen hc
      induction calls with
      | nil => simp
      | cons k calls ih =>
        have ih' := ih (fun k hk => hl k (List.mem_cons_of_mem _ hk)) (fun k h => hk k (List.mem_cons_of_mem _ h))
        have e : ∀ n, ((List.countP (fun k => k[f]? == some n) (k :: calls) : ℕ) : ℚ) =
            List.countP (fun k => k[f]? == some n) calls + if n = k.getD f 0 then 1 else 0 := by
          intro n
          have hfk : f < k.length := by rw [hl k List.mem_cons_self]; exact hf
          rw [List.countP_cons, List.getElem?_eq_getElem hfk, List.getD_eq_getElem?_getD, List.getElem?_eq_getElem hfk,
            Option.getD_some]
          by_cases h : n = k[f]
          · simp [h]
          · have h' : ¬ k[f] = n := fun e => h e.symm
            simp [h, h']
        rw [Finset.sum_congr rfl (fun n _ => e n), Finset.sum_add_distrib, ih', Finset.sum_ite_eq',
          if_pos (Finset.mem_range.2 (hk k List.mem_cons_self)), List.length_cons]
        push_cast
        rfl
    refine ⟨hs, ?_⟩
    rw [Finset.sum_congr rfl (fun n hn => C68_histogram_partial calls hl hf (Finset.mem_range.1 hn)), ← Finset.sum_div, hs]

example : ∑ n ∈ Finset.range 3, recordedMean ([[1, 0], [2, 0], [1, 5]].flatMap (orderRecords 3)) (0 * 3 + n) = 1 / (2 : ℕ) :=
  ((C68_histogram_violated (nf := 2) le_rfl [[1, 0], [2, 0], [1, 5]] (by simp) (by simp) (f := 0) (by norm_num)).2 (by simp)).2

/-- **C68, mean orders.**  The mean of `PerturbationOrderFlavors` is the mean of the orders. -/
theorem C68_mean_orders (calls : List (List ℕ)) (f : ℕ) :
    recordedMean (calls.map orderFlavors) f = (calls.map fun k => ((k.getD f 0 : ℕ) : ℚ)).sum / calls.length := by
  unfold recordedMean
  rw [List.map_map, List.length_map]
  congr 2
  refine List.map_congr_left fun k _ => ?_
  simp only [Function.comp, orderFlavors, List.getD_eq_getElem?_getD, List.getElem?_map]
  cases k[f]? <;> simp

example : recordedMean ([[1, 0], [2, 0], [1, 5]].map orderFlavors) 1 = 5 / 3 := by
  rw [C68_mean_orders]; norm_num

end CTHyb
