import Verif.PermSign
import Verif.CombSortProps
import Mathlib.GroupTheory.Perm.Fin
import Mathlib.Data.ZMod.Basic
import Mathlib.Data.List.Sort
import Mathlib.Tactic.LinearCombination

/-!
C05: the permutation sign.
-/

namespace CTHyb

open Equiv

variable {T : Type} [LinearOrder T]

/-! ### Specification -/

/-- Number of pairs of a sequence that stand in ascending order, i.e. the number of
transpositions needed to bring the sequence into descending time order. -/
def outOfOrder : List T → ℕ
  | [] => 0
  | x :: l => l.countP (fun y => decide (x < y)) + outOfOrder l

/-- Number of pairs `(x, y)`, `x` from the first and `y` from the second list, with `x < y`. -/
def crossCount (l m : List T) : ℕ := (l.map (fun x => m.countP (fun y => decide (x < y)))).sum

/-! ### Comb sort returns the parity of the number of pairs out of order -/

/-- −1 for a pair out of order. -/
def pairSgn (x y : T) : ℤˣ := if x < y then -1 else 1

theorem prod_get_sign (x : T) (l : List T) :
    ∏ j : Fin l.length, pairSgn x (l.get j) = (-1) ^ (l.countP (fun y => decide (x < y))) := by
  induction l with
  | nil => simp
  | cons y l ih =>
    have e : ∏ j : Fin (y :: l).length, pairSgn x ((y :: l).get j) =
        pairSgn x y * ∏ j : Fin l.length, pairSgn x (l.get j) :=
      Fin.prod_univ_succ (fun j : Fin (l.length + 1) => pairSgn x ((y :: l).get j))
    rw [e, ih, List.countP_cons]
    by_cases h : x < y
    · simp [pairSgn, h, pow_succ]
    · simp [pairSgn, h]

theorem prod_pairs_sign (l : List T) :
    ∏ i : Fin l.length, ∏ j ∈ Finset.Ioi i, pairSgn (l.get i) (l.get j) =
      (-1) ^ (outOfOrder l) := by
  induction l with
  | nil => simp [outOfOrder]
  | cons x l ih =>
    have e : ∏ i : Fin (x :: l).length, ∏ j ∈ Finset.Ioi i,
          pairSgn ((x :: l).get i) ((x :: l).get j) =
        (∏ j ∈ Finset.Ioi (0 : Fin (l.length + 1)), pairSgn x ((x :: l).get j)) *
        ∏ i : Fin l.length, ∏ j ∈ Finset.Ioi i.succ, pairSgn (l.get i) ((x :: l).get j) :=
      Fin.prod_univ_succ (fun i : Fin (l.length + 1) => ∏ j ∈ Finset.Ioi i,
          pairSgn ((x :: l).get i) ((x :: l).get j))
    rw [e]
    have e1 : ∏ j ∈ Finset.Ioi (0 : Fin (l.length + 1)), pairSgn x ((x :: l).get j) =
        ∏ j : Fin l.length, pairSgn x (l.get j) := by
      rw [Fin.Ioi_zero_eq_map, Finset.prod_map]; rfl
    have e2 : ∀ i : Fin l.length, ∏ j ∈ Finset.Ioi i.succ, pairSgn (l.get i) ((x :: l).get j) =
        ∏ j ∈ Finset.Ioi i, pairSgn (l.get i) (l.get j) := by
      intro i
      rw [Fin.Ioi_succ, Finset.prod_map]
      rfl
    rw [e1, Finset.prod_congr rfl (fun i _ => e2 i), ih, prod_get_sign, outOfOrder, pow_add]

theorem combSortSign_cases (l : List T) :
    ∃ σ : Perm (Fin l.length), combSortSign l = ((Perm.sign σ : ℤˣ) : ℤ) ∧
      ∀ i j : Fin l.length, i < j → ¬ l.get (σ i) < l.get (σ j) := by
  haveI : IsStrictTotalOrder T (fun a b : T => b < a) :=
    { irrefl := fun a => lt_irrefl a, trans := fun a b c h1 h2 => lt_trans h2 h1,
      trichotomous := fun a b h1 h2 => le_antisymm (not_lt.1 h1) (not_lt.1 h2) }
  obtain ⟨w, s, hf, σ, hw, hs, hsort⟩ := C20_comb_sort (fun a b : T => b < a) shrink13 rfl
    shrink13_lt l.get
  refine ⟨σ, ?_, ?_⟩
  · unfold combSortSign
    rw [hf (combFuel l.length) le_rfl]
    exact hs
  · intro i j hij
    have := hsort i j hij
    rw [hw] at this
    exact this

theorem sign_of_sorting (l : List T) (hl : l.Nodup) (σ : Perm (Fin l.length))
    (hsort : ∀ i j : Fin l.length, i < j → ¬ l.get (σ i) < l.get (σ j)) :
    ((Perm.sign σ : ℤˣ) : ℤ) = (-1) ^ (outOfOrder l) := by
  rw [← Perm.sign_inv, Perm.sign_eq_prod_prod_Ioi]
  have hinj : Function.Injective l.get := List.nodup_iff_injective_get.1 hl
  have key : ∀ i j : Fin l.length, i < j → (σ⁻¹ i < σ⁻¹ j ↔ ¬ l.get i < l.get j) := by
    intro i j hij
    constructor
    · intro h
      have := hsort _ _ h
      simpa using this
    · intro h
      by_contra hn
      have hne : σ⁻¹ i ≠ σ⁻¹ j := fun he => (ne_of_lt hij) ((σ⁻¹).injective he)
      have hlt : σ⁻¹ j < σ⁻¹ i := lt_of_le_of_ne (not_lt.1 hn) hne.symm
      have h2 := hsort _ _ hlt
      have ei : ∀ k, σ (σ⁻¹ k) = k := fun k => by simp
      rw [ei, ei] at h2
      have := le_antisymm (not_lt.1 h) (not_lt.1 h2)
      exact (ne_of_lt hij).symm (hinj this)
  rw [← Int.cast_id (n := (-1) ^ outOfOrder l)]
  have h2 := prod_pairs_sign l
  have h3 : (∏ i, ∏ j ∈ Finset.Ioi i, (if σ⁻¹ i < σ⁻¹ j then (1 : ℤˣ) else -1)) =
      ∏ i : Fin l.length, ∏ j ∈ Finset.Ioi i, pairSgn (l.get i) (l.get j) := by
    apply Finset.prod_congr rfl
    intro i _
    apply Finset.prod_congr rfl
    intro j hj
    rw [Finset.mem_Ioi] at hj
    have := key i j hj
    unfold pairSgn
    by_cases h : l.get i < l.get j
    · rw [if_pos h, if_neg (by rw [this]; simpa using h)]
    · rw [if_neg h, if_pos (by rw [this]; exact h)]
  rw [h3, h2]
  simp

theorem combSortSign_eq (l : List T) (hl : l.Nodup) : combSortSign l = (-1) ^ (outOfOrder l) := by
  obtain ⟨σ, hs, hsort⟩ := combSortSign_cases l
  rw [hs, sign_of_sorting l hl σ hsort]

theorem combSortSign_pm (l : List T) : combSortSign l = 1 ∨ combSortSign l = -1 := by
  obtain ⟨σ, hs, -⟩ := combSortSign_cases l
  rcases Int.units_eq_one_or (Perm.sign σ) with h | h <;> rw [hs, h] <;> simp

/-! ### Parity of the interleaved sequence -/

theorem countP_lt_add (l : List T) (b : T) (hb : b ∉ l) :
    l.countP (fun x => decide (x < b)) + l.countP (fun x => decide (b < x)) = l.length := by
  induction l with
  | nil => simp
  | cons x l ih =>
    simp only [List.mem_cons, not_or] at hb
    have := ih hb.2
    rw [List.countP_cons, List.countP_cons, List.length_cons]
    rcases lt_trichotomy x b with h | h | h
    · simp [h, h.not_gt]; omega
    · exact absurd h.symm hb.1
    · simp [h, h.not_gt]; omega

theorem crossCount_cons_left (x : T) (l m : List T) :
    crossCount (x :: l) m = m.countP (fun y => decide (x < y)) + crossCount l m := by
  simp [crossCount]

theorem crossCount_cons_right (y : T) (l m : List T) :
    crossCount l (y :: m) = l.countP (fun x => decide (x < y)) + crossCount l m := by
  induction l with
  | nil => simp [crossCount]
  | cons x l ih =>
    rw [crossCount_cons_left, ih, crossCount_cons_left, List.countP_cons, List.countP_cons]
    omega

theorem interleave_perm : ∀ (c d : List T), c.length = d.length →
    (interleave c d).Perm (c ++ d)
  | [], [], _ => by simp [interleave]
  | a :: c, b :: d, h => by
    have ih := interleave_perm c d (by simpa using h)
    simp only [interleave, List.cons_append]
    refine List.Perm.cons a ?_
    calc (b :: interleave c d).Perm (b :: (c ++ d)) := ih.cons b
      _ |>.Perm (c ++ b :: d) := List.perm_middle.symm
  | [], _ :: _, h => by simp at h
  | _ :: _, [], h => by simp at h

/-- Closed formula for the number of pairs out of order, modulo 2. -/
theorem outOfOrder_interleave : ∀ (c d : List T), c.length = d.length → (c ++ d).Nodup →
    ((outOfOrder (interleave c d) : ℕ) : ZMod 2) =
      outOfOrder c + outOfOrder d + crossCount c d + (c.length.choose 2 : ℕ)
  | [], [], _, _ => by simp [interleave, outOfOrder, crossCount]
  | a :: c, b :: d, h, hn => by
    have hl : c.length = d.length := by simpa using h
    have hn' : (c ++ d).Nodup := by
      have : (c ++ d).Sublist ((a :: c) ++ (b :: d)) := by
        exact (List.sublist_cons_self a c).append (List.sublist_cons_self b d)
      exact hn.sublist this
    have hb : b ∉ c := by
      intro hbc
      have := List.disjoint_of_nodup_append hn
      exact this (List.mem_cons_of_mem a hbc) (by simp)
    have ih := outOfOrder_interleave c d hl hn'
    have hp := interleave_perm c d hl
    have hlt := countP_lt_add c b hb
    simp only [interleave, outOfOrder, List.countP_cons]
    rw [hp.countP_eq, hp.countP_eq, List.countP_append, List.countP_append,
      crossCount_cons_left, crossCount_cons_right, List.countP_cons, List.length_cons,
      Nat.choose_succ_succ' c.length 1, Nat.choose_one_right]
    push_cast
    rw [ih]
    have h2 : (c.length : ZMod 2) = ((c.countP (fun x => decide (x < b)) : ℕ) : ZMod 2) +
        ((c.countP (fun x => decide (b < x)) : ℕ) : ZMod 2) := by
      rw [← hlt]; push_cast; rfl
    rw [h2]
    have h3 : (2 : ZMod 2) = 0 := by decide
    linear_combination (-((c.countP (fun x => decide (x < b)) : ℕ) : ZMod 2)) * h3
  | [], _ :: _, h, _ => by simp at h
  | _ :: _, [], h, _ => by simp at h

theorem outOfOrder_append (l m : List T) :
    outOfOrder (l ++ m) = outOfOrder l + outOfOrder m + crossCount l m := by
  induction l with
  | nil => simp [outOfOrder, crossCount]
  | cons x l ih =>
    simp only [List.cons_append, outOfOrder, List.countP_append, crossCount_cons_left, ih]
    omega

theorem crossCount_perm_left {l l' : List T} (h : l.Perm l') (m : List T) :
    crossCount l m = crossCount l' m := (h.map _).sum_eq

theorem crossCount_append_left (l l' m : List T) :
    crossCount (l ++ l') m = crossCount l m + crossCount l' m := by
  simp [crossCount]

theorem crossCount_perm_right (l : List T) {m m' : List T} (h : m.Perm m') :
    crossCount l m = crossCount l m' := by
  simp only [crossCount, h.countP_eq]

theorem sortDesc_perm (l : List T) : (sortDesc l).Perm l := List.mergeSort_perm _ _

theorem sortDesc_sorted (l : List T) : (sortDesc l).Pairwise (fun a b => b ≤ a) := by
  have := List.pairwise_mergeSort (le := fun a b : T => decide (b ≤ a))
    (fun a b c h1 h2 => by simp only [decide_eq_true_eq] at *; exact le_trans h2 h1)
    (fun a b => by simp only [Bool.or_eq_true, decide_eq_true_eq]; exact le_total b a) l
  simpa [sortDesc] using this

theorem sortDesc_congr {l l' : List T} (h : l.Perm l') : sortDesc l = sortDesc l' :=
  List.Perm.eq_of_pairwise (le := fun a b : T => b ≤ a)
    (fun a b _ _ h1 h2 => le_antisymm h2 h1) (sortDesc_sorted l) (sortDesc_sorted l')
    ((sortDesc_perm l).trans (h.trans (sortDesc_perm l').symm))

theorem outOfOrder_sorted (l : List T) (h : l.Pairwise (fun a b => b ≤ a)) : outOfOrder l = 0 := by
  induction l with
  | nil => rfl
  | cons x l ih =>
    rw [List.pairwise_cons] at h
    simp only [outOfOrder, ih h.2, Nat.add_zero, List.countP_eq_zero, decide_eq_true_eq]
    intro y hy
    exact not_lt.2 (h.1 y hy)

theorem negOne_pow_congr {a b : ℕ} (h : (a : ZMod 2) = b) : (-1 : ℤ) ^ a = (-1) ^ b := by
  rw [ZMod.natCast_eq_natCast_iff] at h
  rw [neg_one_pow_eq_pow_mod_two a, neg_one_pow_eq_pow_mod_two b, h]

theorem nodup_interleave_sorted (c d w : List T) (hl : c.length = d.length)
    (hn : (c ++ d ++ w).Nodup) :
    (interleave c d ++ w).Nodup :=
  (((interleave_perm c d hl).append_right w).nodup_iff).2 hn

/-- Ascending inversions: `permutation` sorts in ascending order. -/
theorem bubble_eq (l : List T) (hl : l.Nodup) (f : ℕ)
    (hf : l.length * (l.length * l.length) + 2 ≤ f) :
    bubblePermutation f l.get = some ((-1) ^ (outOfOrder l + l.length.choose 2)) := by
  have hinj : Function.Injective l.get := List.nodup_iff_injective_get.1 hl
  obtain ⟨σ, hm, hf'⟩ := C20_permutation l.get hinj
  rw [hf' f hf]
  congr 1
  -- sign σ = sign σ⁻¹ = product over pairs
  have key : ∀ i j : Fin l.length, σ⁻¹ i < σ⁻¹ j ↔ l.get i < l.get j := by
    intro i j
    have := hm.lt_iff_lt (a := σ⁻¹ i) (b := σ⁻¹ j)
    simp only [Function.comp] at this
    have ei : ∀ k, σ (σ⁻¹ k) = k := fun k => by simp
    rw [ei, ei] at this
    exact this.symm
  rw [← Perm.sign_inv, Perm.sign_eq_prod_prod_Ioi]
  have h3 : (∏ i, ∏ j ∈ Finset.Ioi i, (if σ⁻¹ i < σ⁻¹ j then (1 : ℤˣ) else -1)) =
      ∏ i : Fin l.length, ∏ j ∈ Finset.Ioi i, (-1 * pairSgn (l.get i) (l.get j)) := by
    apply Finset.prod_congr rfl
    intro i _
    apply Finset.prod_congr rfl
    intro j _
    unfold pairSgn
    by_cases h : l.get i < l.get j
    · rw [if_pos h, if_pos ((key i j).2 h)]; simp
    · rw [if_neg h, if_neg (fun h' => h ((key i j).1 h'))]; simp
  rw [h3]
  simp only [Finset.prod_mul_distrib]
  rw [prod_pairs_sign]
  have h4 : (∏ i : Fin l.length, ∏ _j ∈ Finset.Ioi i, (-1 : ℤˣ)) = (-1) ^ (l.length.choose 2) := by
    generalize l.length = n
    induction n with
    | zero => simp
    | succ n ih =>
      rw [Fin.prod_univ_succ]
      have e1 : ∏ _j ∈ Finset.Ioi (0 : Fin (n + 1)), (-1 : ℤˣ) = (-1) ^ n := by
        rw [Finset.prod_const]; simp
      have e2 : ∀ i : Fin n, ∏ _j ∈ Finset.Ioi i.succ, (-1 : ℤˣ) =
          ∏ _j ∈ Finset.Ioi i, (-1 : ℤˣ) := by
        intro i; rw [Finset.prod_const, Finset.prod_const, Fin.card_Ioi, Fin.card_Ioi]
        congr 1
        simp [Fin.val_succ]
        omega
      rw [e1, Finset.prod_congr rfl (fun i _ => e2 i), ih, Nat.choose_succ_succ' n 1,
        Nat.choose_one_right, pow_add]
  rw [h4]
  push_cast
  rw [pow_add, mul_comm]

/-! ### C05 -/

/-- **C05 (value).**  For distinct times and equally many creation and annihilation operators,
the permutation sign is `-1` to the number of pairs (annihilator, creator) in which the
annihilator is earlier, plus `n(n-1)/2`, plus the number of pairs (bath operator, worm operator)
in which the bath operator is earlier, plus the pairs of worm operators out of order.  In
particular it does not depend on the storage order of the bath operators. -/
theorem C05_perm_sign_value (cdagg c worm : List (Psi T)) (hlen : c.length = cdagg.length)
    (hn : (c.map Psi.time ++ cdagg.map Psi.time ++ worm.map Psi.time).Nodup) :
    permSignImpl cdagg c worm =
      (-1) ^ (crossCount (c.map Psi.time) (cdagg.map Psi.time) + c.length.choose 2 +
        crossCount (c.map Psi.time ++ cdagg.map Psi.time) (worm.map Psi.time) +
        outOfOrder (worm.map Psi.time)) := by
  unfold permSignImpl
  have pc := sortDesc_perm (c.map Psi.time)
  have pd := sortDesc_perm (cdagg.map Psi.time)
  have hl : (sortDesc (c.map Psi.time)).length = (sortDesc (cdagg.map Psi.time)).length := by
    rw [pc.length_eq, pd.length_eq]; simpa using hlen
  have hn2 : (sortDesc (c.map Psi.time) ++ sortDesc (cdagg.map Psi.time) ++
      worm.map Psi.time).Nodup :=
    (((pc.append pd).append_right _).nodup_iff).2 hn
  rw [combSortSign_eq _ (nodup_interleave_sorted _ _ _ hl hn2), outOfOrder_append]
  apply negOne_pow_congr
  push_cast
  rw [outOfOrder_interleave _ _ hl (List.Nodup.of_append_left hn2),
    outOfOrder_sorted _ (sortDesc_sorted _), outOfOrder_sorted _ (sortDesc_sorted _),
    crossCount_perm_left (interleave_perm _ _ hl), crossCount_perm_left (pc.append pd),
    crossCount_perm_left pc, crossCount_perm_right _ pd, pc.length_eq, List.length_map]
  push_cast
  ring

/-- **C05 (storage order).**  For every storage order of the annihilation operators (rows) and
creation operators (columns), the sign needed to time-order the sequence
`c_0 c†_0 c_1 c†_1 … W_0 W_1 …` written in *storage* order is the product of the signs
`permutation` of rows and columns (the `permutation_row_col_` of the determinant matrix) and
the permutation sign stored with the configuration. -/
theorem C05_storage_order (cdagg c worm : List (Psi T)) (hlen : c.length = cdagg.length)
    (hn : (c.map Psi.time ++ cdagg.map Psi.time ++ worm.map Psi.time).Nodup) (f : ℕ)
    (hf : c.length * (c.length * c.length) + 2 ≤ f) :
    ∃ srow scol, bubblePermutation f (c.map Psi.time).get = some srow ∧
      bubblePermutation f (cdagg.map Psi.time).get = some scol ∧
      (-1) ^ outOfOrder (interleave (c.map Psi.time) (cdagg.map Psi.time) ++ worm.map Psi.time) =
        srow * scol * permSignImpl cdagg c worm := by
  have hl : (c.map Psi.time).length = (cdagg.map Psi.time).length := by simpa using hlen
  refine ⟨_, _, bubble_eq (c.map Psi.time) (List.Nodup.of_append_left (List.Nodup.of_append_left hn))
      f (by simpa using hf),
    bubble_eq (cdagg.map Psi.time) (List.Nodup.of_append_right (List.Nodup.of_append_left hn))
      f (by simpa [← hlen] using hf), ?_⟩
  rw [C05_perm_sign_value cdagg c worm hlen hn, ← pow_add, ← pow_add, outOfOrder_append]
  apply negOne_pow_congr
  push_cast
  rw [outOfOrder_interleave _ _ hl (List.Nodup.of_append_left hn),
    crossCount_perm_left (interleave_perm _ _ hl), ← hl, List.length_map]
  have h3 : (2 : ZMod 2) = 0 := by decide
  linear_combination (-((c.length.choose 2 : ℕ) : ZMod 2)) * h3

/-- **C05 (invariance).**  The permutation sign is `±1` and unchanged if creation or annihilation
operators are stored in another order (no hypothesis on the times).  These are the two facts
assumed of `permFn` in `C04_sign_consistent`. -/
theorem C05_perm_sign_invariant (cdagg cdagg' c c' worm : List (Psi T)) :
    (permSignImpl cdagg c worm = 1 ∨ permSignImpl cdagg c worm = -1) ∧
    (cdagg.Perm cdagg' → c.Perm c' → permSignImpl cdagg c worm = permSignImpl cdagg' c' worm) := by
  refine ⟨combSortSign_pm _, ?_⟩
  intro h1 h2
  unfold permSignImpl
  rw [sortDesc_congr (h1.map Psi.time), sortDesc_congr (h2.map Psi.time)]

/-! ### The incremental formula -/

theorem foldl_setInsert_perm (l s : List T) (h : (l ++ s).Nodup) :
    (l.foldl setInsert s).Perm (l ++ s) := by
  induction l generalizing s with
  | nil => simp
  | cons x l ih =>
    have hx : x ∉ s := by
      intro hxs
      simp only [List.cons_append, List.nodup_cons, List.mem_append] at h
      exact h.1 (Or.inr hxs)
    simp only [List.foldl_cons, setInsert, if_neg hx]
    have hp : (l ++ x :: s).Perm (x :: (l ++ s)) := List.perm_middle
    exact (ih _ (hp.nodup_iff.2 h)).trans hp

theorem numOpsLessThan_eq (l : List T) (t : T) (h : t ∉ l) :
    numOpsLessThan l t = l.countP (fun x => decide (x < t)) := by
  unfold numOpsLessThan
  apply List.countP_congr
  intro x hx
  simp only [decide_eq_true_eq]
  exact ⟨fun hle => lt_of_le_of_ne hle (fun he => h (he ▸ hx)), le_of_lt⟩

theorem countLoop_eq (a b ts : List T) (ha : ∀ t ∈ ts, t ∉ a) (hb : ∀ t ∈ ts, t ∉ b) :
    countLoop a b ts = crossCount a ts + crossCount b ts := by
  induction ts with
  | nil => simp [countLoop, crossCount]
  | cons t ts ih =>
    have h1 := ih (fun x hx => ha x (by simp [hx])) (fun x hx => hb x (by simp [hx]))
    unfold countLoop at h1 ⊢
    rw [List.map_cons, List.sum_cons, h1, crossCount_cons_right, crossCount_cons_right,
      numOpsLessThan_eq _ _ (ha t (by simp)), numOpsLessThan_eq _ _ (hb t (by simp))]
    omega

theorem crossCount_swap (a b : List T) (h : a.Disjoint b) :
    crossCount a b + crossCount b a = a.length * b.length := by
  induction a with
  | nil => simp [crossCount]
  | cons x a ih =>
    have h1 := ih (fun y hy => h (List.mem_cons_of_mem x hy))
    have h2 := countP_lt_add b x (h (by simp))
    rw [crossCount_cons_left, crossCount_cons_right, List.length_cons, Nat.succ_mul]
    omega

theorem crossCount_append_right (l m m' : List T) :
    crossCount l (m ++ m') = crossCount l m + crossCount l m' := by
  induction l with
  | nil => simp [crossCount]
  | cons x l ih => rw [crossCount_cons_left, crossCount_cons_left, crossCount_cons_left, ih,
      List.countP_append]; omega

theorem choose_two_add (n a : ℕ) : (n + a).choose 2 = n.choose 2 + a.choose 2 + n * a := by
  induction a with
  | zero => simp
  | succ a ih =>
    rw [← Nat.add_assoc, Nat.choose_succ_succ' (n + a) 1, ih, Nat.choose_succ_succ' a 1,
      Nat.choose_one_right, Nat.choose_one_right]
    ring

/-- **C05 (incremental formula).**  Let operators with times `cdRem`, `cRem` (`r` each) be
removed from and `cdAdd`, `cAdd` (`a` each) be added to a configuration with the remaining
operators `cd`, `c`, all times distinct.  The sign change computed by
`compute_permutation_sign_change` is the true ratio of the permutation signs times
`(-1)^(a(a+1)/2 + r(r-1)/2)`.  The function is therefore right for removing a single pair, but
wrong e.g. for inserting a single pair; the solver does not call it. -/
theorem C05_incremental_formula (cd c cdRem cRem cdAdd cAdd worm : List (Psi T)) (n r a : ℕ)
    (hcd : cd.length = n) (hc : c.length = n) (hcdr : cdRem.length = r) (hcr : cRem.length = r)
    (hcda : cdAdd.length = a) (hca : cAdd.length = a) (hworm : worm = [])
    (hn : ((c ++ cRem ++ cAdd ++ (cd ++ cdRem ++ cdAdd)).map Psi.time).Nodup) :
    permSignImpl (cd ++ cdAdd) (c ++ cAdd) worm =
      permSignChange ((cd ++ cdRem).map Psi.time) ((c ++ cRem).map Psi.time)
        (cdRem.map Psi.time) (cRem.map Psi.time) (cdAdd.map Psi.time) (cAdd.map Psi.time) *
      permSignImpl (cd ++ cdRem) (c ++ cRem) worm * (-1) ^ ((a + 1).choose 2 + r.choose 2) := by
  subst hworm
  simp only [List.map_append] at hn
  rw [C05_perm_sign_value (cd ++ cdAdd) (c ++ cAdd) [] (by simp [hcd, hc, hcda, hca]) (by
      simp only [List.map_append, List.map_nil, List.append_nil]
      exact hn.sublist (((List.sublist_append_left _ (cRem.map Psi.time)).append
        (List.Sublist.refl (cAdd.map Psi.time))).append
        ((List.sublist_append_left _ (cdRem.map Psi.time)).append
          (List.Sublist.refl (cdAdd.map Psi.time))))),
    C05_perm_sign_value (cd ++ cdRem) (c ++ cRem) [] (by simp [hcd, hc, hcdr, hcr]) (by
      simp only [List.map_append, List.map_nil, List.append_nil]
      exact hn.sublist ((List.sublist_append_left _ _).append (List.sublist_append_left _ _)))]
  simp only [List.map_append, List.map_nil]
  generalize hA : cd.map Psi.time = D at *
  generalize hB : cdRem.map Psi.time = Dr at *
  generalize hC : cdAdd.map Psi.time = Da at *
  generalize hE : c.map Psi.time = C at *
  generalize hF : cRem.map Psi.time = Cr at *
  generalize hG : cAdd.map Psi.time = Ca at *
  have lD : D.length = n := by rw [← hA]; simpa using hcd
  have lDr : Dr.length = r := by rw [← hB]; simpa using hcdr
  have lDa : Da.length = a := by rw [← hC]; simpa using hcda
  have lC : C.length = n := by rw [← hE]; simpa using hc
  have lCr : Cr.length = r := by rw [← hF]; simpa using hcr
  have lCa : Ca.length = a := by rw [← hG]; simpa using hca
  clear hA hB hC hE hF hG
  have hdis : (C ++ Cr ++ Ca).Disjoint (D ++ Dr ++ Da) := List.disjoint_of_nodup_append hn
  have hDn : (D ++ Dr ++ Da).Nodup := List.Nodup.of_append_right hn
  have hCn : (C ++ Cr ++ Ca).Nodup := List.Nodup.of_append_left hn
  have pDr : (Dr.foldl setInsert []).Perm Dr := by
    have h0 := foldl_setInsert_perm Dr [] (by
      simpa using (List.Nodup.of_append_right (List.Nodup.of_append_left hDn)))
    simpa using h0
  have pCr : (Cr.foldl setInsert []).Perm Cr := by
    have h0 := foldl_setInsert_perm Cr [] (by
      simpa using (List.Nodup.of_append_right (List.Nodup.of_append_left hCn)))
    simpa using h0
  have pDa : (Da.foldl setInsert (Dr.foldl setInsert [])).Perm (Da ++ Dr) := by
    have hp := (List.Perm.append_left Da pDr)
    refine (foldl_setInsert_perm Da _ (hp.nodup_iff.2 ?_)).trans hp
    have h1 : (Dr ++ Da).Nodup := hDn.sublist
      ((List.sublist_append_right D Dr).append (List.Sublist.refl Da))
    exact (List.perm_append_comm.nodup_iff).1 h1
  have mem1 : ∀ x, x ∈ C ∨ x ∈ Cr ∨ x ∈ Ca → ¬ (x ∈ D ∨ x ∈ Dr ∨ x ∈ Da) := by
    intro x hx hy
    exact hdis (a := x) (by simp only [List.mem_append]; tauto)
      (by simp only [List.mem_append]; tauto)
  unfold permSignChange
  simp only
  rw [countLoop_eq _ _ Dr (by intro t ht; simp only [List.mem_append]; intro h
                              exact mem1 t (by tauto) (by tauto)) (by simp),
    countLoop_eq _ _ Cr (by intro t ht; simp only [List.mem_append]; intro h
                            exact mem1 t (by tauto) (by tauto))
      (by intro t ht; rw [pDr.mem_iff]; intro h; exact mem1 t (by tauto) (by tauto)),
    countLoop_eq _ _ Da (by intro t ht; simp only [List.mem_append]; intro h
                            exact mem1 t (by tauto) (by tauto))
      (by intro t ht; rw [pCr.mem_iff]; intro h; exact mem1 t (by tauto) (by tauto)),
    countLoop_eq _ _ Ca (by intro t ht; simp only [List.mem_append]; intro h
                            exact mem1 t (by tauto) (by tauto))
      (by intro t ht; rw [pDa.mem_iff]; simp only [List.mem_append]; intro h
          exact mem1 t (by tauto) (by tauto)),
    crossCount_perm_left pDr, crossCount_perm_left pCr, crossCount_perm_left pDa, exchSign_eq,
    ← pow_add, ← pow_add]
  have d1 := crossCount_swap D Cr (fun x hx hy => mem1 x (by tauto) (by tauto))
  have d2 := crossCount_swap D Ca (fun x hx hy => mem1 x (by tauto) (by tauto))
  have d3 := crossCount_swap Da Ca (fun x hx hy => mem1 x (by tauto) (by tauto))
  apply negOne_pow_congr
  simp only [crossCount_append_left, crossCount_append_right, List.length_append, hc, hca, hcr,
    choose_two_add, outOfOrder]
  rw [lD, lCr] at d1
  rw [lD, lCa] at d2
  rw [lDa, lCa] at d3
  have d1' := congrArg (Nat.cast : ℕ → ZMod 2) d1
  have d2' := congrArg (Nat.cast : ℕ → ZMod 2) d2
  have d3' := congrArg (Nat.cast : ℕ → ZMod 2) d3
  have e0 : crossCount ([] : List T) Dr = 0 := by simp [crossCount]
  have e1 : ∀ l : List T, crossCount l [] = 0 := by intro l; induction l <;> simp_all [crossCount]
  rw [e0]
  simp only [e1]
  push_cast at d1' d2' d3' ⊢
  have h3 : (2 : ZMod 2) = 0 := by decide
  have ha : (a : ZMod 2) * a = a := by
    have : ∀ x : ZMod 2, x * x = x := by decide
    exact this _
  have hch : Nat.choose 1 2 = 0 := rfl
  rw [hch]
  push_cast
  linear_combination (-1 : ZMod 2) * d1' + d2' + d3' + ha + h3 * (-(n * r) - crossCount D Ca + n * a
    - crossCount Da Ca - crossCount C Dr - crossCount Cr Dr - crossCount Dr Cr - crossCount Cr Da
    - crossCount Dr Ca - r.choose 2)

/-- Witness that `compute_permutation_sign_change` is not the ratio of the permutation signs:
inserting the pair (annihilator at 2, creator at 1) into the empty configuration leaves the
sign at 1, but the function returns −1. -/
theorem C05_incremental_formula_wrong :
    permSignImpl [(⟨1, .creation, 0⟩ : Psi ℕ)] [⟨2, .annihilation, 0⟩] [] = 1 ∧
    permSignImpl ([] : List (Psi ℕ)) [] [] = 1 ∧
    permSignChange (T := ℕ) [] [] [] [] [1] [2] = -1 := by
  refine ⟨?_, ?_, by decide⟩
  · rw [C05_perm_sign_value _ _ _ (by decide) (by decide)]; decide
  · rw [C05_perm_sign_value _ _ _ (by decide) (by decide)]; decide

/-- Non-vacuity of the C05 theorems: two bath pairs in non-time order and a worm pair. -/
example :
    let cd : List (Psi ℕ) := [⟨1, .creation, 0⟩, ⟨5, .creation, 1⟩]
    let c : List (Psi ℕ) := [⟨2, .annihilation, 0⟩, ⟨4, .annihilation, 1⟩]
    let w : List (Psi ℕ) := [⟨3, .annihilation, 0⟩, ⟨0, .creation, 0⟩]
    (c.map Psi.time ++ cd.map Psi.time ++ w.map Psi.time).Nodup ∧ c.length = cd.length ∧
    permSignImpl cd c w = -1 := by
  refine ⟨by decide, rfl, ?_⟩
  rw [C05_perm_sign_value _ _ _ (by decide) (by decide)]; decide

end CTHyb
