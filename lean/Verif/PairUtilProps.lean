import Verif.PairUtil
import Verif.SelectionProps
import Mathlib.Tactic.Linarith
import Mathlib.Data.Set.Finite.Basic
import Mathlib.SetTheory.Cardinal.Finite

/-!
C78: counting and picking of pairs of a creation and an annihilation operator (src/operator_util.cpp, src/operator_util.hpp).
-/

namespace CTHyb

variable {R : Type} [Field R] [LinearOrder R]

/-! ### Specification -/

/-- **Specification.**  The operator lies in the closed window: in the order of operator times, between the ends with small index 0. -/
def InWindow (t1 t2 : R) (o : Psi (OpTime R)) : Prop :=
  (⟨min t1 t2, 0⟩ : OpTime R) ≤ o.time ∧ o.time ≤ ⟨max t1 t2, 0⟩

/-- **Specification.**  A pair which counts: a creation operator of the one flavor and an annihilation operator of the other one, both in
the window, at most at the distance `d`. -/
def IsPair (cs as : OpSet (OpTime R)) (fi fr : ℕ) (t1 t2 d : R) (x : Psi (OpTime R) × Psi (OpTime R)) : Prop :=
  x.1 ∈ cs ∧ x.2 ∈ as ∧ x.1.flavor = fi ∧ x.2.flavor = fr ∧ InWindow t1 t2 x.1 ∧ InWindow t1 t2 x.2 ∧
    |x.1.time.time - x.2.time.time| ≤ d

/-! ### Ranges and loops -/

theorem rangeOf_filter (lower upper : Psi (OpTime R) → Bool) (hl : ∀ a b : Psi (OpTime R), a.time < b.time → lower a = true → lower b = true)
    (hu : ∀ a b : Psi (OpTime R), a.time < b.time → upper b = true → upper a = true) :
    ∀ s : OpSet (OpTime R), s.Sorted → rangeOf lower upper s = s.filter fun o => lower o && upper o := by
  have take : ∀ s : OpSet (OpTime R), s.Sorted → (∀ o ∈ s, lower o = true) → s.takeWhile upper = s.filter fun o => lower o && upper o := by
    intro s
    induction s with
    | nil => intro _ _; rfl
    | cons o s ih =>
      intro hs hlo
      have ho := hlo o (by simp)
      have hs' := List.pairwise_cons.1 hs
      by_cases h : upper o = true
      · rw [List.takeWhile_cons_of_pos h, List.filter_cons_of_pos (by simp [ho, h]), ih hs'.2 fun x hx => hlo x (by simp [hx])]
      · rw [List.takeWhile_cons_of_neg h, List.filter_cons_of_neg (by simp [h]), eq_comm, List.filter_eq_nil_iff]
        intro x hx hc
        simp only [Bool.and_eq_true] at hc
        exact h (hu o x (hs'.1 x hx) hc.2)
  intro s
  induction s with
  | nil => intro _; rfl
  | cons o s ih =>
    intro hs
    have hs' := List.pairwise_cons.1 hs
    by_cases h : lower o = true
    · have : ∀ x ∈ o :: s, lower x = true := by
        intro x hx
        rcases List.mem_cons.1 hx with rfl | hx
        · exact h
        · exact hl o x (hs'.1 x hx) h
      rw [rangeOf, List.dropWhile_cons_of_neg (by simp [h]), take _ hs this]
    · rw [rangeOf, List.dropWhile_cons_of_pos (by simp [h]), List.filter_cons_of_neg (by simp [h])]
      exact ih hs'.2

theorem closedRange_filter (t1 t2 : R) (s : OpSet (OpTime R)) (hs : s.Sorted) :
    closedRange t1 t2 s = s.filter fun o => (atTime (min t1 t2)).leCode o.time && o.time.leCode (atTime (max t1 t2)) := by
  refine rangeOf_filter _ _ (fun a b h ha => ?_) (fun a b h hb => ?_) s hs
  · rw [OpTime.leCode_iff] at ha ⊢; exact ha.trans h.le
  · rw [OpTime.leCode_iff] at hb ⊢; exact h.le.trans hb

theorem mem_closedRange {t1 t2 : R} {s : OpSet (OpTime R)} (hs : s.Sorted) {o : Psi (OpTime R)} :
    o ∈ closedRange t1 t2 s ↔ o ∈ s ∧ InWindow t1 t2 o := by
  rw [closedRange_filter t1 t2 s hs, List.mem_filter, Bool.and_eq_true, OpTime.leCode_iff, OpTime.leCode_iff]
  rfl

theorem closedRange_nodup {t1 t2 : R} {s : OpSet (OpTime R)} (hs : s.Sorted) : (closedRange t1 t2 s).Nodup := by
  rw [closedRange_filter t1 t2 s hs]
  refine List.Nodup.filter _ (List.Pairwise.imp (fun h e => ?_) hs)
  rw [e] at h
  exact lt_irrefl _ h

theorem foldl_append_if {α β : Type} (f : α → List β) (l : List α) : ∀ acc : List β,
    l.foldl (fun a x => a ++ f x) acc = acc ++ l.flatMap f := by
  induction l with
  | nil => intro acc; simp
  | cons x l ih => intro acc; rw [List.foldl_cons, ih, List.flatMap_cons, List.append_assoc]

theorem foldl_count {α : Type} (p : α → Prop) [DecidablePred p] (l : List α) : ∀ n : ℕ,
    l.foldl (fun n x => if p x then n + 1 else n) n = n + (l.filter fun x => decide (p x)).length := by
  induction l with
  | nil => intro n; simp
  | cons x l ih =>
    intro n
    rw [List.foldl_cons, ih]
    by_cases h : p x
    · rw [if_pos h, List.filter_cons_of_pos (by simp [h]), List.length_cons]; omega
    · rw [if_neg h, List.filter_cons_of_neg (by simp [h])]

/-- The pairs of one creation operator. -/
def pairsOf (as : List (Psi (OpTime R))) (fi fr : ℕ) (d : R) (p : Psi (OpTime R)) : List (Psi (OpTime R) × Psi (OpTime R)) :=
  if p.flavor = fi then (as.filter fun q => decide (q.flavor = fr ∧ |p.time.time - q.time.time| ≤ d)).map fun q => (p, q) else []

theorem inner_list (as : List (Psi (OpTime R))) (fr : ℕ) (d : R) (p : Psi (OpTime R)) : ∀ l : List (Psi (OpTime R) × Psi (OpTime R)),
    as.foldl (fun l q => if q.flavor ≠ fr then l else if |p.time.time - q.time.time| ≤ d then l ++ [(p, q)] else l) l =
      l ++ (as.filter fun q => decide (q.flavor = fr ∧ |p.time.time - q.time.time| ≤ d)).map fun q => (p, q) := by
  induction as with
  | nil => intro l; simp
  | cons q as ih =>
    intro l
    rw [List.foldl_cons, ih]
    by_cases h1 : q.flavor = fr
    · by_cases h2 : |p.time.time - q.time.time| ≤ d
      · rw [List.filter_cons_of_pos (by simp [h1, h2])]; simp [h1, h2]
      · rw [List.filter_cons_of_neg (by simp [h2])]; simp [h1, h2]
    · rw [List.filter_cons_of_neg (by simp [h1])]; simp [h1]

theorem listPairs_eq (cs as : OpSet (OpTime R)) (fi fr : ℕ) (t1 t2 d : R) :
    listPairs cs as fi fr t1 t2 d = (closedRange t1 t2 cs).flatMap (pairsOf (closedRange t1 t2 as) fi fr d) := by
  unfold listPairs
  have : (fun (l : List (Psi (OpTime R) × Psi (OpTime R))) (p : Psi (OpTime R)) =>
      if p.flavor ≠ fi then l
      else (closedRange t1 t2 as).foldl (fun l q => if q.flavor ≠ fr then l
        else if |p.time.time - q.time.time| ≤ d then l ++ [(p, q)] else l) l) =
      fun l p => l ++ pairsOf (closedRange t1 t2 as) fi fr d p := by
    funext l p
    unfold pairsOf
    by_cases h : p.flavor = fi
    · rw [if_neg (by simp [h]), if_pos h, inner_list]
    · rw [if_pos h, if_neg h, List.append_nil]
  rw [this, foldl_append_if, List.nil_append]

theorem countPairs_eq (cs as : OpSet (OpTime R)) (fi fr : ℕ) (t1 t2 d : R) :
    countPairs cs as fi fr t1 t2 d = (listPairs cs as fi fr t1 t2 d).length := by
  unfold countPairs listPairs
  have inner : ∀ (p : Psi (OpTime R)) (ys : List (Psi (OpTime R))) (l : List (Psi (OpTime R) × Psi (OpTime R))),
      ys.foldl (fun n q => if q.flavor ≠ fr then n else if |p.time.time - q.time.time| ≤ d then n + 1 else n) l.length =
      (ys.foldl (fun l q => if q.flavor ≠ fr then l else if |p.time.time - q.time.time| ≤ d then l ++ [(p, q)] else l) l).length := by
    intro p ys
    induction ys with
    | nil => intro l; rfl
    | cons q ys ih =>
      intro l
      rw [List.foldl_cons, List.foldl_cons, ← ih]
      congr 1
      split_ifs <;> simp
  have outer : ∀ (xs : List (Psi (OpTime R))) (l : List (Psi (OpTime R) × Psi (OpTime R))),
      xs.foldl (fun n p => if p.flavor ≠ fi then n else (closedRange t1 t2 as).foldl (fun n q => if q.flavor ≠ fr then n
        else if |p.time.time - q.time.time| ≤ d then n + 1 else n) n) l.length =
      (xs.foldl (fun l p => if p.flavor ≠ fi then l else (closedRange t1 t2 as).foldl (fun l q => if q.flavor ≠ fr then l
        else if |p.time.time - q.time.time| ≤ d then l ++ [(p, q)] else l) l) l).length := by
    intro xs
    induction xs with
    | nil => intro l; rfl
    | cons p xs ih =>
      intro l
      rw [List.foldl_cons, List.foldl_cons, ← ih]
      congr 1
      split_ifs
      · rfl
      · exact inner p _ l
  exact outer _ []

theorem mem_listPairs {cs as : OpSet (OpTime R)} (hc : cs.Sorted) (ha : as.Sorted) (fi fr : ℕ) (t1 t2 d : R)
    (x : Psi (OpTime R) × Psi (OpTime R)) : x ∈ listPairs cs as fi fr t1 t2 d ↔ IsPair cs as fi fr t1 t2 d x := by
  rw [listPairs_eq, List.mem_flatMap]
  unfold IsPair pairsOf
  constructor
  · rintro ⟨p, hp, hx⟩
    split_ifs at hx with hf
    · obtain ⟨q, hq, rfl⟩ := List.mem_map.1 hx
      rw [List.mem_filter, decide_eq_true_iff] at hq
      rw [mem_closedRange hc] at hp
      have hq1 := (mem_closedRange ha).1 hq.1
      exact ⟨hp.1, hq1.1, hf, hq.2.1, hp.2, hq1.2, hq.2.2⟩
    · simp at hx
  · rintro ⟨h1, h2, h3, h4, h5, h6, h7⟩
    refine ⟨x.1, (mem_closedRange hc).2 ⟨h1, h5⟩, ?_⟩
    rw [if_pos h3]
    exact List.mem_map.2 ⟨x.2, List.mem_filter.2 ⟨(mem_closedRange ha).2 ⟨h2, h6⟩, by simp [h4, h7]⟩, rfl⟩

theorem listPairs_nodup {cs as : OpSet (OpTime R)} (hc : cs.Sorted) (ha : as.Sorted) (fi fr : ℕ) (t1 t2 d : R) :
    (listPairs cs as fi fr t1 t2 d).Nodup := by
  rw [listPairs_eq, List.nodup_flatMap]
  have first : ∀ p x, x ∈ pairsOf (closedRange t1 t2 as) fi fr d p → x.1 = p := by
    intro p x hx
    unfold pairsOf at hx
    split_ifs at hx
    · obtain ⟨q, -, rfl⟩ := List.mem_map.1 hx; rfl
    · simp at hx
  constructor
  · intro p _
    unfold pairsOf
    split_ifs
    · exact ((closedRange_nodup ha).filter _).map fun a b h => (Prod.mk.inj h).2
    · exact List.nodup_nil
  · refine List.Pairwise.imp (fun {a b} hab => ?_) (closedRange_nodup hc)
    intro x hx1 hx2
    exact hab ((first a x hx1).symm.trans (first b x hx2))

/-! ### Counting and picking -/

/-- **C78.**  `count_num_pairs` is the number of the pairs of the specification. -/
theorem C78_count {cs as : OpSet (OpTime R)} (hc : cs.Sorted) (ha : as.Sorted) (fi fr : ℕ) (t1 t2 d : R) :
    countPairs cs as fi fr t1 t2 d = Nat.card {x // IsPair cs as fi fr t1 t2 d x} := by
  classical
  have e : ∀ x, x ∈ (listPairs cs as fi fr t1 t2 d).toFinset ↔ IsPair cs as fi fr t1 t2 d x := fun x => by
    rw [List.mem_toFinset, mem_listPairs hc ha]
  rw [countPairs_eq, ← List.toFinset_card_of_nodup (listPairs_nodup hc ha fi fr t1 t2 d)]
  rw [← Nat.card_congr (Equiv.subtypeEquivRight e), Nat.card_eq_fintype_card, Fintype.card_coe]

variable [IsStrictOrderedRing R] [FloorRing R]

/-- **C78.**  `pick_up_pair` returns the number of pairs; no pair exactly if there is none; and each pair is picked for the random numbers
of one interval of length 1 / number of pairs. -/
theorem C78_pick {cs as : OpSet (OpTime R)} (hc : cs.Sorted) (ha : as.Sorted) (fi fr : ℕ) (t1 t2 d : R) :
    (∀ u, (pickPair cs as fi fr t1 t2 d u).1 = countPairs cs as fi fr t1 t2 d) ∧
    (∀ u, 0 ≤ u → u < 1 → ((pickPair cs as fi fr t1 t2 d u).2 = none ↔ ∀ x, ¬IsPair cs as fi fr t1 t2 d x)) ∧
    (∀ u x, (pickPair cs as fi fr t1 t2 d u).2 = some x → IsPair cs as fi fr t1 t2 d x) ∧
    ∀ x, IsPair cs as fi fr t1 t2 d x → ∃ j : ℕ, j < countPairs cs as fi fr t1 t2 d ∧ ∀ u, 0 ≤ u →
      ((pickPair cs as fi fr t1 t2 d u).2 = some x ↔
        (j : R) / countPairs cs as fi fr t1 t2 d ≤ u ∧ u < (j : R) / countPairs cs as fi fr t1 t2 d + 1 / countPairs cs as fi fr t1 t2 d) := by
  have hm := mem_listPairs hc ha fi fr t1 t2 d
  have hn := listPairs_nodup hc ha fi fr t1 t2 d
  rw [countPairs_eq]
  unfold pickPair
  generalize listPairs cs as fi fr t1 t2 d = l at *
  dsimp only
  refine ⟨fun u => ?_, fun u h0 h1 => ?_, fun u x hx => ?_, fun x hx => ?_⟩
  · split_ifs with h
    · rfl
    · show 0 = l.length
      omega
  · split_ifs with h
    · have hlt := floorIndex_lt u l.length h0 h1 h
      rw [List.getElem?_eq_getElem hlt]
      refine iff_of_false (by simp) fun hno => hno l[floorIndex u l.length] ((hm _).1 (List.getElem_mem hlt))
    · refine iff_of_true rfl fun x hx => ?_
      have := List.length_pos_of_mem ((hm x).2 hx)
      omega
  · split_ifs at hx with h
    exact (hm x).1 (List.mem_of_getElem? hx)
  · obtain ⟨j, hj, e⟩ := List.getElem_of_mem ((hm x).2 hx)
    have hpos : 0 < l.length := by omega
    refine ⟨j, hj, fun u h0 => ?_⟩
    rw [← C48_index_interval u l.length j h0 hpos, if_pos hpos]
    show l[floorIndex u l.length]? = some x ↔ _
    rw [← e]
    constructor
    · intro h
      have hlt : floorIndex u l.length < l.length := by
        by_contra hc
        rw [List.getElem?_eq_none (by omega)] at h
        simp at h
      rw [List.getElem?_eq_getElem hlt] at h
      exact (List.Nodup.getElem_inj_iff hn).1 (Option.some.inj h)
    · intro h
      rw [h, List.getElem?_eq_getElem hj]

/-! ### Counting after an insertion -/

omit [IsStrictOrderedRing R] [FloorRing R] in
theorem countPairs_sum (cs as : OpSet (OpTime R)) (fi fr : ℕ) (t1 t2 d : R) :
    countPairs cs as fi fr t1 t2 d = ((closedRange t1 t2 cs).map fun p => if p.flavor = fi then
      ((closedRange t1 t2 as).filter fun q => decide (q.flavor = fr ∧ |p.time.time - q.time.time| ≤ d)).length else 0).sum := by
  rw [countPairs_eq, listPairs_eq, List.length_flatMap]
  congr 1
  refine List.map_congr_left fun p _ => ?_
  unfold pairsOf
  split_ifs <;> simp

omit [IsStrictOrderedRing R] [FloorRing R] in
/-- The window after the insertion of an operator which lies in it. -/
theorem closedRange_insert {t1 t2 : R} {s : OpSet (OpTime R)} (hs : s.Sorted) {o : Psi (OpTime R)} (h : (s.insert o).2 = true)
    (hw : InWindow t1 t2 o) : (closedRange t1 t2 (s.insert o).1).Perm (o :: closedRange t1 t2 s) := by
  have hs' := OpSet.insert_sorted s o hs
  have hno : o ∉ closedRange t1 t2 s := fun hm => (OpSet.insert_snd_iff s o hs).1 h o ((mem_closedRange hs).1 hm).1 rfl
  refine (List.perm_ext_iff_of_nodup (closedRange_nodup hs') (List.nodup_cons.2 ⟨hno, closedRange_nodup hs⟩)).2 fun x => ?_
  rw [mem_closedRange hs', OpSet.mem_insert s o x h, List.mem_cons, mem_closedRange hs]
  constructor
  · rintro ⟨rfl | hx, h2⟩
    · exact Or.inl rfl
    · exact Or.inr ⟨hx, h2⟩
  · rintro (rfl | ⟨h1, h2⟩)
    · exact ⟨Or.inl rfl, hw⟩
    · exact ⟨Or.inr h1, h2⟩

omit [IsStrictOrderedRing R] [FloorRing R] in
/-- The operators of one type in the window. -/
theorem closedRange_type {t1 t2 : R} {ops s : OpSet (OpTime R)} (ho : ops.Sorted) (hs : s.Sorted) (ty : OpType)
    (h : ∀ o, o ∈ s ↔ o ∈ ops ∧ o.type = ty) :
    ((closedRange t1 t2 ops).filter fun o => decide (o.type = ty)).Perm (closedRange t1 t2 s) := by
  refine (List.perm_ext_iff_of_nodup ((closedRange_nodup ho).filter _) (closedRange_nodup hs)).2 fun x => ?_
  rw [List.mem_filter, mem_closedRange ho, mem_closedRange hs, h, decide_eq_true_iff]
  tauto

omit [IsStrictOrderedRing R] [FloorRing R] in
theorem sum_map_add (l : List (Psi (OpTime R))) (f g : Psi (OpTime R) → ℕ) :
    (l.map fun p => f p + g p).sum = (l.map f).sum + (l.map g).sum := by
  induction l with
  | nil => rfl
  | cons a l ih => simp only [List.map_cons, List.sum_cons, ih]; omega

omit [IsStrictOrderedRing R] [FloorRing R] in
theorem sum_map_ind (l : List (Psi (OpTime R))) (P : Psi (OpTime R) → Prop) [DecidablePred P] :
    (l.map fun p => if P p then 1 else 0).sum = (l.filter fun p => decide (P p)).length := by
  induction l with
  | nil => rfl
  | cons a l ih =>
    by_cases h : P a
    · rw [List.map_cons, List.sum_cons, ih, if_pos h, List.filter_cons_of_pos (by simp [h]), List.length_cons]; omega
    · rw [List.map_cons, List.sum_cons, ih, if_neg h, List.filter_cons_of_neg (by simp [h])]; omega

omit [IsStrictOrderedRing R] [FloorRing R] in
/-- The number of pairs after the insertion of two operators. -/
theorem countPairs_insert {cs as : OpSet (OpTime R)} (hc : cs.Sorted) (ha : as.Sorted) {p q : Psi (OpTime R)}
    (hp : (cs.insert p).2 = true) (hq : (as.insert q).2 = true) {t1 t2 : R} (wp : InWindow t1 t2 p) (wq : InWindow t1 t2 q) (d : R) :
    countPairs (cs.insert p).1 (as.insert q).1 p.flavor q.flavor t1 t2 d =
      countPairs cs as p.flavor q.flavor t1 t2 d + (if |p.time.time - q.time.time| ≤ d then 1 else 0) +
        ((closedRange t1 t2 cs).filter fun x => decide (x.flavor = p.flavor ∧ |x.time.time - q.time.time| ≤ d)).length +
        ((closedRange t1 t2 as).filter fun y => decide (y.flavor = q.flavor ∧ |p.time.time - y.time.time| ≤ d)).length := by
  have hC := closedRange_insert hc hp wp
  have hA := closedRange_insert ha hq wq
  have inner : ∀ x : Psi (OpTime R), ((closedRange t1 t2 (as.insert q).1).filter fun y =>
      decide (y.flavor = q.flavor ∧ |x.time.time - y.time.time| ≤ d)).length =
      ((closedRange t1 t2 as).filter fun y => decide (y.flavor = q.flavor ∧ |x.time.time - y.time.time| ≤ d)).length +
        if |x.time.time - q.time.time| ≤ d then 1 else 0 := by
    intro x
    rw [(hA.filter _).length_eq]
    by_cases h : |x.time.time - q.time.time| ≤ d
    · rw [List.filter_cons_of_pos (by simp [h]), List.length_cons, if_pos h]
    · rw [List.filter_cons_of_neg (by simp [h]), if_neg h]; rfl
  rw [countPairs_sum, countPairs_sum, (hC.map _).sum_eq, List.map_cons, List.sum_cons, if_pos rfl, inner p]
  have e : ((closedRange t1 t2 cs).map fun x => if x.flavor = p.flavor then ((closedRange t1 t2 (as.insert q).1).filter fun y =>
      decide (y.flavor = q.flavor ∧ |x.time.time - y.time.time| ≤ d)).length else 0) =
      (closedRange t1 t2 cs).map fun x => (if x.flavor = p.flavor then ((closedRange t1 t2 as).filter fun y =>
        decide (y.flavor = q.flavor ∧ |x.time.time - y.time.time| ≤ d)).length else 0) +
        if x.flavor = p.flavor ∧ |x.time.time - q.time.time| ≤ d then 1 else 0 := by
    refine List.map_congr_left fun x _ => ?_
    by_cases h1 : x.flavor = p.flavor
    · rw [if_pos h1, if_pos h1, inner x]
      simp [h1]
    · simp [h1]
  rw [e, sum_map_add, sum_map_ind]
  omega

omit [IsStrictOrderedRing R] [FloorRing R] in
theorem find_isSome (s : OpSet (OpTime R)) (o : Psi (OpTime R)) : (s.find o).isSome = true ↔ ∃ x ∈ s, x.time = o.time := by
  unfold OpSet.find
  rw [List.find?_isSome]
  simp

omit [IsStrictOrderedRing R] [FloorRing R] in
/-- **C78.**  `error` is set exactly if there is an operator, of any flavor and type, at one of the two times (with small index 0); the
number returned is 0 then. -/
theorem C78_error (ops cs as : OpSet (OpTime R)) (fi fr : ℕ) (t1 t2 d tIns tRem : R) :
    ((countAfterInsert ops cs as fi fr t1 t2 d tIns tRem).2 = true ↔ ∃ o ∈ ops, o.time = ⟨tIns, 0⟩ ∨ o.time = ⟨tRem, 0⟩) ∧
    ((countAfterInsert ops cs as fi fr t1 t2 d tIns tRem).2 = true → (countAfterInsert ops cs as fi fr t1 t2 d tIns tRem).1 = 0) := by
  have h1 := find_isSome ops ⟨atTime tIns, .creation, fi⟩
  have h2 := find_isSome ops ⟨atTime tRem, .annihilation, fr⟩
  unfold countAfterInsert
  dsimp only
  by_cases c1 : (ops.find ⟨atTime tIns, .creation, fi⟩).isSome = true
  · rw [if_pos c1]
    obtain ⟨x, hx, e⟩ := h1.1 c1
    exact ⟨iff_of_true rfl ⟨x, hx, Or.inl e⟩, fun _ => rfl⟩
  · rw [if_neg c1]
    by_cases c2 : (ops.find ⟨atTime tRem, .annihilation, fr⟩).isSome = true
    · rw [if_pos c2]
      obtain ⟨x, hx, e⟩ := h2.1 c2
      exact ⟨iff_of_true rfl ⟨x, hx, Or.inr e⟩, fun _ => rfl⟩
    · rw [if_neg c2]
      refine ⟨iff_of_false Bool.false_ne_true ?_, fun h => absurd h Bool.false_ne_true⟩
      rintro ⟨x, hx, e | e⟩
      · exact c1 (h1.2 ⟨x, hx, e⟩)
      · exact c2 (h2.2 ⟨x, hx, e⟩)

omit [IsStrictOrderedRing R] [FloorRing R] in
/-- **C78.**  If the two times are free and lie in the window, `count_num_pairs_after_insert` returns the number of pairs in the
containers after the insertion.  `ops` contains the creation operators `cs` and the annihilation operators `as`.  Partial: it is required
that the new operators lie in the window (`C78_outside_violated`). -/
theorem C78_after_insert_partial {ops cs as : OpSet (OpTime R)} (ho : ops.Sorted) (hc : cs.Sorted) (ha : as.Sorted)
    (hoc : ∀ o, o ∈ cs ↔ o ∈ ops ∧ o.type = .creation) (hoa : ∀ o, o ∈ as ↔ o ∈ ops ∧ o.type = .annihilation)
    (fi fr : ℕ) (t1 t2 d tIns tRem : R) (free : ∀ o ∈ ops, o.time ≠ ⟨tIns, 0⟩ ∧ o.time ≠ ⟨tRem, 0⟩)
    (wIns : min t1 t2 ≤ tIns ∧ tIns ≤ max t1 t2) (wRem : min t1 t2 ≤ tRem ∧ tRem ≤ max t1 t2) :
    let p : Psi (OpTime R) := ⟨⟨tIns, 0⟩, .creation, fi⟩
    let q : Psi (OpTime R) := ⟨⟨tRem, 0⟩, .annihilation, fr⟩
    (cs.insert p).2 = true ∧ (as.insert q).2 = true ∧
      countAfterInsert ops cs as fi fr t1 t2 d tIns tRem = (countPairs (cs.insert p).1 (as.insert q).1 fi fr t1 t2 d, false) := by
  intro p q
  have hp : (cs.insert p).2 = true := (OpSet.insert_snd_iff cs p hc).2 fun x hx e => (free x ((hoc x).1 hx).1).1 e
  have hq : (as.insert q).2 = true := (OpSet.insert_snd_iff as q ha).2 fun x hx e => (free x ((hoa x).1 hx).1).2 e
  have win : ∀ t : R, min t1 t2 ≤ t ∧ t ≤ max t1 t2 → (⟨min t1 t2, 0⟩ : OpTime R) ≤ ⟨t, 0⟩ ∧ (⟨t, 0⟩ : OpTime R) ≤ ⟨max t1 t2, 0⟩ := by
    rintro t ⟨h1, h2⟩
    rw [OpTime.le_def, OpTime.le_def]
    exact ⟨h1.lt_or_eq.imp id fun h => ⟨h, le_refl _⟩, h2.lt_or_eq.imp id fun h => ⟨h, le_refl _⟩⟩
  have c1 : ¬ (ops.find ⟨atTime tIns, .creation, fi⟩).isSome = true := fun h => by
    obtain ⟨x, hx, e⟩ := (find_isSome _ _).1 h
    exact (free x hx).1 e
  have c2 : ¬ (ops.find ⟨atTime tRem, .annihilation, fr⟩).isSome = true := fun h => by
    obtain ⟨x, hx, e⟩ := (find_isSome _ _).1 h
    exact (free x hx).2 e
  refine ⟨hp, hq, ?_⟩
  have key := countPairs_insert hc ha (p := p) (q := q) hp hq (t1 := t1) (t2 := t2) (win tIns wIns) (win tRem wRem) d
  have l1 : ∀ n : ℕ, (closedRange t1 t2 ops).foldl (fun n p => if p.flavor ≠ fi ∨ p.type ≠ .creation then n
      else if |p.time.time - tRem| ≤ d then n + 1 else n) n =
      n + ((closedRange t1 t2 cs).filter fun x => decide (x.flavor = fi ∧ |x.time.time - tRem| ≤ d)).length := by
    intro n
    rw [← ((closedRange_type ho hc .creation hoc).filter _).length_eq, List.filter_filter]
    have e : (fun (n : ℕ) (p : Psi (OpTime R)) => if p.flavor ≠ fi ∨ p.type ≠ .creation then n
        else if |p.time.time - tRem| ≤ d then n + 1 else n) =
        fun n p => if (p.flavor = fi ∧ |p.time.time - tRem| ≤ d) ∧ p.type = .creation then n + 1 else n := by
      funext n p
      by_cases h1 : p.flavor = fi <;> by_cases h2 : p.type = .creation <;> by_cases h3 : |p.time.time - tRem| ≤ d <;> simp [h1, h2, h3]
    rw [e, foldl_count]
    congr 2
    refine List.filter_congr fun x _ => ?_
    simp
  have l2 : ∀ n : ℕ, (closedRange t1 t2 ops).foldl (fun n q => if q.flavor ≠ fr ∨ q.type ≠ .annihilation then n
      else if |q.time.time - tIns| ≤ d then n + 1 else n) n =
      n + ((closedRange t1 t2 as).filter fun x => decide (x.flavor = fr ∧ |tIns - x.time.time| ≤ d)).length := by
    intro n
    rw [← ((closedRange_type ho ha .annihilation hoa).filter _).length_eq, List.filter_filter]
    have e : (fun (n : ℕ) (p : Psi (OpTime R)) => if p.flavor ≠ fr ∨ p.type ≠ .annihilation then n
        else if |p.time.time - tIns| ≤ d then n + 1 else n) =
        fun n p => if (p.flavor = fr ∧ |tIns - p.time.time| ≤ d) ∧ p.type = .annihilation then n + 1 else n := by
      funext n p
      rw [abs_sub_comm]
      by_cases h1 : p.flavor = fr <;> by_cases h2 : p.type = .annihilation <;> by_cases h3 : |tIns - p.time.time| ≤ d <;> simp [h1, h2, h3]
    rw [e, foldl_count]
    congr 2
    refine List.filter_congr fun x _ => ?_
    simp
  unfold countAfterInsert
  dsimp only
  rw [if_neg c1, if_neg c2, l1, l2]
  have key' : countPairs (cs.insert p).1 (as.insert q).1 fi fr t1 t2 d = countPairs cs as fi fr t1 t2 d +
      (if |tIns - tRem| ≤ d then 1 else 0) +
        ((closedRange t1 t2 cs).filter fun x => decide (x.flavor = fi ∧ |x.time.time - tRem| ≤ d)).length +
        ((closedRange t1 t2 as).filter fun y => decide (y.flavor = fr ∧ |tIns - y.time.time| ≤ d)).length := key
  rw [key']
  congr 2
  split_ifs <;> rfl

/-- **C78.**  Counting fits picking: under the same conditions, and if the new operators are at most at the distance `d`, `pick_up_pair`
in the new containers picks the new pair for the random numbers of an interval whose length is 1 / the number returned by
`count_num_pairs_after_insert`. -/
theorem C78_insert_pick_partial {ops cs as : OpSet (OpTime R)} (ho : ops.Sorted) (hc : cs.Sorted) (ha : as.Sorted)
    (hoc : ∀ o, o ∈ cs ↔ o ∈ ops ∧ o.type = .creation) (hoa : ∀ o, o ∈ as ↔ o ∈ ops ∧ o.type = .annihilation)
    (fi fr : ℕ) (t1 t2 d tIns tRem : R) (free : ∀ o ∈ ops, o.time ≠ ⟨tIns, 0⟩ ∧ o.time ≠ ⟨tRem, 0⟩)
    (wIns : min t1 t2 ≤ tIns ∧ tIns ≤ max t1 t2) (wRem : min t1 t2 ≤ tRem ∧ tRem ≤ max t1 t2) (hd : |tIns - tRem| ≤ d) :
    let p : Psi (OpTime R) := ⟨⟨tIns, 0⟩, .creation, fi⟩
    let q : Psi (OpTime R) := ⟨⟨tRem, 0⟩, .annihilation, fr⟩
    let N := (countAfterInsert ops cs as fi fr t1 t2 d tIns tRem).1
    ∃ j : ℕ, j < N ∧ ∀ u, 0 ≤ u → ((pickPair (cs.insert p).1 (as.insert q).1 fi fr t1 t2 d u).2 = some (p, q) ↔
      (j : R) / N ≤ u ∧ u < (j : R) / N + 1 / N) := by
  intro p q N
  obtain ⟨hp, hq, e⟩ := C78_after_insert_partial ho hc ha hoc hoa fi fr t1 t2 d tIns tRem free wIns wRem
  have win : ∀ t : R, min t1 t2 ≤ t ∧ t ≤ max t1 t2 → (⟨min t1 t2, 0⟩ : OpTime R) ≤ ⟨t, 0⟩ ∧ (⟨t, 0⟩ : OpTime R) ≤ ⟨max t1 t2, 0⟩ := by
    rintro t ⟨h1, h2⟩
    rw [OpTime.le_def, OpTime.le_def]
    exact ⟨h1.lt_or_eq.imp id fun h => ⟨h, le_refl _⟩, h2.lt_or_eq.imp id fun h => ⟨h, le_refl _⟩⟩
  have hN : N = countPairs (cs.insert p).1 (as.insert q).1 fi fr t1 t2 d := congrArg Prod.fst e
  rw [hN]
  exact (C78_pick (OpSet.insert_sorted cs p hc) (OpSet.insert_sorted as q ha) fi fr t1 t2 d).2.2.2 (p, q)
    ⟨(OpSet.mem_insert cs p p hp).2 (Or.inl rfl), (OpSet.mem_insert as q q hq).2 (Or.inl rfl), rfl, rfl, win tIns wIns, win tRem wRem, hd⟩

/-! ### The open window -/

omit [IsStrictOrderedRing R] [FloorRing R] in
/-- **C78.**  `num_operators_in_range_open` is the number of operators strictly between the ends, in the order of the operator times. -/
theorem C78_open {ops : OpSet (OpTime R)} (ho : ops.Sorted) (t1 t2 : R) :
    numInOpen ops t1 t2 = Nat.card {o // o ∈ ops ∧ (⟨min t1 t2, 0⟩ : OpTime R) < o.time ∧ o.time < ⟨max t1 t2, 0⟩} := by
  classical
  have hf : rangeOf (fun o => (atTime (min t1 t2)).ltCode o.time) (fun o => o.time.ltCode (atTime (max t1 t2))) ops =
      ops.filter fun o => (atTime (min t1 t2)).ltCode o.time && o.time.ltCode (atTime (max t1 t2)) := by
    refine rangeOf_filter _ _ (fun a b h ha => ?_) (fun a b h hb => ?_) ops ho
    · rw [OpTime.ltCode_iff] at ha ⊢; exact ha.trans h
    · rw [OpTime.ltCode_iff] at hb ⊢; exact h.trans hb
  have hn : (ops.filter fun o => (atTime (min t1 t2)).ltCode o.time && o.time.ltCode (atTime (max t1 t2))).Nodup := by
    refine List.Nodup.filter _ (List.Pairwise.imp (fun h e => ?_) ho)
    rw [e] at h
    exact lt_irrefl _ h
  unfold numInOpen
  rw [hf, ← List.toFinset_card_of_nodup hn, ← Fintype.card_coe, ← Nat.card_eq_fintype_card]
  refine Nat.card_congr (Equiv.subtypeEquivRight fun o => ?_)
  rw [List.mem_toFinset, List.mem_filter, Bool.and_eq_true, OpTime.ltCode_iff, OpTime.ltCode_iff]
  rfl

omit [IsStrictOrderedRing R] [FloorRing R] in
/-- **C78.**  For operators with small index 0 this is the open interval of the documentation. -/
theorem C78_open_numbers_partial {ops : OpSet (OpTime R)} (ho : ops.Sorted) (h0 : ∀ o ∈ ops, o.time.small = 0) (t1 t2 : R) :
    numInOpen ops t1 t2 = Nat.card {o // o ∈ ops ∧ min t1 t2 < o.time.time ∧ o.time.time < max t1 t2} := by
  rw [C78_open ho]
  refine Nat.card_congr (Equiv.subtypeEquivRight fun o => and_congr_right fun hm => ?_)
  rw [OpTime.lt_def, OpTime.lt_def]
  simp [h0 o hm]

/-! ### Violations -/

/-- **C78, violated.**  The new creation operator lies outside the window: the pair does not lie in the window, but it is counted. -/
theorem C78_outside_violated :
    ∃ (p q : Psi (OpTime ℚ)), p = ⟨⟨3, 0⟩, .creation, 0⟩ ∧ q = ⟨⟨1, 0⟩, .annihilation, 0⟩ ∧
      countAfterInsert [] [] [] 0 0 (0 : ℚ) 2 5 3 1 = (1, false) ∧
      countPairs (OpSet.insert [] p).1 (OpSet.insert [] q).1 0 0 (0 : ℚ) 2 5 = 0 :=
  ⟨_, _, rfl, rfl, by decide +kernel, by decide +kernel⟩

/-- **C78, violated.**  The documentation says that the window is open: an operator at the lower end with a positive small index (the
second operator of an equal-time worm) is counted. -/
theorem C78_open_violated : numInOpen [(⟨⟨1, 1⟩, .annihilation, 0⟩ : Psi (OpTime ℚ))] 1 2 = 1 := by decide +kernel

omit [IsStrictOrderedRing R] [FloorRing R] in
/-- **C78, violated.**  `compute_spread_non_periodic` is 0 for every set of operators which is not empty, and reads an element which does
not exist for the empty one. -/
theorem C78_spread_violated (ops : List (Psi (OpTime R))) :
    (ops ≠ [] → spreadNonPeriodic ops = some 0) ∧ spreadNonPeriodic ([] : List (Psi (OpTime R))) = none := by
  refine ⟨fun h => ?_, rfl⟩
  unfold spreadNonPeriodic
  rw [if_pos (by simpa using h)]

omit [Field R] [IsStrictOrderedRing R] [FloorRing R] in
/-- **C78, violated.**  `check_consistency_operators` reports nothing: whatever the containers are, it returns, unless it reads behind the
end of one of the containers. -/
theorem C78_check_violated (ops cs as : OpSet (OpTime R)) : checkConsistency ops cs as ≠ .throws := by
  have loop : ∀ (l cs as : List (Psi (OpTime R))), checkLoop l cs as ≠ .throws := by
    intro l
    induction l with
    | nil => intro cs as; simp [checkLoop]
    | cons o l ih =>
      intro cs as
      unfold checkLoop
      cases o.type with
      | creation =>
        cases cs with
        | nil => simp
        | cons x cs => simp only; split_ifs <;> exact ih _ _
      | annihilation =>
        cases as with
        | nil => simp
        | cons x as => simp only; split_ifs <;> exact ih _ _
  unfold checkConsistency
  split_ifs <;> exact loop _ _ _

omit [Field R] [IsStrictOrderedRing R] [FloorRing R] in
/-- **C78.**  When it reads behind the end: exactly if there are more creation or annihilation operators in `ops` than in the other
containers. -/
theorem C78_check_undefined (ops cs as : OpSet (OpTime R)) : checkConsistency ops cs as = .undefined ↔
    cs.length < (ops.filter fun o => decide (o.type = .creation)).length ∨
      as.length < (ops.filter fun o => decide (o.type = .annihilation)).length := by
  have loop : ∀ (l cs as : List (Psi (OpTime R))), checkLoop l cs as = .undefined ↔
      cs.length < (l.filter fun o => decide (o.type = .creation)).length ∨
        as.length < (l.filter fun o => decide (o.type = .annihilation)).length := by
    intro l
    induction l with
    | nil => intro cs as; simp [checkLoop]
    | cons o l ih =>
      intro cs as
      unfold checkLoop
      cases ht : o.type with
      | creation =>
        rw [List.filter_cons_of_pos (by simp [ht]), List.filter_cons_of_neg (by simp [ht]), List.length_cons]
        cases cs with
        | nil => simp
        | cons x cs =>
          simp only [ite_self, ih, List.length_cons]
          omega
      | annihilation =>
        rw [List.filter_cons_of_neg (by simp [ht]), List.filter_cons_of_pos (by simp [ht]), List.length_cons]
        cases as with
        | nil => simp
        | cons x as =>
          simp only [ite_self, ih, List.length_cons]
          omega
  unfold checkConsistency
  split_ifs <;> exact loop _ _ _

/-! ### A case -/

/-- Two creation and two annihilation operators in the window [0, 4] and one outside it; distance 2. -/
def exPairC : OpSet (OpTime ℚ) := [⟨⟨1, 0⟩, .creation, 0⟩, ⟨⟨3, 0⟩, .creation, 0⟩, ⟨⟨5, 0⟩, .creation, 0⟩]

@[inherit_doc exPairC]
def exPairA : OpSet (OpTime ℚ) := [⟨⟨2, 0⟩, .annihilation, 1⟩, ⟨⟨4, 0⟩, .annihilation, 1⟩]

@[inherit_doc exPairC]
def exPairOps : OpSet (OpTime ℚ) := [⟨⟨1, 0⟩, .creation, 0⟩, ⟨⟨2, 0⟩, .annihilation, 1⟩, ⟨⟨3, 0⟩, .creation, 0⟩, ⟨⟨4, 0⟩, .annihilation, 1⟩,
  ⟨⟨5, 0⟩, .creation, 0⟩]

example : exPairC.Sorted ∧ exPairA.Sorted ∧ exPairOps.Sorted ∧ (∀ o ∈ exPairOps, o.time ≠ ⟨1 / 2, 0⟩ ∧ o.time ≠ ⟨7 / 2, 0⟩) ∧
    (∀ o ∈ exPairC, o ∈ exPairOps ∧ o.type = .creation) ∧ (∀ o ∈ exPairA, o ∈ exPairOps ∧ o.type = .annihilation) ∧
    countPairs exPairC exPairA 0 1 4 0 2 = 3 ∧ countAfterInsert exPairOps exPairC exPairA 0 1 4 0 2 (1 / 2) (7 / 2) = (5, false) ∧
    pickPair exPairC exPairA 0 1 4 0 2 (1 / 2) = (3, some (⟨⟨3, 0⟩, .creation, 0⟩, ⟨⟨2, 0⟩, .annihilation, 1⟩)) ∧ numInOpen exPairOps 4 1 = 2 := by
  refine ⟨?_, ?_, ?_, ?_, ?_, ?_, ?_, ?_, ?_, ?_⟩
  · unfold OpSet.Sorted exPairC; decide +kernel
  · unfold OpSet.Sorted exPairA; decide +kernel
  · unfold OpSet.Sorted exPairOps; decide +kernel
  all_goals decide +kernel

end CTHyb
