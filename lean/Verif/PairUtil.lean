import Verif.Selection

/-!
Model of the functions of src/operator_util.cpp and src/operator_util.hpp which look at the operators of a configuration:
`check_consistency_operators` (operator_util.cpp:5-30), `count_num_pairs` (33-67), `count_num_pairs_after_insert` (69-126),
`compute_spread_non_periodic` (147-158), `pick_up_pair` (operator_util.hpp:58-109), `num_operators_in_range_open` (145-154).  They are
a library: at this commit the updates do not call them.

The time of an operator is `OpTime R`, a number and a small index.  `std::abs(t1 - t2)` of two operator times looks at the numbers only
(src/operator.hpp:87-100).
-/

namespace CTHyb

variable {R : Type} [Field R] [LinearOrder R]

/-- `OperatorTime(t)`: small index 0 (src/operator.hpp:25-41). -/
def atTime (t : R) : OpTime R := ⟨t, 0⟩

/-- `container.range(lower, upper)` of an ordered index (boost): the elements from the first which satisfies `lower` up to the first
behind it which does not satisfy `upper`. -/
def rangeOf (lower upper : Psi (OpTime R) → Bool) (s : OpSet (OpTime R)) : List (Psi (OpTime R)) :=
  (s.dropWhile fun o => !lower o).takeWhile upper

/-- `range(tau_low <= _1, _1 <= tau_high)` with `tau_low = min(t1, t2)`, `tau_high = max(t1, t2)` (operator_util.cpp:43-48); the
comparisons are those of a number and an operator (src/operator.hpp:181-187). -/
def closedRange (t1 t2 : R) (s : OpSet (OpTime R)) : List (Psi (OpTime R)) :=
  rangeOf (fun o => (atTime (min t1 t2)).leCode o.time) (fun o => o.time.leCode (atTime (max t1 t2))) s

/-- The two loops which make the list of pairs (operator_util.hpp:86-98). -/
def listPairs (cs as : OpSet (OpTime R)) (fi fr : ℕ) (t1 t2 d : R) : List (Psi (OpTime R) × Psi (OpTime R)) :=
  (closedRange t1 t2 cs).foldl (fun l p =>
    if p.flavor ≠ fi then l
    else (closedRange t1 t2 as).foldl (fun l q =>
      if q.flavor ≠ fr then l
      else if |p.time.time - q.time.time| ≤ d then l ++ [(p, q)] else l) l) []

/-- `count_num_pairs` (operator_util.cpp:33-67). -/
def countPairs (cs as : OpSet (OpTime R)) (fi fr : ℕ) (t1 t2 d : R) : ℕ :=
  (closedRange t1 t2 cs).foldl (fun n p =>
    if p.flavor ≠ fi then n
    else (closedRange t1 t2 as).foldl (fun n q =>
      if q.flavor ≠ fr then n
      else if |p.time.time - q.time.time| ≤ d then n + 1 else n) n) 0

/-- `pick_up_pair` (operator_util.hpp:58-109), `u = rng()`: the number of pairs and the pair, or 0 and the ends of the containers.
`std::advance` beyond the list is not defined (it does not happen, `C78_pick`); the model returns no pair then. -/
def pickPair [FloorRing R] (cs as : OpSet (OpTime R)) (fi fr : ℕ) (t1 t2 d u : R) :
    ℕ × Option (Psi (OpTime R) × Psi (OpTime R)) :=
  let pairs := listPairs cs as fi fr t1 t2 d
  if 0 < pairs.length then (pairs.length, pairs[floorIndex u pairs.length]?) else (0, none)

/-- `count_num_pairs_after_insert` (operator_util.cpp:69-126): the number, and `error`. -/
def countAfterInsert (ops cs as : OpSet (OpTime R)) (fi fr : ℕ) (t1 t2 d tIns tRem : R) : ℕ × Bool :=
  let n := countPairs cs as fi fr t1 t2 d
  let n := if |tIns - tRem| ≤ d then n + 1 else n
  if (ops.find ⟨atTime tIns, .creation, fi⟩).isSome then (0, true)
  else if (ops.find ⟨atTime tRem, .annihilation, fr⟩).isSome then (0, true)
  else
    let range := closedRange t1 t2 ops
    let n := range.foldl (fun n p =>
      if p.flavor ≠ fi ∨ p.type ≠ .creation then n
      else if |p.time.time - tRem| ≤ d then n + 1 else n) n
    let n := range.foldl (fun n q =>
      if q.flavor ≠ fr ∨ q.type ≠ .annihilation then n
      else if |q.time.time - tIns| ≤ d then n + 1 else n) n
    (n, false)

/-- `num_operators_in_range_open` for numbers `t1`, `t2` (operator_util.hpp:145-154); comparisons src/operator.hpp:161-171. -/
def numInOpen (ops : OpSet (OpTime R)) (t1 t2 : R) : ℕ :=
  (rangeOf (fun o => (atTime (min t1 t2)).ltCode o.time) (fun o => o.time.ltCode (atTime (max t1 t2))) ops).length

/-- `compute_spread_non_periodic` (operator_util.cpp:147-158); `none`: the element 0 of an empty vector is read.  The test in the first
line is `if (ops.size())`. -/
def spreadNonPeriodic (ops : List (Psi (OpTime R))) : Option R :=
  if ops.length ≠ 0 then some 0
  else
    match ops with
    | [] => none
    | o :: _ =>
      let r := ops.foldl (fun (m : R × R) p => (max m.1 p.time.time, min m.2 p.time.time)) (o.time.time, o.time.time)
      some (r.1 - r.2)

/-- What `check_consistency_operators` can do. -/
inductive CheckOutcome
  /-- returns -/
  | returns
  /-- throws an exception -/
  | throws
  /-- reads the element behind the last one -/
  | undefined
deriving DecidableEq, Repr

/-- The loop of `check_consistency_operators` (operator_util.cpp:14-28), without `NDEBUG`: the statement
`std::runtime_error("…");` makes an object and throws it away. -/
def checkLoop : List (Psi (OpTime R)) → List (Psi (OpTime R)) → List (Psi (OpTime R)) → CheckOutcome
  | [], _, _ => .returns
  | o :: l, cs, as =>
    match o.type with
    | .creation =>
      match cs with
      | [] => .undefined
      | x :: cs => if o ≠ x then checkLoop l cs as else checkLoop l cs as
    | .annihilation =>
      match as with
      | [] => .undefined
      | x :: as => if o ≠ x then checkLoop l cs as else checkLoop l cs as

/-- `check_consistency_operators` (operator_util.cpp:5-30). -/
def checkConsistency (ops cs as : OpSet (OpTime R)) : CheckOutcome :=
  if cs.length ≠ as.length ∨ ops.length ≠ 2 * cs.length then checkLoop ops cs as else checkLoop ops cs as

end CTHyb
