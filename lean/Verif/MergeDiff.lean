import Verif.Operator
import Mathlib.Data.List.Basic
import Mathlib.Data.Multiset.AddSub

/-!
Model of `merge_diff_impl` and `merge_diff` (src/moves/moves.ipp:52-80).
-/

namespace CTHyb

/-- `std::swap(*it2, op_rem.back()); op_rem.pop_back();` (src/moves/moves.ipp:62-63) with `i`
the position of `it2`: the last element is moved to position `i` and the vector shortened. -/
def swapPop {α : Type} (l : List α) (i : Nat) : List α :=
  match l.getLast? with
  | none => l
  | some last => (l.set i last).dropLast

variable {α : Type} [DecidableEq α]

/-- One pass of the loop of `merge_diff_impl` (src/moves/moves.ipp:57-65) for the new operator
`x`: `std::find` in `op_rem` with full equality; if absent append to `op_add`, else swap-pop. -/
def mergeDiffStep (st : List α × List α) (x : α) : List α × List α :=
  if x ∈ st.1 then (swapPop st.1 (st.1.idxOf x), st.2)
  else (st.1, st.2 ++ [x])

/-- `merge_diff_impl` (src/moves/moves.ipp:52-66). -/
def mergeDiffImpl (opRem opAdd opAddNew : List α) : List α × List α :=
  opAddNew.foldl mergeDiffStep (opRem, opAdd)

/-- `merge_diff` (src/moves/moves.ipp:68-80): returns `(op_rem, op_add)`.  Stated for any type
with decidable equality; the code uses `psi` with the full equality (src/operator.hpp:201). -/
def mergeDiff (hybRem hybAdd wormRem wormAdd : List α) : List α × List α :=
  let r := mergeDiffImpl (hybRem ++ wormRem) [] hybAdd
  mergeDiffImpl r.1 r.2 wormAdd

end CTHyb
