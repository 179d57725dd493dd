import Mathlib.Algebra.Order.AbsoluteValue.Basic
import Mathlib.Algebra.Order.Field.Basic
import Mathlib.Algebra.BigOperators.Group.Finset.Basic

/-!
Model of `SlidingWindowManager::lazy_eval_trace` (src/sliding_window/sliding_window.ipp:253-300).
-/

namespace CTHyb

section
variable {R K ι : Type} [Field R] [LinearOrder R] [Semiring K] [Fintype ι] [DecidableEq ι]

/-- The loop over the outer states in the order `order` (sliding_window.ipp:280-297).  `eps` is
1E-15, `tr` the exact trace per outer state (`compute_trace_braket`), `bound` the vector
`trace_bound`, changed in place, `sum` is `trace_sum`.  Result: the pair returned and the vector. -/
def lazyLoop (eps : R) (abs : AbsoluteValue K R) (tr : ι → K) (cutoff : R) :
    List ι → (ι → R) → K → (Bool × K) × (ι → R)
  | [], bound, sum => ((decide (cutoff < abs sum), sum), bound)
  | i :: rest, bound, sum =>
    if bound i < eps * abs sum then ((decide (cutoff < abs sum), sum), bound)
    else
      let bound' := Function.update bound i (abs (tr i))
      if ∑ j, bound' j < cutoff then ((false, 0), bound')
      else lazyLoop eps abs tr cutoff rest bound' (sum + tr i)

/-- `lazy_eval_trace`; `order` is what `std::sort` made of the indices
(sliding_window.ipp:265-274). -/
def lazyEvalTrace (eps : R) (abs : AbsoluteValue K R) (tr : ι → K) (cutoff : R) (order : List ι)
    (bound : ι → R) : (Bool × K) × (ι → R) :=
  lazyLoop eps abs tr cutoff order bound 0

end

end CTHyb
