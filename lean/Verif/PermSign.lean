import Verif.CombSort
import Verif.Operator

/-!
Model of the permutation sign of a configuration (src/mc_config.hpp:176-297).
-/

namespace CTHyb

variable {T : Type} [LinearOrder T]

/-- Pass budget for the comb sort; `C20_comb_sort` shows that it is always enough. -/
def combFuel (n : ℕ) : ℕ := n * (n * n) + n + 2

/-- `comb_sort(times_work.begin(), times_work.end(), std::greater<OperatorTime>())`
(src/mc_config.hpp:215-217): the returned sign (0 would mean that the loop did not end). -/
def combSortSign (l : List T) : ℤ :=
  match combSort (fun a b : T => b < a) shrink13 (combFuel l.length) l.get with
  | some p => p.2
  | none => 0

/-- `std::sort(..., std::greater<OperatorTime>())` (src/mc_config.hpp:205-206). -/
def sortDesc (l : List T) : List T := l.mergeSort (fun a b => decide (b ≤ a))

/-- The loop filling `times_work` with `work2[p], work1[p]` (src/mc_config.hpp:208-211).  Both
lists have the same length in the code (a shorter `c_ops` would be read out of bounds). -/
def interleave : List T → List T → List T
  | a :: as, b :: bs => a :: b :: interleave as bs
  | _, _ => []

/-- `compute_permutation_sign_impl` (src/mc_config.hpp:190-219). -/
def permSignImpl (cdagg c worm : List (Psi T)) : ℤ :=
  combSortSign (interleave (sortDesc (c.map Psi.time)) (sortDesc (cdagg.map Psi.time)) ++
    worm.map Psi.time)

/-- `num_ops_less_than` (src/mc_config.hpp:222-225): `distance(begin, upper_bound(t))`, the
number of stored times not greater than `t`. -/
def numOpsLessThan (ops : List T) (t : T) : ℕ := ops.countP (fun x => decide (x ≤ t))

/-- `std::set<OperatorTime>::insert`, the order of the elements is irrelevant here. -/
def setInsert (s : List T) (t : T) : List T := if t ∈ s then s else t :: s

/-- One of the four loops of `compute_permutation_sign_change` (src/mc_config.hpp:260-282):
`ts` are the changed operators, `otherOld` and `otherChanged` the old operators and the changed
times of the other kind. -/
def countLoop (otherOld otherChanged ts : List T) : ℕ :=
  (ts.map (fun t => numOpsLessThan otherOld t + numOpsLessThan otherChanged t)).sum

/-- `compute_permutation_sign_change` (src/mc_config.hpp:243-297), on the times.  The function is
a template which no other code in /repo calls. -/
def permSignChange (cdOld cOld cdRem cRem cdAdd cAdd : List T) : ℤ :=
  let n1 := countLoop cOld [] cdRem
  let cdCh1 := cdRem.foldl setInsert []
  let n2 := countLoop cdOld cdCh1 cRem
  let cCh1 := cRem.foldl setInsert []
  let n3 := countLoop cOld cCh1 cdAdd
  let cdCh2 := cdAdd.foldl setInsert cdCh1
  let n4 := countLoop cdOld cdCh2 cAdd
  exchSign (n1 + n2 + n3 + n4)

end CTHyb
