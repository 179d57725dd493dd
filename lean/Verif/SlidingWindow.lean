import Verif.Operator
import Mathlib.Algebra.Order.Field.Basic
import Mathlib.Algebra.BigOperators.Group.Finset.Basic

/-!
Model of `SlidingWindowManager` (src/sliding_window/sliding_window.hpp, sliding_window.ipp).

Simplifications: `Braket::normalize` (model.hpp:103-122) does not change the vector represented
by `coeff_ * obj_` and is dropped together with its cutoffs; the relative cutoffs 1E-30 and
1E-100 for setting a state invalid are taken to be 0; the cached norms, which only serve the
bounds of the lazy evaluation, are not part of this state.
-/

namespace CTHyb

/-- The functions of the impurity model used by the window (model.hpp:241-258): propagation by
`exp(-t H)` and application of an operator, for kets and bras, the product, and the flags
`invalid()` (model.hpp:61-63). -/
structure Evol (R Ket Bra K : Type) where
  propK : R → Ket → Ket
  opK : OpType → ℕ → Ket → Ket
  propB : R → Bra → Bra
  opB : OpType → ℕ → Bra → Bra
  product : Bra → Ket → K
  invK : Ket → Bool
  invB : Bra → Bool

section
variable {R Ket Bra K ι : Type}

/-- An operator with an imaginary time as in the code (`OperatorTime`, src/operator.hpp:25-41). -/
abbrev TPsi (R : Type) := Psi (OpTime R)

/-- The loop of `evolve_ket` (sliding_window.ipp:364-374), for operators in increasing time. -/
def ketLoop [Sub R] (E : Evol R Ket Bra K) (tNew : R) : List (TPsi R) → Ket → Ket
  | [], k => k
  | [o], k => E.propK (tNew - o.time.time) (E.opK o.type o.flavor k)
  | o :: o' :: rest, k =>
    ketLoop E tNew (o' :: rest) (E.propK (o'.time.time - o.time.time) (E.opK o.type o.flavor k))

/-- `evolve_ket` (sliding_window.ipp:343-380). -/
def evolveKet [Sub R] (E : Evol R Ket Bra K) (ops : List (TPsi R)) (tOld tNew : R) (k : Ket) : Ket :=
  if E.invK k then k
  else match ops with
    | [] => E.propK (tNew - tOld) k
    | o :: rest => ketLoop E tNew (o :: rest) (E.propK (o.time.time - tOld) k)

/-- The loop of `evolve_bra` (sliding_window.ipp:322-335), for operators in decreasing time. -/
def braLoop [Sub R] (E : Evol R Ket Bra K) (tNew : R) : List (TPsi R) → Bra → Bra
  | [], b => b
  | [o], b => E.propB (o.time.time - tNew) (E.opB o.type o.flavor b)
  | o :: o' :: rest, b =>
    braLoop E tNew (o' :: rest) (E.propB (o.time.time - o'.time.time) (E.opB o.type o.flavor b))

/-- `evolve_bra` (sliding_window.ipp:303-340); the range is given in increasing time. -/
def evolveBra [Sub R] (E : Evol R Ket Bra K) (ops : List (TPsi R)) (tOld tNew : R) (b : Bra) : Bra :=
  if E.invB b then b
  else match ops.reverse with
    | [] => E.propB (tOld - tNew) b
    | o :: rest => braLoop E tNew (o :: rest) (E.propB (tOld - o.time.time) b)

/-- State of the window (sliding_window.hpp:108-116).  The stacks have their last element first;
each element holds one state per `braket`. -/
structure SWState (Ket Bra ι : Type) where
  n : ℕ
  posL : ℕ
  posR : ℕ
  dirLeft : Bool
  left : List (ι → Bra)
  right : List (ι → Ket)

/-- The fixed data: β and the outer states (sliding_window.hpp:83-86, model.hpp:256-258). -/
structure SWEnv (R Ket Bra K ι : Type) where
  E : Evol R Ket Bra K
  beta : R
  ket0 : ι → Ket
  bra0 : ι → Bra

variable [Field R] [LinearOrder R]

/-- `get_tau_edge` (sliding_window.hpp:50). -/
def tauEdge (beta : R) (n p : ℕ) : R := beta * p / (2 * n)

/-- Comparison of an operator with a `double`, which stands for `OperatorTime(t, 0)`
(src/operator.hpp:161-195). -/
def opT (t : R) : OpTime R := ⟨t, 0⟩

/-- `operators.range(a <= _1, _1 < b)` (sliding_window.ipp:119). -/
def rangeCO (ops : OpSet (OpTime R)) (a b : R) : List (TPsi R) :=
  ops.filter (fun o => decide (opT a ≤ o.time) && decide (o.time < opT b))

/-- `operators.range(a < _1, _1 <= b)` (sliding_window.ipp:159-160). -/
def rangeOC (ops : OpSet (OpTime R)) (a b : R) : List (TPsi R) :=
  ops.filter (fun o => decide (opT a < o.time) && decide (o.time ≤ opT b))

/-- `operators.range(a <= _1, _1 <= b)` (sliding_window.ipp:217). -/
def rangeCC (ops : OpSet (OpTime R)) (a b : R) : List (TPsi R) :=
  ops.filter (fun o => decide (opT a ≤ o.time) && decide (o.time ≤ opT b))

variable (V : SWEnv R Ket Bra K ι)

/-- One step of `move_forward_right_edge` (sliding_window.ipp:111-140); `none` for `back()` of an
empty stack. -/
def fwdRight1 (ops : OpSet (OpTime R)) (s : SWState Ket Bra ι) : Option (SWState Ket Bra ι) :=
  match s.right with
  | [] => none
  | k :: ks =>
    let a := tauEdge V.beta s.n s.posR
    let b := tauEdge V.beta s.n (s.posR + 1)
    some { s with right := (fun i => evolveKet V.E (rangeCO ops a b) a b (k i)) :: k :: ks,
                  posR := s.posR + 1 }

/-- One step of `move_forward_left_edge` (sliding_window.ipp:150-180).  A left edge at position 0
would become negative; this is outside the model (`none`). -/
def fwdLeft1 (ops : OpSet (OpTime R)) (s : SWState Ket Bra ι) : Option (SWState Ket Bra ι) :=
  match s.left, s.posL with
  | b :: bs, p + 1 =>
    let tOld := tauEdge V.beta s.n (p + 1)
    let tNew := tauEdge V.beta s.n p
    some { s with left := (fun i => evolveBra V.E (rangeOC ops tNew tOld) tOld tNew (b i)) :: b :: bs,
                  posL := p }
  | _, _ => none

/-- Repeated execution of a partial step (the loops `for move < num_move`). -/
def iterOpt {α : Type} (f : α → Option α) : ℕ → α → Option α
  | 0, a => some a
  | m + 1, a => (f a).bind (iterOpt f m)

/-- `move_backward_edge(ITIME_RIGHT, m)` with `pop_back_ket` (sliding_window.ipp:81-91, 505-512);
`none` for the exception and for a negative new size. -/
def backRight (m : ℕ) (s : SWState Ket Bra ι) : Option (SWState Ket Bra ι) :=
  if s.posR < m then none
  else if s.right.length < m then none
  else some { s with right := s.right.drop m, posR := s.posR - m }

/-- `move_backward_edge(ITIME_LEFT, m)` with `pop_back_bra` (sliding_window.ipp:92-97, 496-503). -/
def backLeft (m : ℕ) (s : SWState Ket Bra ι) : Option (SWState Ket Bra ι) :=
  if 2 * s.n < s.posL + m then none
  else if s.left.length < m then none
  else some { s with left := s.left.drop m, posL := s.posL + m }

/-- `move_right_edge_to` (sliding_window.ipp:183-191). -/
def moveRightTo (ops : OpSet (OpTime R)) (pos : ℕ) (s : SWState Ket Bra ι) :
    Option (SWState Ket Bra ι) :=
  if pos < s.posR then backRight (s.posR - pos) s
  else if s.posR < pos then iterOpt (fwdRight1 V ops) (pos - s.posR) s
  else some s

/-- `move_left_edge_to` (sliding_window.ipp:193-203). -/
def moveLeftTo (ops : OpSet (OpTime R)) (pos : ℕ) (s : SWState Ket Bra ι) :
    Option (SWState Ket Bra ι) :=
  if pos < s.posL then iterOpt (fwdLeft1 V ops) (s.posL - pos) s
  else if s.posL < pos then backLeft (pos - s.posL) s
  else some s

/-- The two reset loops of `set_window_size` (sliding_window.ipp:46-51): each call shortens a stack
by one, until its depth is 1. -/
def resetStacks (s : SWState Ket Bra ι) : Option (SWState Ket Bra ι) :=
  (iterOpt (backRight 1) (s.right.length - 1) s).bind fun s1 =>
    iterOpt (backLeft 1) (s1.left.length - 1) s1

/-- `set_window_size` (sliding_window.ipp:37-78). -/
def setWindowSize (nNew : ℕ) (ops : OpSet (OpTime R)) (newR : ℕ) (newDirLeft : Bool)
    (s : SWState Ket Bra ι) : Option (SWState Ket Bra ι) :=
  (resetStacks s).bind fun s1 =>
    let s2 := { s1 with n := nNew, posR := 0, posL := 2 * nNew }
    if 2 ≤ nNew then
      (iterOpt (fwdRight1 V ops) newR s2).bind fun s3 =>
      (iterOpt (fwdLeft1 V ops) (2 * nNew - 2 - newR) s3).map fun s4 =>
        { s4 with dirLeft := if s4.posR = 0 then true
                             else if s4.posR = 2 * nNew - 2 then false else newDirLeft }
    else some s2

/-- `init_stacks` (sliding_window.ipp:12-35) on a freshly constructed object.  The positions and
the direction are uninitialised members; their values do not matter (arguments `pl pr nn d`). -/
def initStacks (nWin : ℕ) (ops : OpSet (OpTime R)) (pl pr nn : ℕ) (d : Bool) :
    Option (SWState Ket Bra ι) :=
  setWindowSize V nWin ops 0 true
    { n := nn, posL := pl, posR := pr, dirLeft := d, left := [V.bra0], right := [V.ket0] }

/-- `move_window_to` (sliding_window.ipp:476-493). -/
def moveWindow (ops : OpSet (OpTime R)) (toLeft : Bool) (s : SWState Ket Bra ι) :
    Option (SWState Ket Bra ι) :=
  if toLeft then (fwdRight1 V ops s).bind (backLeft 1)
  else (backRight 1 s).bind (fwdLeft1 V ops)

/-- `move_window_to_next_position` (sliding_window.ipp:448-473). -/
def moveNext (ops : OpSet (OpTime R)) (s : SWState Ket Bra ι) : Option (SWState Ket Bra ι) :=
  if s.n = 1 then some s
  else if s.dirLeft then
    if s.posL = 2 * s.n then moveWindow V ops false { s with dirLeft := false }
    else moveWindow V ops true s
  else
    if s.posR = 0 then moveWindow V ops true { s with dirLeft := true }
    else moveWindow V ops false s

/-- `get_state` (sliding_window.hpp:37-42). -/
structure SavedState where
  posL : ℕ
  posR : ℕ
  dirLeft : Bool
  n : ℕ
deriving DecidableEq, Repr

def getState (s : SWState Ket Bra ι) : SavedState := ⟨s.posL, s.posR, s.dirLeft, s.n⟩

/-- `restore_state` (sliding_window.ipp:515-523). -/
def restoreState (ops : OpSet (OpTime R)) (st : SavedState) (s : SWState Ket Bra ι) :
    Option (SWState Ket Bra ι) :=
  (setWindowSize V st.n ops st.posR st.dirLeft s).bind (moveLeftTo V ops st.posL)

/-- `compute_trace` (sliding_window.ipp:206-235); `none` for `back()` of an empty stack.  The test
of equal sectors before `product` is part of `product` itself (eigenbasis.ipp:364). -/
def computeTrace [Fintype ι] [AddCommMonoid K] (ops : OpSet (OpTime R)) (s : SWState Ket Bra ι) :
    Option K :=
  match s.left, s.right with
  | b :: _, k :: _ =>
    let tR := tauEdge V.beta s.n s.posR
    let tL := tauEdge V.beta s.n s.posL
    some (∑ i, if V.E.invK (k i) || V.E.invB (b i) then 0
      else V.E.product (b i) (evolveKet V.E (rangeCC ops tR tL) tR tL (k i)))
  | _, _ => none

end

end CTHyb
