import Verif.SlidingWindow

/-!
Model of `MeasCorrelation` (src/sliding_window/meas_correlation.ipp), the two-time correlation
functions, with `EqualTimeOperator<1>` (src/operator.hpp:319-358) and its application
(src/model/model.ipp:732-749).
-/

namespace CTHyb

/-- `EqualTimeOperator<1>`: `c†_{f0} c_{f1}` (operator.hpp:319-346). -/
structure CdagC where
  f0 : ℕ
  f1 : ℕ
deriving DecidableEq

/-- `operator<` (operator.hpp:348-358) for `N = 1`: the loop runs over `N`, not `2N`, flavours, so
only the first one is compared. -/
def CdagC.lt (a b : CdagC) : Bool := decide (a.f0 < b.f0)

/-- `std::set::insert` with this comparison: nothing happens if an equivalent element is there. -/
def obsInsert (x : CdagC) : List CdagC → List CdagC
  | [] => [x]
  | y :: ys => if x.lt y then x :: y :: ys else if y.lt x then y :: obsInsert x ys else y :: ys

/-- The set made of a list, in the order of the set (meas_correlation.ipp:10-15, 25-26). -/
def obsSet (l : List CdagC) : List CdagC := l.foldl (fun s x => obsInsert x s) []

/-- `std::distance(begin, find(x))` (meas_correlation.ipp:20-21). -/
def obsPos (x : CdagC) (s : List CdagC) : ℕ := s.findIdx (fun y => !x.lt y && !y.lt x)

section
variable {R Ket Bra K ι : Type}

/-- `apply_op_ket` for `c†c` (model.ipp:741-748). -/
def applyKet (E : Evol R Ket Bra K) (o : CdagC) (k : Ket) : Ket :=
  E.opK .creation o.f0 (E.opK .annihilation o.f1 k)

/-- `apply_op_bra` (model.ipp:732-739). -/
def applyBra (E : Evol R Ket Bra K) (o : CdagC) (b : Bra) : Bra :=
  E.opB .annihilation o.f1 (E.opB .creation o.f0 b)

variable [Field R] [LinearOrder R]

/-- The ket with the right operator at the first point, evolved to point `i`; the ranges are closed
on the right-hand side of the segment, open on the left-hand side
(meas_correlation.ipp:58, 70-80). -/
def corrKet (E : Evol R Ket Bra K) (ops : OpSet (OpTime R)) (tau : ℕ → R) (o : CdagC) (k : Ket) :
    ℕ → Ket
  | 0 => applyKet E o k
  | i + 1 => evolveKet E (rangeCO ops (tau i) (tau (i + 1))) (tau i) (tau (i + 1))
      (corrKet E ops tau o k i)

/-- The bra evolved from the last point `last` down to point `last - d`; the ranges are closed on both
sides (meas_correlation.ipp:59, 84-88). -/
def corrBra (E : Evol R Ket Bra K) (ops : OpSet (OpTime R)) (tau : ℕ → R) (last : ℕ) (b : Bra) :
    ℕ → Bra
  | 0 => b
  | d + 1 => evolveBra E (rangeCC ops (tau (last - (d + 1))) (tau (last - (d + 1) + 1)))
      (tau (last - (d + 1) + 1)) (tau (last - (d + 1))) (corrBra E ops tau last b d)

/-- `perform_meas` (meas_correlation.ipp:28-111) for `N` points; `result icorr itau` for
`itau < N`; `none` for an exception, an empty stack, or an observable not found. -/
def corrMeas [Fintype ι] [AddCommMonoid K] (V : SWEnv R Ket Bra K ι)
    (correlators : List (CdagC × CdagC)) (N : ℕ) (ops : OpSet (OpTime R)) (s : SWState Ket Bra ι) :
    Option (SWState Ket Bra ι × (ℕ → ℕ → Option K)) :=
  (setWindowSize V (2 * (N - 1)) ops (N - 1) true s).bind fun s1 =>
  (moveLeftTo V ops (N - 1 + 2 * (N - 1)) s1).bind fun s2 =>
    match s2.left, s2.right with
    | bL :: _, kR :: _ =>
      let tau := fun i => tauEdge V.beta s2.n (N - 1 + 2 * i)
      let leftSet := obsSet (correlators.map Prod.fst)
      let rightSet := obsSet (correlators.map Prod.snd)
      let result := fun ic it =>
        match correlators[ic]? with
        | none => none
        | some (ol, or) =>
          match leftSet[obsPos ol leftSet]?, rightSet[obsPos or rightSet]? with
          | some l, some r =>
            some (∑ i, V.E.product
              (applyBra V.E l (corrBra V.E ops tau (N - 1) (bL i) (N - 1 - it)))
              (corrKet V.E ops tau r (kR i) it))
          | _, _ => none
      (restoreState V ops (getState s) s2).map fun s3 => (s3, result)
    | _, _ => none

end

end CTHyb
