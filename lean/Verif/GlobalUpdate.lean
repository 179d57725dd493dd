import Verif.LocalUpdate
import Verif.SlidingWindow
import Verif.TimeDet
import Verif.CombSort

/-!
Model of `global_update` and of the determinant ratio it uses (src/moves/moves.ipp:693-895).

The trace of the new operators is `compute_trace` of the sliding window instead of
`lazy_eval_trace` with cutoff 0 (which is the same up to its relative precision, C25).  The full
pivoting LU decomposition of Eigen is a parameter `lu`; what is assumed of it is stated where it
is used.  `sanity_check` is not modelled.
-/

namespace CTHyb

variable {R K S Ket Bra ι : Type}

section
variable [Field K] [Field R] [LinearOrder R] [IsStrictOrderedRing R]

/-- `std::abs(*std::max_element(..., AbsLessor))` (moves.ipp:706): the largest absolute value.
For an empty vector the code dereferences the end; it is called with non-empty vectors only
(moves.ipp:792-794). -/
def maxAbs (abv : AbsoluteValue K R) (l : List K) : R := l.foldl (fun m x => max m (abv x)) 0

/-- Body of the loop of `compute_det_rat` (moves.ipp:709-716); `m` is the largest absolute
value. -/
def detRatStep (abv : AbsoluteValue K R) (eps m : R) (new old : List K) (r : K) (i : ℕ) : K :=
  let r1 := match new[i]? with
    | some x => if eps < abv x / m then r * x else r
    | none => r
  match old[i]? with
    | some y => r1 / y
    | none => r1

/-- `compute_det_rat` for two vectors of factors (moves.ipp:698-718): factors of the new
determinant which are smaller than `eps` times the largest one are left out. -/
def detRatVec (abv : AbsoluteValue K R) (eps : R) (new old : List K) : K :=
  (List.range (max new.length old.length)).foldl
    (detRatStep abv eps (maxAbs abv new) new old) 1

/-- `std::sort(..., AbsGreater)` (moves.ipp:797-798). -/
def sortAbs (abv : AbsoluteValue K R) (l : List K) : List K :=
  l.mergeSort (fun a b => decide (abv b ≤ abv a))

/-- `v[0] *= s` (moves.ipp:731, 805). -/
def mulHead (s : K) : List K → List K
  | [] => []
  | x :: l => s * x :: l

end

section
variable [Field R] [LinearOrder R] [IsStrictOrderedRing R] [Field K]

/-- The operators of block `b` (moves.ipp:745-750). -/
def inBlock (blockOf : ℕ → ℕ) (b : ℕ) (l : List (TPsi R)) : List (TPsi R) :=
  l.filter (fun o => blockOf o.flavor = b)

/-- The matrix of a block (moves.ipp:766-771). -/
def blockMat (G : TPsi R → TPsi R → K) (cs cds : List (TPsi R)) (h : cds.length = cs.length) :
    Matrix (Fin cs.length) (Fin cs.length) K :=
  Matrix.of fun i j => G (cs.get i) (cds.get (j.cast h.symm))

/-- The loop over the blocks (moves.ipp:756-783): factors of the determinant, creation and
annihilation operators in the order of the blocks; `none` if the numbers of operators in a block
differ. -/
def blockLoop (G : TPsi R → TPsi R → K) (lu : (n : ℕ) → Matrix (Fin n) (Fin n) K → List K)
    (blockOf : ℕ → ℕ) (cds cs : List (TPsi R)) :
    List ℕ → Option (List K × List (TPsi R) × List (TPsi R))
  | [] => some ([], [], [])
  | b :: bs =>
    let d := inBlock blockOf b cds
    let c := inBlock blockOf b cs
    if h : d.length = c.length then
      (blockLoop G lu blockOf cds cs bs).map fun p =>
        (lu c.length (blockMat G c d h) ++ p.1, d ++ p.2.1, c ++ p.2.2)
    else none

/-- `comb_sort(..., std::less<OperatorTime>())` (moves.ipp:802-803), the sign returned. -/
def combSortAsc (l : List (OpTime R)) : ℤ :=
  match combSort (fun a b : OpTime R => a < b) shrink13 (combFuel l.length) l.get with
  | some p => p.2
  | none => 0

/-- `compute_det_rat` for operators (moves.ipp:736-807): the ratio, `det_vec_old` sorted, and
`det_vec_new` (which is used only if the update is accepted, so its contents in the two early
exits do not matter). -/
def computeDetRat (abv : AbsoluteValue K R) (eps : R) (G : TPsi R → TPsi R → K)
    (lu : (n : ℕ) → Matrix (Fin n) (Fin n) K → List K) (blockOf : ℕ → ℕ) (nb : ℕ)
    (cds cs : List (TPsi R)) (old : List K) : K × List K × List K :=
  match blockLoop G lu blockOf cds cs (List.range nb) with
  | none => (0, old, [])
  | some (new, d, c) =>
    if new.isEmpty then (0, old, [])
    else
      let old' := sortAbs abv old
      let new' := sortAbs abv new
      let s : K := ((combSortAsc (d.map Psi.time) * combSortAsc (c.map Psi.time) : ℤ) : K)
      (s * detRatVec abv eps new' old', old', mulHead s new')

/-- `operators_new.insert(...)` into a new container (moves.ipp:840-850); operators with a time
that is already present are dropped. -/
def insertAll (s : OpSet (OpTime R)) (l : List (TPsi R)) : OpSet (OpTime R) :=
  l.foldl (fun s o => (s.insert o).1) s

/-- What `global_update` changes: the configuration, the factors of the determinant, and the
sliding window. -/
structure GState (R K S Ket Bra ι : Type) where
  cfg : Cfg (OpTime R) K S
  detVec : List K
  sw : SWState Ket Bra ι

/-- The fixed ingredients of a global update: hybridization function, LU factors, block of each
flavor, number of blocks, the constructor of the determinant matrix from lists of creation and
annihilation operators, the permutation sign, `x/|x|`, and the tolerance 1e-30. -/
structure GEnv (R K S Ket Bra ι : Type) [Ring K] [PartialOrder R] [Semiring R] where
  V : SWEnv R Ket Bra K ι
  D : DetOps (OpTime R) K S
  G : TPsi R → TPsi R → K
  lu : (n : ℕ) → Matrix (Fin n) (Fin n) K → List K
  blockOf : ℕ → ℕ
  nb : ℕ
  build : List (TPsi R) → List (TPsi R) → S
  permFn : List (TPsi R) → List (TPsi R) → List (TPsi R) → Int
  sgn : K → K
  abv : AbsoluteValue K R
  eps : R

/-- `global_update` (moves.ipp:810-895) with the transformation `f` of the hybridized operators
and `fw` of the worm operators, the random number `r` and the number of windows `nwin`.  The
result is `none` if the sliding window throws. -/
def globalUpdate [DecidableEq K] [Fintype ι] (E : GEnv R K S Ket Bra ι) (f : TPsi R → TPsi R)
    (fw : List (TPsi R) → List (TPsi R)) (r : R) (nwin : ℕ) (s : GState R K S Ket Bra ι) :
    Option (GState R K S Ket Bra ι × Bool) :=
  if (E.D.cdagg s.cfg.M).length = 0 then some (s, true)
  else
    let cds := (E.D.cdagg s.cfg.M).map f
    let cs := (E.D.cs s.cfg.M).map f
    let worm := s.cfg.worm.map fw
    let ops := insertAll (insertAll (insertAll [] cds) cs) (wormOps worm)
    (setWindowSize E.V 1 s.cfg.ops 0 true s.sw).bind fun w1 =>
    (setWindowSize E.V nwin ops 0 true w1).bind fun w2 =>
    (computeTrace E.V ops w2).bind fun tr =>
    (setWindowSize E.V 1 s.cfg.ops 0 true w2).bind fun w3 =>
    if tr = 0 then some ({ s with sw := w3 }, false)
    else
      let dr := computeDetRat E.abv E.eps E.G E.lu E.blockOf E.nb cds cs s.detVec
      let prob := dr.1 * (tr / s.cfg.trace)
      if r < E.abv prob then
        let M := E.build cds cs
        let permNew := E.permFn (E.D.cdagg M) (E.D.cs M) (wormOps worm)
        some ({ cfg := { ops := ops, M := M, trace := tr,
                         sign := s.cfg.sign * ((permNew : K) / (s.cfg.permSign : K) * E.sgn prob),
                         permSign := permNew, worm := worm }
                detVec := dr.2.2
                sw := w3 }, true)
      else some ({ s with detVec := dr.2.1, sw := w3 }, false)

end
end CTHyb
