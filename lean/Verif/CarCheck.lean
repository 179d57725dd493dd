import Verif.Fermion
import Mathlib.Data.List.FinRange
import Mathlib.Algebra.Ring.Defs
import Mathlib.Algebra.Order.Group.Abs

/-!
Model of the self-test of the operator matrices in a debug build: `FermionOperator::validate`
(src/model/hybfermion.hpp:73-94, called at 21-24), `anti_commutator` (hybfermion.hpp:95-96) and
`maxAbsCoeff` (src/util.hpp:84-94).

A sparse matrix of Eigen is a set of stored positions with values; a stored value may be zero.  Sums and
products of Eigen keep every position which can structurally differ from zero (no pruning).  Reading the
uninitialised variable `maxval` is the outcome `none`.
-/

namespace CTHyb

variable {d : ℕ} {R : Type}

/-- `Eigen::SparseMatrix<T>` of size `d` × `d` (column major): stored positions and their values. -/
structure Sp (d : ℕ) (R : Type) where
  pat : Fin d → Fin d → Bool
  val : Fin d → Fin d → R

/-- The stored values in the order of the loops of `maxAbsCoeff` (util.hpp:88-89): column by column, and
within a column by increasing row. -/
def Sp.entries (A : Sp d R) : List R :=
  (List.finRange d).flatMap fun c => ((List.finRange d).filter fun r => A.pat r c).map fun r => A.val r c

/-- One pass of the loop body (util.hpp:90); the state is `maxval` (`none` before the first assignment)
and `count`, which the loop never changes. -/
def maxAbsStep [AddGroup R] [LinearOrder R] (s : Option R × ℕ) (v : R) : Option R × ℕ :=
  (if s.2 = 0 then some |v| else s.1.map fun m => max |v| m, s.2)

/-- `maxAbsCoeff` (util.hpp:84-94). -/
def maxAbsCoeff [AddGroup R] [LinearOrder R] (A : Sp d R) : Option R :=
  (A.entries.foldl maxAbsStep (none, 0)).1

/-- Product of two sparse matrices (Eigen). -/
def Sp.mul [Semiring R] (A B : Sp d R) : Sp d R where
  pat r c := (List.finRange d).any fun k => A.pat r k && B.pat k c
  val r c := (((List.finRange d).filter fun k => A.pat r k && B.pat k c).map fun k =>
    A.val r k * B.val k c).sum

/-- Sum of two sparse matrices (Eigen): the union of the stored positions. -/
def Sp.add [Semiring R] (A B : Sp d R) : Sp d R where
  pat r c := A.pat r c || B.pat r c
  val r c := (if A.pat r c then A.val r c else 0) + (if B.pat r c then B.val r c else 0)

/-- Difference of two sparse matrices (Eigen). -/
def Sp.sub [Ring R] (A B : Sp d R) : Sp d R where
  pat r c := A.pat r c || B.pat r c
  val r c := (if A.pat r c then A.val r c else 0) - (if B.pat r c then B.val r c else 0)

/-- `c_i.transpose()` (hybfermion.hpp:69). -/
def Sp.transpose (A : Sp d R) : Sp d R := ⟨fun r c => A.pat c r, fun r c => A.val c r⟩

/-- `identity.setIdentity()` (hybfermion.hpp:74-75). -/
def Sp.one [Semiring R] : Sp d R := ⟨fun r c => decide (r = c), fun _ _ => 1⟩

/-- The freshly constructed `zero` (hybfermion.hpp:74): nothing is stored. -/
def Sp.zero [Semiring R] : Sp d R := ⟨fun _ _ => false, fun _ _ => 0⟩

/-- `anti_commutator` (hybfermion.hpp:95-96). -/
def antiComm [Semiring R] (A B : Sp d R) : Sp d R := (A.mul B).add (B.mul A)

/-- Outcome of `validate`. -/
inductive ValRes where
  | ok
  | throws
  /-- an uninitialised variable is read -/
  | ub
  deriving DecidableEq

/-- `if (maxAbsCoeff(…) > 1.e-5) throw …`, then the rest `k` (hybfermion.hpp:79-90). -/
def valStep [Ring R] [LinearOrder R] (eps : R) (A : Sp d R) (k : ValRes) : ValRes :=
  match maxAbsCoeff A with
  | none => .ub
  | some m => if m > eps then .throws else k

/-- The three tests for one pair of flavors (hybfermion.hpp:79-90), then the rest `k`. -/
def valPair [Ring R] [LinearOrder R] (eps : R) (c cdag : ℕ → Sp d R) (i j : ℕ) (k : ValRes) : ValRes :=
  valStep eps (antiComm (c i) (c j))
    (valStep eps (antiComm (cdag i) (cdag j))
      (valStep eps ((antiComm (cdag i) (c j)).sub (if i = j then Sp.one else Sp.zero)) k))

/-- `validate` (hybfermion.hpp:73-94) for `n` flavors; `eps` is `1.e-5`. -/
def validate [Ring R] [LinearOrder R] (eps : R) (n : ℕ) (c cdag : ℕ → Sp d R) : ValRes :=
  ((List.range n).flatMap fun i => (List.range n).map fun j => (i, j)).foldr
    (fun p k => valPair eps c cdag p.1 p.2 k) .ok

/-- `c_ops[i]` as it is stored after `setFromTriplets` (hybfermion.hpp:56-68). -/
def cSp (n i : ℕ) (R : Type) [Ring R] : Sp (2 ^ n) R where
  pat r c := (cTriplets n i).any fun t => decide (t.1 = r ∧ t.2.1 = c)
  val r c := ((fromTriplets (cTriplets n i) r c : ℤ) : R)

/-- `cdag_ops[i]` (hybfermion.hpp:69). -/
def cdagSp (n i : ℕ) (R : Type) [Ring R] : Sp (2 ^ n) R := (cSp n i R).transpose

end CTHyb
