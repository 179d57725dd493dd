import Mathlib.Data.Matrix.Mul
import Mathlib.Data.Nat.Bitwise
import Mathlib.Data.Matrix.Basis

/-!
Model of `FermionOperator` (src/model/hybfermion.hpp:13-110).  A basis state is a number below
`2^n`; bit `i` belongs to flavour `i`.
-/

namespace CTHyb

/-- The loop computing `permutation_sign` (hybfermion.hpp:60-61). -/
def permSignBits (n i s : ℕ) : ℤ :=
  ((List.range n).filter (fun k => decide (i + 1 ≤ k))).foldl
    (fun sg k => if s.testBit k then sg * -1 else sg) 1

/-- The list of triplets (row, column, value) for flavour `i` (hybfermion.hpp:56-65). -/
def cTriplets (n i : ℕ) : List (ℕ × ℕ × ℤ) :=
  ((List.range (2 ^ n)).filter (fun s => s.testBit i)).map
    (fun s => (s, s ^^^ 2 ^ i, permSignBits n i s))

/-- `setFromTriplets` sums the values of equal positions (Eigen). -/
def fromTriplets (l : List (ℕ × ℕ × ℤ)) (r c : ℕ) : ℤ :=
  ((l.filter (fun t => decide (t.1 = r ∧ t.2.1 = c))).map (fun t => t.2.2)).sum

/-- `c_ops[i]` (hybfermion.hpp:66-68). -/
def cOp (n i : ℕ) : Matrix (Fin (2 ^ n)) (Fin (2 ^ n)) ℤ :=
  Matrix.of fun r c => fromTriplets (cTriplets n i) r c

/-- `cdag_ops[i]` (hybfermion.hpp:69). -/
def cdagOp (n i : ℕ) : Matrix (Fin (2 ^ n)) (Fin (2 ^ n)) ℤ := (cOp n i).transpose

end CTHyb
