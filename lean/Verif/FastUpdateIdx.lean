import Verif.FastUpdate
import Mathlib.LinearAlgebra.Matrix.Determinant.Basic

/-!
Model of the fast-update formulas for the removal of rows and columns at given positions
(include/alps/fastupdate/detail/fastupdate_formula.ipp:112-143 and 168-217).

The positions are vectors with at least `M` entries of which the first `M` are read: functions
`Fin M → Fin (N + M)`.  A position outside the matrix (undefined behaviour in release builds)
cannot be written in this type.  `M = 0`, which the second function rejects with an exception, is
the caller's business; the formulas below are the code for `M > 0`.
-/

namespace CTHyb

open Matrix

variable {K : Type} [Field K] {N M : ℕ}

/-- The variable `perm` of `compute_det_ratio_down` (fastupdate_formula.ipp:130-133). -/
def permCount (rows cols : Fin M → Fin (N + M)) : ℕ :=
  ∑ j, (((rows j : ℕ) : ℤ) - ((cols j : ℕ) : ℤ)).natAbs

/-- `compute_det_ratio_down` with index lists (fastupdate_formula.ipp:115-143): the element
`H(i,j)` is `invG(cols_removed[i], rows_removed[j])`. -/
def detRatioDownIdx (rows cols : Fin M → Fin (N + M))
    (invG : Matrix (Fin (N + M)) (Fin (N + M)) K) : K :=
  let H : Matrix (Fin M) (Fin M) K := Matrix.of fun i j => invG (cols i) (rows j)
  if permCount rows cols % 2 = 0 then H.det else -H.det

/-- `swap_col(a, b)` (resizable_matrix.hpp:172-177). -/
def swapCols (A : Matrix (Fin (N + M)) (Fin (N + M)) K) (a b : Fin (N + M)) :
    Matrix (Fin (N + M)) (Fin (N + M)) K := Matrix.of fun i j => A i (Equiv.swap a b j)

/-- `swap_row(a, b)` (resizable_matrix.hpp:164-169). -/
def swapRows (A : Matrix (Fin (N + M)) (Fin (N + M)) K) (a b : Fin (N + M)) :
    Matrix (Fin (N + M)) (Fin (N + M)) K := Matrix.of fun i j => A (Equiv.swap a b i) j

/-- The first `k` turns of the loop of step 1 of `compute_inverse_matrix_down` with index lists
(fastupdate_formula.ipp:198-202). -/
def moveToEnd (rows cols : Fin M → Fin (N + M)) (A : Matrix (Fin (N + M)) (Fin (N + M)) K) :
    ℕ → Matrix (Fin (N + M)) (Fin (N + M)) K
  | 0 => A
  | k + 1 =>
    if h : k < M then
      swapRows
        (swapCols (moveToEnd rows cols A k) (rows ⟨M - 1 - k, by omega⟩)
          ⟨N + M - 1 - k, by omega⟩)
        (cols ⟨M - 1 - k, by omega⟩) ⟨N + M - 1 - k, by omega⟩
    else moveToEnd rows cols A k

/-- `compute_inverse_matrix_down` with index lists (fastupdate_formula.ipp:168-217): step 1 moves
the rows and columns to the end, step 2 subtracts `F H⁻¹ G` and shrinks the matrix. -/
noncomputable def inverseDownIdx (rows cols : Fin M → Fin (N + M))
    (invG : Matrix (Fin (N + M)) (Fin (N + M)) K) : Matrix (Fin N) (Fin N) K :=
  let A := moveToEnd rows cols invG M
  let E : Matrix (Fin N) (Fin N) K := Matrix.of fun i j => A (Fin.castAdd M i) (Fin.castAdd M j)
  let F : Matrix (Fin N) (Fin M) K := Matrix.of fun i j => A (Fin.castAdd M i) (Fin.natAdd N j)
  let L : Matrix (Fin M) (Fin N) K := Matrix.of fun i j => A (Fin.natAdd N i) (Fin.castAdd M j)
  let H : Matrix (Fin M) (Fin M) K := Matrix.of fun i j => A (Fin.natAdd N i) (Fin.natAdd N j)
  E - F * H⁻¹ * L

end CTHyb
