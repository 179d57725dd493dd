import Mathlib.LinearAlgebra.Matrix.SchurComplement
import Mathlib.LinearAlgebra.Matrix.NonsingularInverse

/-!
Model of the fast-update formulas (include/alps/fastupdate/detail/fastupdate_formula.ipp).

Matrices are Mathlib matrices over a field, index types are arbitrary finite types; the block
`(0,0,N,N)` of the code is the first summand of a sum type.  `safe_determinant` and
`safe_inverse` (detail/util.hpp) are exact determinant and inverse.  The branches `N == 0` of the
code are the same formulas on an empty index type.
-/

namespace CTHyb

open Matrix

variable {K : Type} [Field K]
variable {n m m' : Type} [Fintype n] [Fintype m] [Fintype m'] [DecidableEq n] [DecidableEq m]
  [DecidableEq m']

/-- `compute_det_ratio_up` (fastupdate_formula.ipp:32-55). -/
def detRatioUp (B : Matrix n m K) (C : Matrix m n K) (D : Matrix m m K) (invA : Matrix n n K) : K :=
  (D - C * invA * B).det

/-- `compute_inverse_matrix_up` (fastupdate_formula.ipp:57-107): the new content of `invA`. -/
noncomputable def inverseUp (B : Matrix n m K) (C : Matrix m n K) (D : Matrix m m K)
    (invA : Matrix n n K) : Matrix (n ⊕ m) (n ⊕ m) K :=
  let CinvA := C * invA
  let H := (D - CinvA * B)⁻¹
  let invAB := invA * B
  let F := -invAB * H
  let G := -H * CinvA
  let E := invA - invAB * G
  fromBlocks E F G H

/-- `compute_det_ratio_down` without index lists (fastupdate_formula.ipp:147-168): determinant
of the lower right block of the inverse. -/
def detRatioDown (invG : Matrix (n ⊕ m) (n ⊕ m) K) : K := invG.toBlocks₂₂.det

/-- `compute_inverse_matrix_down` without index lists (fastupdate_formula.ipp:219-254). -/
noncomputable def inverseDown (invG : Matrix (n ⊕ m) (n ⊕ m) K) : Matrix n n K :=
  invG.toBlocks₁₁ - invG.toBlocks₁₂ * (invG.toBlocks₂₂)⁻¹ * invG.toBlocks₂₁

/-- `Mmat_` of `ReplaceHelper::compute_det_ratio` (fastupdate_formula.ipp:305-308). -/
noncomputable def replaceMmat (invG : Matrix (n ⊕ m') (n ⊕ m') K) : Matrix n n K :=
  invG.toBlocks₁₁ - invG.toBlocks₁₂ * (invG.toBlocks₂₂)⁻¹ * invG.toBlocks₂₁

/-- `inv_tSp_` of `ReplaceHelper::compute_det_ratio` (fastupdate_formula.ipp:311-312). -/
def replaceInvTSp (Mmat : Matrix n n K) (Q : Matrix n m K) (R : Matrix m n K) (S : Matrix m m K) :
    Matrix m m K := S - R * (Mmat * Q)

/-- `ReplaceHelper::compute_det_ratio` (fastupdate_formula.ipp:283-315), including the branch
`N_ == 0` and the "FIX ME" branch which returns 0 if the intermediate state is singular. -/
noncomputable def replaceDetRatio [DecidableEq K] (invG : Matrix (n ⊕ m') (n ⊕ m') K)
    (Q : Matrix n m K) (R : Matrix m n K) (S : Matrix m m K) : K :=
  if Fintype.card n = 0 then S.det * invG.det
  else if invG.toBlocks₂₂.det = 0 then 0
  else invG.toBlocks₂₂.det * (replaceInvTSp (replaceMmat invG) Q R S).det

/-- `ReplaceHelper::compute_inverse_matrix` (fastupdate_formula.ipp:317-356); `Mmat` and
`invTSp` are the members left behind by `compute_det_ratio`. -/
noncomputable def replaceInverse (Mmat : Matrix n n K) (invTSp : Matrix m m K)
    (Q : Matrix n m K) (R : Matrix m n K) (S : Matrix m m K) : Matrix (n ⊕ m) (n ⊕ m) K :=
  if Fintype.card n = 0 then fromBlocks 0 0 0 S⁻¹
  else
    let tSp := invTSp⁻¹
    let tQp := -Mmat * (Q * tSp)
    let tRp := -(tSp * R) * Mmat
    let tPp := Mmat - (Mmat * Q) * tRp
    fromBlocks tPp tQp tRp tSp

/-- `compute_det_ratio_relace_last_row` (fastupdate_formula.ipp:361-369); `l` is the last
index. -/
def detRatioRow (invG : Matrix n n K) (l : n) (row : n → K) : K := ∑ k, row k * invG k l

/-- `compute_inverse_matrix_replace_last_row` (fastupdate_formula.ipp:374-394). -/
def inverseRow (invG : Matrix n n K) (l : n) (row : n → K) (detRat : K) : Matrix n n K :=
  let lastCol := fun k => invG k l
  let R := fun j => if j = l then 0 else ∑ k, row k * invG k j
  let inv := 1 / detRat
  fun i j => if j = l then lastCol i * inv else invG i j - lastCol i * R j * inv

/-- `compute_det_ratio_relace_last_col` (fastupdate_formula.ipp:399-407). -/
def detRatioCol (invG : Matrix n n K) (l : n) (col : n → K) : K := ∑ k, invG l k * col k

/-- `compute_inverse_matrix_replace_last_col` (fastupdate_formula.ipp:412-434). -/
def inverseCol (invG : Matrix n n K) (l : n) (col : n → K) (detRat : K) : Matrix n n K :=
  let lastRow := fun k => invG l k
  let R := fun i => if i = l then 0 else ∑ k, invG i k * col k
  let inv := 1 / detRat
  fun i j => if i = l then lastRow j * inv else invG i j - lastRow j * R i * inv

end CTHyb
