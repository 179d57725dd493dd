import Verif.Simulation
import Verif.PartitionedProps
import Verif.TraceBoundProps
import Verif.PermSign

/-!
The simulation with the parts of the code put in: `DeterminantMatrixPartitioned` as determinant
matrix, the impurity model in its eigenbasis as evolution, the lazy evaluation with the bounds of
the spectral norms as evaluation of the trace, `compute_permutation_sign_impl` as permutation sign and
`x/|x|` as sign.
-/

namespace CTHyb

open Matrix

variable {𝕜 : Type} [RCLike 𝕜] [DecidableEq 𝕜] {N : ℕ}

/-- State of the determinant matrix in the simulation; a failure is kept. -/
abbrev CodeDet (𝕜 : Type) := Except DErr (PM (OpTime ℝ) 𝕜)

/-- What enters the simulation from outside: impurity model and parameters of its eigenbasis, β, the
bound `lim` of the exponents in `compute_exp`, the order in which the lazy evaluation visits the
sectors, the sectors of flavors and the hybridization function, the LU decomposition, and the
tolerance of the determinant ratio in global updates. -/
structure CodeArgs (𝕜 : Type) [RCLike 𝕜] (N : ℕ) where
  B : ImpBase 𝕜 N
  p : EBParams 𝕜
  beta : ℝ
  lim : ℝ
  sortIdx : (Fin (ebBrakets B p).length → ℝ) → List (Fin (ebBrakets B p).length)
  P : PEnv
  G : TPsi ℝ → TPsi ℝ → 𝕜
  lu : (n : ℕ) → Matrix (Fin n) (Fin n) 𝕜 → List 𝕜
  eps : ℝ

variable (A : CodeArgs 𝕜 N)

/-- Block of a flavor (`block_belonging_to`, determinant_matrix_partitioned.hpp:133-136; flavors which do not exist get a
number which is not that of a block, in the code they are an access out of bounds). -/
def CodeArgs.blockOf (f : ℕ) : ℕ := if f < A.P.nf then A.P.sector f else A.P.ns

/-- The constructor of the determinant matrix from lists of operators as used in
src/moves/moves.ipp:869-878. -/
noncomputable def CodeArgs.build (cds cs : List (TPsi ℝ)) : CodeDet 𝕜 := PM.build A.P A.G (cds.zip cs)

/-- The parts of the code. -/
noncomputable def CodeArgs.env :
    SimEnv ℝ 𝕜 (CodeDet 𝕜) (BK 𝕜) (BK 𝕜) (Fin (ebBrakets A.B A.p).length) where
  V := ebEnv A.B A.p A.beta
  D := pmOps A.P A.G
  G := A.G
  lu := A.lu
  blockOf := A.blockOf
  nb := A.P.ns
  build := A.build
  permFn := permSignImpl
  sgn := fun x => x / ((‖x‖ : ℝ) : 𝕜)
  abv := normAbs 𝕜
  eps := A.eps
  tr := windowTrace A.B A.p A.lim A.beta 0 A.sortIdx
  emb := algebraMap ℝ 𝕜
  factors := fun x => match x with
    | .ok s => s.detFactors (normAbs 𝕜) A.lu A.P
    | .error _ => []
  M0 := .ok PM.empty

end CTHyb
