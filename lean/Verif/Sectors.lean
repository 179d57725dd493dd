import Verif.Clustering
import Verif.Fermion
import Mathlib.Algebra.BigOperators.Fin

/-!
Model of `hilbert_space_partioning` (src/model/model.ipp:508-730) and its helpers
`merge_according_to_c_or_cdag` (model.ipp:436-464) and `split_op_into_sectors` (model.ipp:466-506).

A sparse matrix is read only through the loop over its stored elements, column by column; the model
keeps the list of stored positions in that order.  Eigen's pruning is a Boolean test on the value.
-/

namespace CTHyb

/-- The stored positions `(row, col)` of a matrix after pruning with the test `keep`, in the order
of the loops `for k < outerSize, InnerIterator it(mat, k)` (column major). -/
def storedEntries {K : Type} {N : ℕ} (keep : K → Bool) (M : Matrix (Fin N) (Fin N) K) : List (ℕ × ℕ) :=
  (List.finRange N).flatMap fun c =>
    ((List.finRange N).filter fun r => keep (M r c)).map fun r => (r.val, c.val)

/-- `block_mat(i, j) != 0` in `merge_according_to_c_or_cdag` (model.ipp:446-450): the number of
stored elements between the clusters `i` (row) and `j` (column) is not zero. -/
def blockNonzero (lab : ℕ → ℕ) (entries : List (ℕ × ℕ)) (i j : ℕ) : Bool :=
  entries.any fun e => lab e.1 == i && lab e.2 == j

/-- The connections made by `merge_according_to_c_or_cdag` for one operator (model.ipp:452-463). -/
def mergeEdges (lab : ℕ → ℕ) (nc : ℕ) (entries : List (ℕ × ℕ)) : List (ℕ × ℕ) :=
  (List.range nc).flatMap fun i =>
    match (List.range nc).filter fun j => blockNonzero lab entries i j with
    | [] => []
    | r0 :: rs => rs.map fun r => (r0, r)

/-- `sector_of_state` and the number of sectors (model.ipp:604-629).  `ham`: stored elements of the
Hamiltonian; `ops`: stored elements of the creation and annihilation operators in the order of the
calls.  `none` would be a non-terminating label search; `C19_clusters` excludes it. -/
def sectorsOf (N : ℕ) (ham : List (ℕ × ℕ)) (ops : List (List (ℕ × ℕ))) : Option (ℕ × (ℕ → ℕ)) :=
  (clusterLabels N ham).bind fun cl =>
  (clusterLabels cl.numClusters (ops.flatMap (mergeEdges cl.label cl.numClusters))).map fun cl2 =>
    (cl2.numClusters, fun s => cl2.label (cl.label s))

/-- `index_of_state_in_sector` (model.ipp:623-629): the number of earlier states in the sector. -/
def indexInSector (sec : ℕ → ℕ) (s : ℕ) : ℕ :=
  ((List.range s).filter fun t => sec t == sec s).length

/-- `dim_sectors` (model.ipp:630-633). -/
def dimSector (N : ℕ) (sec : ℕ → ℕ) (a : ℕ) : ℕ :=
  ((List.range N).filter fun t => sec t == a).length

/-- The destination sectors written by `split_op_into_sectors` (model.ipp:482-492); `none` is the
value -1.  A later element overwrites the value of an earlier one. -/
def dstSector (sec : ℕ → ℕ) (entries : List (ℕ × ℕ)) (src : ℕ) : Option ℕ :=
  entries.foldl (fun d e => if sec e.2 = src then some (sec e.1) else d) none

/-- The block `op_sectors[src]` built from the triplets (model.ipp:485-505): triplets with equal
position are summed. -/
def sectorBlock {K : Type} [AddCommMonoid K] {N : ℕ} (keep : K → Bool) (sec : ℕ → ℕ)
    (M : Matrix (Fin N) (Fin N) K) (src i j : ℕ) : K :=
  (((List.finRange N).flatMap fun c =>
      ((List.finRange N).filter fun r => keep (M r c)).map fun r => (r, c)).filter
    (fun e => decide (sec e.2 = src ∧ indexInSector sec e.1 = i ∧ indexInSector sec e.2 = j))
    |>.map fun e => M e.1 e.2).sum

/-- The Hamiltonian matrix (model.ipp:567-588).  `big` is the test `std::abs(x) > eps_numerics`. -/
def hamMatrix {K : Type} [CommRing K] {n : ℕ} (big : K → Bool)
    (U : Fin n → Fin n → Fin n → Fin n → K) (t : Fin n → Fin n → K) :
    Matrix (Fin (2 ^ n)) (Fin (2 ^ n)) K :=
  let c := fun i : Fin n => (cOp n i).map (Int.cast : ℤ → K)
  let cd := fun i : Fin n => (cdagOp n i).map (Int.cast : ℤ → K)
  (∑ f1, ∑ f2, ∑ f3, ∑ f4,
    if big (U f1 f2 f3 f4) then U f1 f2 f3 f4 • (cd f1 * cd f2 * c f3 * c f4) else 0) +
  ∑ f2, ∑ f1, if big (t f1 f2) then t f1 f2 • (cd f1 * c f2) else 0

/-- The stored elements of all creation and annihilation operators in the order of the calls
(model.ipp:608-611). -/
def opEntries (n : ℕ) : List (List (ℕ × ℕ)) :=
  (List.finRange n).flatMap fun i : Fin n =>
    [storedEntries (fun x : ℤ => x != 0) (cdagOp n i), storedEntries (fun x : ℤ => x != 0) (cOp n i)]

end CTHyb
