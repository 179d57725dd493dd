import Verif.Sectors
import Verif.SlidingWindow
import Mathlib.Analysis.SpecialFunctions.Exp
import Mathlib.Analysis.RCLike.Basic

/-!
Model of `ImpurityModelEigenBasis` (src/model/eigenbasis.ipp): eigenbasis of the local Hamiltonian
sector by sector, removal of high-energy states, creation and annihilation operators in this basis,
outer states, and the functions acting on bras and kets.

Simplifications: energies and matrix elements are exact (`𝕜` is ℝ or ℂ); the eigensolver of the
library is a parameter; the coefficient of a bra or ket is multiplied into its matrix; the relative
cutoffs 1E-30 of `normalize` and `apply_op_hyb_*` and exp(-60) of `compute_exp_vector_safe` are
taken to be 0 (the last one is modelled separately as `expSafe`); debug output, `check_evecs` and
the unused `overflow_prevention` (eigenbasis.ipp:188-195) are dropped.
-/

namespace CTHyb

/-- A dense matrix with its sizes; entries outside are zero. -/
structure DMat (K : Type) [Zero K] where
  rows : ℕ
  cols : ℕ
  v : ℕ → ℕ → K
  supp : ∀ i j, ¬ (i < rows ∧ j < cols) → v i j = 0

section dmat
variable {K : Type}

/-- A matrix given by sizes and a function. -/
def DMat.ofFn [Zero K] (r c : ℕ) (f : ℕ → ℕ → K) : DMat K where
  rows := r
  cols := c
  v := fun i j => if i < r ∧ j < c then f i j else 0
  supp := fun _ _ h => if_neg h

/-- The empty matrix (`resize(0, 0)`). -/
def DMat.empty [Zero K] : DMat K := DMat.ofFn 0 0 fun _ _ => 0

/-- The matrix product of Eigen.  Equal inner sizes are an assertion there. -/
def DMat.mul [NonUnitalNonAssocSemiring K] (A B : DMat K) : DMat K where
  rows := A.rows
  cols := B.cols
  v := fun i j => ∑ k ∈ Finset.range A.cols, A.v i k * B.v k j
  supp := by
    intro i j h
    apply Finset.sum_eq_zero
    intro k _
    by_cases hi : i < A.rows
    · rw [B.supp k j (fun h' => h ⟨hi, h'.2⟩), mul_zero]
    · rw [A.supp i k (fun h' => hi h'.1), zero_mul]

/-- `adjoint()`. -/
def DMat.adj [NonUnitalNonAssocSemiring K] [StarRing K] (A : DMat K) : DMat K where
  rows := A.cols
  cols := A.rows
  v := fun i j => star (A.v j i)
  supp := fun i j h => by rw [A.supp j i (fun h' => h ⟨h'.2, h'.1⟩), star_zero]

/-- `transpose()`. -/
def DMat.transp [Zero K] (A : DMat K) : DMat K where
  rows := A.cols
  cols := A.rows
  v := fun i j => A.v j i
  supp := fun i j h => A.supp j i (fun h' => h ⟨h'.2, h'.1⟩)

/-- Multiplication of the rows by a vector (eigenbasis.ipp:389-394). -/
def DMat.scaleRows [MulZeroClass K] (f : ℕ → K) (A : DMat K) : DMat K where
  rows := A.rows
  cols := A.cols
  v := fun i j => A.v i j * f i
  supp := fun i j h => by rw [A.supp i j h, zero_mul]

/-- Multiplication of the columns by a vector (eigenbasis.ipp:413-418). -/
def DMat.scaleCols [MulZeroClass K] (f : ℕ → K) (A : DMat K) : DMat K where
  rows := A.rows
  cols := A.cols
  v := fun i j => A.v i j * f j
  supp := fun i j h => by rw [A.supp i j h, zero_mul]

/-- Selection of the columns with the given indices, in this order (eigenbasis.ipp:74-85). -/
def DMat.selectCols [Zero K] (A : DMat K) (idx : List ℕ) : DMat K :=
  DMat.ofFn A.rows idx.length fun i j => A.v i (idx.getD j 0)

end dmat

/-- What the base class provides (model.ipp:508-730): Hamiltonian after pruning, creation and
annihilation operators, number of sectors and sector of a state. -/
structure ImpBase (𝕜 : Type) (N : ℕ) where
  H : Matrix (Fin N) (Fin N) 𝕜
  op : OpType → ℕ → Matrix (Fin N) (Fin N) 𝕜
  ns : ℕ
  sec : ℕ → ℕ

variable {𝕜 : Type} [RCLike 𝕜] {N : ℕ}

open Classical in
/-- The stored elements of a pruned matrix are the non-zero ones. -/
noncomputable def nz (x : 𝕜) : Bool := decide (x ≠ 0)

namespace ImpBase
variable (B : ImpBase 𝕜 N)

/-- `sector_connection` (model.ipp:657-687). -/
noncomputable def conn0 (y : OpType) (f s : ℕ) : Option ℕ :=
  dstSector B.sec (storedEntries nz (B.op y f)) s

/-- `sector_connection_reverse` (model.ipp:689-701): the last source sector wins. -/
noncomputable def rev0 (y : OpType) (f d : ℕ) : Option ℕ :=
  (List.range B.ns).foldl (fun r s => if B.conn0 y f s = some d then some s else r) none

/-- The block of a matrix stored for source sector `s` with destination `d` (model.ipp:499-505);
`ham_sectors[s]` for `d = s` (model.ipp:494-498, 645-655). -/
noncomputable def block (M : Matrix (Fin N) (Fin N) 𝕜) (d s : ℕ) : DMat 𝕜 :=
  DMat.ofFn (dimSector N B.sec d) (dimSector N B.sec s) fun i j => sectorBlock nz B.sec M s i j

end ImpBase

/-- Parameters of the eigenbasis: the eigensolver (eigenvalues, eigenvectors as columns) and the
two energy cutoffs `model.inner_outer_cutoff_energy`, `model.outer_cutoff_energy`. -/
structure EBParams (𝕜 : Type) [Zero 𝕜] where
  solve : DMat 𝕜 → List ℝ × DMat 𝕜
  inner : ℝ
  outer : ℝ

variable (B : ImpBase 𝕜 N) (p : EBParams 𝕜)

/-- Eigenvalues of a sector as copied from the solver (eigenbasis.ipp:139-149); no sector from
`num_sectors` on. -/
noncomputable def ebVals0 (s : ℕ) : List ℝ :=
  if s < B.ns then
    (List.range (dimSector N B.sec s)).map fun ie => (p.solve (B.block B.H s s)).1.getD ie 0
  else []

/-- `esolv.eigenvectors()` (eigenbasis.ipp:147). -/
noncomputable def ebVecs0 (s : ℕ) : DMat 𝕜 := (p.solve (B.block B.H s s)).2

/-- `std::min_element` of a non-empty range (as a value). -/
noncomputable def minElem : List ℝ → Option ℝ
  | [] => none
  | a :: l => some (l.foldl min a)

/-- The lowest energy returned by `min_max_energy_sectors` (eigenbasis.ipp:97-114); `none` stands
for the initial value `numeric_limits::max()`.  The highest energy is not used any more. -/
noncomputable def minEnergy (ns : ℕ) (vals : ℕ → List ℝ) : Option ℝ :=
  (List.range ns).foldl (fun acc s =>
    match minElem (vals s) with
    | none => acc
    | some m => match acc with
      | none => some m
      | some a => some (min a m)) none

/-- `min_eigenval_sector` as changed by `min_max_energy_sectors` (eigenbasis.ipp:104-109): not
changed for an empty sector. -/
noncomputable def minSectors (vals : ℕ → List ℝ) (old : ℕ → ℝ) (s : ℕ) : ℝ :=
  (minElem (vals s)).getD (old s)

/-- The indices kept by `remove_high_energy_states` (eigenbasis.ipp:78-81). -/
noncomputable def keptIdx (vals : List ℝ) (cut : ℝ) : List ℕ :=
  (List.range vals.length).filter fun ie => decide (vals.getD ie 0 ≤ cut)

/-- The inner cutoff (eigenbasis.ipp:153, 166). -/
noncomputable def ebCut : ℝ := (minEnergy B.ns (ebVals0 B p)).getD 0 + p.inner

/-- Indices kept in sector `s`. -/
noncomputable def ebKept (s : ℕ) : List ℕ := keptIdx (ebVals0 B p s) (ebCut B p)

/-- Eigenvalues after `remove_high_energy_states` (eigenbasis.ipp:64-87, 164-166). -/
noncomputable def ebVals1 (s : ℕ) : List ℝ := (ebKept B p s).map fun ie => (ebVals0 B p s).getD ie 0

/-- Eigenvectors after `remove_high_energy_states`. -/
noncomputable def ebVecs (s : ℕ) : DMat 𝕜 :=
  if (ebKept B p s).length = 0 then DMat.empty else (ebVecs0 B p s).selectCols (ebKept B p s)

/-- `reference_energy_` (eigenbasis.ipp:167, 197).  Without any state left the code has
`numeric_limits::max()`, which is not used for anything; here 0. -/
noncomputable def ebRef : ℝ := (minEnergy B.ns (ebVals1 B p)).getD 0

/-- `eigenvals_sector` (eigenbasis.ipp:201-204). -/
noncomputable def ebVals (s : ℕ) : List ℝ := (ebVals1 B p s).map fun e => e - ebRef B p

/-- `min_eigenval_sector` (eigenbasis.ipp:135, 153, 167, 205). -/
noncomputable def ebMinSec (s : ℕ) : ℝ :=
  minSectors (ebVals1 B p) (minSectors (ebVals0 B p) fun _ => 0) s - ebRef B p

/-- `is_sector_active` (eigenbasis.ipp:116-123). -/
noncomputable def ebActive (s : ℕ) : Bool := (ebVals B p s).length != 0

/-- `sector_connection` after the modification (eigenbasis.ipp:174-180) = `get_dst_sector_ket`. -/
noncomputable def ebConn (y : OpType) (f s : ℕ) : Option ℕ :=
  (B.conn0 y f s).filter fun d => (ebVals1 B p d).length != 0

/-- `sector_connection_reverse` after the modification (eigenbasis.ipp:181-183) =
`get_dst_sector_bra`. -/
noncomputable def ebRev (y : OpType) (f d : ℕ) : Option ℕ :=
  (B.rev0 y f d).filter fun s => (ebVals1 B p s).length != 0

/-- `ddag_ops_eigen[f][s]`, `d_ops_eigen[f][s]` (eigenbasis.ipp:208-234). -/
noncomputable def ebOp (y : OpType) (f s : ℕ) : DMat 𝕜 :=
  match ebConn B p y f s with
  | none => DMat.empty
  | some d =>
    if ebActive B p d && ebActive B p s then
      ((ebVecs B p d).adj.mul (B.block (B.op y f) d s)).mul (ebVecs B p s)
    else DMat.empty

/-- A bra or ket (model.hpp:41-128); sector `none` is `nirvana`. -/
structure BK (K : Type) [Zero K] where
  sector : Option ℕ
  obj : DMat K

/-- `set_invalid` (model.hpp:65-68). -/
def BK.nirvana {K : Type} [Zero K] : BK K := ⟨none, DMat.empty⟩

/-- `invalid()` (model.hpp:61-63). -/
def BK.invalid {K : Type} [Zero K] (b : BK K) : Bool :=
  b.sector.isNone || b.obj.rows == 0 || b.obj.cols == 0

open Classical in
/-- The effect of `normalize` on the represented state (model.hpp:103-110): a zero matrix makes the
state invalid. -/
noncomputable def BK.normalize {K : Type} [Zero K] (b : BK K) : BK K :=
  if b.invalid then b
  else if ∀ i j, b.obj.v i j = 0 then BK.nirvana else b

/-- `apply_op_hyb_ket` (eigenbasis.ipp:299-327). -/
noncomputable def ebOpK (y : OpType) (f : ℕ) (k : BK 𝕜) : BK 𝕜 :=
  if k.invalid then k
  else match k.sector with
    | none => k
    | some s => match ebConn B p y f s with
      | none => BK.nirvana
      | some d => BK.normalize ⟨some d, (ebOp B p y f s).mul k.obj⟩

/-- `apply_op_hyb_bra` (eigenbasis.ipp:329-358). -/
noncomputable def ebOpB (y : OpType) (f : ℕ) (b : BK 𝕜) : BK 𝕜 :=
  if b.invalid then b
  else match b.sector with
    | none => b
    | some d => match ebRev B p y f d with
      | none => BK.nirvana
      | some s => BK.normalize ⟨some s, b.obj.mul (ebOp B p y f s)⟩

/-- The exponential factors in `sector_propagate_ket/bra`. -/
noncomputable def ebExp (s : ℕ) (t : ℝ) (i : ℕ) : 𝕜 :=
  ((Real.exp (-t * (ebVals B p s).getD i 0) : ℝ) : 𝕜)

/-- `sector_propagate_ket` (eigenbasis.ipp:372-396). -/
noncomputable def ebPropK (t : ℝ) (k : BK 𝕜) : BK 𝕜 :=
  if k.invalid then k
  else match k.sector with
    | none => k
    | some s => ⟨some s, k.obj.scaleRows (ebExp B p s t)⟩

/-- `sector_propagate_bra` (eigenbasis.ipp:398-420). -/
noncomputable def ebPropB (t : ℝ) (b : BK 𝕜) : BK 𝕜 :=
  if b.invalid then b
  else match b.sector with
    | none => b
    | some s => ⟨some s, b.obj.scaleCols (ebExp B p s t)⟩

/-- `product` (eigenbasis.ipp:361-370): the trace of the product of the matrices. -/
noncomputable def bkProduct (b k : BK 𝕜) : 𝕜 :=
  if b.invalid || k.invalid || b.sector != k.sector then 0
  else ∑ i ∈ Finset.range b.obj.rows, ∑ a ∈ Finset.range b.obj.cols, b.obj.v i a * k.obj.v a i

/-- The functions used by the sliding window. -/
noncomputable def ebEvol : Evol ℝ (BK 𝕜) (BK 𝕜) 𝕜 where
  propK := ebPropK B p
  opK := ebOpK B p
  propB := ebPropB B p
  opB := ebOpB B p
  product := bkProduct
  invK := BK.invalid
  invB := BK.invalid

/-- `cutoff_outer` (eigenbasis.ipp:240-241). -/
noncomputable def ebCutOuter : ℝ :=
  p.outer + (minElem ((List.range B.ns).map (ebMinSec B p))).getD 0

/-- The states of a sector below the outer cutoff (eigenbasis.ipp:251-252, 262-267). -/
noncomputable def ebOuterIdx (s : ℕ) : List ℕ := keptIdx (ebVals B p s) (ebCutOuter B p)

/-- The matrix `obj` of an outer ket (eigenbasis.ipp:257-268). -/
noncomputable def ebOuterObj (s : ℕ) : DMat 𝕜 :=
  DMat.ofFn (ebVals B p s).length (ebOuterIdx B p s).length fun i j =>
    if (ebOuterIdx B p s).getD j 0 = i then 1 else 0

/-- The sectors with an outer state, in increasing order (eigenbasis.ipp:245-255). -/
noncomputable def ebBrakets : List ℕ :=
  (List.range B.ns).filter fun s => ebActive B p s && (ebOuterIdx B p s).length != 0

/-- The data of the window: β and the outer states (eigenbasis.ipp:270-271, 422-432). -/
noncomputable def ebEnv (beta : ℝ) :
    SWEnv ℝ (BK 𝕜) (BK 𝕜) 𝕜 (Fin (ebBrakets B p).length) where
  E := ebEvol B p
  beta := beta
  ket0 := fun i => ⟨some ((ebBrakets B p).get i), ebOuterObj B p ((ebBrakets B p).get i)⟩
  bra0 := fun i => ⟨some ((ebBrakets B p).get i), (ebOuterObj B p ((ebBrakets B p).get i)).transp⟩

/-- `translationally_invariant` (eigenbasis.ipp:434-443), for `n` flavors. -/
noncomputable def ebTranslInv (n : ℕ) : Bool :=
  ((ebBrakets B p).map fun s =>
    min (ebOuterObj B p s).transp.rows (ebOuterObj B p s).transp.cols).sum == 2 ^ n

/-- `compute_exp_vector_safe` (model.hpp:439-457): the coefficient and the relative factors.  `none`
for an empty vector, where `*max_element` is undefined. -/
noncomputable def expSafe (tau : ℝ) (energies : List ℝ) : Option (ℝ × List ℝ) :=
  match energies.map fun e => -tau * e with
  | [] => none
  | a :: l =>
    let m := l.foldl max a
    some (Real.exp m, (a :: l).map fun x => if x - m < -60 then 0 else Real.exp (x - m))

end CTHyb
