import Mathlib.Data.Nat.Notation

/-!
Model of `ResizableMatrix` (include/alps/fastupdate/resizable_matrix.hpp): current sizes and an
Eigen matrix with its own, possibly larger, memory size.

A memory cell is `none` while nothing was written to it.  Access outside the Eigen matrix is
undefined behaviour (asserts are off in a release build): outcome `none` of the operation.
-/

namespace CTHyb

/-- The member variables (resizable_matrix.hpp:353-356).  `alloc = false` stands for sizes -1. -/
structure RMat (K : Type*) where
  alloc : Bool
  size1 : ℕ
  size2 : ℕ
  mem1 : ℕ
  mem2 : ℕ
  cell : ℕ → ℕ → Option K

/-- Default constructor (resizable_matrix.hpp:40). -/
def RMat.empty {K : Type*} : RMat K := ⟨false, 0, 0, 0, 0, fun _ _ => none⟩

/-- Operations used through the public interface (resizable_matrix.hpp:26-275). -/
inductive RMatOp (K : Type*)
  | construct (n m : ℕ)
  | constructFill (n m : ℕ) (v : K)
  | conservativeResize (n m : ℕ)
  | destructiveResize (n m : ℕ)
  | removeRowColLast
  | removeRowLast
  | removeColLast
  | swapRow (a b : ℕ)
  | swapCol (a b : ℕ)
  | swapRowCol (a b : ℕ)
  | write (i j : ℕ) (v : K)
  | clear
  | setIdentity
  | assign (n m : ℕ) (f : ℕ → ℕ → K)

/-- The transposition used by the row and column swaps. -/
def swapIdx (a b i : ℕ) : ℕ := if i = a then b else if i = b then a else i

/-- `(int)(1.2 * n + 1)` in exact arithmetic (resizable_matrix.hpp:120, 133). -/
def grow (n : ℕ) : ℕ := 12 * n / 10 + 1

/-- Eigen's `conservativeResize` (keeps the common block, other cells uninitialised). -/
def eigenConservativeResize {K : Type*} (A : RMat K) (n m : ℕ) : RMat K :=
  { A with mem1 := n, mem2 := m,
           cell := fun i j => if i < A.mem1 ∧ i < n ∧ j < A.mem2 ∧ j < m then A.cell i j else none }

/-- Eigen's `resize`: if the number of elements changes everything is lost; otherwise the
elements are reinterpreted.  Modelled as loss in both cases. -/
def eigenResize {K : Type*} (A : RMat K) (n m : ℕ) : RMat K :=
  { A with mem1 := n, mem2 := m, cell := fun _ _ => none }

/-- `conservative_resize` (resizable_matrix.hpp:113-125). -/
def RMat.conservativeResize {K : Type*} (A : RMat K) (n m : ℕ) : RMat K :=
  let B := if A.alloc = false then eigenResize A n m
    else if A.mem1 < n ∨ A.mem2 < m then eigenConservativeResize A (grow n) (grow m) else A
  { B with alloc := true, size1 := n, size2 := m }

/-- `destructive_resize` (resizable_matrix.hpp:128-138). -/
def RMat.destructiveResize {K : Type*} (A : RMat K) (n m : ℕ) : RMat K :=
  let B := if A.alloc = false then eigenResize A n m
    else if A.mem1 < n ∨ A.mem2 < m then eigenResize A (grow n) (grow m) else A
  { B with alloc := true, size1 := n, size2 := m }

/-- `swap_row` (resizable_matrix.hpp:164-169): whole memory rows are exchanged. -/
def RMat.swapRow {K : Type*} (A : RMat K) (a b : ℕ) : Option (RMat K) :=
  if a < A.mem1 ∧ b < A.mem1 then some { A with cell := fun i j => A.cell (swapIdx a b i) j }
  else none

/-- `swap_col` (resizable_matrix.hpp:172-177). -/
def RMat.swapCol {K : Type*} (A : RMat K) (a b : ℕ) : Option (RMat K) :=
  if a < A.mem2 ∧ b < A.mem2 then some { A with cell := fun i j => A.cell i (swapIdx a b j) }
  else none

/-- `operator()` used for writing (resizable_matrix.hpp:58-63). -/
def RMat.write {K : Type*} (A : RMat K) (i j : ℕ) (v : K) : Option (RMat K) :=
  if i < A.mem1 ∧ j < A.mem2 then
    some { A with cell := fun x y => if x = i ∧ y = j then some v else A.cell x y }
  else none

/-- Assignment to the current block (`block() = …`, resizable_matrix.hpp:328-331; used by `clear`
and `set_to_identity`). -/
def RMat.fillBlock {K : Type*} (A : RMat K) (f : ℕ → ℕ → K) : Option (RMat K) :=
  if A.size1 ≤ A.mem1 ∧ A.size2 ≤ A.mem2 then
    some { A with cell := fun i j => if i < A.size1 ∧ j < A.size2 then some (f i j) else A.cell i j }
  else none

/-- One operation.  `clear`: l.233-237; `set_to_identity`: l.195-201; assignment from an Eigen
matrix: l.249-255; `remove_*_last`: l.141-161; constructors: l.26-38. -/
def RMat.step {K : Type*} [Zero K] [One K] (A : RMat K) : RMatOp K → Option (RMat K)
  | .construct n m => some ⟨true, n, m, n, m, fun _ _ => none⟩
  | .constructFill n m v => some ⟨true, n, m, n, m, fun i j => if i < n ∧ j < m then some v else none⟩
  | .conservativeResize n m => some (A.conservativeResize n m)
  | .destructiveResize n m => some (A.destructiveResize n m)
  | .removeRowColLast =>
    if 0 < A.size1 ∧ 0 < A.size2 then
      some { A with size1 := A.size1 - 1, size2 := A.size2 - 1 } else none
  | .removeRowLast => if 0 < A.size1 then some { A with size1 := A.size1 - 1 } else none
  | .removeColLast => if 0 < A.size2 then some { A with size2 := A.size2 - 1 } else none
  | .swapRow a b => A.swapRow a b
  | .swapCol a b => A.swapCol a b
  | .swapRowCol a b => (A.swapCol a b).bind fun B => B.swapRow a b
  | .write i j v => A.write i j v
  | .clear => if A.alloc then A.fillBlock (fun _ _ => 0) else some A
  | .setIdentity => if 0 < A.size1 then A.fillBlock (fun i j => if i = j then 1 else 0) else some A
  | .assign n m f =>
    some ⟨true, n, m, n, m, fun i j => if i < n ∧ j < m then some (f i j) else none⟩

/-- Reading through `operator()` (resizable_matrix.hpp:65-70): `none` for undefined behaviour,
including the value of a cell never written. -/
def RMat.read {K : Type*} (A : RMat K) (i j : ℕ) : Option K :=
  if i < A.mem1 ∧ j < A.mem2 then A.cell i j else none

/-- A sequence of operations. -/
def RMat.run {K : Type*} [Zero K] [One K] (A : RMat K) : List (RMatOp K) → Option (RMat K)
  | [] => some A
  | o :: os => (A.step o).bind fun B => B.run os

end CTHyb
