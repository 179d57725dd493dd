import Verif.Operator
import Verif.LocalUpdate
import Verif.FastUpdate
import Verif.Selection
import Mathlib.Data.Matrix.Block
import Mathlib.Logic.Equiv.Fin.Basic

/-!
Model of `DeterminantMatrix` (include/alps/fastupdate/determinant_matrix.hpp and the files
determinant_matrix*.ipp in include/alps/fastupdate/detail): the operators in storage order, the maps from
times to positions, the time-ordered sets, the inverse matrix, and the protocol
`try_update` / `perform_update` / `reject_update` with all members that survive between the calls.

The scalar type is a field.  `sanity_check`, which only contains assertions, is not modelled.  After
an exception the object is not used any more, so its contents are not kept.
-/

namespace CTHyb

open Matrix

variable {T K : Type}

/-- How a member function may fail: an exception, or behaviour not defined by the language or by Eigen
(access outside of a container, matrices of different sizes, uninitialised members). -/
inductive DErr
  | throws
  | undef
deriving DecidableEq, Repr

/-! ### Position maps -/

/-- `std::map<itime_t,int>` (determinant_matrix.hpp:53): pairs of time and position.  The order of the
list has no meaning. -/
abbrev PosMap (T : Type) := List (T × ℕ)

section
variable [LinearOrder T]

/-- `m.find(t) != m.end()`. -/
def PosMap.has (m : PosMap T) (t : T) : Bool := m.any fun p => decide (p.1 = t)

/-- `m.at(t)`. -/
def PosMap.at (m : PosMap T) (t : T) : Except DErr ℕ :=
  match m.find? fun p => decide (p.1 = t) with
  | some p => .ok p.2
  | none => .error .throws

/-- `std::distance(m.lower_bound(t), m.end())`: the number of keys not less than `t`. -/
def PosMap.upper (m : PosMap T) (t : T) : ℕ := m.countP fun p => decide (t ≤ p.1)

/-- `m.erase(t)`. -/
def PosMap.del (m : PosMap T) (t : T) : PosMap T := m.filter fun p => decide (p.1 ≠ t)

/-- `m[t] = p`. -/
def PosMap.assign (m : PosMap T) (t : T) (p : ℕ) : PosMap T := (t, p) :: m.del t

/-! ### One kind of operators -/

/-- The members for one kind of operators: `cdagg_ops_`, `cdagg_op_pos_`, `cdagg_ops_set_` or `c_ops_`,
`cop_pos_`, `c_ops_set_` (determinant_matrix.hpp:216-227). -/
structure Side (T : Type) where
  ops : List (Psi T)
  pos : PosMap T
  set : OpSet T

/-- One half of an iteration in `add_new_operators` (determinant_matrix.ipp:239-258): appends `o`, stored
with position `p`; the second component is the contribution to `perm_diff`. -/
def Side.push (s : Side T) (o : Psi T) (p : ℕ) : Except DErr (Side T × ℕ) :=
  if s.pos.has o.time then .error .throws
  else .ok (⟨s.ops ++ [o], (o.time, p) :: s.pos, (s.set.insert o).1⟩, s.pos.upper o.time)

/-- One half of an iteration in `remove_last_operators` (determinant_matrix.ipp:282-294). -/
def Side.pop (s : Side T) : Except DErr (Side T × ℕ) :=
  match s.ops.getLast? with
  | none => .error .undef
  | some o => .ok (⟨s.ops.dropLast, s.pos.del o.time, (s.set.erase o).1⟩, s.pos.upper o.time)

/-- The exchange of two operators in `swap_cdagg_op`, `swap_c_op` (determinant_matrix.ipp:190-198,
212-220). -/
def Side.swap (s : Side T) (i j : ℕ) : Except DErr (Side T) :=
  match s.ops[i]?, s.ops[j]? with
  | some a, some b => .ok ⟨swapAt s.ops i j, (s.pos.assign a.time j).assign b.time i, s.set⟩
  | _, _ => .error .undef

/-- Part of `remove_excess_operators` for one kind of operators (determinant_matrix.ipp:312-320):
operators at positions `offset, …, offset+k-1` are erased from map and set, then the vector is cut. -/
def Side.truncate (s : Side T) (offset k : ℕ) : Except DErr (Side T) :=
  if s.ops.length < offset + k then .error .undef
  else
    let ex := (s.ops.drop offset).take k
    .ok ⟨s.ops.take offset, ex.foldl (fun m o => m.del o.time) s.pos,
      ex.foldl (fun m o => (OpSet.erase m o).1) s.set⟩

/-- The replacement of the last operator in `perform_replace_cdagg`, `perform_replace_c`
(determinant_matrix_replace.ipp:68-73, 148-153). -/
def Side.replaceLast (s : Side T) (n : ℕ) (old new : Psi T) : Except DErr (Side T) :=
  if n = 0 ∨ s.ops.length < n then .error .undef
  else
    let m := s.pos.del old.time
    .ok ⟨s.ops.set (n - 1) new, if m.has new.time then m else (new.time, n - 1) :: m,
      (OpSet.insert (s.set.erase old).1 new).1⟩

/-- `add_new_operators` (determinant_matrix.ipp:233-264): both kinds of operators, and `perm_diff`.
The position of both operators of a pair is the number of creation operators (line 240). -/
def addOps : List (Psi T × Psi T) → Side T → Side T → ℕ → Except DErr (Side T × Side T × ℕ)
  | [], cd, c, k => .ok (cd, c, k)
  | (a, b) :: l, cd, c, k =>
    (cd.push a cd.ops.length).bind fun r1 =>
      (c.push b cd.ops.length).bind fun r2 => addOps l r1.1 r2.1 (k + r1.2 + r2.2)

/-- The loop of `remove_last_operators` (determinant_matrix.ipp:281-295). -/
def removeLoop : ℕ → Side T → Side T → ℕ → Except DErr (Side T × Side T × ℕ)
  | 0, cd, c, k => .ok (cd, c, k)
  | n + 1, cd, c, k =>
    c.pop.bind fun r1 => cd.pop.bind fun r2 => removeLoop n r2.1 r1.1 (k + r1.2 + r2.2)

/-- `remove_last_operators` (determinant_matrix.ipp:273-298). -/
def removeLast (n : ℕ) (cd c : Side T) : Except DErr (Side T × Side T × ℕ) :=
  if cd.ops.length < n then .error .throws else removeLoop n cd c 0

/-- `perm_diff%2==0 ? 1 : -1` (determinant_matrix.ipp:263, 297). -/
def paritySign (k : ℕ) : ℤ := if k % 2 = 0 then 1 else -1

/-- `boost::adjacent_find(v) != v.end()`. -/
def adjacentFind : List T → Bool
  | a :: b :: l => decide (a = b) || adjacentFind (b :: l)
  | _ => false

/-- `std::sort` followed by `adjacent_find` (determinant_matrix.ipp:68-69, 124-128, 171-172). -/
def hasDuplicate (l : List T) : Bool := adjacentFind (l.mergeSort fun a b => decide (a ≤ b))

/-- The vector of the times of all operators of the pairs, e.g. `times_add` (determinant_matrix.ipp:58-62). -/
def pairTimes (l : List (Psi T × Psi T)) : List T := l.flatMap fun p => [p.1.time, p.2.time]

end

/-! ### Matrices -/

/-- The block of size `a × b` starting at row `r` and column `c`. -/
def blk (f : ℕ → ℕ → K) (r c a b : ℕ) : Matrix (Fin a) (Fin b) K := Matrix.of fun i j => f (r + i) (c + j)

/-- The leading `(N + M) × (N + M)` block as a block matrix. -/
def sumMat (N M : ℕ) (f : ℕ → ℕ → K) : Matrix (Fin N ⊕ Fin M) (Fin N ⊕ Fin M) K :=
  fromBlocks (blk f 0 0 N N) (blk f 0 N N M) (blk f N 0 M N) (blk f N N M M)

/-- The content of a block matrix by row and column number; zero outside (the code never looks there). -/
def ofSumMat [Zero K] (N M : ℕ) (A : Matrix (Fin N ⊕ Fin M) (Fin N ⊕ Fin M) K) (i j : ℕ) : K :=
  if h : i < N + M ∧ j < N + M then
    A (finSumFinEquiv.symm ⟨i, h.1⟩) (finSumFinEquiv.symm ⟨j, h.2⟩) else 0

/-- The content of a rectangular matrix by row and column number. -/
def ofMat [Zero K] {a b : ℕ} (A : Matrix (Fin a) (Fin b) K) (i j : ℕ) : K :=
  if h : i < a ∧ j < b then A ⟨i, h.1⟩ ⟨j, h.2⟩ else 0

/-- `compute_g` (determinant_matrix.hpp:363); zero outside of the vectors, where the code never looks. -/
def gEntry [Zero K] (G : Psi T → Psi T → K) (c cd : List (Psi T)) (i j : ℕ) : K :=
  match c[i]?, cd[j]? with
  | some a, some b => G a b
  | _, _ => 0

/-! ### The object -/

/-- `DeterminantMatrixState` (determinant_matrix.hpp:62-69). -/
inductive DState
  | waiting | tryAdd | tryRem | tryRemAdd | tryReplaceCd | tryReplaceC
deriving DecidableEq, Repr

/-- `UpdateMode` (determinant_matrix.hpp:71-79). -/
inductive DMode
  | nothing | add | rem | remAdd | replaceCd | replaceC | invalid
deriving DecidableEq, Repr

/-- `ReplaceHelper` (fastupdate_formula.hpp): `N_`, `M_`, and `Mmat_`, `inv_tSp_` if they have been
computed. -/
structure RHelper (K : Type) where
  N : ℕ
  M : ℕ
  mats : Option ((ℕ → ℕ → K) × (ℕ → ℕ → K))

/-- The data members of `DeterminantMatrix` (determinant_matrix.hpp:206-239; `old_cdagg_`, `new_cdagg_` and `old_c_`,
`new_c_` share `oldOp`, `newOp`, since each is only read after `try_replace_*` has written it).  The matrix `inv_matrix_`
has size `n`; `Gnn` is `gM × gM`, `Gnj` is `gM × gN`, `Gjn` is `gN × gM`.  Members which the constructor
does not initialise and which would be read before they are written are `none` at the beginning. -/
structure DM (T K : Type) where
  cd : Side T
  c : Side T
  n : ℕ
  inv : ℕ → ℕ → K
  perm : ℤ
  state : DState
  mode : Option DMode
  permRat : ℤ
  nopAdded : ℕ
  impossible : Bool
  detRat : K
  oldOp : Option (Psi T)
  newOp : Option (Psi T)
  removed : List (Psi T × Psi T)
  gN : ℕ
  gM : ℕ
  Gnn : ℕ → ℕ → K
  Gnj : ℕ → ℕ → K
  Gjn : ℕ → ℕ → K
  helper : Option (RHelper K)

/-- The constructor without operators (determinant_matrix.ipp:12-21).  `perm_rat_`, `nop_added_`,
`update_impossible_` and `det_rat_` are not initialised by the code; any value is possible, here it is
zero or false. -/
def DM.empty [Zero K] : DM T K where
  cd := ⟨[], [], []⟩
  c := ⟨[], [], []⟩
  n := 0
  inv := fun _ _ => 0
  perm := 1
  state := .waiting
  mode := none
  permRat := 0
  nopAdded := 0
  impossible := false
  detRat := 0
  oldOp := none
  newOp := none
  removed := []
  gN := 0
  gM := 0
  Gnn := fun _ _ => 0
  Gnj := fun _ _ => 0
  Gjn := fun _ _ => 0
  helper := none

section
variable [LinearOrder T]

/-- `check_state` (determinant_matrix.hpp:245-249). -/
def DM.check (s : DM T K) (st : DState) : Except DErr Unit :=
  if s.state = st then .ok () else .error .throws

/-- `exist` (determinant_matrix.hpp:376-378). -/
def DM.exist (s : DM T K) (t : T) : Bool := s.c.pos.has t || s.cd.pos.has t

/-- `swap_cdagg_op` (determinant_matrix.ipp:186-201): rows of the inverse are exchanged. -/
def DM.swapCd (s : DM T K) (i j : ℕ) : Except DErr (DM T K) :=
  if i = j then .ok s
  else (s.cd.swap i j).bind fun cd' =>
    .ok { s with cd := cd', inv := fun a b => s.inv (Equiv.swap i j a) b, perm := -s.perm }

/-- `swap_c_op` (determinant_matrix.ipp:208-223): columns of the inverse are exchanged. -/
def DM.swapC (s : DM T K) (i j : ℕ) : Except DErr (DM T K) :=
  if i = j then .ok s
  else (s.c.swap i j).bind fun c' =>
    .ok { s with c := c', inv := fun a b => s.inv a (Equiv.swap i j b), perm := -s.perm }

/-- The loop moving rows and columns to the end (determinant_matrix_remove.ipp:40-43,
determinant_matrix_remove_add.ipp:49-52); the arguments are the positions in decreasing order and the
number of positions in front of the ones already filled. -/
def moveLoop : List ℕ → List ℕ → ℕ → DM T K → Except DErr (DM T K)
  | q :: qs, r :: rs, e + 1, s =>
    (s.swapCd q e).bind fun s1 => (s1.swapC r e).bind fun s2 => moveLoop qs rs e s2
  | _ :: _, _ :: _, 0, _ => .error .undef
  | _, _, _, s => .ok s

/-- Look up the positions of the operators and sort them in decreasing order
(determinant_matrix_remove.ipp:28-38). -/
def findSorted (m : PosMap T) (l : List (Psi T)) : Except DErr (List ℕ) :=
  (l.mapM fun o => m.at o.time).bind fun ps => .ok (ps.mergeSort fun a b => decide (b ≤ a))

/-- Moving the operators to the end, remembering them and erasing them from the sets
(determinant_matrix_remove.ipp:28-57, determinant_matrix_remove_add.ipp:38-66). -/
def DM.moveToEnd (s : DM T K) (l : List (Psi T × Psi T)) : Except DErr (DM T K) :=
  (findSorted s.cd.pos (l.map Prod.fst)).bind fun cols =>
  (findSorted s.c.pos (l.map Prod.snd)).bind fun rows =>
  (moveLoop cols rows s.n s).bind fun s1 =>
  if s1.cd.ops.length < s.n ∨ s1.c.ops.length < s.n ∨ s.n < l.length then .error .undef
  else
    let endCd := (s1.cd.ops.take s.n).drop (s.n - l.length)
    let endC := (s1.c.ops.take s.n).drop (s.n - l.length)
    .ok { s1 with
      removed := (endCd.zip endC).reverse
      cd := { s1.cd with set := endCd.reverse.foldl (fun m o => (OpSet.erase m o).1) s1.cd.set }
      c := { s1.c with set := endC.reverse.foldl (fun m o => (OpSet.erase m o).1) s1.c.set } }

variable [Field K] (G : Psi T → Psi T → K)

/-- `insertion_possible` (determinant_matrix.ipp:53-73). -/
def DM.insertionPossible (s : DM T K) (l : List (Psi T × Psi T)) : Bool :=
  if l.any fun p => s.exist p.1.time || s.exist p.2.time then false
  else !hasDuplicate (pairTimes l)

/-- `removal_possible` (determinant_matrix.ipp:144-177). -/
def DM.removalPossible (s : DM T K) (l : List (Psi T × Psi T)) : Except DErr Bool :=
  if l.any fun p => !(s.exist p.1.time && s.exist p.2.time) then .error .throws
  else .ok (!hasDuplicate (pairTimes l))

/-- `removal_insertion_possible` (determinant_matrix.ipp:83-134). -/
def DM.removalInsertionPossible (s : DM T K) (rem add : List (Psi T × Psi T)) : Except DErr Bool :=
  if rem.any fun p => !(s.exist p.1.time && s.exist p.2.time) then .error .throws
  else if add.any fun p => !((!s.exist p.1.time || decide (p.1.time ∈ pairTimes rem)) &&
      (!s.exist p.2.time || decide (p.2.time ∈ pairTimes rem))) then .ok false
  else .ok (!(hasDuplicate (pairTimes add) || hasDuplicate (pairTimes rem)))

/-- `try_add` (determinant_matrix_add.ipp:14-53). -/
def DM.tryAdd (s : DM T K) (l : List (Psi T × Psi T)) : Except DErr (K × DM T K) :=
  (s.check .waiting).bind fun _ =>
  if s.insertionPossible l then
    (addOps l s.cd s.c 0).bind fun r =>
      let g := gEntry G r.2.1.ops r.1.ops
      let s1 : DM T K := { s with
        state := .tryAdd, cd := r.1, c := r.2.1, permRat := paritySign r.2.2
        gN := s.n, gM := l.length
        Gnj := fun i j => g (s.n + i) j
        Gjn := fun i j => g i (s.n + j)
        Gnn := fun i j => g (s.n + i) (s.n + j) }
      .ok ((s1.permRat : K) * detRatioUp (blk s1.Gjn 0 0 s.n l.length) (blk s1.Gnj 0 0 l.length s.n)
        (blk s1.Gnn 0 0 l.length l.length) (blk s.inv 0 0 s.n s.n), s1)
  else .ok (0, { s with state := .tryAdd })

/-- `perform_add` (determinant_matrix_add.ipp:62-67).  The matrices must have matching sizes. -/
noncomputable def DM.performAdd (s : DM T K) : Except DErr (DM T K) :=
  (s.check .tryAdd).bind fun _ =>
  if s.gN = s.n then
    .ok { s with
      state := .waiting
      n := s.n + s.gM
      inv := ofSumMat s.n s.gM (inverseUp (blk s.Gjn 0 0 s.n s.gM) (blk s.Gnj 0 0 s.gM s.n)
        (blk s.Gnn 0 0 s.gM s.gM) (blk s.inv 0 0 s.n s.n))
      perm := s.perm * s.permRat }
  else .error .undef

/-- `reject_add` with `remove_excess_operators` (determinant_matrix_add.ipp:76-80,
determinant_matrix.ipp:307-323). -/
def DM.rejectAdd (s : DM T K) : Except DErr (DM T K) :=
  (s.check .tryAdd).bind fun _ =>
  if s.cd.pos.length < s.n then .error .undef
  else
    (s.c.truncate s.n (s.cd.pos.length - s.n)).bind fun c' =>
    (s.cd.truncate s.n (s.cd.pos.length - s.n)).bind fun cd' =>
    .ok { s with state := .waiting, c := c', cd := cd' }

/-- `try_remove` (determinant_matrix_remove.ipp:14-63). -/
def DM.tryRemove (s : DM T K) (l : List (Psi T × Psi T)) : Except DErr (K × DM T K) :=
  (s.check .waiting).bind fun _ =>
  (s.removalPossible l).bind fun ok =>
  if ok then
    (s.moveToEnd l).bind fun s1 =>
    (removeLast l.length s1.cd s1.c).bind fun r =>
      let s2 : DM T K := { s1 with
        state := .tryRem, cd := r.1, c := r.2.1, permRat := paritySign r.2.2 }
      .ok ((s2.permRat : K) * detRatioDown (sumMat (s.n - l.length) l.length s2.inv), s2)
  else .ok (0, { s with state := .tryRem })

/-- `perform_remove` (determinant_matrix_remove.ipp:71-79). -/
noncomputable def DM.performRemove (s : DM T K) : Except DErr (DM T K) :=
  (s.check .tryRem).bind fun _ =>
  if s.n < s.removed.length then .error .undef
  else .ok { s with
    state := .waiting
    perm := s.perm * s.permRat
    n := s.n - s.removed.length
    inv := ofMat (inverseDown (sumMat (s.n - s.removed.length) s.removed.length s.inv)) }

/-- `reject_remove` (determinant_matrix_remove.ipp:88-94). -/
def DM.rejectRemove (s : DM T K) : Except DErr (DM T K) :=
  (s.check .tryRem).bind fun _ =>
  (addOps s.removed.reverse s.cd s.c 0).bind fun r =>
  .ok { s with state := .waiting, cd := r.1, c := r.2.1 }

/-- `try_remove_add` (determinant_matrix_remove_add.ipp:14-98). -/
noncomputable def DM.tryRemoveAdd [DecidableEq K] (s : DM T K) (rem add : List (Psi T × Psi T)) :
    Except DErr (K × DM T K) :=
  (s.check .waiting).bind fun _ =>
  (s.removalInsertionPossible rem add).bind fun ok =>
  if ok then
    (if 0 < rem.length then s.moveToEnd rem else .ok s).bind fun s1 =>
    (removeLast rem.length s1.cd s1.c).bind fun r =>
    (addOps add r.1 r.2.1 0).bind fun r2 =>
      let N := s.n - rem.length
      let M := add.length
      let g := gEntry G r2.2.1.ops r2.1.ops
      let Gnj := fun i j => g (N + i) j
      let Gjn := fun i j => g i (N + j)
      let Gnn := fun i j => g (N + i) (N + j)
      let inv := sumMat N rem.length s1.inv
      let mm := replaceMmat inv
      let ts := replaceInvTSp mm (blk Gjn 0 0 N M) (blk Gnj 0 0 M N) (blk Gnn 0 0 M M)
      let s2 : DM T K := { s1 with
        state := .tryRemAdd, impossible := false, cd := r2.1, c := r2.2.1
        permRat := paritySign r.2.2 * paritySign r2.2.2
        gN := N, gM := M, Gnj := Gnj, Gjn := Gjn, Gnn := Gnn, nopAdded := M
        helper := some ⟨N, M, if N = 0 ∨ inv.toBlocks₂₂.det = 0 then none
          else some (ofMat mm, ofMat ts)⟩ }
      .ok ((s2.permRat : K) * replaceDetRatio inv (blk Gjn 0 0 N M) (blk Gnj 0 0 M N) (blk Gnn 0 0 M M),
        s2)
  else .ok (0, { s with state := .tryRemAdd, impossible := true })

/-- `ReplaceHelper::compute_inverse_matrix` on the members (fastupdate_formula.ipp:317-356): new size and
content of `inv_matrix_`. -/
noncomputable def RHelper.apply (h : RHelper K) (gN gM : ℕ) (Gjn Gnj Gnn : ℕ → ℕ → K) :
    Except DErr (ℕ × (ℕ → ℕ → K)) :=
  if h.N ≠ gN ∨ h.M ≠ gM then .error .undef
  else
    match h.mats with
    | none =>
      if h.N = 0 then .ok (h.M, ofMat (blk Gnn 0 0 h.M h.M)⁻¹) else .error .undef
    | some (mm, ts) =>
      .ok (h.N + h.M, ofSumMat h.N h.M (replaceInverse (blk mm 0 0 h.N h.N) (blk ts 0 0 h.M h.M)
        (blk Gjn 0 0 h.N h.M) (blk Gnj 0 0 h.M h.N) (blk Gnn 0 0 h.M h.M)))

/-- `perform_remove_add` (determinant_matrix_remove_add.ipp:107-116): the matrix is changed before the
checks. -/
noncomputable def DM.performRemoveAdd (s : DM T K) : Except DErr (DM T K) :=
  match s.helper with
  | none => .error .undef
  | some h =>
    (h.apply s.gN s.gM s.Gjn s.Gnj s.Gnn).bind fun r =>
    (s.check .tryRemAdd).bind fun _ =>
    if s.impossible then .ok { s with state := .waiting, n := r.1, inv := r.2 }
    else .ok { s with state := .waiting, n := r.1, inv := r.2, perm := s.perm * s.permRat }

/-- `reject_remove_add` (determinant_matrix_remove_add.ipp:125-136). -/
def DM.rejectRemoveAdd (s : DM T K) : Except DErr (DM T K) :=
  (s.check .tryRemAdd).bind fun _ =>
  (removeLast s.nopAdded s.cd s.c).bind fun r =>
  (addOps s.removed.reverse r.1 r.2.1 0).bind fun r2 =>
  .ok { s with state := .waiting, cd := r2.1, c := r2.2.1 }

/-- The permutation sign in `try_replace_cdagg`, `try_replace_c` (determinant_matrix_replace.ipp:36-44,
119-127). -/
def replacePermRat (m : PosMap T) (old new : T) : ℤ :=
  let r : ℤ := if (((m.upper old : ℤ) - (m.upper new : ℤ)).natAbs) % 2 = 0 then 1 else -1
  if old < new then -r else r

/-- `try_replace_cdagg` (determinant_matrix_replace.ipp:13-51). -/
def DM.tryReplaceCd (s : DM T K) (old new : Psi T) : Except DErr (K × DM T K) :=
  (s.check .waiting).bind fun _ =>
  (s.cd.pos.at old.time).bind fun pos =>
  if h : 0 < s.n then
    (s.swapCd pos (s.n - 1)).bind fun s1 =>
      let col : ℕ → ℕ → K := fun i _ => match s1.c.ops[i]? with
        | some a => G a new
        | none => 0
      let ratio := detRatioCol (blk s1.inv 0 0 s.n s.n) ⟨s.n - 1, by omega⟩ (fun i => col i 0)
      let s2 : DM T K := { s1 with
        state := .tryReplaceCd, oldOp := some old, newOp := some new
        permRat := replacePermRat s1.cd.pos old.time new.time, detRat := ratio, Gjn := col
        gN := s.n, gM := 1 }
      .ok ((s2.permRat : K) * ratio, s2)
  else .error .undef

/-- `perform_replace_cdagg` (determinant_matrix_replace.ipp:60-74). -/
def DM.performReplaceCd (s : DM T K) : Except DErr (DM T K) :=
  (s.check .tryReplaceCd).bind fun _ =>
  match s.oldOp, s.newOp with
  | some old, some new =>
    if h : 0 < s.n then
      (s.cd.replaceLast s.n old new).bind fun cd' =>
      .ok { s with
        state := .waiting
        inv := ofMat (inverseCol (blk s.inv 0 0 s.n s.n) ⟨s.n - 1, by omega⟩ (fun i => s.Gjn i 0) s.detRat)
        perm := s.perm * s.permRat
        cd := cd' }
    else .error .undef
  | _, _ => .error .undef

/-- `try_replace_c` (determinant_matrix_replace.ipp:96-131). -/
def DM.tryReplaceC (s : DM T K) (old new : Psi T) : Except DErr (K × DM T K) :=
  (s.check .waiting).bind fun _ =>
  (s.c.pos.at old.time).bind fun pos =>
  if h : 0 < s.n then
    (s.swapC pos (s.n - 1)).bind fun s1 =>
      let row : ℕ → ℕ → K := fun _ j => match s1.cd.ops[j]? with
        | some b => G new b
        | none => 0
      let ratio := detRatioRow (blk s1.inv 0 0 s.n s.n) ⟨s.n - 1, by omega⟩ (fun j => row 0 j)
      let s2 : DM T K := { s1 with
        state := .tryReplaceC, oldOp := some old, newOp := some new
        permRat := replacePermRat s1.c.pos old.time new.time, detRat := ratio, Gnj := row
        gN := s.n, gM := 1 }
      .ok ((s2.permRat : K) * ratio, s2)
  else .error .undef

/-- `perform_replace_c` (determinant_matrix_replace.ipp:140-154). -/
def DM.performReplaceC (s : DM T K) : Except DErr (DM T K) :=
  (s.check .tryReplaceC).bind fun _ =>
  match s.oldOp, s.newOp with
  | some old, some new =>
    if h : 0 < s.n then
      (s.c.replaceLast s.n old new).bind fun c' =>
      .ok { s with
        state := .waiting
        inv := ofMat (inverseRow (blk s.inv 0 0 s.n s.n) ⟨s.n - 1, by omega⟩ (fun j => s.Gnj 0 j) s.detRat)
        perm := s.perm * s.permRat
        c := c' }
    else .error .undef
  | _, _ => .error .undef

/-- `reject_replace_cdagg`, `reject_replace_c` (determinant_matrix_replace.ipp:83-87, 163-167). -/
def DM.rejectReplace (s : DM T K) (st : DState) : Except DErr (DM T K) :=
  (s.check st).bind fun _ => .ok { s with state := .waiting }

/-- `to_operator_pairs` (determinant_matrix.ipp:468-481): `n` elements of both lists are read. -/
def toPairs (cd c : List (Psi T)) (n : ℕ) : Except DErr (List (Psi T × Psi T)) :=
  if cd.length < n ∨ c.length < n then .error .undef else .ok ((cd.zip c).take n)

/-- `try_update` (determinant_matrix.ipp:492-553). -/
noncomputable def DM.tryUpdate [DecidableEq K] (s : DM T K) (ch : HybChange T) :
    Except DErr (K × DM T K) :=
  let a := ch.cdAdd.length
  let r := ch.cdRem.length
  let a' := ch.cAdd.length
  let r' := ch.cRem.length
  if (a : ℤ) - r ≠ (a' : ℤ) - r' then .ok (0, { s with mode := some .invalid })
  else if a = 0 ∧ r = 0 ∧ a' = 0 ∧ r' = 0 then .ok (1, { s with mode := some .nothing })
  else if a = 1 ∧ r = 1 ∧ a' = 0 ∧ r' = 0 then
    match ch.cdRem, ch.cdAdd with
    | old :: _, new :: _ => ({ s with mode := some .replaceCd } : DM T K).tryReplaceCd G old new
    | _, _ => .error .undef
  else if a = 0 ∧ r = 0 ∧ a' = 1 ∧ r' = 1 then
    match ch.cRem, ch.cAdd with
    | old :: _, new :: _ => ({ s with mode := some .replaceC } : DM T K).tryReplaceC G old new
    | _, _ => .error .undef
  else if 0 < a ∧ r = 0 ∧ 0 < a' ∧ r' = 0 then
    (toPairs ch.cdAdd ch.cAdd a).bind fun l => ({ s with mode := some .add } : DM T K).tryAdd G l
  else if a = 0 ∧ 0 < r ∧ a' = 0 ∧ 0 < r' then
    (toPairs ch.cdRem ch.cRem r).bind fun l => ({ s with mode := some .rem } : DM T K).tryRemove l
  else
    (toPairs ch.cdAdd ch.cAdd a).bind fun la =>
    (toPairs ch.cdRem ch.cRem r).bind fun lr =>
    ({ s with mode := some .remAdd } : DM T K).tryRemoveAdd G lr la

/-- `perform_update` (determinant_matrix.ipp:562-592). -/
noncomputable def DM.perform (s : DM T K) : Except DErr (DM T K) :=
  match s.mode with
  | none => .error .undef
  | some .nothing => .ok s
  | some .invalid => .ok s
  | some .replaceCd => s.performReplaceCd
  | some .replaceC => s.performReplaceC
  | some .add => s.performAdd
  | some .rem => s.performRemove
  | some .remAdd => s.performRemoveAdd

/-- `reject_update` (determinant_matrix.ipp:600-628). -/
def DM.reject (s : DM T K) : Except DErr (DM T K) :=
  match s.mode with
  | none => .error .undef
  | some .nothing => .ok s
  | some .invalid => .ok s
  | some .replaceCd => s.rejectReplace .tryReplaceCd
  | some .replaceC => s.rejectReplace .tryReplaceC
  | some .add => s.rejectAdd
  | some .rem => s.rejectRemove
  | some .remAdd => s.rejectRemoveAdd

/-- `compute_determinant` (determinant_matrix.hpp:133-135). -/
noncomputable def DM.determinant (s : DM T K) : K := (s.perm : K) / (blk s.inv 0 0 s.n s.n).det

/-- The constructor with a list of pairs (determinant_matrix.ipp:30-43): the ratio is not looked at. -/
noncomputable def DM.build (l : List (Psi T × Psi T)) : Except DErr (DM T K) :=
  ((DM.empty : DM T K).tryAdd G l).bind fun r => r.2.performAdd

/-- `rebuild_inverse_matrix` (determinant_matrix.ipp:379-397): the inverse is computed from the operators.
`sanity_check` only asserts. -/
noncomputable def DM.rebuild (s : DM T K) : Except DErr (DM T K) :=
  (s.check .waiting).bind fun _ =>
  let n := s.cd.ops.length
  .ok { s with
    n := n
    inv := ofMat (blk (gEntry G s.c.ops s.cd.ops) 0 0 n n)⁻¹ }

end
end CTHyb
