import Verif.Partitioned
import Verif.CombSort
import Verif.PermSign

/-!
Model of the assertions in `DeterminantMatrix::sanity_check` (detail/determinant_matrix.ipp:331-371) and
`DeterminantMatrixPartitioned::sanity_check` (detail/determinant_matrix_partitioned.ipp:270-341), and of the
places where they are evaluated in builds without NDEBUG.  In builds with NDEBUG they do nothing.

The scalars are elements of a field, so the assertions that no entry is NaN are dropped.  Reading past the
end of a container and a call of `permutation` which does not end count as a failed assertion.
-/

namespace CTHyb

variable {T K : Type} [LinearOrder T]

/-- `std::set<psi>(first, last)`: the elements are inserted one by one
(determinant_matrix.ipp:367-368, determinant_matrix_partitioned.ipp:292-293). -/
def OpSet.ofList (l : List (Psi T)) : OpSet T := l.foldl (fun m o => (OpSet.insert m o).1) []

/-- `detail::permutation` of a vector of operators (util.hpp:12-35); operators are compared by their times
(src/operator.hpp:157-159), so only the times are kept. -/
def timesPermutation (l : List (Psi T)) : Option ℤ :=
  bubblePermutation (combFuel (l.map Psi.time).length) (l.map Psi.time).get

/-- The loops over a position map (determinant_matrix.ipp:346-354): every entry is the position of an
operator with that time. -/
def Side.posRight (s : Side T) (num : ℕ) : Bool :=
  s.pos.all fun p => match s.ops[p.2]? with
    | some o => decide (p.2 < num) && decide (o.time = p.1)
    | none => false

/-- `find_cdagg(cdagg_ops_[iop]) < mat_rank` and `find_c(c_ops_[iop]) < mat_rank` for all `iop`
(determinant_matrix.ipp:361-363, determinant_matrix.hpp:380-388). -/
def Side.findable (s : Side T) (rank : ℕ) : Bool :=
  (s.ops.take rank).all fun o => match s.pos.at o.time with
    | .ok p => decide (p < rank)
    | .error _ => false

/-- `DeterminantMatrix::sanity_check` (determinant_matrix.ipp:331-371): `true` if no assertion fails. -/
def DM.sanity (s : DM T K) : Bool :=
  decide (s.state = .waiting) &&
  decide (s.n = s.cd.ops.length) && decide (s.cd.ops.length = s.c.ops.length) &&
  decide (s.c.pos.length = s.cd.ops.length) && decide (s.cd.pos.length = s.cd.ops.length) &&
  s.c.posRight s.cd.ops.length && s.cd.posRight s.cd.ops.length &&
  (match timesPermutation (s.c.ops.take s.n), timesPermutation (s.cd.ops.take s.n) with
    | some a, some b => decide (s.perm = a * b)
    | _, _ => false) &&
  s.cd.findable s.n && s.c.findable s.n &&
  decide (s.cd.set = OpSet.ofList s.cd.ops) && decide (s.c.set = OpSet.ofList s.c.ops)

/-- `CompareOverSectors` (determinant_matrix_partitioned.hpp:79-83). -/
def overSectors (a b : ℕ × Psi T) : Prop := a.2.time < b.2.time

instance : DecidableRel (overSectors (T := T)) := fun a b => inferInstanceAs (Decidable (a.2.time < b.2.time))

/-- `CompareWithinSectors` (determinant_matrix_partitioned.hpp:67-75). -/
def withinSectors (a b : ℕ × Psi T) : Prop :=
  if a.1 = b.1 then a.2.time < b.2.time else a.1 < b.1

instance : DecidableRel (withinSectors (T := T)) := fun a b => by
  unfold withinSectors; infer_instance

/-- The recomputed sign for one kind of operators (determinant_matrix_partitioned.ipp:309-324): the operators
in the order of the set with their sectors, sorted by time, then by sector and time; the result of the
second sort counts. -/
def sectorSign (E : PEnv) (s : OpSet T) : Option ℤ :=
  let l := s.map fun o => (E.sector o.flavor, o)
  (combSort overSectors shrink13 (combFuel l.length) l.get).bind fun p =>
  (combSort withinSectors shrink13 (combFuel l.length) p.1).map fun q => q.2

/-- The union of the sets of the sectors (determinant_matrix_partitioned.ipp:284-289). -/
def PSide.union (E : PEnv) (p : PSide T) : OpSet T :=
  (List.range E.ns).foldl (fun m k => (p.sec k).foldl (fun m o => (OpSet.insert m o).1) m) []

/-- The comparison of the vector in actual order with the vectors of the blocks
(determinant_matrix_partitioned.ipp:328-338) for one kind of operators; `ops k` is the vector of block `k`, of
which the first `n k` elements are looked at. -/
def actualOrderRight (act : List (Psi T)) (ops : ℕ → List (Psi T)) (n : ℕ → ℕ) (ns : ℕ) : Bool :=
  (List.range ns).all fun k => (List.range (n k)).all fun i =>
    match act[((List.range k).map n).sum + i]?, (ops k)[i]? with
    | some a, some b => decide (a = b)
    | _, _ => false

/-- The assertions of `DeterminantMatrixPartitioned::sanity_check` about one kind of operators
(determinant_matrix_partitioned.ipp:290-302). -/
def PSide.sanity (E : PEnv) (p : PSide T) : Bool :=
  decide (p.union E = p.set) && decide (p.union E = OpSet.ofList p.act) &&
  (List.range E.ns).all fun k => (p.sec k).all fun o => decide (o.flavor < E.nf) && decide (E.sector o.flavor = k)

/-- `DeterminantMatrixPartitioned::sanity_check` (determinant_matrix_partitioned.ipp:270-341): `true` if no
assertion fails. -/
def PM.sanity (E : PEnv) (s : PM T K) : Bool :=
  s.cd.sanity E && s.c.sanity E &&
  decide (s.cd.set.length = ((List.range E.ns).map fun k => (s.blocks k).n).sum) &&
  (match sectorSign E s.cd.set, sectorSign E s.c.set with
    | some a, some b => decide (s.perm = a * b)
    | _, _ => false) &&
  actualOrderRight s.cd.act (fun k => (s.blocks k).cd.ops) (fun k => (s.blocks k).n) E.ns &&
  actualOrderRight s.c.act (fun k => (s.blocks k).c.ops) (fun k => (s.blocks k).n) E.ns

/-- The assertions at the end of `reconstruct_operator_list_in_actual_order`
(determinant_matrix_partitioned.hpp:435-436). -/
def PM.actSizes (s : PM T K) : Bool :=
  decide (s.cd.act.length = s.cd.set.length) && decide (s.c.act.length = s.cd.set.length)

/-- How a program built without NDEBUG may stop. -/
inductive DbgErr
  | assertion
  | other (e : DErr)
deriving DecidableEq, Repr

/-- An outcome of the program built with NDEBUG. -/
def Except.dbg {α : Type} : Except DErr α → Except DbgErr α
  | .ok a => .ok a
  | .error e => .error (.other e)

/-- `assert(b)`. -/
def asserted {α : Type} (b : Bool) (a : α) : Except DbgErr α := if b then .ok a else .error .assertion

section
variable [Field K] [DecidableEq K] (E : PEnv) (G : Psi T → Psi T → K)

/-- `try_update` with assertions: the blocks check themselves first (determinant_matrix.ipp:498).  All blocks
are checked before the first one is changed; in the code every block is checked before itself is changed, which
differs only if a block throws. -/
noncomputable def PM.tryUpdateDbg (s : PM T K) (ch : HybChange T) : Except DbgErr (K × PM T K) :=
  (asserted ((List.range E.ns).all fun k => (s.blocks k).sanity) s).bind fun s =>
    Except.dbg (s.tryUpdate E G ch)

/-- `perform_update` with assertions: in the blocks after `perform_remove_add`
(determinant_matrix_remove_add.ipp:112-115), after the reconstruction of the vectors, and at the end
(determinant_matrix_partitioned.ipp:221). -/
noncomputable def PM.performDbg (s : PM T K) : Except DbgErr (PM T K) :=
  (Except.dbg (s.perform E)).bind fun s2 =>
    asserted (((List.range E.ns).all fun k =>
        !(decide ((s.blocks k).mode = some .remAdd) && !(s.blocks k).impossible) || (s2.blocks k).sanity) &&
      s2.actSizes && s2.sanity E) s2

/-- `reject_update` with assertions: in the blocks after `remove_excess_operators` and `reject_remove_add`
(determinant_matrix.ipp:322, determinant_matrix_remove_add.ipp:135), and after the reconstruction of the
vectors. -/
noncomputable def PM.rejectDbg (s : PM T K) : Except DbgErr (PM T K) :=
  (Except.dbg (s.reject E)).bind fun s2 =>
    asserted (((List.range E.ns).all fun k =>
        !(decide ((s.blocks k).mode = some .remAdd) || decide ((s.blocks k).mode = some .add)) ||
          (s2.blocks k).sanity) && s2.actSizes) s2

/-- The constructor with a list of pairs, with assertions (determinant_matrix_partitioned.ipp:33-63). -/
noncomputable def PM.buildDbg (l : List (Psi T × Psi T)) : Except DbgErr (PM T K) :=
  ((PM.empty : PM T K).tryUpdateDbg E G ⟨[], [], l.map Prod.fst, l.map Prod.snd⟩).bind fun r =>
    (r.2.performDbg E).bind fun s => asserted (s.sanity E) s

/-- `rebuild_inverse_matrix` with assertions (determinant_matrix.ipp:386, 399): the number of operators is
compared with the size of the matrix, and every block checks itself at the end. -/
noncomputable def PM.rebuildDbg (s : PM T K) : Except DbgErr (PM T K) :=
  (asserted ((List.range E.ns).all fun k => decide ((s.blocks k).n = (s.blocks k).cd.ops.length)) s).bind fun s =>
  (Except.dbg (s.rebuild E G)).bind fun s2 =>
    asserted ((List.range E.ns).all fun k => (s2.blocks k).sanity) s2

/-- One use of the object as in `LocalUpdater::update` (src/moves/moves.ipp:83-213), with assertions. -/
noncomputable def PM.stepDbg (s : PM T K) (ch : HybChange T) (acc : Bool) :
    Except DbgErr ((K × Bool) × PM T K) :=
  (s.tryUpdateDbg E G ch).bind fun x =>
  if acc = true ∧ x.1 ≠ 0 then (x.2.performDbg E).bind fun s2 => .ok ((x.1, true), s2)
  else (x.2.rejectDbg E).bind fun s2 => .ok ((x.1, false), s2)

/-- A history of requests, with assertions. -/
noncomputable def PM.runDbg : PM T K → List (HybChange T × Bool) →
    Except DbgErr (List (K × HybChange T) × PM T K)
  | s, [] => .ok ([], s)
  | s, (ch, acc) :: h =>
    (s.stepDbg E G ch acc).bind fun x =>
    (PM.runDbg x.2 h).bind fun y => .ok ((if x.1.2 then [(x.1.1, ch)] else []) ++ y.1, y.2)

end

/-- The assertion in `init` that connections are mutual (determinant_matrix_partitioned.ipp:78). -/
def initAsserts (nf : ℕ) (conn : ℕ → ℕ → Bool) : Bool :=
  (List.range nf).all fun f => (List.range f).all fun f2 => decide (conn f f2 = conn f2 f)

/-- The assertions at the end of `init` (determinant_matrix_partitioned.ipp:93-99): flavors of different sectors
are not connected. -/
def PEnv.initSectorAsserts (E : PEnv) (conn : ℕ → ℕ → Bool) : Bool :=
  (List.range E.nf).all fun f => (List.range f).all fun f2 =>
    decide (E.sector f = E.sector f2) || !conn f f2

end CTHyb
