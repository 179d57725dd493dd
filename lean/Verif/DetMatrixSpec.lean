import Verif.DetMatrix
import Verif.TimeDet

/-!
Specification for `DeterminantMatrix`: what a consistent object is and what an update must do, in terms of
lists and multisets of operators and of time-ordered determinants (`Verif.TimeDet`).
-/

namespace CTHyb

open Matrix

variable {T K : Type} [LinearOrder T]

/-- The number of inversions of an operator list. -/
abbrev opInvs (l : List (Psi T)) : ℕ := invs (l.map Psi.time)

/-- Operators at different times, and the map contains exactly their times and positions. -/
structure Side.Core (s : Side T) : Prop where
  nodup : (s.ops.map Psi.time).Nodup
  pos : s.pos.Perm ((s.ops.map Psi.time).zipIdx)

/-- In addition the set contains the operators in the order of time. -/
structure Side.OK (s : Side T) : Prop extends Side.Core s where
  sorted : s.set.Sorted
  mem : ∀ x, x ∈ s.set ↔ x ∈ s.ops

variable [Field K]

/-- The part of the state which does not concern the sets: operators and positions match, there are as
many rows as columns, `perm` is the sign of the storage order, and the stored matrix is the inverse of
`G(c_i, c†_j)`. -/
structure DM.Core (G : Psi T → Psi T → K) (s : DM T K) : Prop where
  cd : s.cd.Core
  c : s.c.Core
  cdLen : s.cd.ops.length = s.n
  cLen : s.c.ops.length = s.n
  perm : s.perm = (-1) ^ (opInvs s.c.ops + opInvs s.cd.ops)
  inv : blk s.inv 0 0 s.n s.n * blk (gEntry G s.c.ops s.cd.ops) 0 0 s.n s.n = 1

/-- What `sanity_check` demands (determinant_matrix.ipp:331-371) and more: between two updates the object
is waiting, operators, maps and sets agree, all times are different, the sign is the one of the storage
order, and the stored matrix is the inverse of `G(c_i, c†_j)`. -/
structure DM.Inv (G : Psi T → Psi T → K) (s : DM T K) : Prop extends DM.Core G s where
  state : s.state = .waiting
  cdOK : s.cd.OK
  cOK : s.c.OK
  nodup : ((s.cd.ops ++ s.c.ops).map Psi.time).Nodup

/-- The kinds of changes made by the solver on one block: equal numbers of operators of both kinds are
removed and equal numbers are added, or one operator is replaced, or the numbers do not match. -/
def HybChange.Shape (ch : HybChange T) : Prop :=
  (ch.cdRem.length = ch.cRem.length ∧ ch.cdAdd.length = ch.cAdd.length) ∨
  (ch.cdRem.length = 1 ∧ ch.cdAdd.length = 1 ∧ ch.cRem = [] ∧ ch.cAdd = []) ∨
  (ch.cdRem = [] ∧ ch.cdAdd = [] ∧ ch.cRem.length = 1 ∧ ch.cAdd.length = 1) ∨
  ch.cdAdd.length + ch.cRem.length ≠ ch.cAdd.length + ch.cdRem.length

/-- `l` contains the operators `old` without `rem` and with `add`. -/
def IsChanged (old rem add l : List (Psi T)) : Prop :=
  (l : Multiset (Psi T)) = (old : Multiset (Psi T)) - (rem : Multiset (Psi T)) + (add : Multiset (Psi T))

/-- The result of a correct `try_update` with ratio `r` and state `s1`. -/
structure DM.TryOK (G : Psi T → Psi T → K) (s : DM T K) (ch : HybChange T) (r : K) (s1 : DM T K) :
    Prop where
  /-- rejecting succeeds and leaves a consistent state with the same operators -/
  reject : ∃ s2, s1.reject = .ok s2 ∧ s2.Inv G ∧ s2.cd.ops.Perm s.cd.ops ∧ s2.c.ops.Perm s.c.ops
  /-- performing succeeds if the ratio is not zero and leaves a consistent state with the new operators -/
  perform : r ≠ 0 → ∃ s2, s1.perform = .ok s2 ∧ s2.Inv G ∧
    IsChanged s.cd.ops ch.cdRem ch.cdAdd s2.cd.ops ∧ IsChanged s.c.ops ch.cRem ch.cAdd s2.c.ops
  /-- the ratio of the time-ordered determinants is `r`; if there are operators of all four kinds,
  only if `r` is not zero or if the operators which stay have a non-zero determinant -/
  ratio : (r ≠ 0 ∨ ch.cdRem = [] ∨ ch.cdAdd = [] ∨ ch.cRem = [] ∨ ch.cAdd = [] ∨
      ∃ cs cds, IsChanged s.c.ops ch.cRem [] cs ∧ IsChanged s.cd.ops ch.cdRem [] cds ∧ timeDet G cs cds ≠ 0) →
    ∀ cs cds, IsChanged s.c.ops ch.cRem ch.cAdd cs → IsChanged s.cd.ops ch.cdRem ch.cdAdd cds →
    timeDet G cs cds = r * timeDet G s.c.ops s.cd.ops

end CTHyb
