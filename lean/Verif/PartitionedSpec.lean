import Verif.Partitioned
import Verif.DetMatrixSpec

/-!
Specification for `DeterminantMatrixPartitioned`, in terms of multisets of operators.
-/

namespace CTHyb

open Matrix

variable {T K : Type} [LinearOrder T]

/-- The container holds exactly the operators `m`, in the order of time. -/
def Holds (s : OpSet T) (m : Multiset (Psi T)) : Prop := s.Sorted ∧ (s : Multiset (Psi T)) = m

/-- The operators of sector `k`. -/
def PEnv.inSector (E : PEnv) (k : ℕ) (m : Multiset (Psi T)) : Multiset (Psi T) :=
  m.filter fun o => E.sector o.flavor = k

/-- The flavor exists and so does its sector. -/
def PEnv.Valid (E : PEnv) (o : Psi T) : Prop := o.flavor < E.nf ∧ E.sector o.flavor < E.ns

/-- All sets hold what they should if the operators are `m`. -/
structure PSide.OK (E : PEnv) (p : PSide T) (m : Multiset (Psi T)) : Prop where
  set : Holds p.set m
  sec : ∀ k, k < E.ns → Holds (p.sec k) (E.inSector k m)
  valid : ∀ o ∈ m, E.Valid o

/-- The times sector by sector, in order within each sector. -/
def PSide.order (E : PEnv) (p : PSide T) : List T :=
  (List.range E.ns).flatMap fun k => (p.sec k).map Psi.time

/-- `G` vanishes between different sectors. -/
def PEnv.BlockDiag [Zero K] (E : PEnv) (G : Psi T → Psi T → K) : Prop :=
  ∀ a b : Psi T, a.flavor < E.nf → b.flavor < E.nf → E.sector a.flavor ≠ E.sector b.flavor → G a b = 0

/-- The part of a request which concerns one sector. -/
def HybChange.inSector (E : PEnv) (k : ℕ) (ch : HybChange T) : HybChange T :=
  ⟨ch.cdRem.filter fun o => E.sector o.flavor = k, ch.cRem.filter fun o => E.sector o.flavor = k,
    ch.cdAdd.filter fun o => E.sector o.flavor = k, ch.cAdd.filter fun o => E.sector o.flavor = k⟩

/-- A request of a kind used by the solver: only operators with existing flavors are added, and in each
sector it is of a kind `DeterminantMatrix` deals with. -/
structure HybChange.PShape (E : PEnv) (ch : HybChange T) : Prop where
  cdValid : ∀ o ∈ ch.cdAdd, E.Valid o
  cValid : ∀ o ∈ ch.cAdd, E.Valid o
  shape : ∀ k, k < E.ns → (ch.inSector E k).Shape

variable [Field K]

/-- A consistent object: consistent blocks with the operators of their sectors, the vectors in actual order
are the concatenation of those of the blocks, all sets match, all times are different, the sign is the one
of the permutation from the order by sectors to the order in time, and the work lists are empty. -/
structure PM.Inv (E : PEnv) (G : Psi T → Psi T → K) (s : PM T K) : Prop where
  block : ∀ k, k < E.ns → (s.blocks k).Inv G
  cdOps : ∀ k, k < E.ns → ((s.blocks k).cd.ops : Multiset (Psi T)) = E.inSector k s.cd.act
  cOps : ∀ k, k < E.ns → ((s.blocks k).c.ops : Multiset (Psi T)) = E.inSector k s.c.act
  cdAct : s.cd.act = (List.range E.ns).flatMap fun k => (s.blocks k).cd.ops
  cAct : s.c.act = (List.range E.ns).flatMap fun k => (s.blocks k).c.ops
  cdOK : s.cd.OK E s.cd.act
  cOK : s.c.OK E s.c.act
  nodup : ((s.cd.act ++ s.c.act).map Psi.time).Nodup
  perm : s.perm = (-1) ^ (invs (s.c.order E) + invs (s.cd.order E))
  work : ∀ k, k < E.ns → s.part k = ⟨[], [], [], []⟩

end CTHyb
