import Verif.DetMatrix
import Verif.Clustering
import Mathlib.Algebra.BigOperators.Group.Finset.Basic

/-!
Model of `DeterminantMatrixPartitioned` (include/alps/fastupdate/determinant_matrix_partitioned.hpp,
detail/determinant_matrix_partitioned.ipp): one `DeterminantMatrix` for each sector of flavors, time-ordered
sets of all operators and of those of each sector, and the sign of the permutation between the order by
sector and the order in time.

`singular_` is always false (it is set in the constructors only) and `state_` is never changed, so both are
dropped; `sanity_check` only asserts.  Vectors indexed by sectors are functions on `ℕ`; loops over sectors
run over the numbers below `num_sectors_`, and using a flavor which does not exist is `DErr.undef`.
-/

namespace CTHyb

open Matrix

variable {T K α : Type}

/-- The data which never change after `init` (determinant_matrix_partitioned.hpp:370-373). -/
structure PEnv where
  nf : ℕ
  ns : ℕ
  sector : ℕ → ℕ

/-- The sets and work lists for one kind of operators (determinant_matrix_partitioned.hpp:386-403):
`cdagg_times_set_`, `cdagg_times_sectored_set_`, `cdagg_ops_rem_`, `cdagg_ops_add_`,
`cdagg_ops_actual_order_`, or the same for annihilation operators. -/
structure PSide (T : Type) where
  set : OpSet T
  sec : ℕ → OpSet T
  rem : ℕ → List (Psi T)
  add : ℕ → List (Psi T)
  act : List (Psi T)

/-- The object (determinant_matrix_partitioned.hpp:367-403).  `newPerm` is not initialised by the
constructors; here it is 0 until `try_update` writes it. -/
structure PM (T K : Type) where
  blocks : ℕ → DM T K
  cd : PSide T
  c : PSide T
  perm : ℤ
  newPerm : ℤ

/-- A loop over the first `n` elements of a vector which replaces each element and stops at the first
failure. -/
def loopN (n : ℕ) (f : ℕ → Except DErr α) (v : ℕ → α) : Except DErr (ℕ → α) :=
  match n with
  | 0 => .ok v
  | n + 1 => (loopN n f v).bind fun g => (f n).bind fun a => .ok (Function.update g n a)

/-- The connections made in `init` (determinant_matrix_partitioned.ipp:76-83): only pairs with
`flavor2 < flavor` are looked at. -/
def initEdges (nf : ℕ) (conn : ℕ → ℕ → Bool) : List (ℕ × ℕ) :=
  (List.range nf).flatMap fun f => ((List.range f).filter fun f2 => conn f f2).map fun f2 => (f, f2)

/-- The sectors computed by `init` (determinant_matrix_partitioned.ipp:72-90). -/
def PEnv.init (nf : ℕ) (conn : ℕ → ℕ → Bool) : Option PEnv :=
  (clusterLabels nf (initEdges nf conn)).map fun L => ⟨nf, L.numClusters, L.label⟩

section
variable [LinearOrder T]

/-- `std::distance(set.lower_bound(t), set.end())`. -/
def OpSet.upper (s : OpSet T) (t : T) : ℕ := s.countP fun x => decide (t ≤ x.time)

/-- `num_ops` in `erase_and_compute_perm_sign_change` and `insert_and_compute_perm_sign_change`
(determinant_matrix_partitioned.ipp:120-124, 132-136). -/
def PSide.numOps (ns : ℕ) (p : PSide T) (t : T) (k : ℕ) : ℕ :=
  p.set.upper t + ((List.range ns).map fun j => if k < j then (p.sec j).length else 0).sum +
    (p.sec k).upper t

/-- One iteration of the loops over operators to be removed with `erase_and_compute_perm_sign_change`
(determinant_matrix_partitioned.ipp:119-128, 160-164, 167-171). -/
def PSide.remove1 (E : PEnv) (p : PSide T) (o : Psi T) : Except DErr (PSide T × ℤ) :=
  if o.flavor < E.nf ∧ E.sector o.flavor < E.ns then
    let k := E.sector o.flavor
    .ok (⟨(p.set.erase o).1, Function.update p.sec k ((p.sec k).erase o).1,
      Function.update p.rem k (p.rem k ++ [o]), p.add, p.act⟩, paritySign (p.numOps E.ns o.time k))
  else .error .undef

/-- One iteration of the loops over operators to be added with `insert_and_compute_perm_sign_change`
(determinant_matrix_partitioned.ipp:131-140, 174-178, 181-185). -/
def PSide.add1 (E : PEnv) (p : PSide T) (o : Psi T) : Except DErr (PSide T × ℤ) :=
  if o.flavor < E.nf ∧ E.sector o.flavor < E.ns then
    let k := E.sector o.flavor
    .ok (⟨(p.set.insert o).1, Function.update p.sec k ((p.sec k).insert o).1, p.rem,
      Function.update p.add k (p.add k ++ [o]), p.act⟩, paritySign (p.numOps E.ns o.time k))
  else .error .undef

/-- The loop over operators to be removed; the sign is the product of the changes. -/
def PSide.removeAll (E : PEnv) : List (Psi T) → PSide T → ℤ → Except DErr (PSide T × ℤ)
  | [], p, s => .ok (p, s)
  | o :: l, p, s => (p.remove1 E o).bind fun r => PSide.removeAll E l r.1 (s * r.2)

/-- The loop over operators to be added. -/
def PSide.addAll (E : PEnv) : List (Psi T) → PSide T → ℤ → Except DErr (PSide T × ℤ)
  | [], p, s => .ok (p, s)
  | o :: l, p, s => (p.add1 E o).bind fun r => PSide.addAll E l r.1 (s * r.2)

/-- The part of the request which concerns sector `k`. -/
def PM.part (s : PM T K) (k : ℕ) : HybChange T := ⟨s.cd.rem k, s.c.rem k, s.cd.add k, s.c.add k⟩

/-- `clear_work` (determinant_matrix_partitioned.hpp:405-412) for one kind of operators: the loop runs over
all sectors. -/
def PSide.clear (ns : ℕ) (p : PSide T) : PSide T :=
  { p with
    rem := fun k => if k < ns then [] else p.rem k
    add := fun k => if k < ns then [] else p.add k }

/-- Reverting the sets in `reject_update` for one kind of operators
(determinant_matrix_partitioned.ipp:238-264): erase what was added, then insert what was removed. -/
def PSide.revert (ns : ℕ) (p : PSide T) : PSide T :=
  let added := (List.range ns).flatMap p.add
  let removed := (List.range ns).flatMap p.rem
  { p with
    set := removed.foldl (fun m o => (OpSet.insert m o).1) (added.foldl (fun m o => (OpSet.erase m o).1) p.set)
    sec := fun k => if k < ns then
        (p.rem k).foldl (fun m o => (OpSet.insert m o).1) ((p.add k).foldl (fun m o => (OpSet.erase m o).1) (p.sec k))
      else p.sec k }

/-- `reconstruct_operator_list_in_actual_order` (determinant_matrix_partitioned.hpp:422-437). -/
def PM.reconstruct (ns : ℕ) (s : PM T K) : PM T K :=
  { s with
    cd := { s.cd with act := (List.range ns).flatMap fun k => (s.blocks k).cd.ops }
    c := { s.c with act := (List.range ns).flatMap fun k => (s.blocks k).c.ops } }

/-- The constructor without operators (determinant_matrix_partitioned.ipp:12-24, 101-113). -/
def PM.empty [Zero K] : PM T K where
  blocks := fun _ => DM.empty
  cd := ⟨[], fun _ => [], fun _ => [], fun _ => [], []⟩
  c := ⟨[], fun _ => [], fun _ => [], fun _ => [], []⟩
  perm := 1
  newPerm := 0

variable [Field K] [DecidableEq K] (E : PEnv) (G : Psi T → Psi T → K)

/-- `try_update` (determinant_matrix_partitioned.ipp:151-201). -/
noncomputable def PM.tryUpdate (s : PM T K) (ch : HybChange T) : Except DErr (K × PM T K) :=
  (s.cd.removeAll E ch.cdRem 1).bind fun r1 =>
  (s.c.removeAll E ch.cRem r1.2).bind fun r2 =>
  (r1.1.addAll E ch.cdAdd r2.2).bind fun r3 =>
  (r2.1.addAll E ch.cAdd r3.2).bind fun r4 =>
  let s1 : PM T K := { s with
    cd := r3.1
    c := r4.1
    newPerm := r4.2 * s.perm }
  (loopN E.ns (fun k => (s.blocks k).tryUpdate G (s1.part k)) (fun k => (1, s.blocks k))).bind fun v =>
  .ok ((∏ k ∈ Finset.range E.ns, (v k).1) * (r4.2 : K), { s1 with blocks := fun k => (v k).2 })

/-- `perform_update` (determinant_matrix_partitioned.ipp:210-222). -/
noncomputable def PM.perform (s : PM T K) : Except DErr (PM T K) :=
  (loopN E.ns (fun k => (s.blocks k).perform) s.blocks).bind fun v =>
  let s1 := ({ s with blocks := v } : PM T K).reconstruct E.ns
  .ok { s1 with
    perm := s.newPerm
    cd := s1.cd.clear E.ns
    c := s1.c.clear E.ns }

/-- `reject_update` (determinant_matrix_partitioned.ipp:231-268). -/
noncomputable def PM.reject (s : PM T K) : Except DErr (PM T K) :=
  (loopN E.ns (fun k => (s.blocks k).reject) s.blocks).bind fun v =>
  let s1 := ({ s with
    blocks := v
    cd := s.cd.revert E.ns
    c := s.c.revert E.ns } : PM T K).reconstruct E.ns
  .ok { s1 with
    cd := s1.cd.clear E.ns
    c := s1.c.clear E.ns }

/-- `compute_determinant` (determinant_matrix_partitioned.hpp:187-196). -/
noncomputable def PM.determinant (s : PM T K) : K :=
  (s.perm : K) * ∏ k ∈ Finset.range E.ns, (s.blocks k).determinant

/-- The loop of `compute_inverse_matrix` over the first `n` sectors (determinant_matrix_partitioned.hpp:220-233):
the matrix so far and the offset of the next block. -/
def PM.inverseLoop (s : PM T K) : ℕ → (ℕ → ℕ → K) × ℕ
  | 0 => (fun _ _ => 0, 0)
  | n + 1 =>
    let r := PM.inverseLoop s n
    let b := s.blocks n
    (fun i j => if r.2 ≤ i ∧ i < r.2 + b.n ∧ r.2 ≤ j ∧ j < r.2 + b.n then b.inv (i - r.2) (j - r.2)
      else r.1 i j, r.2 + b.n)

/-- `compute_inverse_matrix` (determinant_matrix_partitioned.hpp:220-233); the same loop is used in
`GMeasurement::measure_via_hyb` (src/measurement/measurement.ipp:172-177). -/
def PM.inverse (E : PEnv) (s : PM T K) : ℕ → ℕ → K := (s.inverseLoop E.ns).1

/-- The constructor with a list of pairs (determinant_matrix_partitioned.ipp:33-63): the ratio is not
looked at. -/
noncomputable def PM.build (l : List (Psi T × Psi T)) : Except DErr (PM T K) :=
  ((PM.empty : PM T K).tryUpdate E G ⟨[], [], l.map Prod.fst, l.map Prod.snd⟩).bind fun r => r.2.perform E

/-- `rebuild_inverse_matrix` (determinant_matrix_partitioned.hpp:278-282). -/
noncomputable def PM.rebuild (s : PM T K) : Except DErr (PM T K) :=
  (loopN E.ns (fun k => (s.blocks k).rebuild G) s.blocks).bind fun v => .ok { s with blocks := v }

end
end CTHyb
