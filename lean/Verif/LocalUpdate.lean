import Verif.Operator
import Verif.MergeDiff
import Mathlib.Algebra.Order.AbsoluteValue.Basic
import Mathlib.Algebra.Order.Field.Basic
import Mathlib.Algebra.Order.Group.Multiset

/-!
Model of `LocalUpdater::update` and `finalize_update` (src/moves/moves.ipp:83-264) on a
Monte Carlo configuration (src/mc_config.hpp:67-114).

The determinant matrix and the trace evaluation enter through records of functions
(`DetOps`, `TraceOps`); what is assumed of them is stated in `DetOps.Lawful` and
`TraceOps.Lawful`.
-/

namespace CTHyb

variable {T K R S : Type}

/-- The changes of hybridized operators of a proposal: the members `cdagg_ops_rem_`,
`c_ops_rem_`, `cdagg_ops_add_`, `c_ops_add_` of `LocalUpdater` (src/moves/moves.hpp). -/
structure HybChange (T : Type) where
  cdRem : List (Psi T)
  cRem : List (Psi T)
  cdAdd : List (Psi T)
  cAdd : List (Psi T)

/-- The interface of the determinant matrix used by the updates
(include/alps/fastupdate/determinant_matrix_base.hpp, determinant_matrix_partitioned.hpp):
`S` is its state, `try_update` returns the determinant ratio, and exactly one of
`perform_update`/`reject_update` follows. -/
structure DetOps (T K S : Type) where
  tryUpdate : S → HybChange T → K × S
  perform : S → S
  reject : S → S
  cdagg : S → List (Psi T)
  cs : S → List (Psi T)

/-- The trace evaluation used by the updates: `compute_trace_bound` (sum of the bounds) and
`lazy_eval_trace` (src/sliding_window/sliding_window.ipp:257-300, 383-445). -/
structure TraceOps (T K R : Type) where
  bound : OpSet T → R
  lazyEval : OpSet T → R → Bool × K

/-- `MonteCarloConfiguration` (src/mc_config.hpp:67-114).  The worm is represented by the list
returned by its `get_operators()`. -/
structure Cfg (T K S : Type) where
  ops : OpSet T
  M : S
  trace : K
  sign : K
  permSign : Int
  worm : Option (List (Psi T))

/-- Counters `num_attempted_`, `num_valid_move_`, `num_accepted_` (src/moves/moves.hpp). -/
structure Counters where
  attempted : Nat
  valid : Nat
  accepted : Nat
deriving DecidableEq, Repr

/-- A proposal: the member variables filled in by `propose` (src/moves/moves.ipp:97-99). -/
structure Proposal (T R : Type) where
  ch : HybChange T
  newWorm : Option (List (Psi T))
  corr : R

/-- How `update` ended. -/
inductive Exit
  /-- `propose` returned false (moves.ipp:101-104) -/
  | noMove
  /-- `range_check` threw (moves.ipp:128-129); `finalize_update` is not reached -/
  | thrownRange
  /-- an operator to be removed was not found (moves.ipp:227-229); not finalized -/
  | thrownFatal
  /-- duplicate time (moves.ipp:135-138) -/
  | duplicate
  /-- the bound of the trace vanished (moves.ipp:162-167) -/
  | zeroBound
  | rejected
  | accepted
deriving DecidableEq, Repr

/-- Operators of a worm, empty if there is none (moves.ipp:123-124). -/
def wormOps : Option (List (Psi T)) → List (Psi T)
  | none => []
  | some l => l

/-- `range_check` (src/moves/moves.ipp:25-32): every time component lies in
`[tau_low, tau_high]`; `inWin` is the test for one operator. -/
def rangeCheck (inWin : Psi T → Bool) (l : List (Psi T)) : Bool := l.all inWin

section
variable [LinearOrder T] [Field K] [DecidableEq K]
  [Field R] [LinearOrder R] [IsStrictOrderedRing R]

/-- `finalize_update` (src/moves/moves.ipp:244-264), the counters only. -/
def finalizeUpdate (c : Counters) (valid accepted : Bool) : Counters :=
  { attempted := c.attempted + 1
    valid := c.valid + (if valid then 1 else 0)
    accepted := c.accepted + (if valid && accepted then 1 else 0) }

/-- The lists of operators that really leave and enter the trace (moves.ipp:112-126). -/
def opChange (cfg : Cfg T K S) (p : Proposal T R) : List (Psi T) × List (Psi T) :=
  mergeDiff (p.ch.cdRem ++ p.ch.cRem) (p.ch.cdAdd ++ p.ch.cAdd)
    (wormOps cfg.worm) (wormOps p.newWorm)

/-- The accepted branch (moves.ipp:195-203): `M.perform_update`, trace, worm, permutation sign
and sign are updated; `ops'` are the already changed operators, `M1` the state of the
determinant matrix after `try_update`. -/
def acceptCfg (D : DetOps T K S) (permFn : List (Psi T) → List (Psi T) → List (Psi T) → Int)
    (sgn : K → K) (cfg : Cfg T K S) (p : Proposal T R) (ops' : OpSet T) (M1 : S)
    (traceNew prob : K) : Cfg T K S :=
  let M2 := D.perform M1
  let permNew := permFn (D.cdagg M2) (D.cs M2) (wormOps p.newWorm)
  { ops := ops'
    M := M2
    trace := traceNew
    worm := p.newWorm
    sign := cfg.sign * (((permNew : K) / (cfg.permSign : K)) * sgn prob)
    permSign := permNew }

/-- `LocalUpdater::update` (src/moves/moves.ipp:83-213).  Arguments: `D`, `Tr` the determinant
and trace machinery, `permFn` the permutation sign, `sgn` the function `mysign`, `ι` the
embedding of real numbers into the scalar type, `prop` the result of `propose` (`none` = no
valid move), `r` the random number drawn for the acceptance.  `convert_to_scalar` is the
identity. -/
def localUpdate (D : DetOps T K S) (Tr : TraceOps T K R)
    (permFn : List (Psi T) → List (Psi T) → List (Psi T) → Int)
    (abv : AbsoluteValue K R) (sgn : K → K) (ι : R →+* K) (inWin : Psi T → Bool)
    (cfg : Cfg T K S) (cnt : Counters) (prop : Option (Proposal T R)) (r : R) :
    Cfg T K S × Counters × Exit :=
  match prop with
  | none => (cfg, finalizeUpdate cnt false false, .noMove)
  | some p =>
    let chg := opChange cfg p
    if rangeCheck inWin chg.1 && rangeCheck inWin chg.2 then
      match updateOperators cfg.ops chg.1 chg.2 with
      | .fatal ops' => ({ cfg with ops := ops' }, cnt, .thrownFatal)
      | .duplicate ops' => ({ cfg with ops := ops' }, finalizeUpdate cnt true false, .duplicate)
      | .success ops' rec =>
        if chg.1.isEmpty && chg.2.isEmpty then
          let t := D.tryUpdate cfg.M p.ch
          let prob := ι p.corr * t.1
          if r < abv prob then
            (acceptCfg D permFn sgn cfg p ops' t.2 cfg.trace prob,
              finalizeUpdate cnt true true, .accepted)
          else
            ({ cfg with ops := revertChanges ops' rec, M := D.reject t.2 },
              finalizeUpdate cnt true false, .rejected)
        else if Tr.bound ops' = 0 then
          ({ cfg with ops := revertChanges ops' rec }, finalizeUpdate cnt true false, .zeroBound)
        else
          let t := D.tryUpdate cfg.M p.ch
          if t.1 ≠ 0 then
            let rest := ι p.corr * t.1
            let cutoff := abv (ι r * cfg.trace / rest)
            let lz := Tr.lazyEval ops' cutoff
            let prob := rest * (lz.2 / cfg.trace)
            if lz.1 then
              (acceptCfg D permFn sgn cfg p ops' t.2 lz.2 prob,
                finalizeUpdate cnt true true, .accepted)
            else
              ({ cfg with ops := revertChanges ops' rec, M := D.reject t.2 },
                finalizeUpdate cnt true false, .rejected)
          else
            ({ cfg with ops := revertChanges ops' rec, M := D.reject t.2 },
              finalizeUpdate cnt true false, .rejected)
    else (cfg, cnt, .thrownRange)

end

/-- A change which can be made to the operators `cd`, `c`: it removes operators that are there, and
afterwards no two operators have the same time. -/
structure HybChange.Adm [DecidableEq (Psi T)] (cd c : List (Psi T)) (ch : HybChange T) : Prop where
  cdRem : ch.cdRem.Subperm cd
  cRem : ch.cRem.Subperm c
  nodup : ((((cd : Multiset (Psi T)) - (ch.cdRem : Multiset (Psi T)) + (ch.cdAdd : Multiset (Psi T))) +
    ((c : Multiset (Psi T)) - (ch.cRem : Multiset (Psi T)) + (ch.cAdd : Multiset (Psi T)))).map
      Psi.time).Nodup

/-- What the updates rely on in the determinant machinery, for a state satisfying `Inv` and a
change of the kind `Sh` which can be made: rejecting keeps operators and determinant, and
performing a change with non-zero ratio changes operators as requested and multiplies the
determinant by the ratio.  `Verif.DetMatrixProps` and `Verif.PartitionedProps` prove this for the
classes of the code. -/
structure DetOps.Lawful [DecidableEq (Psi T)] [Mul K] [Zero K] (D : DetOps T K S)
    (Sh : HybChange T → Prop) (Inv : S → Prop) (det : S → K) : Prop where
  reject_inv : ∀ s ch, Inv s → ch.Adm (D.cdagg s) (D.cs s) → Sh ch →
    Inv (D.reject (D.tryUpdate s ch).2)
  reject_cdagg : ∀ s ch, Inv s → ch.Adm (D.cdagg s) (D.cs s) → Sh ch →
    (D.cdagg (D.reject (D.tryUpdate s ch).2)).Perm (D.cdagg s)
  reject_cs : ∀ s ch, Inv s → ch.Adm (D.cdagg s) (D.cs s) → Sh ch →
    (D.cs (D.reject (D.tryUpdate s ch).2)).Perm (D.cs s)
  reject_det : ∀ s ch, Inv s → ch.Adm (D.cdagg s) (D.cs s) → Sh ch →
    det (D.reject (D.tryUpdate s ch).2) = det s
  perform_inv : ∀ s ch, Inv s → ch.Adm (D.cdagg s) (D.cs s) → Sh ch →
    (D.tryUpdate s ch).1 ≠ 0 → Inv (D.perform (D.tryUpdate s ch).2)
  perform_cdagg : ∀ s ch, Inv s → ch.Adm (D.cdagg s) (D.cs s) → Sh ch →
    (D.tryUpdate s ch).1 ≠ 0 →
    ((D.cdagg (D.perform (D.tryUpdate s ch).2) : List (Psi T)) : Multiset (Psi T)) =
      (D.cdagg s : Multiset (Psi T)) - (ch.cdRem : Multiset (Psi T)) + (ch.cdAdd : Multiset (Psi T))
  perform_cs : ∀ s ch, Inv s → ch.Adm (D.cdagg s) (D.cs s) → Sh ch →
    (D.tryUpdate s ch).1 ≠ 0 →
    ((D.cs (D.perform (D.tryUpdate s ch).2) : List (Psi T)) : Multiset (Psi T)) =
      (D.cs s : Multiset (Psi T)) - (ch.cRem : Multiset (Psi T)) + (ch.cAdd : Multiset (Psi T))
  perform_det : ∀ s ch, Inv s → ch.Adm (D.cdagg s) (D.cs s) → Sh ch →
    (D.tryUpdate s ch).1 ≠ 0 →
    det (D.perform (D.tryUpdate s ch).2) = (D.tryUpdate s ch).1 * det s

/-- What the updates rely on in the trace evaluation: a positive answer means that the returned
value exceeds the cutoff in absolute value. -/
def TraceOps.Lawful [Semiring K] [Semiring R] [PartialOrder R] (Tr : TraceOps T K R)
    (abv : AbsoluteValue K R) : Prop :=
  ∀ ops cut, (Tr.lazyEval ops cut).1 = true → cut < abv (Tr.lazyEval ops cut).2

end CTHyb
