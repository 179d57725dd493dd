import Mathlib.Data.List.Basic
import Mathlib.Logic.Function.Basic
import Mathlib.Logic.Relation

/-!
Model of the parallel run: `mymcmpiadapter::run` (src/mc/mympiadapter.hpp:64-110),
`MatrixSolver::solve` (src/solver.ipp:31-126) and the end of `main` (src/main.cpp:46-64).

Every process ("rank") is a small state machine; everything which depends on clocks, on random
numbers or on the work done in a step is an arbitrary sequence of answers (`REnv`).  Collective
operations have the strictest meaning which MPI allows: a call returns only after all ranks have
made a call of the same kind; calls of different kinds never complete.

Taken from the library (not part of the repository): `alps::stop_callback` constructed with a
communicator is one broadcast of the decision of rank 0; `alps::collect_results` is a collective
operation (modelled as one).
-/

namespace CTHyb

/-- Kinds of collective operations. -/
inductive Coll
  /-- `MPI_Allreduce(..., MPI_PROD)` (mympiadapter.hpp:80-85) -/
  | allThermalized
  /-- `MPI_Allreduce(..., MPI_SUM)` in `FlatHistogram::synchronize` (wang_landau.hpp:172-177) -/
  | syncHistogram
  /-- the broadcast in `stop_callback()` (mympiadapter.hpp:97) -/
  | stop
  /-- `alps::collect_results` (solver.ipp:50, 89) -/
  | collect
deriving DecidableEq

/-- Positions in the program. -/
inductive Loc
  /-- beginning of an iteration (mympiadapter.hpp:71) -/
  | top
  /-- `update()`, `measure()` and the test for the check (mympiadapter.hpp:92-96) -/
  | body
  /-- after the loop: `finish_measurement()` (mympiadapter.hpp:108) -/
  | finish
  /-- inside a collective operation -/
  | wait (k : Coll)
  /-- `solve` returned 0 -/
  | exitOk
  /-- `solve` returned 1 -/
  | exitErr
deriving DecidableEq

/-- State of one rank: position, number of the iteration, `thermalized`, `all_processes_thermalized`,
`stopped`, whether `schedule_checker.update` was called before, and the collective operations called
so far. -/
structure RankState where
  loc : Loc
  iter : ℕ
  therm : Bool
  all : Bool
  stopped : Bool
  scheduled : Bool
  calls : List Coll

/-- Answers of the surroundings of one rank, by iteration: whether `time - start_time >
thermalization_time` (impurity.hpp:88-92), whether `pending()` holds (mympiadapter.hpp:22-26), the
answer of `pending()` as long as its members have not been assigned (`last_check_time_` and
`next_check_` have no initial values, mympiadapter.hpp:38-40), whether an exception is thrown in
`update` or `measure`; and whether every configuration space was visited (impurity.ipp:816-820). -/
structure REnv where
  therm : ℕ → Bool
  pending : ℕ → Bool
  uninit : ℕ → Bool
  throws : ℕ → Bool
  visited : Bool

/-- Surroundings of all ranks: besides `REnv` the decision of rank 0 in `stop_callback` by its
iteration, and whether there is a flat histogram (depends on the parameters only). -/
structure MEnv (n : ℕ) where
  rank : Fin (n + 1) → REnv
  stop : ℕ → Bool
  flat : Bool

/-- Global state of `n + 1` ranks. -/
abbrev MState (n : ℕ) := Fin (n + 1) → RankState

/-- A rank calls a collective operation. -/
def RankState.call (s : RankState) (k : Coll) : RankState :=
  { s with loc := .wait k, calls := s.calls ++ [k] }

/-- One local step of a rank; `none` if it is inside a collective operation or has left `solve`. -/
def localStep (e : REnv) (s : RankState) : Option RankState :=
  match s.loc with
  | .top =>
    -- mympiadapter.hpp:72-85: update the status, then the first collective operation
    let s := { s with therm := s.therm || e.therm s.iter }
    if s.all then some { s with loc := .body } else some (s.call .allThermalized)
  | .body =>
    -- mympiadapter.hpp:92-106
    if e.throws s.iter then some { s with loc := .exitErr }
    else if s.stopped || (if s.scheduled then e.pending s.iter else e.uninit s.iter) || !s.all then
      some (s.call .stop)
    else some { s with loc := .top, iter := s.iter + 1 }
  | .finish =>
    -- impurity.ipp:811-821, then solver.ipp:46-50 and 87-93 (`r.second` is `is_thermalized()`)
    if !s.therm then some { s with loc := .exitErr }
    else if !e.visited then some { s with loc := .exitErr }
    else if s.therm then some (s.call .collect) else some { s with loc := .exitErr }
  | _ => none

/-- Return of the product over all ranks (mympiadapter.hpp:86-89): the flag is set and
`prepare_for_measurement` synchronises the histogram (impurity.ipp:782-789). -/
def afterReduce (flat out : Bool) (s : RankState) : RankState :=
  if out then
    if flat then { s with all := true }.call .syncHistogram else { s with all := true, loc := .body }
  else { s with loc := .body }

/-- Return of `stop_callback` (mympiadapter.hpp:97-99 and the loop condition 106). -/
def afterStop (v : Bool) (s : RankState) : RankState :=
  if v then { s with stopped := v, scheduled := true, loc := .finish }
  else { s with stopped := v, scheduled := true, loc := .top, iter := s.iter + 1 }

/-- Completion of a collective operation of kind `k` which all ranks have called. -/
def complete {n : ℕ} (E : MEnv n) (S : MState n) : Coll → MState n
  | .allThermalized => fun r => afterReduce E.flat (decide (∀ q, (S q).therm = true)) (S r)
  | .syncHistogram => fun r => { S r with loc := .body }
  | .stop => fun r => afterStop (E.stop (S 0).iter) (S r)
  | .collect => fun r => { S r with loc := .exitOk }

/-- Steps of the whole program: a local step of one rank, or the completion of a collective
operation. -/
inductive MStep {n : ℕ} (E : MEnv n) : MState n → MState n → Prop
  | loc (S : MState n) (r : Fin (n + 1)) (s' : RankState) (h : localStep (E.rank r) (S r) = some s') :
      MStep E S (Function.update S r s')
  | coll (S : MState n) (k : Coll) (h : ∀ r, (S r).loc = .wait k) : MStep E S (complete E S k)

/-- Beginning of `run` (mympiadapter.hpp:64-69). -/
def rankInit : RankState :=
  { loc := .top, iter := 0, therm := false, all := false, stopped := false, scheduled := false, calls := [] }

/-- Executions: reachable global states. -/
def MReach {n : ℕ} (E : MEnv n) : MState n → Prop := Relation.ReflTransGen (MStep E) fun _ => rankInit

/-- Value returned by `solve` (solver.ipp:120-125). -/
def solveReturn : Loc → Option ℕ
  | .exitOk => some 0
  | .exitErr => some 1
  | _ => none

/-- Exit code of the program (main.cpp:46-64): the value returned by `solve` is not used.  `none`: the
program has not ended. -/
def mainExit (l : Loc) : Option ℕ := (solveReturn l).map fun _ => 0

end CTHyb
