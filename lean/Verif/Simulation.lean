import Verif.GlobalUpdate
import Verif.Partitioned

/-!
Model of the driver of the simulation: the part of the constructor which makes the initial state
(src/impurity.ipp:111-117, 152-153), `do_one_sweep` (492-547), `transition_between_config_spaces`
(550-622), `global_updates` (624-693) and the loop of `update` (212-257), composed of the models of
`LocalUpdater::update`, `global_update` and `SlidingWindowManager`.

Which local updater runs when is decided by the order in the code, by parameters and by random
numbers; here every call of a local updater is an element of a list given from outside, and its
`propose` is a function of the configuration and of the window, with the random numbers already
drawn.  Measurements, `sanity_check` (empty unless debugging is on), the adjustment of weights and
of the window size between sweeps (they only choose the arguments of the next sweep) and output are
not modelled.  The result `none` stands for an exception or an invalid access.
-/

namespace CTHyb

variable {T R K S Ket Bra ι : Type}

section factors
variable [Field K] [Field R] [LinearOrder R]

/-- `compute_determinant_as_product` of one sector (determinant_matrix.hpp:137-157); `lu` are the
diagonal elements returned by `lu_product`. -/
def DM.detFactors (abv : AbsoluteValue K R) (lu : (n : ℕ) → Matrix (Fin n) (Fin n) K → List K)
    (s : DM T K) : List K :=
  if s.n = 0 then [1]
  else sortAbs abv (mulHead (s.perm : K) ((lu s.n (blk s.inv 0 0 s.n s.n)).map fun x => 1 / x))

/-- `compute_determinant_as_product` (determinant_matrix_partitioned.hpp:201-215).  The flag
`singular_` is never set. -/
def PM.detFactors (abv : AbsoluteValue K R) (lu : (n : ℕ) → Matrix (Fin n) (Fin n) K → List K)
    (E : PEnv) (s : PM T K) : List K :=
  sortAbs abv (mulHead (s.perm : K) ((List.range E.ns).flatMap fun k => (s.blocks k).detFactors abv lu))

end factors

section
variable [Field K] [DecidableEq K] [Field R] [LinearOrder R] [IsStrictOrderedRing R] [Fintype ι]

/-- What the driver uses in addition to the ingredients of a global update: the evaluation of the
trace by the window, the embedding of the reals, `compute_determinant_as_product`, and the empty
determinant matrix `M(F)` (src/mc_config.hpp:75). -/
structure SimEnv (R K S Ket Bra ι : Type) [Field K] [PartialOrder R] [Field R]
    extends GEnv R K S Ket Bra ι where
  tr : SWState Ket Bra ι → TraceOps (OpTime R) K R
  emb : R →+* K
  factors : S → List K
  M0 : S

/-- A call of a local updater: its `propose` and the random number of the acceptance. -/
structure LocalCall (R K S Ket Bra ι : Type) where
  propose : Cfg (OpTime R) K S → SWState Ket Bra ι → Option (Proposal (OpTime R) R)
  r : R

/-- A call of `global_update`: the transformation of the operators and of the worm, and the random
number of the acceptance. -/
structure GlobalCall (R : Type) where
  f : TPsi R → TPsi R
  fw : List (TPsi R) → List (TPsi R)
  r : R

/-- The test made by `range_check` for one operator (src/moves/moves.ipp:25-32, called with
`get_tau_low()` and `get_tau_high()` at 108-109 and 128-129): only the time itself is compared, not the small
part. -/
def inWin (beta : R) (w : SWState Ket Bra ι) (o : TPsi R) : Bool :=
  decide (tauEdge beta w.n w.posR ≤ o.time.time) && decide (o.time.time ≤ tauEdge beta w.n w.posL)

/-- `LocalUpdater::update` (src/moves/moves.ipp:83-213) as called by the driver; the two exceptions
end the simulation. -/
def localCallStep (E : SimEnv R K S Ket Bra ι) (u : LocalCall R K S Ket Bra ι)
    (s : GState R K S Ket Bra ι) : Option (GState R K S Ket Bra ι) :=
  let o := localUpdate E.D (E.tr s.sw) E.permFn E.abv E.sgn E.emb (inWin E.V.beta s.sw) s.cfg
    ⟨0, 0, 0⟩ (u.propose s.cfg s.sw) u.r
  match o.2.2 with
  | .thrownRange => none
  | .thrownFatal => none
  | _ => some { s with cfg := o.1 }

/-- Calls of local updaters one after the other. -/
def runLocal (E : SimEnv R K S Ket Bra ι) :
    List (LocalCall R K S Ket Bra ι) → GState R K S Ket Bra ι → Option (GState R K S Ket Bra ι)
  | [], s => some s
  | u :: us, s => (localCallStep E u s).bind (runLocal E us)

/-- The loop over `move` of `do_one_sweep` (src/impurity.ipp:516-544): at each position of the window
the local updates (`calls`), then `move_window_to_next_position`. -/
def sweepMoves (E : SimEnv R K S Ket Bra ι) :
    List (List (LocalCall R K S Ket Bra ι)) → GState R K S Ket Bra ι → Option (GState R K S Ket Bra ι)
  | [], s => some s
  | us :: rest, s => (runLocal E us s).bind fun s1 =>
      (moveNext E.V s1.cfg.ops s1.sw).bind fun w => sweepMoves E rest { s1 with sw := w }

/-- Number of windows in a sweep (src/impurity.ipp:509). -/
def sweepWindows (nStd rank : ℕ) : ℕ := max (nStd / rank) 1

/-- `do_one_sweep` (src/impurity.ipp:492-547) with the window size `N_win_standard = nStd`, the rank
drawn, and the local updates at each of the `max(2n-2, 1)` positions. -/
def doOneSweep (E : SimEnv R K S Ket Bra ι) (nStd rank : ℕ)
    (calls : ℕ → List (LocalCall R K S Ket Bra ι)) (s : GState R K S Ket Bra ι) :
    Option (GState R K S Ket Bra ι) :=
  let n := sweepWindows nStd rank
  let moves := (List.range (max (2 * n - 2) 1)).map calls
  if n ≠ s.sw.n then
    (setWindowSize E.V n s.cfg.ops 0 true s.sw).bind fun w => sweepMoves E moves { s with sw := w }
  else sweepMoves E moves s

/-- The global updates of one call, one after the other, sharing the vector of factors. -/
def runGlobal (E : SimEnv R K S Ket Bra ι) (nwin : ℕ) :
    List (GlobalCall R) → GState R K S Ket Bra ι → Option (GState R K S Ket Bra ι)
  | [], s => some s
  | g :: gs, s => (globalUpdate E.toGEnv g.f g.fw g.r nwin s).bind fun p => runGlobal E nwin gs p.1

/-- `global_updates` (src/impurity.ipp:624-693): one window, the transitions between configuration
spaces (`trans`), the factors of the determinant, the global updates (`gs`: exchanges of flavors and the
shift), and back to the old number of windows. -/
def globalUpdates (E : SimEnv R K S Ket Bra ι) (nStd : ℕ) (trans : List (LocalCall R K S Ket Bra ι))
    (gs : List (GlobalCall R)) (s : GState R K S Ket Bra ι) : Option (GState R K S Ket Bra ι) :=
  let bak := s.sw.n
  (setWindowSize E.V 1 s.cfg.ops 0 true s.sw).bind fun w1 =>
  (runLocal E trans { s with sw := w1 }).bind fun s2 =>
  (runGlobal E (max nStd 10) gs { s2 with detVec := E.factors s2.cfg.M }).bind fun s3 =>
  (setWindowSize E.V bak s3.cfg.ops 0 true s3.sw).map fun w4 => { s3 with sw := w4 }

/-- The arguments of one pass of the loop of `update`. -/
structure SweepArgs (R K S Ket Bra ι : Type) where
  nStd : ℕ
  rank : ℕ
  calls : ℕ → List (LocalCall R K S Ket Bra ι)
  trans : List (LocalCall R K S Ket Bra ι)
  globals : List (GlobalCall R)

/-- The loop of `update` (src/impurity.ipp:212-257): `k` is the number of sweeps done so far; global
updates take place if the new number is a multiple of `update.n_global_updates`. -/
def runSim (E : SimEnv R K S Ket Bra ι) (nGlobal : ℕ) :
    ℕ → List (SweepArgs R K S Ket Bra ι) → GState R K S Ket Bra ι → Option (GState R K S Ket Bra ι)
  | _, [], s => some s
  | k, a :: rest, s => (doOneSweep E a.nStd a.rank a.calls s).bind fun s1 =>
      (if (k + 1) % nGlobal = 0 then globalUpdates E a.nStd a.trans a.globals s1 else some s1).bind
        (runSim E nGlobal (k + 1) rest)

/-- The state made by the constructor (src/mc_config.hpp:72-79, src/impurity.ipp:111-117, 152-153): no
operators, sign 1, and the trace computed by the window with `sliding_window.min` positions.  The
uninitialised members of the window are arguments. -/
def simInit (E : SimEnv R K S Ket Bra ι) (nMin pl pr nn : ℕ) (d : Bool) :
    Option (GState R K S Ket Bra ι) :=
  (initStacks E.V nMin [] pl pr nn d).bind fun w =>
  (computeTrace E.V [] w).map fun t =>
    { cfg := { ops := [], M := E.M0, trace := t, sign := 1, permSign := 1, worm := none }
      detVec := []
      sw := w }

end
end CTHyb
