import Verif.SamplingSweep

/-!
Global updates with their random numbers, on a grid of times, and the loop of `update`.

Simplifications: as in `Verif.Sampling`; the shift is a multiple of the spacing of the grid.  The order of the exchanges
of flavors and the ranks of the sweeps do not depend on the configuration and are given beforehand (`plan`).
-/

namespace CTHyb

variable {𝕜 : Type} [RCLike 𝕜] [DecidableEq 𝕜] {N : ℕ}

/-- The global updates of the driver: an exchange of flavors (src/impurity.ipp:647-655), a shift by `k` points of the grid
(impurity.ipp:670-680). -/
inductive GMove where
  | swap (v : List ℕ)
  | shift (k : ℕ)
deriving DecidableEq

/-- What happens to an operator: `ExchangeFlavor` (src/moves/moves.hpp:25-37), `OperatorShift` (moves.hpp:41-64). -/
noncomputable def GMove.op (beta : ℝ) (M : ℕ) : GMove → TPsi ℝ → TPsi ℝ
  | .swap v => exchangeOp fun f => v.getD f 0
  | .shift k => shiftOp beta (k * (beta / M))

/-- A shifted time on the grid, the `t` of `new_t > beta_` (moves.hpp:580-584). -/
def shiftIdx (M k : ℕ) (t : ℤ) : ℤ := if (M : ℤ) ≤ t + k then t + k - M else t + k

/-- What happens to the worm object: `WormExchangeFlavor` (moves.hpp:556-570), `WormShift` (moves.hpp:575-590); `none` if an
assertion fails. -/
def GMove.worm (M : ℕ) : GMove → Worm ℤ → Option (Worm ℤ)
  | .swap v, w => wormExchange (fun f => v.getD f 0) w
  | .shift k, w => (List.range w.kind.numTimes).foldlM
      (fun (n : Worm ℤ) t => (w.getTime t).bind fun x => n.setTime t (shiftIdx M k x)) w

/-- `global_update` (src/moves/moves.ipp:810-895) with the random number `r`; without hybridized operators nothing happens, not
even to the worm (moves.ipp:821-823). -/
noncomputable def codeGlobal (A : CodeArgs 𝕜 N) (M : ℕ) (m : GMove) (nwin : ℕ) (r : ℝ)
    (s : CodeState A (Option (Worm ℤ))) : Option (CodeState A (Option (Worm ℤ))) :=
  (globalUpdate A.env.toGEnv (m.op A.beta M) (List.map (m.op A.beta M)) r nwin s.1).bind fun p =>
    if p.2 = true ∧ A.env.D.cdagg s.1.cfg.M ≠ [] then
      match s.2 with
      | none => some (p.1, none)
      | some w => (m.worm M w).map fun w' => (p.1, some w')
    else some (p.1, s.2)

/-- Expectation value of `F` after a number of global updates with random transformations. -/
noncomputable def globRun (A : CodeArgs 𝕜 N) (M nwin : ℕ) (F : CodeState A (Option (Worm ℤ)) → ℝ) :
    List (Rand ℝ GMove) → CodeState A (Option (Worm ℤ)) → ℝ
  | [], s => F s
  | g :: rest, s => Rand.mean g fun m =>
      ∫ r in Set.Ico (0 : ℝ) 1, (codeGlobal A M m nwin r s).elim 0 (globRun A M nwin F rest)

/-- A part of the loop of `update`: a call inside a sweep, or the global updates after the factors of the determinant have been
computed (src/impurity.ipp:633-690). -/
inductive SStep (A : CodeArgs 𝕜 N) where
  | loc (a : RStep A ℤ (Option (Worm ℤ)))
  | glob (nwin : ℕ) (gs : List (Rand ℝ GMove))

/-- Expectation value of `F` after a number of steps, as `codeRun`. -/
noncomputable def simRun (A : CodeArgs 𝕜 N) (M : ℕ) (tau : ℤ → ℝ) (rd : CodeState A (Option (Worm ℤ)) → WCfg ℤ)
    (F : CodeState A (Option (Worm ℤ)) → ℝ) : List (SStep A) → CodeState A (Option (Worm ℤ)) → ℝ
  | [], s => F s
  | .loc st :: rest, s =>
    (st.shift s.1).elim 0 fun s1 =>
      Rand.mean (st.prop (loEdge A (s1, s.2)) (hiEdge A (s1, s.2)) (rd (s1, s.2))) fun o =>
        ∫ r in Set.Ico (0 : ℝ) 1, (codeStep A tau (codeWops tau) o r (s1, s.2)).elim 0 (simRun A M tau rd F rest)
  | .glob nwin gs :: rest, s =>
    globRun A M nwin (simRun A M tau rd F rest) gs ({ s.1 with detVec := A.env.factors s.1.cfg.M }, s.2)

/-- `sliding_window.set_window_size(n, mc_config.operators, 0, ITIME_LEFT)` without a test of the present number
(src/impurity.ipp:628, 691). -/
noncomputable def setWinStep (A : CodeArgs 𝕜 N) (n : ℕ) : RStep A ℤ (Option (Worm ℤ)) :=
  ⟨fun s => (setWindowSize A.env.V n s.cfg.ops 0 true s.sw).map fun w => { s with sw := w }, fun _ _ _ => Rand.ret none⟩

/-- `global_updates` (src/impurity.ipp:625-693): `n` is the present number of windows, `ord` the exchanges in the order in which they
are executed. -/
noncomputable def globalSteps (A : CodeArgs 𝕜 N) (a : MoveArgs) (M nStd n : ℕ) (movers : List WormKind)
    (ord : List (List ℕ)) : List (SStep A) :=
  .loc (setWinStep A 1) :: (transitionMoves A.P.nf a.kinds movers).map (fun m => .loc (m.step A a)) ++
    [.glob (max nStd 10) (ord.map (fun v => Rand.ret (GMove.swap v)) ++ [Rand.unif ((List.range M).map GMove.shift)]),
      .loc (setWinStep A n)]

/-- The loop of `update` (src/impurity.ipp:212-257) with `k` sweeps done before; `plan`: rank of each sweep and order of the
exchanges of flavors after it. -/
noncomputable def updateSteps (A : CodeArgs 𝕜 N) (a : MoveArgs) (M nStd nGlobal : ℕ) (fl sh : Bool) (movers : List WormKind) :
    ℕ → List (ℕ × List (List ℕ)) → List (SStep A)
  | _, [] => []
  | k, (rank, ord) :: plan =>
    (sweepCMoves A.P.nf nStd rank fl sh a.kinds movers).map (fun m => .loc (m.step A a)) ++
      (if (k + 1) % nGlobal = 0 then globalSteps A a M nStd (max (nStd / rank) 1) movers ord else []) ++
      updateSteps A a M nStd nGlobal fl sh movers (k + 1) plan

end CTHyb
