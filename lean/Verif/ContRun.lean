import Verif.ContShift

/-!
Runs of updates with continuous times: `LocalUpdater::update` (src/moves/moves.ipp:83-211) for pair
updates, shifts and flavor updates, one after the other.

Simplifications (besides those of `Verif.ContIns` and `Verif.ContShift`).
* Which update is next and its window do not depend on the configuration (src/impurity.ipp:
  `do_one_sweep`); a run is any list of updates.
* The parameters which the updates tune themselves are constant during the run.
* The configuration is the set of operators; each update sees its operators as a list in some order.
-/

namespace CTHyb

open Rand MeasureTheory ENNReal

variable {W : Type}

/-- An update with its window and parameters. -/
inductive CStep where
  /-- `InsertionRemovalUpdater` (src/moves/moves.ipp:265-405). -/
  | pair (cw : CWin) (rank : ℕ)
  /-- `SingleOperatorShiftUpdater` (src/moves/moves.ipp:591-645). -/
  | shift (cw : CWin) (maxDist : ℕ → ℝ)
  /-- `OperatorPairFlavorUpdater` (src/moves/moves.ipp:545-590). -/
  | flavor (cw : CWin)

/-- Expectation value of `ψ` after the update, over the accepted moves. -/
noncomputable def CStep.acc (E : PEnv) (w : CfgFun W ℝ) (ψ : CfgFun W ℝ≥0∞) (x : PCfg ℝ W) : CStep → ℝ≥0∞
  | .pair cw rank => irE E cw rank w ψ x
  | .shift cw maxDist => shiftE E cw maxDist w ψ x
  | .flavor cw => flavorE E.nf cw w ψ x

/-- The accepted moves; otherwise the configuration stays, also if no move was proposed
(src/moves/moves.ipp:100-103, 194-211). -/
noncomputable def CStep.step (E : PEnv) (w : CfgFun W ℝ) (ψ : CfgFun W ℝ≥0∞) (x : PCfg ℝ W) (s : CStep) : ℝ≥0∞ :=
  s.acc E w ψ x + (1 - s.acc E w (fun _ _ _ => 1) x) * ψ.at x

/-- Function of the set of operators. -/
noncomputable def setFun {A : Type} (F : PCfg ℝ W → A) : CfgFun W A := fun X X' ω => F ⟨X.toList, X'.toList, ω⟩

/-- Expectation value of `ψ` after all the updates of the list. -/
noncomputable def runE (E : PEnv) (w : CfgFun W ℝ) (ψ : CfgFun W ℝ≥0∞) : List CStep → PCfg ℝ W → ℝ≥0∞
  | [], x => ψ.at x
  | s :: L, x => s.step E w (setFun (runE E w ψ L)) x

end CTHyb
