import Verif.ContRun
import Verif.ContWorm

/-!
Runs which mix all the updates of `do_one_sweep` (src/impurity.ipp:493-547) in continuous time: pair updates, shifts and
flavor updates of the bath in every configuration space, insertion and removal of worms, `WormFlavorChanger`
(src/moves/moves.ipp:975-1010) and `WormMover` (930-972).

Simplifications (besides those of `Verif.ContRun` and `Verif.ContWorm`).
* The extra weights of the worm spaces are constant during the run (src/impurity.ipp: `adjust_worm_space_weight` changes
  them before thermalization only).
-/

namespace CTHyb

open Rand MeasureTheory ENNReal

/-- `WormFlavorChanger::propose` (src/moves/moves.ipp:975-1010) and the acceptance test.  It draws no times. -/
noncomputable def changeE (nf : ℕ) (cw : CWin) (w : CfgFun (Option (Worm ℝ)) ℝ) (ψ : CfgFun (Option (Worm ℝ)) ℝ≥0∞)
    (x : WCfg ℝ) : ℝ≥0∞ :=
  propE w ψ x (flavorChangePropose nf cw.win x)

/-- The new time in `WormMover::propose` (src/moves/moves.ipp:953-955): expectation value of `G` of it. -/
noncomputable def moverTimeC (cw : CWin) (d t : ℝ) (G : ℝ → ℝ≥0∞) : ℝ≥0∞ :=
  meanE (coin (9 / 10)) fun b =>
  ∫⁻ v in Set.Ico (0 : ℝ) 1, G (if b then shiftedTime d t v else openRandomU cw.lo cw.hi cw.eps v)

/-- The loop of `WormMover::propose` (src/moves/moves.ipp:948-964) with `n` iterations left: expectation value of `G` of the
index and the new time. -/
noncomputable def moverLoopC (cw : CWin) (d : ℝ) (u : Worm ℝ) (G : ℕ → ℝ → ℝ≥0∞) : ℕ → ℝ≥0∞
  | 0 => 0
  | n + 1 =>
    meanE (unif (List.range u.kind.numTimes)) fun i =>
    match u.getTime i with
    | none => 0
    | some t =>
      if cw.win.inWin t then
        moverTimeC cw d t fun t' => if cw.win.inWin t' then G i t' else moverLoopC cw d u G n
      else moverLoopC cw d u G n

/-- `WormMover::propose` (src/moves/moves.ipp:930-972) and the acceptance test.  The mover registered for the space of
worms of type `k` is called only in this space (src/impurity.ipp:615-621). -/
noncomputable def moverE (cw : CWin) (k : WormKind) (d : ℝ) (w : CfgFun (Option (Worm ℝ)) ℝ)
    (ψ : CfgFun (Option (Worm ℝ)) ℝ≥0∞) (x : WCfg ℝ) : ℝ≥0∞ :=
  match x.worm with
  | none => 0
  | some u =>
    if u.kind = k then
      moverLoopC cw d u (fun i t' => accE w ψ x ⟨[], [], [], [], some { u with times := u.times.set i t' }⟩ 1)
        u.kind.numTimes
    else 0

/-- `EqualTimeG1_TwoTimeG2_Connector::propose` (src/moves/moves.ipp:1384-1515) and the acceptance test.  In the spaces of other
worms it is not called (src/impurity.ipp:587-595). -/
noncomputable def connectE (nf : ℕ) (cw : CWin) (wG1 wG2 : ℝ) (w : CfgFun (Option (Worm ℝ)) ℝ)
    (ψ : CfgFun (Option (Worm ℝ)) ℝ≥0∞) (x : WCfg ℝ) : ℝ≥0∞ :=
  match x.worm with
  | some ⟨.equalTime 1, [t], [f0, f1]⟩ =>
    ∫⁻ v in Set.Ico (0 : ℝ) 1,
    meanE (coin (1 / 2)) fun b =>
    if b then
      meanE (unif (List.range nf)) fun f2 =>
      meanE (unif (List.range nf)) fun f3 =>
      accE w ψ x ⟨[], [], [], [], some ⟨.corr 2, [t, openRandomU cw.lo cw.hi cw.eps v], [f0, f1, f2, f3]⟩⟩
        ((wG2 / wG1) * (nf : ℝ) * (nf : ℝ) * (cw.hi - cw.lo))
    else 0
  | some ⟨.corr 2, [t, t1], [f0, f1, _, _]⟩ =>
    if cw.win.inWin t1 then
      meanE (coin (1 / 2)) fun b =>
      if b then
        accE w ψ x ⟨[], [], [], [], some ⟨.equalTime 1, [t], [f0, f1]⟩⟩
          ((wG1 / wG2) / ((nf : ℝ) * (nf : ℝ) * (cw.hi - cw.lo)))
      else 0
    else 0
  | _ => 0

/-- `GWormInsertionRemover::propose` (src/moves/moves.ipp:1241-1300) and the acceptance test: operators of the bath become the
operators of a Green's function worm and back.  It draws no times.  It is called without worm and in its own space only
(src/impurity.ipp:568-585). -/
noncomputable def greenE (rank : ℕ) (ws : ℝ) (w : CfgFun (Option (Worm ℝ)) ℝ) (ψ : CfgFun (Option (Worm ℝ)) ℝ≥0∞)
    (x : WCfg ℝ) : ℝ≥0∞ :=
  match x.worm with
  | none => propE w ψ x (greenPropose rank ws x)
  | some u => if u.kind = .green rank then propE w ψ x (greenPropose rank ws x) else 0

/-- `OperatorShift`, `WormShift`: the new time (src/moves/moves.hpp:45-64, 572-589). -/
noncomputable def timeShift (β s t : ℝ) : ℝ := if β < t + s then t + s - β else t + s

/-- `OperatorShift` (src/moves/moves.hpp:45-64). -/
noncomputable def operatorShift (β s : ℝ) (o : BOp ℝ) : BOp ℝ := (timeShift β s o.1, o.2)

/-- `WormShift` (src/moves/moves.hpp:572-589). -/
noncomputable def shiftWorm (β s : ℝ) (u : Worm ℝ) : Worm ℝ := { u with times := u.times.map (timeShift β s) }

/-- `ExchangeFlavor` (src/moves/moves.hpp:25-37). -/
def exchangeFlavor (p : ℕ → ℕ) (o : BOp ℝ) : BOp ℝ := (o.1, p o.2)

/-- `WormExchangeFlavor` (src/moves/moves.hpp:556-567). -/
def wormExchangeFlavor (p : ℕ → ℕ) (u : Worm ℝ) : Worm ℝ := { u with flavors := u.flavors.map p }

/-- `global_update` (src/moves/moves.ipp:796-895) with the transformations `g` of the operators of the bath and `h` of the worm.
At order zero nothing is changed (813-816).  The ratio of the weights is the subject of `C54_det_ratio`. -/
noncomputable def globalE (g : BOp ℝ → BOp ℝ) (h : Worm ℝ → Worm ℝ) (w : CfgFun (Option (Worm ℝ)) ℝ)
    (ψ : CfgFun (Option (Worm ℝ)) ℝ≥0∞) (x : WCfg ℝ) : ℝ≥0∞ :=
  if x.cd.length = 0 then 0
  else
    ENNReal.ofReal (min 1 (w.at ⟨x.cd.map g, x.c.map g, x.worm.map h⟩ / w.at x)) * ψ.at ⟨x.cd.map g, x.c.map g, x.worm.map h⟩

/-- The global exchange of flavors (src/impurity.ipp:649-656) and the acceptance test. -/
noncomputable def swapE (p : ℕ → ℕ) (w : CfgFun (Option (Worm ℝ)) ℝ) (ψ : CfgFun (Option (Worm ℝ)) ℝ≥0∞) (x : WCfg ℝ) : ℝ≥0∞ :=
  globalE (exchangeFlavor p) (wormExchangeFlavor p) w ψ x

/-- The global shift in time (src/impurity.ipp:668-678) and the acceptance test. -/
noncomputable def globalShiftE (β : ℝ) (w : CfgFun (Option (Worm ℝ)) ℝ) (ψ : CfgFun (Option (Worm ℝ)) ℝ≥0∞) (x : WCfg ℝ) : ℝ≥0∞ :=
  ∫⁻ v in Set.Ico (0 : ℝ) 1, globalE (operatorShift β (v * β)) (shiftWorm β (v * β)) w ψ x

/-- An update with its window and parameters. -/
inductive WStep where
  /-- An update of the bath (src/impurity.ipp:518-534). -/
  | bath (s : CStep)
  /-- Insertion or removal of a worm (src/impurity.ipp:557-565). -/
  | insRem (cw : CWin)
  /-- `WormFlavorChanger` of the current space (src/impurity.ipp:615-621). -/
  | change (cw : CWin)
  /-- `WormMover` of the space `k` with `max_distance_ = d` (src/impurity.ipp:615-621). -/
  | move (cw : CWin) (k : WormKind) (d : ℝ)
  /-- `EqualTimeG1_TwoTimeG2_Connector` (src/impurity.ipp:587-595). -/
  | connect (cw : CWin)
  /-- `GWormInsertionRemover` of the given rank: `G1_ins_rem_hyb`, `G2_ins_rem_hyb` (src/impurity.ipp:568-585). -/
  | green (rank : ℕ)
  /-- Exchange of flavors of all operators (src/impurity.ipp:639-666). -/
  | swap (p : ℕ → ℕ)
  /-- Shift of all operators in time with `BETA = β` (src/impurity.ipp:668-690). -/
  | globalShift (β : ℝ)

/-- Expectation value of `ψ` after the update, over the accepted moves. -/
noncomputable def WStep.acc (E : PEnv) (kinds : List WormKind) (spaceWeight : WormKind → ℝ)
    (w : CfgFun (Option (Worm ℝ)) ℝ) (ψ : CfgFun (Option (Worm ℝ)) ℝ≥0∞) (x : WCfg ℝ) : WStep → ℝ≥0∞
  | .bath s => s.acc E w ψ x
  | .insRem cw => wormTransE E.nf cw kinds spaceWeight w ψ x
  | .change cw => changeE E.nf cw w ψ x
  | .move cw k d => moverE cw k d w ψ x
  | .connect cw => connectE E.nf cw (spaceWeight (.equalTime 1)) (spaceWeight (.corr 2)) w ψ x
  | .green rank => greenE rank (spaceWeight (.green rank)) w ψ x
  | .swap p => swapE p w ψ x
  | .globalShift β => globalShiftE β w ψ x

/-- The accepted moves; otherwise the configuration stays (src/moves/moves.ipp:100-103,
194-211). -/
noncomputable def WStep.step (E : PEnv) (kinds : List WormKind) (spaceWeight : WormKind → ℝ)
    (w : CfgFun (Option (Worm ℝ)) ℝ) (ψ : CfgFun (Option (Worm ℝ)) ℝ≥0∞) (x : WCfg ℝ) (s : WStep) : ℝ≥0∞ :=
  s.acc E kinds spaceWeight w ψ x + (1 - s.acc E kinds spaceWeight w (fun _ _ _ => 1) x) * ψ.at x

/-- Expectation value of `ψ` after all the updates of the list. -/
noncomputable def sweepE (E : PEnv) (kinds : List WormKind) (spaceWeight : WormKind → ℝ)
    (w : CfgFun (Option (Worm ℝ)) ℝ) (ψ : CfgFun (Option (Worm ℝ)) ℝ≥0∞) : List WStep → WCfg ℝ → ℝ≥0∞
  | [], x => ψ.at x
  | s :: L, x => s.step E kinds spaceWeight w (setFun (sweepE E kinds spaceWeight w ψ L)) x

end CTHyb
