import Verif.ContIns
import Verif.ShiftMove

/-!
`OperatorPairFlavorUpdater` (src/moves/moves.ipp:545-590) and `SingleOperatorShiftUpdater`
(591-645) with continuous times.  Conventions and simplifications as in `Verif.ContIns`.  The flavor
update draws no times; its proposal is `flavorPropose` of `Verif.ShiftMove`, unchanged.
-/

namespace CTHyb

open Rand MeasureTheory ENNReal

variable {W : Type}

/-- `rng() < 0.5 ? it->flavor() : gen_new_flavor(mc_config, flavor_, rng)` (src/moves/moves.ipp:622, 634). -/
noncomputable def shiftFlavor (E : PEnv) (old : ℕ) : Rand ℝ ℕ :=
  bind (coin (1 / 2)) fun b => if b then ret old else genNewFlavor ℝ E old

/-- `(2 * rng() - 1.0) * max_distance_[flavor_] + it->time().time()` with `u = rng()`
(src/moves/moves.ipp:623, 635). -/
noncomputable def shiftedTime (d t u : ℝ) : ℝ := (2 * u - 1) * d + t

/-- The new operator in place of `o` (src/moves/moves.ipp:621-629, 633-641): expectation value of `G` of
it.  `new_time < tau_low || new_time > tau_high` gives no move. -/
noncomputable def shiftDrawC (E : PEnv) (cw : CWin) (maxDist : ℕ → ℝ) (o : BOp ℝ) (G : BOp ℝ → ℝ≥0∞) : ℝ≥0∞ :=
  meanE (shiftFlavor E o.2) fun f =>
  ∫⁻ u in Set.Ico (0 : ℝ) 1,
    if cw.win.inWin (shiftedTime (maxDist o.2) o.1 u) then G (shiftedTime (maxDist o.2) o.1 u, f) else 0

/-- `SingleOperatorShiftUpdater::propose` (src/moves/moves.ipp:591-645) and the acceptance test:
expectation value of `ψ` after the move, over the accepted moves. -/
noncomputable def shiftE (E : PEnv) (cw : CWin) (maxDist : ℕ → ℝ) (w : CfgFun W ℝ) (ψ : CfgFun W ℝ≥0∞)
    (x : PCfg ℝ W) : ℝ≥0∞ :=
  let ops := (winOps cw.win x.cd).map (true, ·) ++ (winOps cw.win x.c).map (false, ·)
  if ops.length = 0 then 0
  else meanE (unif ops) fun o => shiftDrawC E cw maxDist o.2 fun o' => accE w ψ x (replaceMv o.1 o.2 o' x.worm) 1

/-- `OperatorPairFlavorUpdater::propose` (src/moves/moves.ipp:545-590) and the acceptance test. -/
noncomputable def flavorE (nf : ℕ) (cw : CWin) (w : CfgFun W ℝ) (ψ : CfgFun W ℝ≥0∞) (x : PCfg ℝ W) : ℝ≥0∞ :=
  meanE (flavorPropose nf cw.win x) fun o =>
    match o with
    | none => 0
    | some (m, corr) => accE w ψ x m corr

end CTHyb
