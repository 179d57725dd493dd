import Verif.Util
import Verif.ProposalLemmas
import Mathlib.MeasureTheory.Constructions.Pi
import Mathlib.MeasureTheory.Measure.Lebesgue.Basic
import Mathlib.MeasureTheory.Measure.Count

/-!
`InsertionRemovalUpdater` (src/moves/moves.ipp:265-405) with continuous times: the grid of
`Verif.Proposal` is replaced by the numbers `rng()` in `[0, 1)` themselves and the times are real
numbers.  The removal draws no times; it is `remPropose` of `Verif.Proposal`, unchanged, and so are
the acceptance factors `insCorr` and `remCorr`.

Simplifications.
* `rng()` is uniformly distributed on `[0, 1)`; successive numbers are independent (iterated integrals).
* `static_cast<int>(rng() * n)` is a uniform choice among `n` indices, `rng() < 0.5` a fair coin.
* Times and factors are real numbers instead of `double`.
* The weight of a configuration, `|trace * determinant|`, is any function of the set of operators.
-/

namespace CTHyb

open Rand MeasureTheory ENNReal

/-- Expectation value of a function with values in `[0, ∞]`. -/
noncomputable def meanE {α : Type} (m : Rand ℝ α) (f : α → ℝ≥0∞) : ℝ≥0∞ :=
  (m.map fun p => ENNReal.ofReal p.1 * f p.2).sum

/-- Sliding window: `tau_low_`, `tau_high_` (src/moves/moves.ipp:274-275) and the parameter `eps` of
`open_random` (src/util.hpp:226, default `1e-10`). -/
structure CWin where
  lo : ℝ
  hi : ℝ
  eps : ℝ

/-- The window as `remPropose`, `insCorr`, `remCorr` look at it: length and
`tau_low_ <= _1, _1 <= tau_high_` (src/moves/moves.ipp:284-289).  They do not look at the grid. -/
noncomputable def CWin.win (cw : CWin) : Win ℝ ℝ where
  grid := []
  len := cw.hi - cw.lo
  inWin t := decide (cw.lo ≤ t) && decide (t ≤ cw.hi)

/-- `open_random(rng, t1, t2, eps)` with `u = rng()` (src/util.hpp:225-228). -/
noncomputable def openRandomU (t1 t2 eps u : ℝ) : ℝ := openRandom u t1 t2 eps

/-- `psi(open_random(rng, tau_low_, tau_high_), type, pick(flavors, rng))` (src/moves/moves.ipp:314-326):
expectation value of `G` of the operator. -/
noncomputable def randOpC (cw : CWin) (fl : List ℕ) (G : BOp ℝ → ℝ≥0∞) : ℝ≥0∞ :=
  ∫⁻ u in Set.Ico (0 : ℝ) 1, meanE (unif fl) fun f => G (openRandomU cw.lo cw.hi cw.eps u, f)

/-- The loop of `propose_insertion` (src/moves/moves.ipp:311-328): expectation value of `G` of the
blocks, creation operators and annihilation operators drawn. -/
noncomputable def insDrawsC (E : PEnv) (cw : CWin) : ℕ → (List (ℕ × BOp ℝ × BOp ℝ) → ℝ≥0∞) → ℝ≥0∞
  | 0, G => G []
  | k + 1, G =>
    meanE (unif (List.range E.ns)) fun b =>
    randOpC cw (blockFlavors E b) fun p =>
    randOpC cw (blockFlavors E b) fun q =>
    insDrawsC E cw k fun l => G ((b, p, q) :: l)

variable {W : Type}

/-- A function of the configuration: it sees the sets of bath operators and the worm. -/
abbrev CfgFun (W A : Type) := Multiset (BOp ℝ) → Multiset (BOp ℝ) → W → A

/-- Value at a configuration. -/
def CfgFun.at {A : Type} (F : CfgFun W A) (x : PCfg ℝ W) : A := F x.cd x.c x.worm

/-- Value at the configuration after the move. -/
noncomputable def CfgFun.after {A : Type} (F : CfgFun W A) (x : PCfg ℝ W) (m : Mv ℝ W) : A :=
  F ((x.cd : Multiset (BOp ℝ)) - m.cdRem + m.cdAdd) ((x.c : Multiset (BOp ℝ)) - m.cRem + m.cAdd) m.worm

/-- `rng() < |ratio * acceptance_rate_correction|` (src/moves/moves.ipp:190): the probability of
accepting the move times the value of `ψ` after it. -/
noncomputable def accE (w : CfgFun W ℝ) (ψ : CfgFun W ℝ≥0∞) (x : PCfg ℝ W) (m : Mv ℝ W) (corr : ℝ) : ℝ≥0∞ :=
  ENNReal.ofReal (min 1 (w.after x m / w.at x * corr)) * ψ.after x m

/-- `propose_insertion` (src/moves/moves.ipp:302-352) and the acceptance test: expectation value of
`ψ` after the move, over the accepted moves. -/
noncomputable def insE (E : PEnv) (cw : CWin) (rank : ℕ) (w : CfgFun W ℝ) (ψ : CfgFun W ℝ≥0∞)
    (x : PCfg ℝ W) : ℝ≥0∞ :=
  insDrawsC E cw rank fun l =>
    accE w ψ x ⟨[], [], l.map (·.2.1), l.map (·.2.2), x.worm⟩
      (insCorr E cw.win rank x fun b => (l.map (·.1)).count b)

/-- `propose_removal` (src/moves/moves.ipp:354-405) and the acceptance test. -/
noncomputable def remE (E : PEnv) (cw : CWin) (rank : ℕ) (w : CfgFun W ℝ) (ψ : CfgFun W ℝ≥0∞)
    (x : PCfg ℝ W) : ℝ≥0∞ :=
  meanE (remPropose E cw.win rank x) fun o =>
    match o with
    | none => 0
    | some (m, corr) => accE w ψ x m corr

/-- `InsertionRemovalUpdater::propose` (src/moves/moves.ipp:265-299) and the acceptance test. -/
noncomputable def irE (E : PEnv) (cw : CWin) (rank : ℕ) (w : CfgFun W ℝ) (ψ : CfgFun W ℝ≥0∞)
    (x : PCfg ℝ W) : ℝ≥0∞ :=
  meanE (coin (1 / 2)) fun b => if b then insE E cw rank w ψ x else remE E cw rank w ψ x

end CTHyb
