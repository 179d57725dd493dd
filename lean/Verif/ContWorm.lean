import Verif.ContIns
import Verif.WormMove

/-!
Insertion and removal of worms with continuous times: `WormInsertionRemover` (src/moves/moves.ipp:1012-1240) and
the choice of the worm type in `transition_between_config_spaces` (src/impurity.ipp:550-566).  Conventions
and simplifications as in `Verif.ContIns`; the factors and the choices among operators and flavors are those of
`Verif.WormMove`.
-/

namespace CTHyb

open Rand MeasureTheory ENNReal

/-- `set_time(t, open_random(rng, tau_low, tau_high))` for `n` times (src/moves/moves.ipp:1083-1085, 1192-1194):
expectation value of `G` of the times. -/
noncomputable def timesC (cw : CWin) : ℕ → (List ℝ → ℝ≥0∞) → ℝ≥0∞
  | 0, G => G []
  | n + 1, G => ∫⁻ u in Set.Ico (0 : ℝ) 1, timesC cw n fun ts => G (openRandomU cw.lo cw.hi cw.eps u :: ts)

/-- Attaching the operators of a worm to the bath at random times (src/moves/moves.ipp:1149-1160):
expectation value of `G` of the new creation and annihilation operators. -/
noncomputable def attachC (cw : CWin) : List (Psi (OpTime ℝ)) → (List (BOp ℝ) → List (BOp ℝ) → ℝ≥0∞) → ℝ≥0∞
  | [], G => G [] []
  | o :: os, G => ∫⁻ u in Set.Ico (0 : ℝ) 1, attachC cw os fun p q =>
      if o.type = .creation then G ((openRandomU cw.lo cw.hi cw.eps u, o.flavor) :: p) q
      else G p ((openRandomU cw.lo cw.hi cw.eps u, o.flavor) :: q)

/-- Expectation value over the accepted moves of a proposal which draws no times. -/
noncomputable def propE {W : Type} (w : CfgFun W ℝ) (ψ : CfgFun W ℝ≥0∞) (x : PCfg ℝ W) (m : Rand ℝ (Option (Mv ℝ W × ℝ))) :
    ℝ≥0∞ :=
  meanE m fun o =>
    match o with
    | none => 0
    | some (m, corr) => accE w ψ x m corr

/-- `propose_by_trace_impl` (src/moves/moves.ipp:1041-1109) and the acceptance test, for a worm of type `k` and
`weight_scaled = ws`.  The removal draws no times; it is `tracePropose`. -/
noncomputable def traceE (nf : ℕ) (cw : CWin) (k : WormKind) (ws : ℝ) (w : CfgFun (Option (Worm ℝ)) ℝ)
    (ψ : CfgFun (Option (Worm ℝ)) ℝ≥0∞) (x : WCfg ℝ) : ℝ≥0∞ :=
  match x.worm with
  | some _ => propE w ψ x (tracePropose nf cw.win k ws x)
  | none =>
    timesC cw k.numTimes fun ts =>
    meanE (coin (1 / 2)) fun b =>
    if b then
      meanE (drawList (unif (List.range nf)) k.numFlavors) fun fs =>
      accE w ψ x ⟨[], [], [], [], some ⟨k, ts, fs⟩⟩ (ws * (cw.hi - cw.lo) ^ k.numTimes * (nf : ℝ) ^ k.numFlavors)
    else
      meanE (unif (List.range nf)) fun f =>
      accE w ψ x ⟨[], [], [], [], some ⟨k, ts, List.replicate k.numFlavors f⟩⟩
        (ws * (cw.hi - cw.lo) ^ k.numTimes * (nf : ℝ))

/-- The operators picked for the new worm `u` and the acceptance factor (src/moves/moves.ipp:1199-1238). -/
noncomputable def hybPick (nf : ℕ) (cw : CWin) (k : WormKind) (ws : ℝ) (u : Worm ℝ) (x : WCfg ℝ) :
    Rand ℝ (Option (Mv ℝ (Option (Worm ℝ)) × ℝ)) :=
  let ncd := fun f => (flavorOps cw.win x.cd f).length
  let nc := fun f => (flavorOps cw.win x.c f).length
  let mcd := wormCount u.operators .creation
  let mc := wormCount u.operators .annihilation
  if (List.range nf).any (fun f => decide (ncd f < mcd f) || decide (nc f < mc f)) then ret none
  else
    bind (pickFlavors (flavorOps cw.win x.cd) mcd (List.range nf)) fun p =>
    bind (pickFlavors (flavorOps cw.win x.c) mc (List.range nf)) fun q =>
    ret (some (⟨p, q, [], [], some u⟩,
      (1 / (cw.hi - cw.lo) ^ u.operators.length / (1 / pickFac nf ncd nc mcd mc))
        * ws * (cw.hi - cw.lo) ^ k.numTimes * (nf : ℝ) ^ k.numFlavors))

/-- `propose_by_trace_hyb_impl` (src/moves/moves.ipp:1111-1240) and the acceptance test. -/
noncomputable def hybE (nf : ℕ) (cw : CWin) (k : WormKind) (ws : ℝ) (w : CfgFun (Option (Worm ℝ)) ℝ)
    (ψ : CfgFun (Option (Worm ℝ)) ℝ≥0∞) (x : WCfg ℝ) : ℝ≥0∞ :=
  match x.worm with
  | some u =>
    let ncd := fun f => (flavorOps cw.win x.cd f).length
    let nc := fun f => (flavorOps cw.win x.c f).length
    let mcd := wormCount u.operators .creation
    let mc := wormCount u.operators .annihilation
    attachC cw u.operators fun p q =>
    accE w ψ x ⟨[], [], p, q, none⟩
      (((1 / pickFac nf (fun f => ncd f + mcd f) (fun f => nc f + mc f) mcd mc)
        / (1 / (cw.hi - cw.lo) ^ u.operators.length))
        * (1 / (ws * (cw.hi - cw.lo) ^ k.numTimes * (nf : ℝ) ^ k.numFlavors)))
  | none =>
    timesC cw k.numTimes fun ts =>
    meanE (drawList (unif (List.range nf)) k.numFlavors) fun fs =>
    propE w ψ x (hybPick nf cw k ws ⟨k, ts, fs⟩ x)

/-- `WormInsertionRemover::propose` (src/moves/moves.ipp:1012-1039) and the acceptance test, with
`weight_scaled = worm_space_weight / insertion_proposal_rate_`. -/
noncomputable def wormInsRemE (nf : ℕ) (cw : CWin) (k : WormKind) (spaceWeight rate : ℝ)
    (w : CfgFun (Option (Worm ℝ)) ℝ) (ψ : CfgFun (Option (Worm ℝ)) ℝ≥0∞) (x : WCfg ℝ) : ℝ≥0∞ :=
  if x.worm.any fun u => !wormInWin cw.win u then 0
  else
    meanE (coin (1 / 2)) fun b =>
    if b then traceE nf cw k (spaceWeight / rate) w ψ x else hybE nf cw k (spaceWeight / rate) w ψ x

/-- First step of `transition_between_config_spaces` (src/impurity.ipp:558-566), cf. `wormTransition`:
expectation value of `ψ` after the move, over the accepted moves. -/
noncomputable def wormTransE (nf : ℕ) (cw : CWin) (kinds : List WormKind) (spaceWeight : WormKind → ℝ)
    (w : CfgFun (Option (Worm ℝ)) ℝ) (ψ : CfgFun (Option (Worm ℝ)) ℝ≥0∞) (x : WCfg ℝ) : ℝ≥0∞ :=
  match x.worm with
  | none => meanE (unif kinds) fun k => wormInsRemE nf cw k (spaceWeight k) (1 / (kinds.length : ℝ)) w ψ x
  | some u => wormInsRemE nf cw u.kind (spaceWeight u.kind) (1 / (kinds.length : ℝ)) w ψ x

end CTHyb
