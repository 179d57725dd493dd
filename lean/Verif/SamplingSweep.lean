import Verif.Sampling

/-!
The sequence of updates made by one sweep of the code, on a grid of times.

Simplifications: the weights of the worm spaces are fixed (`adjust_worm_space_weight` changes them only before the
simulation is thermalized, see `Verif.FlatHistogram`); bookkeeping for measurements is left out.
-/

namespace CTHyb

variable {𝕜 : Type} [RCLike 𝕜] [DecidableEq 𝕜] {N : ℕ}

/-- The calls made in a sweep. -/
inductive CMove where
  /-- `ins_rem_updater[rank - 1]` (src/impurity.ipp:520) -/
  | insRem (rank : ℕ)
  /-- `InsertionRemovalDiagonalUpdater` with one pair (src/moves/moves.ipp, not called by the driver) -/
  | diag
  /-- `operator_pair_flavor_updater` (src/impurity.ipp:526) -/
  | flavor
  /-- `single_op_shift_updater` (src/impurity.ipp:533) -/
  | shift
  /-- choice of a worm and `worm_insertion_removers[i_worm]` (src/impurity.ipp:557-564) -/
  | worm
  /-- `G1_ins_rem_hyb`, `G2_ins_rem_hyb` (src/impurity.ipp:567-588) -/
  | green (rank : ℕ)
  /-- `Connect_Equal_time_G1_and_Two_time_G2` (src/impurity.ipp:590-597) -/
  | connect
  /-- the `WormMover` of a space (src/impurity.ipp:614-619) -/
  | wormMover (k : WormKind)
  /-- the `WormFlavorChanger` of a space (src/impurity.ipp:614-619) -/
  | wormFlavor (k : WormKind)
  /-- `move_window_to_next_position` (src/impurity.ipp:543) -/
  | next
  /-- `set_window_size`, if the number changes (src/impurity.ipp:510-512) -/
  | resize (n : ℕ)
deriving DecidableEq

/-- Parameters of the updates: the grid, the active worms (`worm_types`), their weights, the maximum distances of shifts
per flavor and of the movers. -/
structure MoveArgs where
  tau : ℤ → ℝ
  G : Finset ℤ
  kinds : List WormKind
  sw : WormKind → ℝ
  maxDist : ℕ → ℕ
  wormDist : WormKind → ℕ

/-- The movers of a space are called only in that space (src/impurity.ipp:616). -/
noncomputable def onlyKind (k : WormKind) (prop : WCfg ℤ → Rand ℝ (Option (Mv ℤ (Option (Worm ℤ)) × ℝ))) (x : WCfg ℤ) :
    Rand ℝ (Option (Mv ℤ (Option (Worm ℤ)) × ℝ)) :=
  if x.worm.any fun w => decide (w.kind = k) then prop x else Rand.ret none

/-- One call. -/
noncomputable def CMove.step (A : CodeArgs 𝕜 N) (a : MoveArgs) : CMove → RStep A ℤ (Option (Worm ℤ))
  | .insRem rank => ⟨some, fun lo hi => irPropose A.P (gridWin a.tau a.G lo hi) rank⟩
  | .diag => ⟨some, fun lo hi => diagPropose A.P.nf (gridWin a.tau a.G lo hi) 1⟩
  | .flavor => ⟨some, fun lo hi => flavorPropose A.P.nf (gridWin a.tau a.G lo hi)⟩
  | .shift => ⟨some, fun lo hi => shiftPropose A.P (gridWin a.tau a.G lo hi) a.maxDist⟩
  | .worm => ⟨some, fun lo hi => wormTransition A.P.nf (gridWin a.tau a.G lo hi) a.kinds a.sw⟩
  | .green rank => ⟨some, fun _ _ => greenStep rank (a.sw (.green rank))⟩
  | .connect => ⟨some, fun lo hi => connectPropose A.P.nf (gridWin a.tau a.G lo hi) (a.sw (.equalTime 1)) (a.sw (.corr 2))⟩
  | .wormMover k => ⟨some, fun lo hi => onlyKind k (moverPropose (gridWin a.tau a.G lo hi) (a.wormDist k))⟩
  | .wormFlavor k => ⟨some, fun lo hi => onlyKind k (flavorChangePropose A.P.nf (gridWin a.tau a.G lo hi))⟩
  | .next => ⟨fun s => (moveNext A.env.V s.cfg.ops s.sw).map fun w => { s with sw := w }, fun _ _ _ => Rand.ret none⟩
  | .resize n => ⟨fun s => if n = s.sw.n then some s else
      (setWindowSize A.env.V n s.cfg.ops 0 true s.sw).map fun w => { s with sw := w }, fun _ _ _ => Rand.ret none⟩

/-- `transition_between_config_spaces` (src/impurity.ipp:549-622); `movers`: the spaces whose `WormMover` is called, in the
code all of `worm_types`. -/
def transitionMoves (nf : ℕ) (kinds movers : List WormKind) : List CMove :=
  if kinds = [] then [] else
  (List.replicate nf ([CMove.worm, CMove.green 1] ++
    (if WormKind.green 2 ∈ kinds then [CMove.green 2] else []) ++
    (if WormKind.equalTime 1 ∈ kinds ∧ WormKind.corr 2 ∈ kinds then [CMove.connect] else []) ++
    kinds.flatMap fun k => (if k ∈ movers then [CMove.wormMover k] else []) ++ [CMove.wormFlavor k])).flatten

/-- What is done at one position of the window (src/impurity.ipp:517-543). -/
def positionMoves (nf rank : ℕ) (fl sh : Bool) (kinds movers : List WormKind) : List CMove :=
  List.replicate nf (CMove.insRem rank) ++ (if fl then List.replicate nf CMove.flavor else []) ++
    (if sh then List.replicate (nf * rank) CMove.shift else []) ++ transitionMoves nf kinds movers ++ [CMove.next]

/-- `do_one_sweep` (src/impurity.ipp:493-546) with the rank drawn at line 508; `fl`, `sh`:
parameters `update.operator_pair_flavor_update` and `update.single_operator_shift`. -/
def sweepCMoves (nf nStd rank : ℕ) (fl sh : Bool) (kinds movers : List WormKind) : List CMove :=
  let n := max (nStd / rank) 1
  CMove.resize n :: (List.replicate (max (2 * n - 2) 1) (positionMoves nf rank fl sh kinds movers)).flatten

/-- Times in the middle of the intervals of a grid of `M` points. -/
noncomputable def gridTau (beta : ℝ) (M : ℕ) (t : ℤ) : ℝ := beta * (2 * t + 1) / (2 * M)

end CTHyb
