import Verif.SimulationCode
import Verif.SimulationProps
import Verif.WormMove
import Mathlib.MeasureTheory.Integral.Bochner.Set
import Mathlib.MeasureTheory.Measure.Lebesgue.Basic

/-!
A local update of the code with a random proposal: the outcomes of the proposals of `Verif.Proposal`,
`Verif.ShiftMove` and `Verif.WormMove` handed to `LocalUpdater::update` in a state of the simulation.

Simplifications: as in `Verif.Proposal` (times from a grid) and `Verif.SimulationCode`.  The proposals look at
times of a type `T`, which are placed on the imaginary time axis by `tau`.  `Cfg` keeps only the operators of the
worm; the worm object itself (`p_worm`, src/mc_config.hpp) is carried along.
-/

namespace CTHyb

variable {𝕜 : Type} [RCLike 𝕜] [DecidableEq 𝕜] {N : ℕ} {T W : Type}

/-- The operator of the code for a bath operator of the proposal (small time 0, operator.hpp:165-183). -/
def mkOp (tau : T → ℝ) (ty : OpType) (o : BOp T) : TPsi ℝ := ⟨⟨tau o.1, 0⟩, ty, o.2⟩

/-- What `propose` leaves in the members of the updater (src/moves/moves.hpp:120-135). -/
def toProp (tau : T → ℝ) (wops : W → Option (List (TPsi ℝ))) (mv : Mv T W) (c : ℝ) :
    Proposal (OpTime ℝ) ℝ :=
  ⟨⟨mv.cdRem.map (mkOp tau .creation), mv.cRem.map (mkOp tau .annihilation),
    mv.cdAdd.map (mkOp tau .creation), mv.cAdd.map (mkOp tau .annihilation)⟩, wops mv.worm, c⟩

/-- State of the simulation together with the worm object. -/
abbrev CodeState (A : CodeArgs 𝕜 N) (W : Type) :=
  GState ℝ 𝕜 (CodeDet 𝕜) (BK 𝕜) (BK 𝕜) (Fin (ebBrakets A.B A.p).length) × W

/-- `LocalUpdater::update` (src/moves/moves.ipp:83-213) with the outcome `o` of `propose` and the random
number `r` of the acceptance; `p_worm` is replaced if the update is accepted (moves.ipp:195-203). -/
noncomputable def codeStep (A : CodeArgs 𝕜 N) (tau : T → ℝ) (wops : W → Option (List (TPsi ℝ)))
    (o : Option (Mv T W × ℝ)) (r : ℝ) (s : CodeState A W) : Option (CodeState A W) :=
  let p := o.map fun q => toProp tau wops q.1 q.2
  let ex := (localUpdate A.env.D (A.env.tr s.1.sw) A.env.permFn A.env.abv A.env.sgn A.env.emb
    (inWin A.beta s.1.sw) s.1.cfg ⟨0, 0, 0⟩ p r).2.2
  (localCallStep A.env ⟨fun _ _ => p, r⟩ s.1).map fun s' =>
    (s', if ex = .accepted then o.elim s.2 (·.1.worm) else s.2)

/-- A part of a sweep: the window is moved (`shift`), then one updater with the proposal `prop`, which
depends on the edges of the window, is called (src/impurity.ipp:500-547). -/
structure RStep (A : CodeArgs 𝕜 N) (T W : Type) where
  shift : GState ℝ 𝕜 (CodeDet 𝕜) (BK 𝕜) (BK 𝕜) (Fin (ebBrakets A.B A.p).length) →
    Option (GState ℝ 𝕜 (CodeDet 𝕜) (BK 𝕜) (BK 𝕜) (Fin (ebBrakets A.B A.p).length))
  prop : ℝ → ℝ → PCfg T W → Rand ℝ (Option (Mv T W × ℝ))

/-- Lower edge of the window (`get_tau_low`, src/sliding_window/sliding_window.hpp:48). -/
noncomputable def loEdge (A : CodeArgs 𝕜 N) (s : CodeState A W) : ℝ := tauEdge A.beta s.1.sw.n s.1.sw.posR

/-- Upper edge (`get_tau_high`, src/sliding_window/sliding_window.hpp:49). -/
noncomputable def hiEdge (A : CodeArgs 𝕜 N) (s : CodeState A W) : ℝ := tauEdge A.beta s.1.sw.n s.1.sw.posL

/-- Expectation value of `F` in the state after the steps, all random numbers being independent; the random number of the
acceptance is uniform in `[0,1)`.  `rd` reads the configuration from the state, in whatever order the lists of the code
are.  An exception contributes zero. -/
noncomputable def codeRun (A : CodeArgs 𝕜 N) (tau : T → ℝ) (wops : W → Option (List (TPsi ℝ)))
    (rd : CodeState A W → PCfg T W) (F : CodeState A W → ℝ) : List (RStep A T W) → CodeState A W → ℝ
  | [], s => F s
  | st :: rest, s =>
    (st.shift s.1).elim 0 fun s1 =>
      Rand.mean (st.prop (loEdge A (s1, s.2)) (hiEdge A (s1, s.2)) (rd (s1, s.2))) fun o =>
        ∫ r in Set.Ico (0 : ℝ) 1, (codeStep A tau wops o r (s1, s.2)).elim 0 (codeRun A tau wops rd F rest)

section worms
variable [Inhabited T]

/-- An operator of the code for an operator of the proposals. -/
def mapOp (tau : T → ℝ) (o : Psi (OpTime T)) : TPsi ℝ := ⟨⟨tau o.time.time, o.time.small⟩, o.type, o.flavor⟩

/-- The operators of the worm (`get_operators`, src/worm.ipp:3-78), inserted into the trace. -/
def codeWops (tau : T → ℝ) (w : Option (Worm T)) : Option (List (TPsi ℝ)) :=
  w.map fun w => w.operators.map (mapOp tau)

/-- `G1_ins_rem_hyb` and `G2_ins_rem_hyb` are called only in the partition function space and in the space of their worm
(src/impurity.ipp:569-588). -/
noncomputable def greenStep (rank : ℕ) (ws : ℝ) (x : WCfg T) : Rand ℝ (Option (Mv T (Option (Worm T)) × ℝ)) :=
  if x.worm.all fun w => decide (w.kind = .green rank) then greenPropose rank ws x else Rand.ret none

end worms

/-- The window between `lo` and `hi` on the grid `G`. -/
noncomputable def gridWin (tau : T → ℝ) (G : Finset T) (lo hi : ℝ) : Win T ℝ :=
  ⟨(G.filter fun t => lo ≤ tau t ∧ tau t ≤ hi).toList, hi - lo, fun t => decide (lo ≤ tau t ∧ tau t ≤ hi)⟩

end CTHyb
