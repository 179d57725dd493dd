import Verif.ContCodeGlobal
import Verif.SamplingLoopProps
import Mathlib.NumberTheory.Real.Irrational

/-!
# Runs of the simulation in continuous time

The updates of the simulation, the global updates, the shifts of the window and the changes of its size, as transitions of the *states* of the
simulation: operators, matrices, caches of the window, trace, sign.  All random numbers are real numbers.
Specification: `sweepE` (Verif/ContSweep.lean) for the updates of configurations, `wFlow` (Verif/ContWormProps.lean) for averages
over all configurations.
-/

namespace CTHyb

open Rand MeasureTheory ENNReal

variable {𝕜 : Type} [RCLike 𝕜] {N : ℕ}

/-- The calls of `do_one_sweep`, `transition_between_config_spaces` and `global_updates` (src/impurity.ipp:493-693), without the
adjustment of the weights of the spaces (`adjust_worm_space_weight`, during thermalization only). -/
inductive KMove where
  /-- `InsertionRemovalUpdater` (src/impurity.ipp:518-523). -/
  | pair (rank : ℕ)
  /-- `OperatorPairFlavorUpdater` (src/impurity.ipp:525-529). -/
  | flavor
  /-- `SingleOperatorShiftUpdater` with `max_distance_` (src/impurity.ipp:530-535). -/
  | shift (maxDist : ℕ → ℝ)
  /-- `WormInsertionRemover` (src/impurity.ipp:557-565). -/
  | insRem
  /-- `WormFlavorChanger` of the current space (src/impurity.ipp:615-621). -/
  | change
  /-- `WormMover` of the space `k` (src/impurity.ipp:615-621). -/
  | move (k : WormKind) (d : ℝ)
  /-- `EqualTimeG1_TwoTimeG2_Connector` (src/impurity.ipp:587-595). -/
  | connect
  /-- `GWormInsertionRemover` (src/impurity.ipp:568-585). -/
  | green (rank : ℕ)
  /-- `sliding_window.move_window_to_next_position` (src/impurity.ipp:540). -/
  | next
  /-- `sliding_window.set_window_size` (src/impurity.ipp:509-512). -/
  | resize (n : ℕ)
  /-- `sliding_window.set_window_size` without a test of the present number (src/impurity.ipp:628, 691). -/
  | setWin (n : ℕ)
  /-- The exchanges of flavors in the order in which they are executed and the shift, with the factors of the determinant computed
  before (src/impurity.ipp:633-690); `nwin`: number of windows in which the new trace is computed. -/
  | globals (nwin : ℕ) (ps : List (ℕ → ℕ))

/-- One call in the state `s` with the window `cw` and the configuration `x`: expectation value of `F` in the state afterwards.
An exception contributes zero. -/
noncomputable def KMove.upd (A : CodeArgs 𝕜 N) (kinds : List WormKind) (sw : WormKind → ℝ) (cw : CWin) (x : WCfg ℝ)
    (s : CodeState A (Option (Worm ℝ))) (F : CodeState A (Option (Worm ℝ)) → ℝ≥0∞) : KMove → ℝ≥0∞
  | .pair rank => codePair A cw rank x s F
  | .flavor => codeFlavor A cw x s F
  | .shift d => codeShift A cw d x s F
  | .insRem => wormTransG A.P.nf cw kinds sw x (codeAcc A s F)
  | .change => codeChange A cw x s F
  | .move k d => moverG cw k d x (codeAcc A s F)
  | .connect => connectG A.P.nf cw (sw (.equalTime 1)) (sw (.corr 2)) x (codeAcc A s F)
  | .green rank => codeGreen A rank (sw (.green rank)) x s F
  | .next => (moveNext A.env.V s.1.cfg.ops s.1.sw).elim 0 fun w => F ({ s.1 with sw := w }, s.2)
  | .resize n => if n = s.1.sw.n then F s else
      (setWindowSize A.env.V n s.1.cfg.ops 0 true s.1.sw).elim 0 fun w => F ({ s.1 with sw := w }, s.2)
  | .setWin n => (setWindowSize A.env.V n s.1.cfg.ops 0 true s.1.sw).elim 0 fun w => F ({ s.1 with sw := w }, s.2)
  | .globals nwin ps => globRunC A nwin F ps ({ s.1 with detVec := A.env.factors s.1.cfg.M }, s.2)

/-- The configuration the updaters read from the state: `creation_operators()`, `annihilation_operators()`, `p_worm`
(src/mc_config.hpp). -/
noncomputable def cfgOf (A : CodeArgs 𝕜 N) (s : CodeState A (Option (Worm ℝ))) : WCfg ℝ :=
  ⟨(A.env.D.cdagg s.1.cfg.M).map fun o => (o.time.time, o.flavor), (A.env.D.cs s.1.cfg.M).map fun o => (o.time.time, o.flavor), s.2⟩

/-- The window of the state; no margin is kept to its edges. -/
noncomputable def cwinOf (A : CodeArgs 𝕜 N) (s : CodeState A (Option (Worm ℝ))) : CWin := ⟨loEdge A s, hiEdge A s, 0⟩

/-- Expectation value of `F` in the state after the calls. -/
noncomputable def contRun (A : CodeArgs 𝕜 N) (kinds : List WormKind) (sw : WormKind → ℝ)
    (F : CodeState A (Option (Worm ℝ)) → ℝ≥0∞) : List KMove → CodeState A (Option (Worm ℝ)) → ℝ≥0∞
  | [], s => F s
  | m :: L, s => m.upd A kinds sw (cwinOf A s) (cfgOf A s) s (contRun A kinds sw F L)

/-! ### Specification -/

/-- **Specification.**  The window after a call. -/
def KMove.window : KMove → SavedState → SavedState
  | .next, st =>
    let p := stepPos st.n (st.posR, st.posL, st.dirLeft)
    ⟨p.2.1, p.1, p.2.2, st.n⟩
  | .resize n, st => if n = st.n then st else ⟨2, 0, if 2 ≤ n then true else st.dirLeft, n⟩
  | .setWin n, _ => ⟨2, 0, true, n⟩
  | _, st => st

/-- **Specification.**  The updates of the configurations which belong to a call, none for calls which only change the window. -/
def KMove.wstep (β : ℝ) (cw : CWin) : KMove → List WStep
  | .pair rank => [.bath (.pair cw rank)]
  | .flavor => [.bath (.flavor cw)]
  | .shift d => [.bath (.shift cw d)]
  | .insRem => [.insRem cw]
  | .change => [.change cw]
  | .move k d => [.move cw k d]
  | .connect => [.connect cw]
  | .green rank => [.green rank]
  | .next => []
  | .resize _ => []
  | .setWin _ => []
  | .globals _ ps => ps.map .swap ++ [.globalShift β]

/-- **Specification.**  The window with these positions. -/
noncomputable def winAt (β : ℝ) (st : SavedState) : CWin := ⟨tauEdge β st.n st.posR, tauEdge β st.n st.posL, 0⟩

/-- **Specification.**  The updates of the configurations which belong to the calls. -/
noncomputable def wsteps (β : ℝ) : SavedState → List KMove → List WStep
  | _, [] => []
  | st, m :: L => m.wstep β (winAt β st) ++ wsteps β (m.window st) L

/-- **Specification.**  What is demanded of the parameters of a call in the window `st`. -/
def KMove.Allowed (A : CodeArgs 𝕜 N) (kinds : List WormKind) (st : SavedState) : KMove → Prop
  | .shift d => (∀ f, 0 < d f) ∧ ∀ f f', A.P.sector f = A.P.sector f' → d f = d f'
  | .insRem => 0 < kinds.length
  | .move k d => k.numTimes = 1 ∧ 0 < d
  | .connect => kinds.Nodup ∧ .equalTime 1 ∈ kinds ∧ .corr 2 ∈ kinds
  | .green r => kinds.Nodup ∧ .green r ∈ kinds
  | .resize n => 1 ≤ n
  | .setWin n => 1 ≤ n
  | .globals nwin ps => st.n = 1 ∧ 1 ≤ nwin ∧
      (∀ p ∈ ps, (CGlob.swap p).OK A.P.nf A.beta ∧ (CGlob.swap p).Safe A) ∧ ∀ v ∈ Set.Ico (0 : ℝ) 1, (CGlob.shift (v * A.beta)).Safe A
  | _ => True

/-- **Specification.**  All calls of the list are possible in the windows of the run. -/
def Follows (A : CodeArgs 𝕜 N) (kinds : List WormKind) : SavedState → List KMove → Prop
  | _, [] => True
  | st, m :: L => m.Allowed A kinds st ∧ Follows A kinds (m.window st) L

/-- **Specification.**  A single update of the bath or of the worm. -/
def KMove.Local : KMove → Prop
  | .next | .resize _ | .setWin _ | .globals _ _ => False
  | _ => True

/-- **Specification.**  The edges of all windows. -/
def edges (β : ℝ) : Set ℝ := Set.range fun p : ℕ × ℕ => tauEdge β p.1 p.2

/-! ### One call -/

variable {A : CodeArgs 𝕜 N} {x : WCfg ℝ} {s : CodeState A (Option (Worm ℝ))}
  {Z : Set ℝ} {cw : CWin} {ψ : CfgFun (Option (Worm ℝ)) ℝ≥0∞} {F : CodeState A (Option (Worm ℝ)) → ℝ≥0∞}

theorem wmeas_meas {nf : ℕ} {χ : CfgFun (Option (Worm ℝ)) ℝ≥0∞} (h : χ.WMeas nf) (hx : Reg nf Z x) : χ.Meas x.worm := by
  rcases hw : x.worm with _ | ⟨k, ts, fs⟩
  · exact h.none
  · obtain ⟨hv, hf, -⟩ := hx.2 _ hw
    obtain ⟨gs, rfl⟩ : ∃ gs : Fin k.numFlavors → Fin nf, flavList gs = fs := flavList_of hv.2 hf
    have e : ts = List.ofFn fun i : Fin k.numTimes => ts[i.1]'(by rw [hv.1]; exact i.2) := by
      apply List.ext_getElem
      · rw [List.length_ofFn, hv.1]
      · intro i _ _; rw [List.getElem_ofFn]
    rw [e]
    exact h.some k _ gs

/-- **C83** (one call).  Each update of the simulation in a state with the configuration `x`: the expectation value over all random
numbers of a function of the configuration afterwards is that of the update of configurations with the weight of the code. -/
theorem C83_update (hA : A.OK) (hG : Measurable fun q : TPsi ℝ × TPsi ℝ => A.G q.1 q.2) (hnf : 0 < A.P.nf) (hns : 0 < A.P.ns)
    (hfl : ∀ b < A.P.ns, 0 < (blockFlavors A.P b).length) (kinds : List WormKind) {sw : WormKind → ℝ} (hsw : ∀ k, 0 < sw k)
    (m : KMove) (hl : m.Local) {st : SavedState} (hm : m.Allowed A kinds st) {w : WStep} (hw : m.wstep A.beta cw = [w]) (hs : At A Z cw x s) (hψ : ψ.WMeas A.P.nf)
    (hF : ReadsCfg A (Reg A.P.nf Z) s ψ F) :
    m.upd A kinds sw cw x s F = w.step A.P kinds sw (codeW A) ψ x := by
  have hψ' := wmeas_meas hψ hs.reg
  cases m with
  | pair rank =>
    obtain rfl := (List.cons.inj hw).1
    exact C83_pair_update hA hG hs.inv hs.reps hs.win hs.lo hs.hi hns hfl rank hs.count hs.reg hs.lo_mem hs.hi_mem hψ' hF
  | flavor =>
    obtain rfl := (List.cons.inj hw).1
    exact (hold_flavor hA hs hnf hF).1
  | shift d =>
    obtain rfl := (List.cons.inj hw).1
    exact (hold_shift hA hG hs hm.1 hψ' hF).1
  | insRem =>
    obtain rfl := (List.cons.inj hw).1
    exact (hold_insRem hA hG hs hnf hm hsw hψ hF).1
  | change =>
    obtain rfl := (List.cons.inj hw).1
    exact (hold_change hA hs hnf hF).1
  | move k d =>
    obtain rfl := (List.cons.inj hw).1
    exact (hold_mover hA hG hs k hm.1 hm.2 hψ hF).1
  | connect =>
    obtain rfl := (List.cons.inj hw).1
    exact (hold_connect hA hG hs hnf (hsw _) (hsw _) hψ hF).1
  | green rank =>
    obtain rfl := (List.cons.inj hw).1
    exact (hold_green hA hs rank (hsw _) hF).1
  | next => cases hl
  | resize n => cases hl
  | setWin n => cases hl
  | globals nwin ps => cases hl

/-! ### Windows -/

theorem winAt_ok {β : ℝ} (hβ : 0 < β) {st : SavedState} (h : WindowOK 0 st) : (winAt β st).OK β := by
  obtain ⟨h1, h2, h3, -⟩ := h
  have hn : (0 : ℝ) < 2 * st.n := by have : (0 : ℝ) < st.n := by exact_mod_cast h1
                                     positivity
  refine ⟨?_, ?_, ?_, rfl⟩
  · show 0 ≤ β * st.posR / (2 * st.n)
    positivity
  · show β * st.posR / (2 * st.n) < β * st.posL / (2 * st.n)
    have : (st.posR : ℝ) < st.posL := by exact_mod_cast (by omega : st.posR < st.posL)
    exact div_lt_div_of_pos_right (mul_lt_mul_of_pos_left this hβ) hn
  · show β * st.posL / (2 * st.n) ≤ β
    rw [div_le_iff₀ hn]
    have : (st.posL : ℝ) ≤ 2 * st.n := by exact_mod_cast h3
    exact mul_le_mul_of_nonneg_left this hβ.le

theorem kwindow_ok {kinds : List WormKind} {m : KMove} {st : SavedState} (hm : m.Allowed A kinds st) (hst : WindowOK 0 st) :
    WindowOK 0 (m.window st) := by
  obtain ⟨h1, h2, h3, h4⟩ := hst
  cases m with
  | next =>
    refine ⟨h1, ?_, ?_, h4⟩ <;> simp only [KMove.window, stepPos] <;> split_ifs <;> simp only at * <;> omega
  | resize n =>
    have hn : 1 ≤ n := hm
    simp only [KMove.window]
    split_ifs with h5
    · exact ⟨h1, h2, h3, h4⟩
    all_goals exact ⟨hn, rfl, by show 2 ≤ 2 * n; omega, dvd_zero _⟩
  | setWin n =>
    have hn : 1 ≤ n := hm
    exact ⟨hn, rfl, by show 2 ≤ 2 * n; omega, dvd_zero _⟩
  | _ => exact ⟨h1, h2, h3, h4⟩

theorem kwstep_ok (hβ : 0 < A.beta) {kinds : List WormKind} {m : KMove} {st : SavedState} (hm : m.Allowed A kinds st)
    (hst : WindowOK 0 st) : ∀ w ∈ m.wstep A.beta (winAt A.beta st), w.OK A.beta A.P kinds := by
  intro w hw
  have hc := winAt_ok hβ hst
  cases m <;> simp only [KMove.wstep, List.mem_append, List.mem_map, List.mem_singleton, List.not_mem_nil] at hw
  case globals nwin ps =>
    rcases hw with ⟨p, hp, rfl⟩ | rfl
    · exact (hm.2.2.1 p hp).1
    · exact ⟨rfl, hβ⟩
  all_goals subst hw
  · exact hc
  · trivial
  · exact ⟨hc.lo_nonneg, hc.le, hm.1, hm.2⟩
  · exact hc
  · trivial
  · exact ⟨hc, hm.1, hm.2⟩
  · exact ⟨hc, hm.1, hm.2.1, hm.2.2⟩
  · exact hm

theorem wsteps_ok (hβ : 0 < A.beta) {kinds : List WormKind} (L : List KMove) {st : SavedState} (hL : Follows A kinds st L)
    (hst : WindowOK 0 st) : ∀ w ∈ wsteps A.beta st L, w.OK A.beta A.P kinds := by
  induction L generalizing st with
  | nil => intro w hw; simp [wsteps] at hw
  | cons m L ih =>
    intro w hw
    rw [wsteps, List.mem_append] at hw
    rcases hw with hw | hw
    · exact kwstep_ok hβ hL.1 hst w hw
    · exact ih hL.2 (kwindow_ok hL.1 hst) w hw

/-! ### Reading the configuration -/

theorem Reps.same_cfgOf (h : Reps A id (codeWops id) x s) : x.Same (cfgOf A s) := by
  have e : ∀ (l : List (BOp ℝ)) ty, ((l.map (mkOp id ty)).map fun o => (o.time.time, o.flavor)) = l := by
    intro l ty
    rw [List.map_map]
    exact List.map_id l
  refine ⟨?_, ?_, h.worm.symm⟩
  · have := (h.cd.map fun o => (o.time.time, o.flavor)).symm
    rwa [e] at this
  · have := (h.c.map fun o => (o.time.time, o.flavor)).symm
    rwa [e] at this

theorem Reps.goodCfg (hA : A.OK) (hs : SimInv A.env A.Inv (pmDet A.P) s.1) (h : Reps A id (codeWops id) x s) :
    GoodCfg A.P.nf x.cd x.c := by
  refine codeW_good A (ω := x.worm) ?_
  show (CTHyb.codeW A).at x ≠ 0
  rw [h.codeW hs]
  exact (h.good hA hs).weight

theorem nice_read {nf : ℕ} {H : WCfg ℝ → ℝ≥0∞} (hH : WNice nf H) (hx : Reg nf Z x) (hg : GoodCfg nf x.cd x.c) :
    (onGood nf (setFun H)).at x = H x := by
  obtain ⟨z, hz, h1, h2, hω⟩ := cfg_shape hx
  have hg' : GoodCfg nf (ms z.1) (ms z.2) := by rw [h1, h2]; exact hg
  have hn : Nice nf x.worm H := by
    rcases hω with e | ⟨k, ts, fs, e⟩
    · rw [e]; exact hH.none
    · rw [e]; exact hH.some k ts fs
  have := setFun_at hn z hg'
  rw [← hz] at this
  rw [← this]
  exact if_pos hg

theorem countable_edges (β : ℝ) : (edges β).Countable := Set.countable_range _

/-! ### Runs -/

/-- The state has this window, whatever its direction if there is only one position, and a configuration with no operator at an
edge. -/
structure Stands (A : CodeArgs 𝕜 N) (st : SavedState) (x : WCfg ℝ) (s : CodeState A (Option (Worm ℝ))) : Prop where
  inv : SimInv A.env A.Inv (pmDet A.P) s.1
  reps : Reps A id (codeWops id) x s
  win : winOf s.1.sw = normWin st
  reg : Reg A.P.nf (edges A.beta) x

theorem Stands.cwinOf_eq {st : SavedState} (h : Stands A st x s) : cwinOf A s = winAt A.beta st := by
  have e : winAt A.beta st = winAt A.beta (normWin st) := rfl
  rw [e, ← h.win]; rfl

theorem Stands.at (hβ : 0 < A.beta) {st : SavedState} (hst : WindowOK 0 st) (h : Stands A st x s) :
    At A (edges A.beta) (cwinOf A s) x s :=
  ⟨h.inv, h.reps, h.cwinOf_eq ▸ winAt_ok hβ hst, rfl, rfl, countable_edges _, h.reg, ⟨(_, _), rfl⟩, ⟨(_, _), rfl⟩⟩

theorem Stands.read {st : SavedState} (h : Stands A st x s) : Stands A st (cfgOf A s) s :=
  ⟨h.inv, h.reps.of_same h.reps.same_cfgOf, h.win, reg_same _ _ h.reps.same_cfgOf h.reg⟩

/-- A function of the configuration read from the state. -/
theorem reads_cfgOf (ψ : CfgFun (Option (Worm ℝ)) ℝ≥0∞) (s : CodeState A (Option (Worm ℝ))) (x : WCfg ℝ) (st : SavedState)
    (h : Stands A st x s) : ψ.at (cfgOf A s) = ψ.at x := (at_same _ h.reps.same_cfgOf).symm

theorem Stands.windowOK {st : SavedState} (hst : WindowOK 0 st) (h : Stands A st x s) : WindowOK 0 (getState s.1.sw) := by
  rw [← normWin_ok, ← winOf_eq, h.win, normWin_ok]; exact hst

/-- Arguments of `shift_state`, which do not enter there. -/
noncomputable def noArgs : MoveArgs := ⟨fun _ => 0, ∅, [], fun _ => 0, fun _ => 0, fun _ => 0⟩

theorem Stands.shift {st : SavedState} (h : Stands A st x s) {m : CMove} (hm : m.Allowed A noArgs 0)
    {Ket Bra ι : Type} {w : SWState Ket Bra ι}
    (hw : getState w = m.window (getState s.1.sw)) : winOf w = normWin (m.window st) := by
  rw [winOf_eq, hw, ← normWin_window hm, ← normWin_window hm st, ← winOf_eq, h.win]

theorem next_stands {st : SavedState} (hst : WindowOK 0 st) (h : Stands A st x s) :
    ∃ s1, (∀ F : CodeState A (Option (Worm ℝ)) → ℝ≥0∞,
        (moveNext A.env.V s.1.cfg.ops s.1.sw).elim 0 (fun w => F ({ s.1 with sw := w }, s.2)) = F s1) ∧
      Stands A (KMove.next.window st) x s1 := by
  obtain ⟨s1, e, hi, hc, hw⟩ := shift_state (A := A) (a := noArgs) (M := 0) (m := .next) trivial (h.windowOK hst) (s.1, none) h.inv rfl
  have hw' := h.shift (m := .next) trivial hw
  obtain ⟨w, e1, rfl⟩ := Option.map_eq_some_iff.1 e
  refine ⟨(_, s.2), fun F => by rw [show moveNext A.env.V s.1.cfg.ops s.1.sw = some w from e1]; rfl, hi, ?_, hw', h.reg⟩
  exact ⟨h.reps.cd, h.reps.c, h.reps.worm, h.reps.wops⟩

theorem resize_stands {st : SavedState} (hst : WindowOK 0 st) (h : Stands A st x s) {n : ℕ} (hn : 1 ≤ n) :
    ∃ s1, (∀ F : CodeState A (Option (Worm ℝ)) → ℝ≥0∞, (if n = s.1.sw.n then F s else
        (setWindowSize A.env.V n s.1.cfg.ops 0 true s.1.sw).elim 0 fun w => F ({ s.1 with sw := w }, s.2)) = F s1) ∧
      Stands A ((KMove.resize n).window st) x s1 := by
  obtain ⟨s1, e, hi, hc, hw⟩ := shift_state (A := A) (a := noArgs) (M := 0) (m := .resize n) ⟨hn, dvd_zero _⟩ (h.windowOK hst) (s.1, none)
    h.inv rfl
  have hw' := h.shift (m := .resize n) ⟨hn, dvd_zero _⟩ hw
  simp only [CMove.step] at e
  by_cases h0 : n = s.1.sw.n
  · rw [if_pos h0] at e
    obtain rfl := Option.some.inj e
    exact ⟨s, fun F => if_pos h0, h.inv, h.reps, hw', h.reg⟩
  · rw [if_neg h0] at e
    obtain ⟨w, e1, rfl⟩ := Option.map_eq_some_iff.1 e
    refine ⟨(_, s.2), fun F => by rw [if_neg h0, show setWindowSize A.env.V n s.1.cfg.ops 0 true s.1.sw = some w from e1]; rfl,
      hi, ?_, hw', h.reg⟩
    exact ⟨h.reps.cd, h.reps.c, h.reps.worm, h.reps.wops⟩

theorem setWin_stands {st : SavedState} (h : Stands A st x s) {n : ℕ} (hn : 1 ≤ n) :
    ∃ s1, (∀ F : CodeState A (Option (Worm ℝ)) → ℝ≥0∞,
        ((setWindowSize A.env.V n s.1.cfg.ops 0 true s.1.sw).elim 0 fun w => F ({ s.1 with sw := w }, s.2)) = F s1) ∧
      Stands A ((KMove.setWin n).window st) x s1 := by
  obtain ⟨w, e, k, n1, r0, l2⟩ := resize_ok h.inv hn
  obtain ⟨w', e', -, -, x, -⟩ := setWindowSize_ok h.inv.win.caches s.1.cfg.ops n 0 true
  have e2 : setWindowSize A.env.V n s.1.cfg.ops 0 true s.1.sw = some w := e
  have e3 : some w' = some w := by rw [← e', ← e2]
  obtain rfl := Option.some.inj e3
  refine ⟨({ s.1 with sw := w' }, s.2), fun F => by rw [e2]; rfl, k, ⟨h.reps.cd, h.reps.c, h.reps.worm, h.reps.wops⟩, ?_, h.reg⟩
  simp only [winOf, n1, r0, l2, KMove.window, normWin]
  by_cases h2 : 2 ≤ n
  · rw [(x h2).2.2]; simp [newDir]
  · have : n = 1 := by omega
    simp [this]

section run
variable (hA : A.OK) (hG : Measurable fun q : TPsi ℝ × TPsi ℝ => A.G q.1 q.2) (hβ : 0 < A.beta) (hnf : 0 < A.P.nf) (hns : 0 < A.P.ns)
    (hfl : ∀ b < A.P.ns, 0 < (blockFlavors A.P b).length) (kinds : List WormKind) (hkf : ∀ k ∈ kinds, 0 < k.numFlavors)
    {sw : WormKind → ℝ} (hsw : ∀ k, 0 < sw k)
include hA hG hβ hnf hns hfl hkf hsw

omit hnf hns hfl hsw in
theorem wnice_wsteps (hψ : ψ.WMeas A.P.nf) (L : List KMove) {st : SavedState} (hL : Follows A kinds st L)
    (hst : WindowOK 0 st) : WNice A.P.nf (sweepE A.P kinds sw (codeW A) ψ (wsteps A.beta st L)) := by
  obtain ⟨h1, h2, h3, h4⟩ := C83_weight hA hG
  exact wnice_sweep (β := A.beta) A.P hA.sectors kinds hkf sw h1 hψ h3 _ (wsteps_ok hβ L hL hst) fun _ _ => h4

omit hβ hnf hns hfl hkf hsw in
theorem sweep_cons (w : WStep) (L : List WStep) (hx : Reg A.P.nf Z x) (hg : GoodCfg A.P.nf x.cd x.c) :
    sweepE A.P kinds sw (codeW A) ψ (w :: L) x =
      w.step A.P kinds sw (codeW A) (onGood A.P.nf (setFun (sweepE A.P kinds sw (codeW A) ψ L))) x := by
  obtain ⟨z, hz, h1, h2, -⟩ := cfg_shape hx
  have := sweep_step A.P kinds sw ψ (C83_weight hA hG).2.2.1 L w x.worm _ _ z (by rw [h1, h2]; exact hg)
  rwa [← hz] at this

omit hnf hns hfl hsw in
/-- The global updates of one call. -/
theorem glob_read (hψ : ψ.WMeas A.P.nf) {nwin : ℕ} (hw : 1 ≤ nwin) (L : List WStep) (hL : ∀ w ∈ L, w.OK A.beta A.P kinds)
    (ps : List (ℕ → ℕ)) (hps : ∀ p ∈ ps, (CGlob.swap p).OK A.P.nf A.beta ∧ (CGlob.swap p).Safe A)
    (hsh : ∀ v ∈ Set.Ico (0 : ℝ) 1, (CGlob.shift (v * A.beta)).Safe A)
    (hF : ∀ s' y, GlobAt A s' → Reg A.P.nf (edges A.beta) y → Reps A id (codeWops id) y s' →
      F s' = (onGood A.P.nf (setFun (sweepE A.P kinds sw (codeW A) ψ L))).at y)
    (hs : GlobAt A s) (hx : Reg A.P.nf (edges A.beta) x) (hr : Reps A id (codeWops id) x s) :
    globRunC A nwin F ps s = sweepE A.P kinds sw (codeW A) ψ (ps.map .swap ++ .globalShift A.beta :: L) x := by
  obtain ⟨h1, h2, h3, h4⟩ := C83_weight hA hG
  have e0 : (0 : ℝ) ∈ edges A.beta := ⟨(1, 0), tauEdge_zero _ _⟩
  have e1 : A.beta ∈ edges A.beta := ⟨(1, 2), tauEdge_top _ 1 le_rfl⟩
  have hne : ∀ {s x}, GlobAt A s → Reps A id (codeWops id) x s → (codeW A).at x ≠ 0 := fun hs hr => by
    rw [hr.codeW hs.inv]; exact (hr.good hA hs.inv).weight
  have nice : ∀ L : List WStep, (∀ w ∈ L, w.OK A.beta A.P kinds) → WNice A.P.nf (sweepE A.P kinds sw (codeW A) ψ L) := fun L hL =>
    wnice_sweep (β := A.beta) A.P hA.sectors kinds hkf sw h1 hψ h3 _ hL fun _ _ => h4
  induction ps generalizing s x with
  | nil =>
    rw [List.map_nil, List.nil_append, sweep_cons hA hG kinds _ L hx (hr.goodCfg hA hs.inv)]
    refine (hold_int unit_univ ?_ (measurable_globalShift hβ h1 (wmeas_onGood (nice L hL)) hx)
      (measurable_globalShift hβ h1 (wmeas_one _) hx)).1
    filter_upwards [ae_reg_shift hβ (countable_edges A.beta) hx, ae_restrict_mem measurableSet_Ico] with v hv hv0
    refine hold_global (m := .shift (v * A.beta)) hA ⟨mul_nonneg hv0.1 hβ.le, ?_⟩ hx e0 e1 hv (hsh v hv0 _ (hne hs hr) hx.mono (hr.strict hs.inv hx e0 e1)) hs hr hw hF
    have := mul_lt_mul_of_pos_right hv0.2 hβ
    rwa [one_mul] at this
  | cons p ps ih =>
    have hp := hps p List.mem_cons_self
    have hps' : ∀ q ∈ ps, (CGlob.swap q).OK A.P.nf A.beta ∧ (CGlob.swap q).Safe A := fun q hq => hps q (List.mem_cons_of_mem _ hq)
    have hL' : ∀ w ∈ ps.map .swap ++ .globalShift A.beta :: L, w.OK A.beta A.P kinds := by
      intro w hw
      simp only [List.mem_append, List.mem_map, List.mem_cons] at hw
      rcases hw with ⟨q, hq, rfl⟩ | rfl | hw
      exacts [(hps' q hq).1, ⟨rfl, hβ⟩, hL w hw]
    rw [List.map_cons, List.cons_append, sweep_cons hA hG kinds _ _ hx (hr.goodCfg hA hs.inv)]
    refine (hold_global hA hp.1 hx e0 e1 (reg_swap hp.1 _ hx) (hp.2 _ (hne hs hr) hx.mono (hr.strict hs.inv hx e0 e1)) hs hr hw (fun s' y g1 g2 g3 => ?_)).1
    rw [ih hps' g1 g2 g3, nice_read (nice _ hL') g2 (g3.goodCfg hA g1.inv)]

theorem contRun_read (hψ : ψ.WMeas A.P.nf) (L : List KMove) {st : SavedState} (hL : Follows A kinds st L)
    (hst : WindowOK 0 st) (hs : Stands A st (cfgOf A s) s) {F : CodeState A (Option (Worm ℝ)) → ℝ≥0∞}
    (hF0 : ∀ s x st, Stands A st x s → F s = ψ.at x) :
    contRun A kinds sw F L s = sweepE A.P kinds sw (codeW A) ψ (wsteps A.beta st L) (cfgOf A s) := by
  induction L generalizing st s with
  | nil => exact hF0 _ _ _ hs
  | cons m L ih =>
    obtain ⟨hm, hL'⟩ := hL
    have hst' := kwindow_ok hm hst
    have hn := wnice_wsteps (sw := sw) hA hG hβ kinds hkf hψ L hL' hst'
    have hF : ∀ s' y, Stands A (m.window st) y s' → contRun A kinds sw F L s' =
        (onGood A.P.nf (setFun (sweepE A.P kinds sw (codeW A) ψ (wsteps A.beta (m.window st) L)))).at y := by
      intro s' y hy
      rw [ih hL' hst' hy.read, ← nice_read hn hy.read.reg (hy.read.reps.goodCfg hA hy.inv)]
      exact (at_same _ hy.reps.same_cfgOf).symm
    have hg := hs.reps.goodCfg hA hs.inv
    rw [contRun, wsteps]
    have win : ∀ s1, Stands A (m.window st) (cfgOf A s) s1 → m.wstep A.beta (winAt A.beta st) = [] →
        contRun A kinds sw F L s1 =
          sweepE A.P kinds sw (codeW A) ψ (m.wstep A.beta (winAt A.beta st) ++ wsteps A.beta (m.window st) L) (cfgOf A s) := by
      intro s1 h2 h3
      rw [h3, List.nil_append, hF s1 _ h2, nice_read hn hs.reg hg]
    by_cases hl : m.Local
    · have hwin : m.window st = st := by
        cases m <;> first | rfl | cases hl
      obtain ⟨w, hw⟩ : ∃ w, m.wstep A.beta (winAt A.beta st) = [w] := by
        cases m <;> first | exact ⟨_, rfl⟩ | cases hl
      rw [hwin] at hF hn ⊢
      rw [hw, List.singleton_append, sweep_cons hA hG kinds _ _ hs.reg hg]
      exact C83_update hA hG hnf hns hfl kinds hsw m hl hm (by rw [hs.cwinOf_eq]; exact hw) (hs.at hβ hst) (wmeas_onGood hn)
        fun s' hs' hsw' y hy hr => hF s' y ⟨hs', hr, by rw [hsw']; exact hs.win, hy⟩
    · cases m with
      | next => obtain ⟨s1, h1, h2⟩ := next_stands hst hs; exact (h1 _).trans (win s1 h2 rfl)
      | resize n => obtain ⟨s1, h1, h2⟩ := resize_stands hst hs hm; exact (h1 _).trans (win s1 h2 rfl)
      | setWin n => obtain ⟨s1, h1, h2⟩ := setWin_stands hs hm; exact (h1 _).trans (win s1 h2 rfl)
      | globals nwin ps =>
        obtain ⟨m1, m2, m3, m4⟩ := hm
        have hsw1 : s.1.sw.n = 1 := by
          have : (winOf s.1.sw).n = (normWin st).n := by rw [hs.win]
          exact this.trans m1
        have hw1 := hs.windowOK hst
        have hr0 : s.1.sw.posR = 0 := by
          have a := hw1.two
          have b := hw1.le
          simp only [getState, hsw1] at a b
          omega
        have hl2 : st.posR = 0 ∧ st.posL = 2 := by
          have a := hst.two
          have b := hst.le
          rw [m1] at b
          omega
        have e := glob_read (sw := sw) (s := ({ s.1 with detVec := A.env.factors s.1.cfg.M }, s.2)) (x := cfgOf A s)
          hA hG hβ kinds hkf hψ m2 (wsteps A.beta st L) (wsteps_ok hβ L hL' hst) ps m3 m4
          (F := contRun A kinds sw F L) (fun s' y g1 g2 g3 => ?_)
          ⟨⟨hs.inv.cons, hs.inv.inv, hs.inv.sign, hs.inv.trace, hs.inv.win, hs.inv.two⟩, (C60_lawful A hA).factors _ hs.inv.inv, hsw1, hr0⟩
          hs.reg ⟨hs.reps.cd, hs.reps.c, hs.reps.worm, hs.reps.wops⟩
        · refine Eq.trans e ?_
          rw [KMove.wstep, List.append_assoc]
          rfl
        · refine hF s' y ⟨g1.inv, g3, ?_, g2⟩
          have two : s'.1.sw.posL = s'.1.sw.posR + 2 := g1.inv.two
          simp only [winOf, normWin, KMove.window, g1.n, two, g1.posR, m1, hl2.1, hl2.2]
          rfl
      | _ => exact absurd trivial hl

/-- **C83** (runs of the simulation).  A run of any length of updates, global updates, shifts of the window and changes of its size, starting in a
state of the simulation with the configuration `x`: the expectation value over all random numbers of a quantity `F` which is a function `ψ` of
the configuration at the end is that of the updates of configurations with the weight of the code, in the windows of the run. -/
theorem C83_code_run (hψ : ψ.WMeas A.P.nf) (L : List KMove) {st : SavedState} (hL : Follows A kinds st L)
    (hst : WindowOK 0 st) (hs : Stands A st x s) {F : CodeState A (Option (Worm ℝ)) → ℝ≥0∞}
    (hF0 : ∀ s x st, Stands A st x s → F s = ψ.at x) :
    contRun A kinds sw F L s = sweepE A.P kinds sw (codeW A) ψ (wsteps A.beta st L) x := by
  have hn := wnice_wsteps (sw := sw) hA hG hβ kinds hkf hψ L hL hst
  rw [contRun_read hA hG hβ hnf hns hfl kinds hkf hsw hψ L hL hst hs.read hF0, ← nice_read hn hs.read.reg (hs.read.reps.goodCfg hA hs.inv),
    ← nice_read hn hs.reg (hs.reps.goodCfg hA hs.inv)]
  exact (at_same _ hs.reps.same_cfgOf).symm

end run

/-! ### Almost all configurations -/

theorem ae_opMeasure_out (β : ℝ) (nf : ℕ) (hZ : Z.Countable) : ∀ᵐ o ∂(opMeasure β nf), (0 ≤ o.1 ∧ o.1 ≤ β) ∧ o.1 ∉ Z := by
  unfold opMeasure
  refine (Measure.quasiMeasurePreserving_fst).ae (p := fun t : ℝ => (0 ≤ t ∧ t ≤ β) ∧ t ∉ Z) ?_
  exact (ae_restrict_mem measurableSet_Icc).and (ae_restrict_of_ae (hZ.ae_notMem volume))

theorem ae_labMeasure_out (β : ℝ) (nf m n : ℕ) (hZ : Z.Countable) : ∀ᵐ z ∂(labMeasure β nf m n),
    (∀ i, (0 ≤ (z.1 i).1 ∧ (z.1 i).1 ≤ β) ∧ (z.1 i).1 ∉ Z) ∧ ∀ i, (0 ≤ (z.2 i).1 ∧ (z.2 i).1 ≤ β) ∧ (z.2 i).1 ∉ Z := by
  have h : ∀ n, ∀ᵐ z ∂(opsMeasure β nf n), ∀ i, (0 ≤ (z i).1 ∧ (z i).1 ≤ β) ∧ (z i).1 ∉ Z := by
    intro n
    unfold opsMeasure
    exact ae_all_iff.2 fun i => (Measure.tendsto_eval_ae_ae (μ := fun _ : Fin n => opMeasure β nf) (i := i)).eventually
      (p := fun o : BOp ℝ => (0 ≤ o.1 ∧ o.1 ≤ β) ∧ o.1 ∉ Z) (ae_opMeasure_out β nf hZ)
  unfold labMeasure
  exact ((Measure.quasiMeasurePreserving_fst).ae (h m)).and ((Measure.quasiMeasurePreserving_snd).ae (h n))

theorem ae_times_out (β : ℝ) (n : ℕ) (hZ : Z.Countable) :
    ∀ᵐ ts ∂(Measure.pi fun _ : Fin n => volume.restrict (Set.Icc 0 β)), ∀ i, (0 ≤ ts i ∧ ts i ≤ β) ∧ ts i ∉ Z :=
  ae_all_iff.2 fun i => (Measure.tendsto_eval_ae_ae (μ := fun _ : Fin n => volume.restrict (Set.Icc 0 β)) (i := i)).eventually
    (p := fun t : ℝ => (0 ≤ t ∧ t ≤ β) ∧ t ∉ Z) ((ae_restrict_mem measurableSet_Icc).and (ae_restrict_of_ae (hZ.ae_notMem volume)))

/-- All times in `[0, β]`. -/
def TimesIn (β : ℝ) (x : WCfg ℝ) : Prop :=
  (∀ o ∈ x.cd ++ x.c, 0 ≤ o.1 ∧ o.1 ≤ β) ∧ ∀ u, x.worm = some u → ∀ t ∈ u.times, 0 ≤ t ∧ t ≤ β

theorem wFlow_congr_reg {β : ℝ} {nf : ℕ} (kinds : List WormKind) (sw : WormKind → ℝ) {w : CfgFun (Option (Worm ℝ)) ℝ}
    (hZ : Z.Countable) {K L : WCfg ℝ → ℝ≥0∞}
    (h : ∀ x, w.at x ≠ 0 → Reg nf Z x → TimesIn β x → K x = L x) :
    wFlow β nf kinds sw (fun _ _ _ => 1) w K = wFlow β nf kinds sw (fun _ _ _ => 1) w L := by
  have hall : ∀ ω : Option (Worm ℝ), (∀ u, ω = some u → (u.Valid ∧ (∀ f ∈ u.flavors, f < nf) ∧ ∀ t ∈ u.times, t ∉ Z) ∧
      ∀ t ∈ u.times, 0 ≤ t ∧ t ≤ β) → allFlow β nf ω (fun _ _ _ => 1) w K = allFlow β nf ω (fun _ _ _ => 1) w L := by
    intro ω hω
    refine tsum_congr fun p => ?_
    unfold orderFlow
    congr 1
    refine lintegral_congr_ae ?_
    filter_upwards [ae_labMeasure_out β nf p.1 p.2 hZ] with z hz
    by_cases h0 : w.at (z.cfg ω) = 0
    · rw [h0]; simp
    · have hmem : ∀ o ∈ (z.cfg ω).cd ++ (z.cfg ω).c, (0 ≤ o.1 ∧ o.1 ≤ β) ∧ o.1 ∉ Z := by
        intro o ho
        rcases List.mem_append.1 ho with ho | ho
        · obtain ⟨i, rfl⟩ := (List.mem_ofFn' _ o).1 ho; exact hz.1 i
        · obtain ⟨i, rfl⟩ := (List.mem_ofFn' _ o).1 ho; exact hz.2 i
      rw [h (z.cfg ω) h0 ⟨fun o ho => (hmem o ho).2, fun u hu => (hω u hu).1⟩ ⟨fun o ho => (hmem o ho).1, fun u hu => (hω u hu).2⟩]
  unfold wFlow kindFlow
  rw [hall none (by simp)]
  congr 2
  refine List.map_congr_left fun k _ => ?_
  congr 1
  refine Finset.sum_congr rfl fun fs _ => lintegral_congr_ae ?_
  filter_upwards [ae_times_out β k.numTimes hZ] with ts hts
  refine hall _ fun u hu => ?_
  rw [← Option.some.inj hu]
  have hmem : ∀ t ∈ (mkW k ts fs).times, (0 ≤ t ∧ t ≤ β) ∧ t ∉ Z := by
    intro t ht
    obtain ⟨i, rfl⟩ := (List.mem_ofFn' _ t).1 ht
    exact hts i
  refine ⟨⟨mkW_valid k ts fs, fun f hf => ?_, fun t ht => (hmem t ht).2⟩, fun t ht => (hmem t ht).1⟩
  obtain ⟨i, rfl⟩ := (List.mem_ofFn' _ f).1 hf
  exact (fs i).2

/-- **C83** (stationarity of the simulation).  The configuration is distributed with the weight of the code and `σ` gives a state of
the simulation with this configuration and the window `st`.  After a run of any length of updates, global updates, shifts of the window and
changes of its size the configuration of the state has the same distribution: the average of any `ψ` is that with the weight of the code. -/
theorem C83_code_stationary_partial (hA : A.OK) (hG : Measurable fun q : TPsi ℝ × TPsi ℝ => A.G q.1 q.2) (hβ : 0 < A.beta)
    (hnf : 0 < A.P.nf) (hns : 0 < A.P.ns) (hfl : ∀ b < A.P.ns, 0 < (blockFlavors A.P b).length) (kinds : List WormKind)
    (hkf : ∀ k ∈ kinds, 0 < k.numFlavors) {sw : WormKind → ℝ} (hsw : ∀ k, 0 < sw k) (hψ : ψ.WMeas A.P.nf)
    (L : List KMove) {st : SavedState} (hL : Follows A kinds st L) (hst : WindowOK 0 st)
    (σ : WCfg ℝ → CodeState A (Option (Worm ℝ)))
    (hσ : ∀ x, (codeW A).at x ≠ 0 → Reg A.P.nf (edges A.beta) x → TimesIn A.beta x → Stands A st x (σ x))
    {F : CodeState A (Option (Worm ℝ)) → ℝ≥0∞} (hF0 : ∀ s x st, Stands A st x s → F s = ψ.at x) :
    wFlow A.beta A.P.nf kinds sw (fun _ _ _ => 1) (codeW A) (fun x => contRun A kinds sw F L (σ x)) =
      wFlow A.beta A.P.nf kinds sw (fun _ _ _ => 1) (codeW A) ψ.at := by
  rw [← C83_run_partial hA hG hnf kinds hkf sw (fun k _ => hsw k) hψ (wsteps A.beta st L) (wsteps_ok hβ L hL hst)]
  exact wFlow_congr_reg kinds sw (countable_edges A.beta) fun x h1 h2 h3 =>
    C83_code_run hA hG hβ hnf hns hfl kinds hkf hsw hψ L hL hst (hσ x h1 h2 h3) hF0

/-- Such states exist. -/
theorem exists_stands (hA : A.OK) {n : ℕ} (hn : 1 ≤ n) : ∃ σ : WCfg ℝ → CodeState A (Option (Worm ℝ)),
    ∀ x, (codeW A).at x ≠ 0 → Reg A.P.nf (edges A.beta) x → TimesIn A.beta x → Stands A ⟨2, 0, true, n⟩ x (σ x) := by
  classical
  have e0 : (0 : ℝ) ∈ edges A.beta := ⟨(1, 0), tauEdge_zero _ _⟩
  have e1 : A.beta ∈ edges A.beta := ⟨(1, 2), tauEdge_top _ 1 le_rfl⟩
  have strict : ∀ t, t ∉ edges A.beta → 0 ≤ t ∧ t ≤ A.beta → 0 < t ∧ t < A.beta := fun t ht h =>
    ⟨lt_of_le_of_ne h.1 fun e => ht (e ▸ e0), lt_of_le_of_ne h.2 fun e => ht (e ▸ e1)⟩
  have key : ∀ x, ∃ s : CodeState A (Option (Worm ℝ)), ((codeW A).at x ≠ 0 → Reg A.P.nf (edges A.beta) x → TimesIn A.beta x →
      Stands A ⟨2, 0, true, n⟩ x s) := by
    intro x
    by_cases h : (codeW A).at x ≠ 0 ∧ Reg A.P.nf (edges A.beta) x ∧ TimesIn A.beta x
    · obtain ⟨h1, h2, h3⟩ := h
      obtain ⟨s, a, b, c⟩ := C83_states hA hn h1 (fun o ho => strict _ (h2.1 o ho) (h3.1 o ho))
        fun u hu => ⟨(h2.2 u hu).1, fun t ht => strict _ ((h2.2 u hu).2.2 t ht) (h3.2 u hu t ht)⟩
      exact ⟨s, fun _ _ _ => ⟨a, b, by rw [winOf_eq, c], h2⟩⟩
    · exact ⟨(⟨⟨[], A.env.M0, 0, 0, 1, none⟩, [], ⟨1, 0, 0, true, [], []⟩⟩, none), fun h1 h2 h3 => absurd ⟨h1, h2, h3⟩ h⟩
  exact ⟨fun x => (key x).choose, fun x => (key x).choose_spec⟩

/-! ### Sweeps -/

/-- `transition_between_config_spaces` (src/impurity.ipp:549-622); `movers`: the spaces whose `WormMover` is called, in the code all
of `worm_types`.  The movers and flavor changers of the other spaces do nothing, so that one `change` stands for all of them. -/
def transitionK (nf : ℕ) (kinds movers : List WormKind) (d : WormKind → ℝ) : List KMove :=
  if kinds = [] then [] else
  (List.replicate nf ([KMove.insRem, KMove.green 1] ++
    (if WormKind.green 2 ∈ kinds then [KMove.green 2] else []) ++
    (if WormKind.equalTime 1 ∈ kinds ∧ WormKind.corr 2 ∈ kinds then [KMove.connect] else []) ++
    (movers.map fun k => KMove.move k (d k)) ++ [KMove.change])).flatten

/-- What is done at one position of the window (src/impurity.ipp:517-543). -/
def positionK (nf rank : ℕ) (fl sh : Bool) (maxDist : ℕ → ℝ) (kinds movers : List WormKind) (d : WormKind → ℝ) : List KMove :=
  List.replicate nf (KMove.pair rank) ++ (if fl then List.replicate nf KMove.flavor else []) ++
    (if sh then List.replicate (nf * rank) (KMove.shift maxDist) else []) ++ transitionK nf kinds movers d ++ [KMove.next]

/-- `do_one_sweep` (src/impurity.ipp:493-546) with the rank drawn at line 508; `fl`, `sh`: parameters
`update.operator_pair_flavor_update` and `update.single_operator_shift`. -/
def sweepK (nf nStd rank : ℕ) (fl sh : Bool) (maxDist : ℕ → ℝ) (kinds movers : List WormKind) (d : WormKind → ℝ) : List KMove :=
  let n := max (nStd / rank) 1
  KMove.resize n :: (List.replicate (max (2 * n - 2) 1) (positionK nf rank fl sh maxDist kinds movers d)).flatten

theorem sweepK_allowed {nf nStd rank : ℕ} {fl sh : Bool} {maxDist : ℕ → ℝ} {kinds movers : List WormKind} {d : WormKind → ℝ}
    (hd : (∀ f, 0 < maxDist f) ∧ ∀ f f', A.P.sector f = A.P.sector f' → maxDist f = maxDist f') (hk : kinds.Nodup)
    (hg : kinds ≠ [] → .green 1 ∈ kinds) (hm : ∀ k ∈ movers, k.numTimes = 1 ∧ 0 < d k) :
    ∀ m ∈ sweepK nf nStd rank fl sh maxDist kinds movers d, ∀ st, m.Allowed A kinds st := by
  intro m hm' st
  simp only [sweepK, List.mem_cons, List.mem_flatten, List.mem_replicate] at hm'
  rcases hm' with rfl | ⟨l, ⟨-, rfl⟩, hm'⟩
  · exact le_max_right _ _
  simp only [positionK, List.mem_append, List.mem_replicate, List.mem_singleton] at hm'
  rcases hm' with (((⟨-, rfl⟩ | h) | h) | h) | rfl
  · trivial
  · split_ifs at h
    · rw [(List.mem_replicate.1 h).2]; trivial
    · simp at h
  · split_ifs at h
    · rw [(List.mem_replicate.1 h).2]; exact hd
    · simp at h
  · unfold transitionK at h
    split_ifs at h with h0
    · simp at h
    all_goals
      simp only [List.mem_flatten, List.mem_replicate] at h
      obtain ⟨l, ⟨-, rfl⟩, h⟩ := h
      simp only [List.mem_append, List.mem_cons, List.not_mem_nil, or_false, List.mem_map, false_or] at h
    · rcases h with (((((rfl | rfl) | rfl) | rfl) | ⟨k, hk', rfl⟩) | rfl)
      exacts [List.length_pos_iff.2 h0, ⟨hk, hg h0⟩, ⟨hk, ‹_›⟩, ⟨hk, ‹_›⟩, hm k hk', trivial]
    · rcases h with ((((rfl | rfl) | rfl) | ⟨k, hk', rfl⟩) | rfl)
      exacts [List.length_pos_iff.2 h0, ⟨hk, hg h0⟩, ⟨hk, ‹_›⟩, hm k hk', trivial]
    · rcases h with ((((rfl | rfl) | rfl) | ⟨k, hk', rfl⟩) | rfl)
      exacts [List.length_pos_iff.2 h0, ⟨hk, hg h0⟩, ⟨hk, ‹_›⟩, hm k hk', trivial]
    · rcases h with (((rfl | rfl) | ⟨k, hk', rfl⟩) | rfl)
      exacts [List.length_pos_iff.2 h0, ⟨hk, hg h0⟩, hm k hk', trivial]
  · trivial

theorem follows_of {kinds : List WormKind} {L : List KMove} (h : ∀ m ∈ L, ∀ st, m.Allowed A kinds st) (st : SavedState) :
    Follows A kinds st L := by
  induction L generalizing st with
  | nil => trivial
  | cons m L ih => exact ⟨h m List.mem_cons_self st, ih (fun m hm => h m (List.mem_cons_of_mem _ hm)) _⟩

/-- **C83** (sweeps).  Any number of sweeps of the simulation, whatever ranks are drawn, which starts with the configuration distributed
with the weight of the code, ends with this distribution. -/
theorem C83_sweeps_partial (hA : A.OK) (hG : Measurable fun q : TPsi ℝ × TPsi ℝ => A.G q.1 q.2) (hβ : 0 < A.beta)
    (hnf : 0 < A.P.nf) (hns : 0 < A.P.ns) (hfl : ∀ b < A.P.ns, 0 < (blockFlavors A.P b).length) (kinds movers : List WormKind)
    (hkf : ∀ k ∈ kinds, 0 < k.numFlavors) (hk : kinds.Nodup) (hg : kinds ≠ [] → .green 1 ∈ kinds) {sw : WormKind → ℝ} (hsw : ∀ k, 0 < sw k)
    {maxDist : ℕ → ℝ} (hd : (∀ f, 0 < maxDist f) ∧ ∀ f f', A.P.sector f = A.P.sector f' → maxDist f = maxDist f')
    {d : WormKind → ℝ} (hm : ∀ k ∈ movers, k.numTimes = 1 ∧ 0 < d k) (hψ : ψ.WMeas A.P.nf) (nStd : ℕ) (fl sh : Bool) (ranks : List ℕ)
    {st : SavedState} (hst : WindowOK 0 st) (σ : WCfg ℝ → CodeState A (Option (Worm ℝ)))
    (hσ : ∀ x, (codeW A).at x ≠ 0 → Reg A.P.nf (edges A.beta) x → TimesIn A.beta x → Stands A st x (σ x)) :
    wFlow A.beta A.P.nf kinds sw (fun _ _ _ => 1) (codeW A) (fun x => contRun A kinds sw (fun s => ψ.at (cfgOf A s))
        (ranks.flatMap fun rank => sweepK A.P.nf nStd rank fl sh maxDist kinds movers d) (σ x)) =
      wFlow A.beta A.P.nf kinds sw (fun _ _ _ => 1) (codeW A) ψ.at := by
  refine C83_code_stationary_partial hA hG hβ hnf hns hfl kinds hkf hsw hψ _ (follows_of (fun m hm' => ?_) st) hst σ hσ (reads_cfgOf ψ)
  obtain ⟨rank, -, h⟩ := List.mem_flatMap.1 hm'
  exact sweepK_allowed hd hk hg hm m h

/-! ### Concrete cases -/

theorem exCode_flavors : ∀ b < exCode.P.ns, 0 < (blockFlavors exCode.P b).length := by
  intro b hb
  have : b = 0 := by simpa [exCode] using hb
  subst this
  simp [blockFlavors, exCode]

/-- The number of creation operators of the bath, and one more without worm. -/
noncomputable def exPsiR : CfgFun (Option (Worm ℝ)) ℝ≥0∞ := fun X _ ω => (Multiset.card X : ℝ≥0∞) + if ω = none then 1 else 0

theorem exPsiR_wmeas (nf : ℕ) : exPsiR.WMeas nf := by
  have e : ∀ {m n : ℕ} (z : Lab m n), Multiset.card (ms z.1) = m := fun z => by simp [ms]
  refine ⟨fun m n => ?_, fun k fs m n => ?_⟩
  · show Measurable fun z : Lab m n => (Multiset.card (ms z.1) : ℝ≥0∞) + if (none : Option (Worm ℝ)) = none then 1 else 0
    simp only [e]
    exact measurable_const
  · show Measurable fun y : (Fin k.numTimes → ℝ) × Lab m n => (Multiset.card (ms y.2.1) : ℝ≥0∞) + if some (mkW k y.1 fs) = none then 1 else 0
    simp only [e, reduceCtorEq, if_false]
    exact measurable_const

/-- Sweeps with two ranks, worms of three kinds, in a simulation with one level. -/
example : ∃ σ : WCfg ℝ → CodeState exCode (Option (Worm ℝ)),
    wFlow 4 1 [.equalTime 1, .corr 2, .green 1] (fun k => 1 + k.numFlavors) (fun _ _ _ => 1) (codeW exCode)
        (fun x => contRun exCode [.equalTime 1, .corr 2, .green 1] (fun k => 1 + k.numFlavors) (fun s => exPsiR.at (cfgOf exCode s))
          ([1, 2].flatMap fun rank => sweepK 1 4 rank true true (fun _ => 1 / 2) [.equalTime 1, .corr 2, .green 1] [.equalTime 1] fun _ => 1 / 2)
          (σ x)) =
      wFlow 4 1 [.equalTime 1, .corr 2, .green 1] (fun k => 1 + k.numFlavors) (fun _ _ _ => 1) (codeW exCode) exPsiR.at := by
  obtain ⟨σ, hσ⟩ := exists_stands exCode_ok (n := 4) (by norm_num)
  refine ⟨σ, ?_⟩
  exact C83_sweeps_partial exCode_ok measurable_const (by norm_num [exCode]) (by norm_num [exCode]) (by norm_num [exCode]) exCode_flavors
    [.equalTime 1, .corr 2, .green 1] [.equalTime 1] (by decide) (by decide) (by simp) (fun k => by positivity)
    ⟨fun _ => by norm_num, fun _ _ _ => rfl⟩ (by simp [WormKind.numTimes]) (exPsiR_wmeas 1) 4 true true [1, 2]
    ⟨by norm_num, rfl, by norm_num, dvd_zero _⟩ σ hσ

/-- A pair at times which are no edges of any window. -/
noncomputable def exPairI : WCfg ℝ := ⟨[(2 * √2, 0)], [(√2, 0)], none⟩

theorem exPairI_weight : (codeW exCode).at exPairI ≠ 0 := by
  classical
  have h2 : (0 : ℝ) < √2 := by positivity
  have hn : ((exPairI.ops id (codeWops id)).map Psi.time).Nodup := by
    simp [PCfg.ops, exPairI, mkOp, codeWops, wormOps]
  have hs : exPairI.sorted id (codeWops id) =
      [⟨⟨√2, 0⟩, .annihilation, 0⟩, ⟨⟨2 * √2, 0⟩, .creation, 0⟩] := by
    refine sorted_unique (PCfg.sorted_sorted _ hn) ?_ ((PCfg.sorted_perm _).trans ?_)
    · simp [OpSet.Sorted, OpTime.lt_def]
    · simp only [PCfg.ops, exPairI, mkOp, codeWops, wormOps, List.map_cons, List.map_nil, List.cons_append, List.nil_append,
        Option.map_none, List.append_nil]
      exact List.Perm.swap _ _ _
  rw [codeW_at, if_pos ⟨hn, by simp [exPairI, exCode], by simp [exPairI, exCode]⟩]
  unfold cfgW CodeArgs.weight
  rw [hs, norm_ne_zero_iff]
  refine mul_ne_zero ?_ (exPair_trace _ _)
  rw [timeDet_eq _ _ _ (by simp [exPairI]) (by simp [exPairI]), listDet_eq _ _ _ 1 rfl rfl, Matrix.det_fin_one]
  simp [invs, exPairI, exCode]

theorem irrational_edges {t : ℝ} (ht : Irrational t) : t ∉ edges 4 := by
  rintro ⟨⟨n, p⟩, rfl⟩
  refine ht ⟨4 * p / (2 * n), ?_⟩
  show _ = (4 : ℝ) * p / (2 * n)
  push_cast
  rfl

theorem exPairI_stands {n : ℕ} (hn : 1 ≤ n) : ∃ s, Stands exCode ⟨2, 0, true, n⟩ exPairI s := by
  have hβ : exCode.beta = 4 := rfl
  have h2 : (0 : ℝ) < √2 := by positivity
  have h3 : √2 < 2 := by
    rw [Real.sqrt_lt' (by norm_num)]
    norm_num
  obtain ⟨σ, hσ⟩ := exists_stands exCode_ok hn
  refine ⟨σ exPairI, hσ _ exPairI_weight ⟨?_, by simp [exPairI]⟩ ⟨?_, by simp [exPairI]⟩⟩
  · rw [hβ]
    simp only [exPairI, List.cons_append, List.nil_append, List.mem_cons, List.not_mem_nil, or_false, forall_eq_or_imp, forall_eq]
    refine ⟨irrational_edges ?_, irrational_edges irrational_sqrt_two⟩
    exact_mod_cast irrational_sqrt_two.natCast_mul (m := 2) (by norm_num)
  · rw [hβ]
    simp only [exPairI, List.cons_append, List.nil_append, List.mem_cons, List.not_mem_nil, or_false, forall_eq_or_imp, forall_eq]
    constructor <;> constructor <;> linarith

/-- A run in the state with one pair: a worm is inserted, moved, its flavors change, it is connected with the other space. -/
example : ∃ s : CodeState exCode (Option (Worm ℝ)), Reps exCode id (codeWops id) exPairI s ∧
    contRun exCode [.equalTime 1, .corr 2] (fun _ => 1) (fun s => exPsiR.at (cfgOf exCode s))
        [.resize 3, .pair 2, .flavor, .shift fun _ => 1, .insRem, .move (.equalTime 1) 1, .change, .connect, .next, .insRem] s =
      sweepE exCode.P [.equalTime 1, .corr 2] (fun _ => 1) (codeW exCode) exPsiR
        (wsteps 4 ⟨2, 0, true, 2⟩ [.resize 3, .pair 2, .flavor, .shift fun _ => 1, .insRem, .move (.equalTime 1) 1, .change, .connect,
          .next, .insRem]) exPairI := by
  obtain ⟨s, hs⟩ := exPairI_stands (n := 2) (by norm_num)
  refine ⟨s, hs.reps, C83_code_run exCode_ok measurable_const (by norm_num [exCode]) (by norm_num [exCode]) (by norm_num [exCode])
    exCode_flavors _ (by decide) (fun _ => one_pos) (exPsiR_wmeas 1) _ ?_ ⟨by norm_num, rfl, by norm_num, dvd_zero _⟩ hs (reads_cfgOf _)⟩
  simp [Follows, KMove.Allowed, WormKind.numTimes]

/-- An insertion of a worm in the state with one pair. -/
example : ∃ s : CodeState exCode (Option (Worm ℝ)), Reps exCode id (codeWops id) exPairI s ∧
    KMove.insRem.upd exCode [.equalTime 1] (fun _ => 1) (winAt 4 ⟨2, 0, true, 2⟩) exPairI s (fun s => exPsiR.at (cfgOf exCode s)) =
      (WStep.insRem (winAt 4 ⟨2, 0, true, 2⟩)).step exCode.P [.equalTime 1] (fun _ => 1) (codeW exCode) exPsiR exPairI := by
  obtain ⟨s, hs⟩ := exPairI_stands (n := 2) (by norm_num)
  refine ⟨s, hs.reps, C83_update exCode_ok measurable_const (by norm_num [exCode]) (by norm_num [exCode]) exCode_flavors _
    (fun _ => one_pos) .insRem trivial (st := ⟨2, 0, true, 2⟩) (by simp [KMove.Allowed]) rfl
    (show At exCode (edges 4) (winAt 4 ⟨2, 0, true, 2⟩) exPairI s from ?_) (exPsiR_wmeas 1) fun s' _ _ y _ hy => ?_⟩
  · have := hs.at (show (0 : ℝ) < 4 by norm_num) ⟨by norm_num, rfl, by norm_num, dvd_zero _⟩
    rw [hs.cwinOf_eq] at this
    exact this
  · exact (at_same _ hy.same_cfgOf).symm

end CTHyb
