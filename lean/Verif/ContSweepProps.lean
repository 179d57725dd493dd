import Verif.ContSweepGreen

/-!
# Runs which mix updates of the bath and of the worm in continuous time

Specification: `wFlow` (Verif/ContWormProps.lean) is the integral over all configurations without worm and with a worm, those
with a worm of type `k` weighted by `spaceWeight k`; the average of `ψ` with the weight `w` is `wFlow 1 w ψ`.
-/

namespace CTHyb

open Rand MeasureTheory ENNReal

/-- **Specification.**  The parameters are admissible: those of the bath updates as in `CStep.OK`, windows in `[0, β]` without
margin, the worm mover only for worms with one time, special updates of worm spaces only if these are sampled,
the exchange of flavors a permutation which is its own inverse. -/
def WStep.OK (β : ℝ) (E : PEnv) (kinds : List WormKind) : WStep → Prop
  | .bath s => s.OK β E
  | .insRem cw => cw.OK β
  | .change _ => True
  | .move cw k d => cw.OK β ∧ k.numTimes = 1 ∧ 0 < d
  | .connect cw => cw.OK β ∧ kinds.Nodup ∧ .equalTime 1 ∈ kinds ∧ .corr 2 ∈ kinds
  | .green r => kinds.Nodup ∧ .green r ∈ kinds
  | .swap p => ∀ f, f < E.nf → p f < E.nf ∧ p (p f) = f
  | .globalShift b => b = β ∧ 0 < β

/-- **C82** (one update).  Each of the updates leaves the distribution over all configuration spaces invariant. -/
theorem C82_step_partial {β : ℝ} (E : PEnv) (hns : ∀ f, f < E.nf → E.sector f < E.ns) (hnf : 0 < E.nf) (kinds : List WormKind)
    (hkf : ∀ k ∈ kinds, 0 < k.numFlavors) (sw : WormKind → ℝ) (hsw : ∀ k ∈ kinds, 0 < sw k) (s : WStep) (hs : s.OK β E kinds)
    {w : CfgFun (Option (Worm ℝ)) ℝ} {ψ : CfgFun (Option (Worm ℝ)) ℝ≥0∞} (hw : w.WMeas E.nf)
    (hψ : ψ.WMeas E.nf) (h0 : ∀ X X' ω, 0 ≤ w X X' ω)
    (hc : ∀ r, s = .green r → ∀ X X' ω, w X X' ω ≠ 0 → X.card = X'.card) :
    wFlow β E.nf kinds sw (fun _ _ _ => 1) w (fun x => s.step E kinds sw w ψ x) =
      wFlow β E.nf kinds sw (fun _ _ _ => 1) w ψ.at := by
  have hnone : ∀ K : CfgFun (Option (Worm ℝ)) ℝ≥0∞ → WCfg ℝ → ℝ≥0∞, (∀ χ m n (z : Lab m n), K χ (z.cfg none) = 0) →
      allFlow β E.nf none (fun _ _ _ => 1) w (fun x => K ψ x + (1 - K (fun _ _ _ => 1) x) * ψ.at x) =
        allFlow β E.nf none (fun _ _ _ => 1) w ψ.at := by
    intro K hK
    unfold allFlow orderFlow
    simp only [hK, zero_add, tsub_zero, one_mul]
  rcases s with s | cw | cw | ⟨cw, k, d⟩ | cw | r | p | b
  · unfold wFlow kindFlow
    have h : ∀ ω, w.Meas ω → ψ.Meas ω → allFlow β E.nf ω (fun _ _ _ => 1) w (fun x => (WStep.bath s).step E kinds sw w ψ x) =
        allFlow β E.nf ω (fun _ _ _ => 1) w ψ.at := fun ω hwω hψω =>
      step_stationary E hns s hs w ψ ω hwω hψω fun X X' => h0 X X' ω
    rw [h none hw.none hψ.none]
    congr 2
    refine List.map_congr_left fun k _ => ?_
    congr 1
    exact Finset.sum_congr rfl fun fs _ => lintegral_congr fun ts => h _ (hw.some k ts fs) (hψ.some k ts fs)
  · exact C80_stationary_partial hs E.nf hnf kinds hkf sw hsw hw hψ h0
  · unfold wFlow
    refine congrArg₂ (· + ·) (hnone (changeE E.nf cw w) fun χ m n z => changeE_none _ _ _ _ z) ?_
    congr 1
    refine List.map_congr_left fun k _ => ?_
    congr 1
    exact hold_kind k hw (changeE E.nf cw w) (fun φ ψ hφ hψ => changeE_balance cw hw hφ hψ h0 k)
      (fun ψ hψ => measurable_changeE cw hw hψ k) (changeE_le E.nf cw w) ψ hψ
  · obtain ⟨hcw, hk, hd⟩ := hs
    unfold wFlow
    refine congrArg₂ (· + ·) (hnone (moverE cw k d w) fun χ m n z => moverE_none _ _ _ _ _ z) ?_
    congr 1
    refine List.map_congr_left fun k' _ => ?_
    congr 1
    exact hold_kind k' hw (moverE cw k d w) (fun φ ψ hφ hψ => moverE_balance hcw k hk hd hw hφ hψ h0 k')
      (fun ψ hψ => measurable_moverE hcw k hk hd hw hψ k') (moverE_le cw k d w) ψ hψ
  · obtain ⟨hcw, hn, h1, h2⟩ := hs
    exact hold_wFlow kinds sw hw (connectE E.nf cw (sw (.equalTime 1)) (sw (.corr 2)) w)
      (fun φ ψ hφ hψ => connect_reversible hnf hcw hn h1 h2 hsw h0 hw hφ hψ) (fun ψ _ m n => aemeasurable_const)
      (fun ψ hψ => measurable_connectE hcw _ _ hw hψ) (connectE_le _ _ _ _ _) ψ hψ
  · obtain ⟨hn, hk⟩ := hs
    have hc := hc r rfl
    exact hold_wFlow kinds sw hw (greenE r (sw (.green r)) w) (fun φ ψ hφ hψ => green_reversible hn hk hsw hw hφ hψ h0 hc)
      (fun ψ hψ m n => greenE_aemeas β _ hw hψ hc m n) (fun ψ hψ => measurable_greenE _ hw hψ) (greenE_le _ _) ψ hψ
  · have hf := famOK_swap β hs
    have := hold_wFlow kinds sw hw (famE (Measure.dirac ()) (fun _ t => t) p w)
      (fun φ ψ hφ hψ => famE_reversible hf kinds sw hw hφ hψ h0) (fun ψ hψ m n => (measurable_famE_none hf hw hψ m n).aemeasurable)
      (fun ψ hψ => measurable_famE hf hw hψ) (famE_le _ _ _) ψ hψ
    simp only [← swapE_fam] at this
    exact this
  · obtain ⟨rfl, hβ⟩ := hs
    have hf := famOK_shift hβ E.nf
    have := hold_wFlow kinds sw hw (famE (volume.restrict (Set.Ico (0 : ℝ) 1)) (fun v t => timeShift b (v * b) t) (fun f => f) w)
      (fun φ ψ hφ hψ => famE_reversible hf kinds sw hw hφ hψ h0) (fun ψ hψ m n => (measurable_famE_none hf hw hψ m n).aemeasurable)
      (fun ψ hψ => measurable_famE hf hw hψ) (famE_le _ _ _) ψ hψ
    simp only [← globalShiftE_fam] at this
    exact this

theorem wnice_acc {β : ℝ} (E : PEnv) (hns : ∀ f, f < E.nf → E.sector f < E.ns) (kinds : List WormKind)
    (hkf : ∀ k ∈ kinds, 0 < k.numFlavors) (sw : WormKind → ℝ) (s : WStep) (hs : s.OK β E kinds)
    {w : CfgFun (Option (Worm ℝ)) ℝ} {ψ : CfgFun (Option (Worm ℝ)) ℝ≥0∞} (hw : w.WMeas E.nf) (hψ : ψ.WMeas E.nf)
    (hc : ∀ r, s = .green r → ∀ X X' ω, w X X' ω ≠ 0 → X.card = X'.card) :
    WNice E.nf (fun x => s.acc E kinds sw w ψ x) := by
  rcases s with s | cw | cw | ⟨cw, k, d⟩ | cw | r | p | b
  · exact wnice_bath E hns s hs hw hψ
  · exact wnice_insRem hs E.nf kinds hkf sw hw hψ
  · exact wnice_change cw hw hψ
  · exact wnice_move hs.1 k hs.2.1 hs.2.2 hw hψ
  · exact wnice_connect hs.1 _ _ hw hψ
  · exact wnice_green _ hw hψ (hc r rfl)
  · have := wnice_fam (famOK_swap β hs) hw hψ
    rw [← swapE_fam] at this
    exact this
  · obtain ⟨rfl, hβ⟩ := hs
    have := wnice_fam (famOK_shift hβ E.nf) hw hψ
    rw [← globalShiftE_fam] at this
    exact this

theorem nice_hold {nf : ℕ} {ω : Option (Worm ℝ)} {A B C : WCfg ℝ → ℝ≥0∞} (ha : Nice nf ω A) (h1 : Nice nf ω B) (hp : Nice nf ω C) :
    Nice nf ω (fun x => A x + (1 - B x) * C x) where
  meas m n := by
    obtain ⟨ga, hga, ha⟩ := ha.meas m n
    obtain ⟨g1, hg1, h1⟩ := h1.meas m n
    obtain ⟨gp, hgp, hp⟩ := hp.meas m n
    refine ⟨fun z => ga z + (1 - g1 z) * gp z, hga.add ((measurable_const.sub hg1).mul hgp), fun z hz => ?_⟩
    rw [ha z hz, h1 z hz, hp z hz]
  perm m n z hz σ τ := by
    have e1 := ha.perm m n z hz σ τ
    have e2 := h1.perm m n z hz σ τ
    have e3 := hp.perm m n z hz σ τ
    rw [e1, e2, e3]

theorem wnice_step {β : ℝ} (E : PEnv) (hns : ∀ f, f < E.nf → E.sector f < E.ns) (kinds : List WormKind)
    (hkf : ∀ k ∈ kinds, 0 < k.numFlavors) (sw : WormKind → ℝ) (s : WStep) (hs : s.OK β E kinds)
    {w : CfgFun (Option (Worm ℝ)) ℝ} {ψ : CfgFun (Option (Worm ℝ)) ℝ≥0∞} (hw : w.WMeas E.nf) (hψ : ψ.WMeas E.nf)
    (hc : ∀ r, s = .green r → ∀ X X' ω, w X X' ω ≠ 0 → X.card = X'.card) :
    WNice E.nf (fun x => s.step E kinds sw w ψ x) := by
  have ha := wnice_acc E hns kinds hkf sw s hs hw hψ hc
  have h1 := wnice_acc E hns kinds hkf sw s hs hw (wmeas_one E.nf) hc
  have hp := wnice_at hψ
  refine ⟨nice_hold ha.none h1.none hp.none, fun k fs m n => ?_, fun k ts fs =>
    (nice_hold (ha.some k ts fs) (h1.some k ts fs) (hp.some k ts fs)).perm⟩
  obtain ⟨ga, hga, ha⟩ := ha.worm k fs m n
  obtain ⟨g1, hg1, h1⟩ := h1.worm k fs m n
  obtain ⟨gp, hgp, hp⟩ := hp.worm k fs m n
  refine ⟨fun z => ga z + (1 - g1 z) * gp z, hga.add ((measurable_const.sub hg1).mul hgp), fun ts z hz => ?_⟩
  show s.acc E kinds sw w ψ _ + (1 - s.acc E kinds sw w _ _) * ψ.at _ = ga _ + (1 - g1 _) * gp _
  rw [← ha ts z hz, ← h1 ts z hz, ← hp ts z hz]

theorem sweep_step (E : PEnv) (kinds : List WormKind) (sw : WormKind → ℝ) {w : CfgFun (Option (Worm ℝ)) ℝ}
    (ψ : CfgFun (Option (Worm ℝ)) ℝ≥0∞) (hg : ∀ X X' ω, w X X' ω ≠ 0 → GoodCfg E.nf X X') (L : List WStep) (s : WStep)
    (ω : Option (Worm ℝ)) (m n : ℕ) (z : Lab m n) (hz : GoodCfg E.nf (ms z.1) (ms z.2)) :
    sweepE E kinds sw w ψ (s :: L) (z.cfg ω) =
      s.step E kinds sw w (onGood E.nf (setFun (sweepE E kinds sw w ψ L))) (z.cfg ω) := by
  rw [sweepE]
  generalize setFun (sweepE E kinds sw w ψ L) = χ
  rw [WStep.step, WStep.step, wacc_congr E kinds sw (χ := onGood E.nf χ) fun X X' ω h => (if_pos (hg X X' ω h)).symm]
  congr 2
  exact (if_pos hz).symm

theorem wnice_sweep {β : ℝ} (E : PEnv) (hns : ∀ f, f < E.nf → E.sector f < E.ns) (kinds : List WormKind)
    (hkf : ∀ k ∈ kinds, 0 < k.numFlavors) (sw : WormKind → ℝ) {w : CfgFun (Option (Worm ℝ)) ℝ}
    {ψ : CfgFun (Option (Worm ℝ)) ℝ≥0∞} (hw : w.WMeas E.nf) (hψ : ψ.WMeas E.nf)
    (hg : ∀ X X' ω, w X X' ω ≠ 0 → GoodCfg E.nf X X') (L : List WStep) (hL : ∀ s ∈ L, s.OK β E kinds)
    (hc : ∀ r, .green r ∈ L → ∀ X X' ω, w X X' ω ≠ 0 → X.card = X'.card) :
    WNice E.nf (sweepE E kinds sw w ψ L) := by
  induction L with
  | nil => exact wnice_at hψ
  | cons s L ih =>
    have hn := wnice_step E hns kinds hkf sw s (hL s List.mem_cons_self) hw
      (wmeas_onGood (ih (fun s hs => hL s (List.mem_cons_of_mem _ hs)) fun r hr => hc r (List.mem_cons_of_mem _ hr)))
      fun r hr => hc r (hr ▸ List.mem_cons_self)
    have key := sweep_step E kinds sw ψ hg L s
    have hz' : ∀ {m n} {z : Lab m n}, GoodCfg E.nf (ms z.1) (ms z.2) → ∀ σ τ, GoodCfg E.nf (ms (z.1 ∘ ⇑(σ : Equiv.Perm (Fin m))))
        (ms (z.2 ∘ ⇑(τ : Equiv.Perm (Fin n)))) := fun hz σ τ => by rw [ms_perm, ms_perm]; exact hz
    refine ⟨⟨fun m n => ?_, fun m n z hz σ τ => ?_⟩, fun k fs m n => ?_, fun k ts fs m n z hz σ τ => ?_⟩
    · obtain ⟨g, hgm, h⟩ := hn.none.meas m n
      exact ⟨g, hgm, fun z hz => (key _ m n z hz).trans (h z hz)⟩
    · rw [key _ m n z hz, key _ m n (z.1 ∘ σ, z.2 ∘ τ) (hz' hz σ τ)]
      exact hn.none.perm m n z hz σ τ
    · obtain ⟨g, hgm, h⟩ := hn.worm k fs m n
      exact ⟨g, hgm, fun ts z hz => (key _ m n z hz).trans (h ts z hz)⟩
    · rw [key _ m n z hz, key _ m n (z.1 ∘ σ, z.2 ∘ τ) (hz' hz σ τ)]
      exact hn.perm k ts fs m n z hz σ τ

theorem wFlow_congr_good {β : ℝ} {nf : ℕ} (kinds : List WormKind) (sw : WormKind → ℝ) {w : CfgFun (Option (Worm ℝ)) ℝ}
    (hg : ∀ X X' ω, w X X' ω ≠ 0 → GoodCfg nf X X') {K L : WCfg ℝ → ℝ≥0∞}
    (h : ∀ m n (z : Lab m n), GoodCfg nf (ms z.1) (ms z.2) → K (z.cfg none) = L (z.cfg none))
    (h' : ∀ (k : WormKind) ts (fs : Fin k.numFlavors → Fin nf) m n (z : Lab m n), GoodCfg nf (ms z.1) (ms z.2) →
      K (z.cfg (some (mkW k ts fs))) = L (z.cfg (some (mkW k ts fs)))) :
    wFlow β nf kinds sw (fun _ _ _ => 1) w K = wFlow β nf kinds sw (fun _ _ _ => 1) w L := by
  unfold wFlow kindFlow
  rw [allFlow_congr_good hg h]
  congr 2
  refine List.map_congr_left fun k _ => ?_
  congr 1
  exact Finset.sum_congr rfl fun fs _ => lintegral_congr fun ts => allFlow_congr_good hg (h' k ts fs)

/-- **C82** (runs).  A run of any length and in any order of updates of the bath, insertions and removals of worms, changes of
the flavors of worms, moves of worms with one time, connections of the equal-time and two-time spaces, operators of the bath
becoming Green's function worms and back, exchanges of flavors and shifts in time of all operators, which starts with the distribution `w` on all configuration spaces,
ends with it: the average of every measurable `ψ` at the end of the run is the average of `ψ` with the weight `w`. -/
theorem C82_run_partial {β : ℝ} (E : PEnv) (hns : ∀ f, f < E.nf → E.sector f < E.ns) (hnf : 0 < E.nf) (kinds : List WormKind)
    (hkf : ∀ k ∈ kinds, 0 < k.numFlavors) (sw : WormKind → ℝ) (hsw : ∀ k ∈ kinds, 0 < sw k)
    {w : CfgFun (Option (Worm ℝ)) ℝ} {ψ : CfgFun (Option (Worm ℝ)) ℝ≥0∞} (hw : w.WMeas E.nf)
    (hψ : ψ.WMeas E.nf) (h0 : ∀ X X' ω, 0 ≤ w X X' ω) (hg : ∀ X X' ω, w X X' ω ≠ 0 → GoodCfg E.nf X X')
    (L : List WStep) (hL : ∀ s ∈ L, s.OK β E kinds)
    (hc : ∀ r, .green r ∈ L → ∀ X X' ω, w X X' ω ≠ 0 → X.card = X'.card) :
    wFlow β E.nf kinds sw (fun _ _ _ => 1) w (sweepE E kinds sw w ψ L) =
      wFlow β E.nf kinds sw (fun _ _ _ => 1) w ψ.at := by
  induction L with
  | nil => rfl
  | cons s L ih =>
    have hL' : ∀ s ∈ L, s.OK β E kinds := fun s hs => hL s (List.mem_cons_of_mem _ hs)
    have hc' : ∀ r, .green r ∈ L → ∀ X X' ω, w X X' ω ≠ 0 → X.card = X'.card := fun r hr => hc r (List.mem_cons_of_mem _ hr)
    have hn := wnice_sweep E hns kinds hkf sw hw hψ hg L hL' hc'
    have key := sweep_step E kinds sw ψ hg L s
    rw [← ih hL' hc', wFlow_congr_good kinds sw hg
      (L := fun x => s.step E kinds sw w (onGood E.nf (setFun (sweepE E kinds sw w ψ L))) x)
      (key none) (fun k ts fs => key (some (mkW k ts fs))),
      C82_step_partial E hns hnf kinds hkf sw hsw s (hL s List.mem_cons_self) hw (wmeas_onGood hn) h0
        fun r hr => hc r (hr ▸ List.mem_cons_self)]
    refine wFlow_congr_good kinds sw hg (fun m n z hz => ?_) (fun k ts fs m n z hz => ?_)
    · rw [← setFun_at hn.none z hz]
      exact if_pos hz
    · rw [← setFun_at (hn.some k ts fs) z hz]
      exact if_pos hz

/-! ### An example -/

/-- No operator twice, and as many creation as annihilation operators. -/
def ExGood (X X' : Multiset (BOp ℝ)) : Prop := GoodCfg 3 X X' ∧ X.card = X'.card

theorem measurableSet_exGood (m n : ℕ) : MeasurableSet {z : Lab m n | ExGood (ms z.1) (ms z.2)} := by
  have : {z : Lab m n | ExGood (ms z.1) (ms z.2)} = {z : Lab m n | GoodCfg 3 (ms z.1) (ms z.2)} ∩ {_z : Lab m n | m = n} := by
    ext z
    show GoodCfg 3 (ms z.1) (ms z.2) ∧ (ms z.1).card = (ms z.2).card ↔ GoodCfg 3 (ms z.1) (ms z.2) ∧ m = n
    simp only [ms, Multiset.coe_card, List.length_ofFn]
  rw [this]
  exact (measurableSet_good 3 m n).inter (MeasurableSet.const _)

open Classical in
/-- A weight of the times of the bath and of the worm which vanishes if an operator occurs twice or the numbers of creation and
annihilation operators differ. -/
noncomputable def exWG : CfgFun (Option (Worm ℝ)) ℝ := fun X X' ω => if ExGood X X' then exWW X X' ω else 0

theorem wmeas_exWG : exWG.WMeas 3 := by
  classical
  constructor
  · intro m n
    have : (fun z : Lab m n => exWG.at (z.cfg none)) =
        {z : Lab m n | ExGood (ms z.1) (ms z.2)}.indicator fun z => exWW.at (z.cfg none) := by
      funext z
      by_cases hz : ExGood (ms z.1) (ms z.2)
      · rw [Set.indicator_of_mem (show z ∈ {z : Lab m n | ExGood (ms z.1) (ms z.2)} from hz)]
        exact if_pos hz
      · rw [Set.indicator_of_notMem (show z ∉ {z : Lab m n | ExGood (ms z.1) (ms z.2)} from hz)]
        exact if_neg hz
    rw [this]
    exact ((wmeas_exWW 3).none m n).indicator (measurableSet_exGood m n)
  · intro k fs m n
    have : (fun y : (Fin k.numTimes → ℝ) × Lab m n => exWG (ms y.2.1) (ms y.2.2) (some (mkW k y.1 fs))) =
        (Prod.snd ⁻¹' {z : Lab m n | ExGood (ms z.1) (ms z.2)}).indicator
          fun y => exWW (ms y.2.1) (ms y.2.2) (some (mkW k y.1 fs)) := by
      funext y
      by_cases hz : ExGood (ms y.2.1) (ms y.2.2)
      · rw [Set.indicator_of_mem (show y ∈ Prod.snd ⁻¹' {z : Lab m n | ExGood (ms z.1) (ms z.2)} from hz)]
        exact if_pos hz
      · rw [Set.indicator_of_notMem (show y ∉ Prod.snd ⁻¹' {z : Lab m n | ExGood (ms z.1) (ms z.2)} from hz)]
        exact if_neg hz
    rw [this]
    exact ((wmeas_exWW 3).worm k fs m n).indicator ((measurableSet_exGood m n).preimage measurable_snd)

/-- Three flavors in two blocks; a pair, a worm, its flavors, a move of it, a shift of the bath beside it, a worm of the
other space, an operator of the bath as worm, flavors 0 and 1 exchanged, a shift of all operators, the worm again. -/
example (ψ : CfgFun (Option (Worm ℝ)) ℝ≥0∞) (hψ : ψ.WMeas 3) :
    wFlow 2 3 [.equalTime 1, .corr 2, .green 1] (fun k => 1 + k.numFlavors) (fun _ _ _ => 1) exWG
        (sweepE contEnv [.equalTime 1, .corr 2, .green 1] (fun k => 1 + k.numFlavors) exWG ψ
          [.bath (.pair ⟨0, 1, 0⟩ 1), .insRem ⟨0, 1, 0⟩, .change ⟨0, 1, 0⟩, .move ⟨1 / 2, 3 / 2, 0⟩ (.equalTime 1) (1 / 4),
            .bath (.shift ⟨1 / 2, 3 / 2, 0⟩ fun _ => 1 / 4), .connect ⟨1, 2, 0⟩, .green 1,
            .swap fun f => if f = 0 then 1 else if f = 1 then 0 else f, .globalShift 2, .insRem ⟨1, 2, 0⟩]) =
      wFlow 2 3 [.equalTime 1, .corr 2, .green 1] (fun k => 1 + k.numFlavors) (fun _ _ _ => 1) exWG ψ.at := by
  refine C82_run_partial (β := 2) contEnv (fun f _ => by simp only [contEnv]; split_ifs <;> norm_num) (by simp [contEnv])
    [.equalTime 1, .corr 2, .green 1] (by decide) _ (fun k _ => by positivity) wmeas_exWG hψ (fun X X' ω => ?_) (fun X X' ω h => ?_) _ ?_ ?_
  · unfold exWG
    split_ifs
    · exact sq_nonneg _
    · exact le_rfl
  · by_contra hn
    exact h (if_neg fun hh => hn hh.1)
  · intro s hs
    simp only [List.mem_cons, List.not_mem_nil, or_false] at hs
    rcases hs with rfl | rfl | rfl | rfl | rfl | rfl | rfl | rfl | rfl | rfl
    · exact ⟨by norm_num, by norm_num, by norm_num, rfl⟩
    · exact ⟨by norm_num, by norm_num, by norm_num, rfl⟩
    · trivial
    · exact ⟨⟨by norm_num, by norm_num, by norm_num, rfl⟩, rfl, by norm_num⟩
    · exact ⟨by norm_num, by norm_num, fun _ => by norm_num, fun _ _ _ => rfl⟩
    · exact ⟨⟨by norm_num, by norm_num, by norm_num, rfl⟩, by decide, by simp, by simp⟩
    · exact ⟨by decide, by simp⟩
    · intro f hf
      have : f < 3 := hf
      show _ < 3 ∧ _
      interval_cases f <;> simp
    · exact ⟨rfl, by norm_num⟩
    · exact ⟨by norm_num, by norm_num, by norm_num, rfl⟩
  · intro r _ X X' ω h
    by_contra hn
    exact h (if_neg fun hh => hn hh.2)

end CTHyb
