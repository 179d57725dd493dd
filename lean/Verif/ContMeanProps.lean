import Verif.ContSigned
import Verif.WormNormMeanProps

/-!
# C84: means in continuous time

The loop of `update` with ranks and orders of exchanges drawn at random; expectation values, in continuous time, of what is recorded
after a step, and what the postprocessing makes of them.

Specification: `signedC`, `cfgInt`, `kindInt` (Verif/ContSigned.lean): the expansion of the partition function and of the worm spaces
as integrals over the times of the operators.
-/

namespace CTHyb

open Rand MeasureTheory ENNReal

variable {𝕜 : Type} [RCLike 𝕜] {N : ℕ}

/-- Parameters of the loop of `update`: worm spaces, worm movers, weights of the spaces (`config_space_extra_weight`), step sizes of the
shifts and of the worm movers, `N_win_standard`, `n_global_updates`, the switches of flavor updates and shifts. -/
structure LoopC where
  kinds : List WormKind
  movers : List WormKind
  sw : WormKind → ℝ
  maxDist : ℕ → ℝ
  d : WormKind → ℝ
  nStd : ℕ
  nGlobal : ℕ
  fl : Bool
  sh : Bool

/-- Conditions of `C83_loop_partial`. -/
structure LoopC.OK (a : LoopC) (A : CodeArgs 𝕜 N) : Prop where
  code : A.OK
  meas : Measurable fun q : TPsi ℝ × TPsi ℝ => A.G q.1 q.2
  bounded : ∃ C, A.Bounded C
  beta : 0 < A.beta
  nf : 0 < A.P.nf
  ns : 0 < A.P.ns
  flavors : ∀ b < A.P.ns, 0 < (blockFlavors A.P b).length
  kindFlavors : ∀ k ∈ a.kinds, 0 < k.numFlavors
  nodup : a.kinds.Nodup
  green : a.kinds ≠ [] → .green 1 ∈ a.kinds
  sw : ∀ k, 0 < a.sw k
  dist : (∀ f, 0 < a.maxDist f) ∧ ∀ f f', A.P.sector f = A.P.sector f' → a.maxDist f = a.maxDist f'
  movers : ∀ k ∈ a.movers, k.numTimes = 1 ∧ 0 < a.d k
  shift : ∀ v ∈ Set.Ico (0 : ℝ) 1, (CGlob.shift (v * A.beta)).Safe A

/-- The integral over all configurations, with their weight, of the expectation value of `F` after the steps of the plan; `σ`: the states in
which the configurations are; `plan`: ranks of the sweeps and orders of the exchanges, drawn at random (src/impurity.ipp:506-508, 639-643). -/
noncomputable def loopFlow (A : CodeArgs 𝕜 N) (a : LoopC) (k : ℕ) (plan : Rand ℝ (List (ℕ × List (ℕ → ℕ))))
    (σ : WCfg ℝ → CodeState A (Option (Worm ℝ))) (F : CodeState A (Option (Worm ℝ)) → ℝ≥0∞) : ℝ≥0∞ :=
  wFlow A.beta A.P.nf a.kinds a.sw (fun _ _ _ => 1) (codeW A) fun x => meanE plan fun q =>
    contRun A a.kinds a.sw F (updateK A.P.nf a.nStd a.nGlobal a.fl a.sh a.maxDist a.kinds a.movers a.d k q) (σ x)

/-- Expectation value of a recorded number `F` after the steps of the plan, if the configuration is distributed with the weight of the
code before. -/
noncomputable def loopMeanC (A : CodeArgs 𝕜 N) (a : LoopC) (k : ℕ) (plan : Rand ℝ (List (ℕ × List (ℕ → ℕ))))
    (σ : WCfg ℝ → CodeState A (Option (Worm ℝ))) (F : CodeState A (Option (Worm ℝ)) → ℝ) : ℝ :=
  ((loopFlow A a k plan σ fun s => ENNReal.ofReal (F s)).toReal - (loopFlow A a k plan σ fun s => ENNReal.ofReal (-F s)).toReal) /
    (wFlow A.beta A.P.nf a.kinds a.sw (fun _ _ _ => 1) (codeW A) fun _ => 1).toReal

/-- Conditions on the plan: probabilities, and exchanges which are their own inverse and safe. -/
structure PlanC (A : CodeArgs 𝕜 N) (plan : Rand ℝ (List (ℕ × List (ℕ → ℕ)))) : Prop where
  total : meanE plan (fun _ => 1) = 1
  swaps : ∀ r ∈ plan, ∀ q ∈ r.2, ∀ p ∈ q.2, (CGlob.swap p).OK A.P.nf A.beta ∧ (CGlob.swap p).Safe A

/-- States with the configurations, in the window `st`. -/
def StatesC (A : CodeArgs 𝕜 N) (st : SavedState) (σ : WCfg ℝ → CodeState A (Option (Worm ℝ))) : Prop :=
  ∀ x, (codeW A).at x ≠ 0 → Reg A.P.nf (edges A.beta) x → TimesIn A.beta x → Stands A st x (σ x)

variable {A : CodeArgs 𝕜 N} {a : LoopC} {k : ℕ} {plan : Rand ℝ (List (ℕ × List (ℕ → ℕ)))}
  {σ : WCfg ℝ → CodeState A (Option (Worm ℝ))} {st : SavedState}

/-! ### Mixtures -/

theorem wFlow_zero' {β : ℝ} {nf : ℕ} (kinds : List WormKind) (sw : WormKind → ℝ) (φ : CfgFun (Option (Worm ℝ)) ℝ≥0∞)
    (w : CfgFun (Option (Worm ℝ)) ℝ) : wFlow β nf kinds sw φ w (fun _ => 0) = 0 := by
  unfold wFlow
  rw [allFlow_zero φ w fun _ _ _ => rfl, zero_add]
  refine List.sum_eq_zero fun y hy => ?_
  obtain ⟨k, -, rfl⟩ := List.mem_map.1 hy
  rw [kindFlow_zero φ w fun _ _ _ _ _ => rfl, mul_zero]

theorem wFlow_const {β : ℝ} {nf : ℕ} (kinds : List WormKind) (sw : WormKind → ℝ) (φ : CfgFun (Option (Worm ℝ)) ℝ≥0∞)
    (w : CfgFun (Option (Worm ℝ)) ℝ) {c : ℝ≥0∞} (hc : c ≠ ∞) (K : WCfg ℝ → ℝ≥0∞) :
    wFlow β nf kinds sw φ w (fun x => c * K x) = c * wFlow β nf kinds sw φ w K := by
  unfold wFlow
  rw [allFlow_const hc, mul_add, ← List.sum_map_mul_left]
  congr 2
  refine List.map_congr_left fun k _ => ?_
  rw [kindFlow_const hc]
  ring

theorem wFlow_meanE {β : ℝ} {nf : ℕ} (kinds : List WormKind) (sw : WormKind → ℝ) {w : CfgFun (Option (Worm ℝ)) ℝ} (hw : w.WMeas nf)
    {α : Type} (m : Rand ℝ α) (χ : α → CfgFun (Option (Worm ℝ)) ℝ≥0∞) (hχ : ∀ p ∈ m, (χ p.2).WMeas nf) :
    wFlow β nf kinds sw (fun _ _ _ => 1) w (fun x => meanE m fun q => (χ q).at x) =
      meanE m fun q => wFlow β nf kinds sw (fun _ _ _ => 1) w (χ q).at := by
  unfold meanE
  induction m using Multiset.induction_on with
  | empty => simpa using wFlow_zero' kinds sw _ w
  | cons p m ih =>
    simp only [Multiset.map_cons, Multiset.sum_cons]
    have h := hχ p (Multiset.mem_cons_self _ _)
    rw [wFlow_add' kinds sw hw (wmeas_one nf) _ _ (fun m n => ((h.none m n).const_mul _).aemeasurable)
      (fun k fs m n => (h.worm k fs m n).const_mul _), wFlow_const kinds sw _ w ENNReal.ofReal_ne_top,
      ih fun q hq => hχ q (Multiset.mem_cons_of_mem hq)]

/-- **C84** (random plans).  The loop of `update` with ranks and orders of the exchanges drawn at random: if the configuration is
distributed with the weight of the code at the beginning, so it is at the end; for every quantity `F` recorded from the state which is
a function `ψ` of the configuration. -/
theorem C84_loop_partial (ha : a.OK A) (hp : PlanC A plan) (hst : WindowOK 0 st) (hσ : StatesC A st σ)
    {ψ : CfgFun (Option (Worm ℝ)) ℝ≥0∞} (hψ : ψ.WMeas A.P.nf) {F : CodeState A (Option (Worm ℝ)) → ℝ≥0∞}
    (hF : ∀ s x st, Stands A st x s → F s = ψ.at x) :
    loopFlow A a k plan σ F = wFlow A.beta A.P.nf a.kinds a.sw (fun _ _ _ => 1) (codeW A) ψ.at := by
  obtain ⟨h1, h2, h3, h4⟩ := C83_weight ha.code ha.meas
  have hL : ∀ r ∈ plan, Follows A a.kinds st (updateK A.P.nf a.nStd a.nGlobal a.fl a.sh a.maxDist a.kinds a.movers a.d k r.2) :=
    fun r hr => updateK_follows ha.dist ha.nodup ha.green ha.movers ha.shift r.2 (hp.swaps r hr) k st
  have hn : ∀ r ∈ plan, WNice A.P.nf (sweepE A.P a.kinds a.sw (codeW A) ψ (wsteps A.beta st
      (updateK A.P.nf a.nStd a.nGlobal a.fl a.sh a.maxDist a.kinds a.movers a.d k r.2))) := fun r hr =>
    wnice_wsteps ha.code ha.meas ha.beta a.kinds ha.kindFlavors hψ _ (hL r hr) hst
  have e1 : loopFlow A a k plan σ F = wFlow A.beta A.P.nf a.kinds a.sw (fun _ _ _ => 1) (codeW A) fun x => meanE plan fun q =>
      (onGood A.P.nf (setFun (sweepE A.P a.kinds a.sw (codeW A) ψ (wsteps A.beta st
        (updateK A.P.nf a.nStd a.nGlobal a.fl a.sh a.maxDist a.kinds a.movers a.d k q))))).at x := by
    refine wFlow_congr_reg a.kinds a.sw (countable_edges A.beta) fun x x1 x2 x3 => ?_
    refine meanE_congr fun r hr => ?_
    have hs := hσ x x1 x2 x3
    rw [nice_read (hn r hr) x2 (hs.reps.goodCfg ha.code hs.inv)]
    exact C83_code_run ha.code ha.meas ha.beta ha.nf ha.ns ha.flavors a.kinds ha.kindFlavors ha.sw hψ _ (hL r hr) hst hs hF
  rw [e1, wFlow_meanE a.kinds a.sw h1 plan _ fun r hr => wmeas_onGood (hn r hr)]
  have e2 : ∀ r ∈ plan, wFlow A.beta A.P.nf a.kinds a.sw (fun _ _ _ => 1) (codeW A) (onGood A.P.nf (setFun (sweepE A.P a.kinds a.sw
      (codeW A) ψ (wsteps A.beta st (updateK A.P.nf a.nStd a.nGlobal a.fl a.sh a.maxDist a.kinds a.movers a.d k r.2))))).at =
      wFlow A.beta A.P.nf a.kinds a.sw (fun _ _ _ => 1) (codeW A) ψ.at * 1 := fun r hr => by
    rw [mul_one, ← C83_run_partial ha.code ha.meas ha.nf a.kinds ha.kindFlavors a.sw (fun k _ => ha.sw k) hψ _ (wsteps_ok ha.beta _ (hL r hr) hst)]
    refine wFlow_congr_reg a.kinds a.sw (countable_edges A.beta) fun x x1 x2 x3 => ?_
    have hs := hσ x x1 x2 x3
    exact nice_read (hn r hr) x2 (hs.reps.goodCfg ha.code hs.inv)
  rw [meanE_congr (g := fun _ => wFlow A.beta A.P.nf a.kinds a.sw (fun _ _ _ => 1) (codeW A) ψ.at * 1) e2, meanE_mul_left, hp.total,
    mul_one]

/-! ### Expectation values -/

theorem cfgInt_congr {W : Type} {β : ℝ} {nf : ℕ} {ω : W} {g g' : CfgFun W ℝ} (h : ∀ X X', g X X' ω = g' X X' ω) :
    cfgInt β nf ω g = cfgInt β nf ω g' := by
  unfold cfgInt
  refine tsum_congr fun p => ?_
  congr 1
  exact integral_congr_ae (ae_of_all _ fun z => h _ _)

theorem cfgInt_zero {W : Type} {β : ℝ} {nf : ℕ} {ω : W} {g : CfgFun W ℝ} (h : ∀ X X', g X X' ω = 0) : cfgInt β nf ω g = 0 := by
  rw [cfgInt_congr (g' := fun _ _ _ => 0) h]
  simp [cfgInt, CfgFun.at]

theorem kindInt_congr {β : ℝ} {nf : ℕ} {k : WormKind} {g g' : CfgFun (Option (Worm ℝ)) ℝ}
    (h : ∀ X X' u, u.kind = k → g X X' (some u) = g' X X' (some u)) : kindInt β nf k g = kindInt β nf k g' := by
  unfold kindInt
  refine Finset.sum_congr rfl fun fs _ => integral_congr_ae (ae_of_all _ fun ts => ?_)
  exact cfgInt_congr fun X X' => h X X' _ rfl

theorem kindInt_zero {β : ℝ} {nf : ℕ} {k : WormKind} {g : CfgFun (Option (Worm ℝ)) ℝ}
    (h : ∀ X X' u, u.kind = k → g X X' (some u) = 0) : kindInt β nf k g = 0 := by
  rw [kindInt_congr (g' := fun _ _ _ => 0) h]
  unfold kindInt
  simp [cfgInt_zero]

theorem wFlow_toReal {β : ℝ} {nf : ℕ} {kinds : List WormKind} {sw : WormKind → ℝ} (hsw : ∀ k, 0 < sw k)
    {w : CfgFun (Option (Worm ℝ)) ℝ} {K : WCfg ℝ → ℝ≥0∞} (h0 : allFlow β nf none (fun _ _ _ => 1) w K ≠ ∞)
    (h : ∀ k, kindFlow β nf (fun _ _ _ => 1) w K k ≠ ∞) :
    (wFlow β nf kinds sw (fun _ _ _ => 1) w K).toReal = (allFlow β nf none (fun _ _ _ => 1) w K).toReal +
      (kinds.map fun k => sw k * (kindFlow β nf (fun _ _ _ => 1) w K k).toReal).sum := by
  have hs : ∀ l : List WormKind, (l.map fun k => ENNReal.ofReal (sw k) * kindFlow β nf (fun _ _ _ => 1) w K k).sum ≠ ∞ ∧
      (l.map fun k => ENNReal.ofReal (sw k) * kindFlow β nf (fun _ _ _ => 1) w K k).sum.toReal =
        (l.map fun k => sw k * (kindFlow β nf (fun _ _ _ => 1) w K k).toReal).sum := by
    intro l
    induction l with
    | nil => simp
    | cons k l ih =>
      have hk : ENNReal.ofReal (sw k) * kindFlow β nf (fun _ _ _ => 1) w K k ≠ ∞ := ENNReal.mul_ne_top ENNReal.ofReal_ne_top (h k)
      simp only [List.map_cons, List.sum_cons]
      refine ⟨ENNReal.add_ne_top.2 ⟨hk, ih.1⟩, ?_⟩
      rw [ENNReal.toReal_add hk ih.1, ih.2, ENNReal.toReal_mul, ENNReal.toReal_ofReal (hsw k).le]
  unfold wFlow
  rw [ENNReal.toReal_add h0 (hs kinds).1, (hs kinds).2]

theorem LoopC.OK.finite (ha : a.OK A) {K : WCfg ℝ → ℝ≥0∞} {B : ℝ} (hK : ∀ x, K x ≤ ENNReal.ofReal B) :
    allFlow A.beta A.P.nf none (fun _ _ _ => 1) (codeW A) K ≠ ∞ ∧
      ∀ k, kindFlow A.beta A.P.nf (fun _ _ _ => 1) (codeW A) K k ≠ ∞ := by
  obtain ⟨C, hC⟩ := ha.bounded
  have h1 := (C83_finite ha.code hC [] a.sw).1
  simp only [wFlow, List.map_nil, List.sum_nil, add_zero] at h1
  constructor
  · refine ne_top_of_le_ne_top ?_ (allFlow_mono (L := fun _ => ENNReal.ofReal B * 1) fun x _ => (hK x).trans (mul_one _).ge)
    rw [allFlow_const ENNReal.ofReal_ne_top]
    exact ENNReal.mul_ne_top ENNReal.ofReal_ne_top h1.ne
  · intro k
    refine ne_top_of_le_ne_top ?_ (kindFlow_mono (L := fun _ => ENNReal.ofReal B * 1) fun x _ => (hK x).trans (mul_one _).ge)
    rw [kindFlow_const ENNReal.ofReal_ne_top]
    exact ENNReal.mul_ne_top ENNReal.ofReal_ne_top (kindFlow_finite ha.code hC k).ne

/-- The integral of the weight over all spaces. -/
noncomputable def totalC (A : CodeArgs 𝕜 N) (a : LoopC) : ℝ :=
  (wFlow A.beta A.P.nf a.kinds a.sw (fun _ _ _ => 1) (codeW A) fun _ => 1).toReal

/-- **C84** (expectation values).  The expectation value of a bounded recorded number which is a function `d` of the configuration is the
integral of `d` times the weight over all spaces, divided by the integral of the weight. -/
theorem C84_mean_partial (ha : a.OK A) (hp : PlanC A plan) (hst : WindowOK 0 st) (hσ : StatesC A st σ)
    {d : CfgFun (Option (Worm ℝ)) ℝ} (hd : d.WMeas A.P.nf) {B : ℝ} (hB : ∀ X X' ω, |d X X' ω| ≤ B)
    {F : CodeState A (Option (Worm ℝ)) → ℝ} (hF : ∀ s x st, Stands A st x s → F s = d.at x) :
    loopMeanC A a k plan σ F = (cfgInt A.beta A.P.nf none (fun X X' ω => codeW A X X' ω * d X X' ω) +
      (a.kinds.map fun k => a.sw k * kindInt A.beta A.P.nf k fun X X' ω => codeW A X X' ω * d X X' ω).sum) / totalC A a := by
  obtain ⟨h1, h2, h3, h4⟩ := C83_weight ha.code ha.meas
  have h0 : ∀ X X' ω, 0 ≤ codeW A X X' ω := fun X X' ω => by rw [← norm_signedC]; exact norm_nonneg _
  have m1 : CfgFun.WMeas A.P.nf (fun X X' ω => ENNReal.ofReal (d X X' ω)) :=
    ⟨fun m n => ENNReal.measurable_ofReal.comp (hd.none m n), fun k fs m n => ENNReal.measurable_ofReal.comp (hd.worm k fs m n)⟩
  have m2 : CfgFun.WMeas A.P.nf (fun X X' ω => ENNReal.ofReal (-d X X' ω)) :=
    ⟨fun m n => ENNReal.measurable_ofReal.comp (hd.none m n).neg, fun k fs m n => ENNReal.measurable_ofReal.comp (hd.worm k fs m n).neg⟩
  have e1 := C84_loop_partial (k := k) ha hp hst hσ m1 (F := fun s => ENNReal.ofReal (F s)) fun s x st h => by rw [hF s x st h]; rfl
  have e2 := C84_loop_partial (k := k) ha hp hst hσ m2 (F := fun s => ENNReal.ofReal (-F s)) fun s x st h => by rw [hF s x st h]; rfl
  have f1 := ha.finite (K := fun x => ENNReal.ofReal (d.at x)) (B := B) fun x => ENNReal.ofReal_le_ofReal ((le_abs_self _).trans (hB _ _ _))
  have f2 := ha.finite (K := fun x => ENNReal.ofReal (-d.at x)) (B := B) fun x => ENNReal.ofReal_le_ofReal ((neg_le_abs _).trans (hB _ _ _))
  have f3 := ha.finite (K := fun x => ENNReal.ofReal |d.at x|) (B := B) fun x => ENNReal.ofReal_le_ofReal (hB _ _ _)
  unfold loopMeanC totalC
  rw [e1, e2]
  congr 1
  show (wFlow A.beta A.P.nf a.kinds a.sw (fun _ _ _ => 1) (codeW A) fun x => ENNReal.ofReal (d.at x)).toReal -
    (wFlow A.beta A.P.nf a.kinds a.sw (fun _ _ _ => 1) (codeW A) fun x => ENNReal.ofReal (-d.at x)).toReal = _
  rw [wFlow_toReal ha.sw f1.1 f1.2, wFlow_toReal ha.sw f2.1 f2.2, cfgInt_eq h1.none hd.none h0 f3.1]
  simp only [fun k => kindInt_eq h1 hd h0 (f3.2 k)]
  have : ∀ l : List WormKind, (l.map fun k => a.sw k * ((kindFlow A.beta A.P.nf (fun _ _ _ => 1) (codeW A)
      (fun x => ENNReal.ofReal (d.at x)) k).toReal - (kindFlow A.beta A.P.nf (fun _ _ _ => 1) (codeW A)
      (fun x => ENNReal.ofReal (-d.at x)) k).toReal)).sum =
      (l.map fun k => a.sw k * (kindFlow A.beta A.P.nf (fun _ _ _ => 1) (codeW A) (fun x => ENNReal.ofReal (d.at x)) k).toReal).sum -
      (l.map fun k => a.sw k * (kindFlow A.beta A.P.nf (fun _ _ _ => 1) (codeW A) (fun x => ENNReal.ofReal (-d.at x)) k).toReal).sum := by
    intro l
    induction l with
    | nil => simp
    | cons k l ih =>
      simp only [List.map_cons, List.sum_cons, ih]
      ring
  rw [this]
  ring

theorem LoopC.OK.total_pos (ha : a.OK A) : 0 < totalC A a ∧ 0 < cfgInt A.beta A.P.nf none (codeW A) := by
  obtain ⟨C, hC⟩ := ha.bounded
  obtain ⟨h1, h2⟩ := C83_finite ha.code hC a.kinds a.sw
  obtain ⟨g1, -⟩ := C83_weight ha.code ha.meas
  have h0 : ∀ X X' ω, 0 ≤ codeW A X X' ω := fun X X' ω => by rw [← norm_signedC]; exact norm_nonneg _
  have f := ha.finite (K := fun _ => 1) (B := 1) fun x => by simp
  refine ⟨ENNReal.toReal_pos (ne_of_gt (lt_of_lt_of_le h2 le_self_add)) h1.ne, ?_⟩
  have e := cfgInt_eq (β := A.beta) (nf := A.P.nf) g1.none (d := fun _ _ _ => 1) (fun _ _ => measurable_const) h0
    (by simpa [CfgFun.at] using f.1)
  have e' : cfgInt A.beta A.P.nf none (codeW A) = (allFlow A.beta A.P.nf none (fun _ _ _ => 1) (codeW A) fun _ => 1).toReal := by
    rw [cfgInt_congr (g' := fun X X' ω => codeW A X X' ω * (fun _ _ _ => (1 : ℝ)) X X' ω) fun _ _ => (mul_one _).symm, e]
    have : allFlow A.beta A.P.nf none (fun _ _ _ => 1) (codeW A) (fun _ => ENNReal.ofReal (-1)) = 0 := allFlow_zero _ _ fun _ _ _ => by simp
    simp only [CfgFun.at]
    rw [this]
    simp
  rw [e']
  exact ENNReal.toReal_pos h2.ne' f.1

/-- Without configurations of a space there is nothing to integrate over. -/
theorem LoopC.OK.kind_zero (ha : a.OK A) {kind : WormKind} {d : CfgFun (Option (Worm ℝ)) ℝ} (hd : d.WMeas A.P.nf) {B : ℝ}
    (hB : ∀ X X' ω, |d X X' ω| ≤ B) (hz : kindInt A.beta A.P.nf kind (codeW A) = 0) :
    kindInt A.beta A.P.nf kind (fun X X' ω => codeW A X X' ω * d X X' ω) = 0 := by
  obtain ⟨g1, -⟩ := C83_weight ha.code ha.meas
  have h0 : ∀ X X' ω, 0 ≤ codeW A X X' ω := fun X X' ω => by rw [← norm_signedC]; exact norm_nonneg _
  have f := ha.finite (K := fun _ => 1) (B := 1) fun x => by simp
  have f3 := ha.finite (K := fun x => ENNReal.ofReal |d.at x|) (B := B) fun x => ENNReal.ofReal_le_ofReal (hB _ _ _)
  have e := kindInt_eq (β := A.beta) (k := kind) g1 (d := fun _ _ _ => 1) ⟨fun _ _ => measurable_const, fun _ _ _ _ => measurable_const⟩ h0
    (by simpa [CfgFun.at] using f.2 kind)
  have e' : kindInt A.beta A.P.nf kind (codeW A) = (kindFlow A.beta A.P.nf (fun _ _ _ => 1) (codeW A) (fun _ => 1) kind).toReal := by
    rw [kindInt_congr (g' := fun X X' ω => codeW A X X' ω * (fun _ _ _ => (1 : ℝ)) X X' ω) fun _ _ _ _ => (mul_one _).symm, e]
    have : kindFlow A.beta A.P.nf (fun _ _ _ => 1) (codeW A) (fun _ => ENNReal.ofReal (-1)) kind = 0 := kindFlow_zero _ _ fun _ _ _ _ _ => by simp
    simp only [CfgFun.at]
    rw [this]
    simp
  have hk : kindFlow A.beta A.P.nf (fun _ _ _ => 1) (codeW A) (fun _ => 1) kind = 0 :=
    ((ENNReal.toReal_eq_zero_iff _).1 (e' ▸ hz)).resolve_right (f.2 kind)
  have z : ∀ K : WCfg ℝ → ℝ≥0∞, (∀ x, K x ≤ ENNReal.ofReal B) → kindFlow A.beta A.P.nf (fun _ _ _ => 1) (codeW A) K kind = 0 := fun K hK => by
    refine le_antisymm ((kindFlow_mono (L := fun _ => ENNReal.ofReal B * 1) fun x _ => (hK x).trans (mul_one _).ge).trans ?_) bot_le
    rw [kindFlow_const ENNReal.ofReal_ne_top, hk, mul_zero]
  rw [kindInt_eq g1 hd h0 (f3.2 kind), z (fun x => ENNReal.ofReal (d.at x)) fun x =>
    ENNReal.ofReal_le_ofReal ((le_abs_self _).trans (hB _ _ _)), z (fun x => ENNReal.ofReal (-d.at x)) fun x => ENNReal.ofReal_le_ofReal ((neg_le_abs _).trans (hB _ _ _))]
  simp

/-! ### Spaces -/

/-- `d` in the space without worm, zero elsewhere. -/
def onZ (d : CfgFun (Option (Worm ℝ)) ℝ) : CfgFun (Option (Worm ℝ)) ℝ := fun X X' ω => if ω = none then d X X' ω else 0

/-- `d` in the space with the worms of type `kind`, zero elsewhere. -/
def onW (kind : WormKind) (d : CfgFun (Option (Worm ℝ)) ℝ) : CfgFun (Option (Worm ℝ)) ℝ := fun X X' ω =>
  if ω.any fun w => decide (w.kind = kind) then d X X' ω else 0

theorem onZ_wmeas {nf : ℕ} {d : CfgFun (Option (Worm ℝ)) ℝ} (hd : d.WMeas nf) : (onZ d).WMeas nf := by
  refine ⟨fun m n => ?_, fun k fs m n => ?_⟩
  · have e : (fun z : Lab m n => (onZ d).at (z.cfg none)) = fun z : Lab m n => d.at (z.cfg none) := by
      funext z
      show (if (none : Option (Worm ℝ)) = none then d.at (z.cfg none) else 0) = _
      rw [if_pos rfl]
    rw [e]
    exact hd.none m n
  · simp [onZ]

theorem onW_wmeas {nf : ℕ} (kind : WormKind) {d : CfgFun (Option (Worm ℝ)) ℝ} (hd : d.WMeas nf) : (onW kind d).WMeas nf := by
  refine ⟨fun m n => ?_, fun k fs m n => ?_⟩
  · have e : (fun z : Lab m n => (onW kind d).at (z.cfg none)) = fun _ => 0 := by
      funext z
      show (if (Option.any (fun w : Worm ℝ => decide (w.kind = kind)) none) = true then d.at (z.cfg none) else 0) = _
      rw [if_neg (by simp)]
    rw [e]
    exact measurable_const
  · by_cases h : k = kind
    · simpa [onW, mkW, h] using hd.worm k fs m n
    · simp [onW, mkW, h]

theorem abs_onZ {d : CfgFun (Option (Worm ℝ)) ℝ} {B : ℝ} (hB : ∀ X X' ω, |d X X' ω| ≤ B) : ∀ X X' ω, |onZ d X X' ω| ≤ B := fun X X' ω => by
  unfold onZ
  split_ifs
  · exact hB _ _ _
  · rw [abs_zero]; exact (abs_nonneg _).trans (hB X X' ω)

theorem abs_onW {kind : WormKind} {d : CfgFun (Option (Worm ℝ)) ℝ} {B : ℝ} (hB : ∀ X X' ω, |d X X' ω| ≤ B) :
    ∀ X X' ω, |onW kind d X X' ω| ≤ B := fun X X' ω => by
  unfold onW
  split_ifs
  · exact hB _ _ _
  · rw [abs_zero]; exact (abs_nonneg _).trans (hB X X' ω)

theorem sum_one_kind {kind : WormKind} {kinds : List WormKind} (hn : kinds.Nodup) (hk : kind ∈ kinds) {f : WormKind → ℝ}
    (h : ∀ k, k ≠ kind → f k = 0) : (kinds.map f).sum = f kind := by
  induction kinds with
  | nil => simp at hk
  | cons k l ih =>
    rw [List.map_cons, List.sum_cons]
    obtain ⟨h1, h2⟩ := List.nodup_cons.1 hn
    by_cases e : k = kind
    · subst e
      rw [List.sum_eq_zero, add_zero]
      intro y hy
      obtain ⟨k', hk', rfl⟩ := List.mem_map.1 hy
      exact h k' fun e => h1 (e ▸ hk')
    · rw [h k e, zero_add]
      exact ih h2 ((List.mem_cons.1 hk).resolve_left (Ne.symm e))

/-- Mean of a number recorded only without worm. -/
theorem mean_onZ (ha : a.OK A) (hp : PlanC A plan) (hst : WindowOK 0 st) (hσ : StatesC A st σ)
    {d : CfgFun (Option (Worm ℝ)) ℝ} (hd : d.WMeas A.P.nf) {B : ℝ} (hB : ∀ X X' ω, |d X X' ω| ≤ B)
    {F : CodeState A (Option (Worm ℝ)) → ℝ} (hF : ∀ s x st, Stands A st x s → x.worm = none → F s = d.at x) :
    loopMeanC A a k plan σ (fun s => (if s.2 = none then 1 else 0) * F s) =
      cfgInt A.beta A.P.nf none (fun X X' ω => codeW A X X' ω * d X X' ω) / totalC A a := by
  rw [C84_mean_partial ha hp hst hσ (onZ_wmeas hd) (abs_onZ hB)]
  · rw [List.sum_eq_zero, add_zero, cfgInt_congr]
    · intro X X'
      simp [onZ]
    · intro y hy
      obtain ⟨k', -, rfl⟩ := List.mem_map.1 hy
      rw [kindInt_zero, mul_zero]
      intro X X' u _
      simp [onZ]
  · intro s x st h
    show _ = if x.worm = none then d.at x else 0
    simp only [h.reps.worm]
    split_ifs with hx
    · rw [one_mul, hF s x st h hx]
    · rw [zero_mul]

/-- Mean of a number recorded only in one space with worms. -/
theorem mean_onW (ha : a.OK A) (hp : PlanC A plan) (hst : WindowOK 0 st) (hσ : StatesC A st σ) {kind : WormKind} (hk : kind ∈ a.kinds)
    {d : CfgFun (Option (Worm ℝ)) ℝ} (hd : d.WMeas A.P.nf) {B : ℝ} (hB : ∀ X X' ω, |d X X' ω| ≤ B)
    {F : CodeState A (Option (Worm ℝ)) → ℝ}
    (hF : ∀ s x st, Stands A st x s → (x.worm.any fun w => decide (w.kind = kind)) = true → F s = d.at x) :
    loopMeanC A a k plan σ (fun s => (if s.2.any fun w => decide (w.kind = kind) then 1 else 0) * F s) =
      a.sw kind * kindInt A.beta A.P.nf kind (fun X X' ω => codeW A X X' ω * d X X' ω) / totalC A a := by
  rw [C84_mean_partial ha hp hst hσ (onW_wmeas kind hd) (abs_onW hB)]
  · rw [sum_one_kind ha.nodup hk, cfgInt_zero, zero_add, kindInt_congr]
    · intro X X' u hu
      simp [onW, hu]
    · intro X X'
      simp [onW]
    · intro k' hk'
      rw [kindInt_zero, mul_zero]
      intro X X' u hu
      simp [onW, hu, hk']
  · intro s x st h
    show _ = if x.worm.any fun w => decide (w.kind = kind) then d.at x else 0
    simp only [h.reps.worm]
    split_ifs with hx
    · rw [one_mul, hF s x st h hx]
    · rw [zero_mul]

/-- The sign of a configuration. -/
noncomputable def sgnC (A : CodeArgs 𝕜 N) : CfgFun (Option (Worm ℝ)) 𝕜 := fun X X' ω => signedC A X X' ω / ((codeW A X X' ω : ℝ) : 𝕜)

theorem mul_sgnC (A : CodeArgs 𝕜 N) (X X' : Multiset (BOp ℝ)) (ω : Option (Worm ℝ)) :
    ((codeW A X X' ω : ℝ) : 𝕜) * sgnC A X X' ω = signedC A X X' ω := by
  unfold sgnC
  by_cases h : codeW A X X' ω = 0
  · have : signedC A X X' ω = 0 := norm_eq_zero.1 (by rw [norm_signedC, h])
    rw [this, h]
    simp
  · have : ((codeW A X X' ω : ℝ) : 𝕜) ≠ 0 := by rwa [Ne, RCLike.ofReal_eq_zero]
    field_simp

theorem norm_sgnC (A : CodeArgs 𝕜 N) (X X' : Multiset (BOp ℝ)) (ω : Option (Worm ℝ)) : ‖sgnC A X X' ω‖ ≤ 1 := by
  unfold sgnC
  rw [norm_div, norm_signedC, RCLike.norm_ofReal]
  exact (div_le_div_of_nonneg_right (le_abs_self _) (abs_nonneg _)).trans (div_self_le_one _)

theorem sgnC_wmeas (ha : a.OK A) : (sgnC A).WMeas A.P.nf := by
  have h1 := signedC_wmeas ha.code ha.meas
  obtain ⟨h2, -⟩ := C83_weight ha.code ha.meas
  exact ⟨fun m n => (h1.none m n).div ((RCLike.continuous_ofReal (K := 𝕜)).measurable.comp (h2.none m n)),
    fun k fs m n => (h1.worm k fs m n).div ((RCLike.continuous_ofReal (K := 𝕜)).measurable.comp (h2.worm k fs m n))⟩

theorem sign_sgnC (ha : a.OK A) {s : CodeState A (Option (Worm ℝ))} {x : WCfg ℝ} {st : SavedState} (h : Stands A st x s) :
    s.1.cfg.sign = (sgnC A).at x := by
  have e := weight_signR ha.code h.inv h.reps
  have hw : (codeW A).at x ≠ 0 := by
    rw [h.reps.codeW h.inv]
    exact (h.reps.good ha.code h.inv).weight
  have hw' : (((codeW A).at x : ℝ) : 𝕜) ≠ 0 := by rwa [Ne, RCLike.ofReal_eq_zero]
  have e' := mul_sgnC A x.cd x.c x.worm
  exact mul_left_cancel₀ hw' (e.trans e'.symm)

/-! ### Postprocessing -/

theorem mean_sign (ha : a.OK A) (hp : PlanC A plan) (hst : WindowOK 0 st) (hσ : StatesC A st σ) :
    loopMeanC A a k plan σ (fun s => (if s.2 = none then 1 else 0) * RCLike.re s.1.cfg.sign) =
      cfgInt A.beta A.P.nf none (fun X X' ω => RCLike.re (signedC A X X' ω)) / totalC A a := by
  have hm := sgnC_wmeas ha
  rw [mean_onZ ha hp hst hσ (d := fun X X' ω => RCLike.re (sgnC A X X' ω)) (B := 1)
    ⟨fun m n => RCLike.continuous_re.measurable.comp (hm.none m n), fun k fs m n => RCLike.continuous_re.measurable.comp (hm.worm k fs m n)⟩
    (fun X X' ω => (RCLike.abs_re_le_norm _).trans (norm_sgnC A X X' ω)) fun s x st h _ => by rw [sign_sgnC ha h]; rfl]
  congr 1
  refine cfgInt_congr fun X X' => ?_
  rw [← mul_sgnC A X X' none, RCLike.re_ofReal_mul]

theorem mean_one_onZ (ha : a.OK A) (hp : PlanC A plan) (hst : WindowOK 0 st) (hσ : StatesC A st σ) :
    loopMeanC A a k plan σ (fun s => if s.2 = none then 1 else 0) = cfgInt A.beta A.P.nf none (codeW A) / totalC A a := by
  have := mean_onZ (k := k) ha hp hst hσ (d := fun _ _ _ => 1) (B := 1) ⟨fun _ _ => measurable_const, fun _ _ _ _ => measurable_const⟩
    (fun _ _ _ => by simp) (F := fun _ => 1) fun _ _ _ _ _ => rfl
  simp only [mul_one] at this
  exact this

theorem mean_one_onW (ha : a.OK A) (hp : PlanC A plan) (hst : WindowOK 0 st) (hσ : StatesC A st σ) {kind : WormKind} (hk : kind ∈ a.kinds) :
    loopMeanC A a k plan σ (fun s => if s.2.any fun w => decide (w.kind = kind) then 1 else 0) =
      a.sw kind * kindInt A.beta A.P.nf kind (codeW A) / totalC A a := by
  have := mean_onW (k := k) ha hp hst hσ hk (d := fun _ _ _ => 1) (B := 1) ⟨fun _ _ => measurable_const, fun _ _ _ _ => measurable_const⟩
    (fun _ _ _ => by simp) (F := fun _ => 1) fun _ _ _ _ _ => rfl
  simp only [mul_one] at this
  exact this

/-- **C84** (without worm).  The mean of a number recorded in the space without worm, divided by the mean sign there, is the
ratio of two integrals over all configurations without worm. -/
theorem C84_bath_partial (ha : a.OK A) (hp : PlanC A plan) (hst : WindowOK 0 st) (hσ : StatesC A st σ)
    {d : CfgFun (Option (Worm ℝ)) ℝ} (hd : d.WMeas A.P.nf) {B : ℝ} (hB : ∀ X X' ω, |d X X' ω| ≤ B)
    {D : CodeState A (Option (Worm ℝ)) → ℝ} (hD : ∀ s x st, Stands A st x s → x.worm = none → D s = d.at x) :
    let E := loopMeanC A a k plan σ
    let inZ : CodeState A (Option (Worm ℝ)) → ℝ := fun s => if s.2 = none then 1 else 0
    (E (fun s => inZ s * D s) / E inZ) / (E (fun s => inZ s * RCLike.re s.1.cfg.sign) / E inZ) =
      cfgInt A.beta A.P.nf none (fun X X' ω => codeW A X X' ω * d X X' ω) /
        cfgInt A.beta A.P.nf none (fun X X' ω => RCLike.re (signedC A X X' ω)) := by
  intro E inZ
  have e1 : E (fun s => inZ s * D s) = _ := mean_onZ ha hp hst hσ hd hB hD
  have e2 : E (fun s => inZ s * RCLike.re s.1.cfg.sign) = _ := mean_sign ha hp hst hσ
  have e3 : E inZ = _ := mean_one_onZ ha hp hst hσ
  obtain ⟨hT, hZ⟩ := ha.total_pos
  rw [e1, e2, e3]
  generalize totalC A a = T at hT ⊢
  generalize cfgInt A.beta A.P.nf none (codeW A) = Z at hZ ⊢
  generalize cfgInt A.beta A.P.nf none (fun X X' ω => RCLike.re (signedC A X X' ω)) = S
  have hT' := hT.ne'
  have hZ' := hZ.ne'
  rcases eq_or_ne S 0 with rfl | hS
  · simp
  field_simp

/-- **C84** (worms).  What the postprocessing makes of the expectation values of the volumes of the spaces, of the sign and of the data `D`
of a worm space is the integral over all configurations with a worm of this type, divided by the integral over all configurations
without worm: the extra weight of the space and the weights of the other spaces drop out.  Missing for the full statement: as in
`C83_loop_partial`. -/
theorem C84_equilibrium_partial (ha : a.OK A) (hp : PlanC A plan) (hst : WindowOK 0 st) (hσ : StatesC A st σ)
    {kind : WormKind} (hk : kind ∈ a.kinds) {d : CfgFun (Option (Worm ℝ)) ℝ} (hd : d.WMeas A.P.nf) {B : ℝ} (hB : ∀ X X' ω, |d X X' ω| ≤ B)
    {D : CodeState A (Option (Worm ℝ)) → ℝ}
    (hD : ∀ s x st, Stands A st x s → (x.worm.any fun w => decide (w.kind = kind)) = true → D s = d.at x) (temp : ℝ) :
    let E := loopMeanC A a k plan σ
    let inZ : CodeState A (Option (Worm ℝ)) → ℝ := fun s => if s.2 = none then 1 else 0
    let inW : CodeState A (Option (Worm ℝ)) → ℝ := fun s => if s.2.any fun w => decide (w.kind = kind) then 1 else 0
    wormCoeff temp (E inW / a.sw kind) (E inZ) (E (fun s => inZ s * RCLike.re s.1.cfg.sign) / E inZ) *
        (E (fun s => inW s * D s) / E inW) =
      temp * kindInt A.beta A.P.nf kind (fun X X' ω => codeW A X X' ω * d X X' ω) /
        cfgInt A.beta A.P.nf none (fun X X' ω => RCLike.re (signedC A X X' ω)) := by
  intro E inZ inW
  have e1 : E (fun s => inW s * D s) = _ := mean_onW ha hp hst hσ hk hd hB hD
  have e2 : E (fun s => inZ s * RCLike.re s.1.cfg.sign) = _ := mean_sign ha hp hst hσ
  have e3 : E inZ = _ := mean_one_onZ ha hp hst hσ
  have e4 : E inW = _ := mean_one_onW ha hp hst hσ hk
  obtain ⟨hT, hZ⟩ := ha.total_pos
  have hk0 := ha.kind_zero (kind := kind) hd hB
  have hsw := (ha.sw kind).ne'
  unfold wormCoeff
  rw [e1, e2, e3, e4]
  generalize totalC A a = T at hT ⊢
  generalize cfgInt A.beta A.P.nf none (codeW A) = Z at hZ ⊢
  generalize cfgInt A.beta A.P.nf none (fun X X' ω => RCLike.re (signedC A X X' ω)) = S
  generalize kindInt A.beta A.P.nf kind (fun X X' ω => codeW A X X' ω * d X X' ω) = P at hk0 ⊢
  generalize kindInt A.beta A.P.nf kind (codeW A) = Q at hk0 ⊢
  have hT' := hT.ne'
  have hZ' := hZ.ne'
  rcases eq_or_ne S 0 with rfl | hS
  · simp
  rcases eq_or_ne Q 0 with rfl | hQ
  · rw [hk0 rfl]
    simp
  field_simp

/-- **C84** (equal times).  For the worms with all operators at one time the postprocessing gives, in equilibrium, the mean over the times
`t` of the ratio of two integrals: over all configurations with the operators of the worm with flavors `fs` at `t`, and over all
configurations without worm; for the real and for the imaginary part (`φ`).  Missing for the full statement: as in
`C83_loop_partial`. -/
theorem C84_equal_time_partial (ha : a.OK A) (hp : PlanC A plan) (hst : WindowOK 0 st) (hσ : StatesC A st σ)
    {r : ℕ} (hk : .equalTime r ∈ a.kinds) (fs : Fin (WormKind.equalTime r).numFlavors → Fin A.P.nf) (φ : 𝕜 →L[ℝ] ℝ) :
    let E := loopMeanC A a k plan σ
    let inZ : CodeState A (Option (Worm ℝ)) → ℝ := fun s => if s.2 = none then 1 else 0
    let inW : CodeState A (Option (Worm ℝ)) → ℝ := fun s => if s.2.any fun w => decide (w.kind = .equalTime r) then 1 else 0
    wormCoeff (1 / A.beta) (E inW / a.sw (.equalTime r)) (E inZ) (E (fun s => inZ s * RCLike.re s.1.cfg.sign) / E inZ) *
        (E (fun s => inW s * φ (s.2.elim 0 fun w => equalTimeData w.flavors s.1.cfg.sign (flavList fs))) / E inW) =
      (∫ t in Set.Icc 0 A.beta, cfgInt A.beta A.P.nf (some (mkW (.equalTime r) (fun _ => t) fs)) (fun X X' ω => φ (signedC A X X' ω)) /
        cfgInt A.beta A.P.nf none (fun X X' ω => RCLike.re (signedC A X X' ω))) / A.beta := by
  intro E inZ inW
  have hlin : ∀ (b : ℝ) (z : 𝕜), b * φ z = φ ((b : 𝕜) * z) := by
    intro b z
    rw [← smul_eq_mul, ← map_smul, RCLike.real_smul_eq_coe_mul]
  have hm := sgnC_wmeas ha
  rw [C84_equilibrium_partial ha hp hst hσ hk
    (d := fun X X' ω => if ω.any fun w => decide (flavList fs = w.flavors) then φ (sgnC A X X' ω) else 0) (B := ‖φ‖) ?_ ?_ ?_]
  · have e : kindInt A.beta A.P.nf (.equalTime r) (fun X X' ω => codeW A X X' ω *
        if ω.any fun w => decide (flavList fs = w.flavors) then φ (sgnC A X X' ω) else 0) =
        ∫ t in Set.Icc 0 A.beta, cfgInt A.beta A.P.nf (some (mkW (.equalTime r) (fun _ => t) fs)) (fun X X' ω => φ (signedC A X X' ω)) := by
      unfold kindInt
      rw [Finset.sum_eq_single_of_mem fs (Finset.mem_univ _)]
      · have hq := (measurePreserving_funUnique (volume.restrict (Set.Icc 0 A.beta)) (Fin 1)).symm
        refine Eq.trans (hq.integral_comp' _).symm (integral_congr_ae (ae_of_all _ fun t => ?_))
        refine cfgInt_congr fun X X' => ?_
        show codeW A X X' _ * (if (decide (flavList fs = flavList fs)) = true then _ else _) = _
        rw [if_pos (by simp), hlin, mul_sgnC]
      · intro gs _ hgs
        refine (integral_congr_ae (ae_of_all _ fun ts => cfgInt_zero fun X X' => ?_)).trans (integral_zero _ _)
        show codeW A X X' _ * (if (decide (flavList fs = flavList gs)) = true then _ else _) = _
        rw [if_neg, mul_zero]
        intro h
        have h' : flavList fs = flavList gs := by simpa using h
        exact hgs (funext fun i => Fin.val_injective (congrFun (List.ofFn_injective h') i).symm)
    rw [e, integral_div]
    ring
  · refine ⟨fun m n => ?_, fun k gs m n => ?_⟩
    · exact measurable_const (a := (0 : ℝ))
    · by_cases h : flavList fs = flavList gs
      · have : (fun z : (Fin k.numTimes → ℝ) × Lab m n => if (Option.any (fun w : Worm ℝ => decide (flavList fs = w.flavors))
            (some (mkW k z.1 gs))) = true then φ (sgnC A (ms z.2.1) (ms z.2.2) (some (mkW k z.1 gs))) else 0) =
            fun z => φ (sgnC A (ms z.2.1) (ms z.2.2) (some (mkW k z.1 gs))) := by
          funext z
          rw [if_pos]
          simpa [mkW] using h
        rw [this]
        exact φ.continuous.measurable.comp (hm.worm k gs m n)
      · have : (fun z : (Fin k.numTimes → ℝ) × Lab m n => if (Option.any (fun w : Worm ℝ => decide (flavList fs = w.flavors))
            (some (mkW k z.1 gs))) = true then φ (sgnC A (ms z.2.1) (ms z.2.2) (some (mkW k z.1 gs))) else 0) = fun z => 0 := by
          funext z
          rw [if_neg]
          simpa [mkW] using h
        rw [this]
        exact measurable_const
  · intro X X' ω
    split_ifs
    · exact (φ.le_opNorm _).trans (mul_le_of_le_one_right (norm_nonneg _) (norm_sgnC A X X' ω))
    · rw [abs_zero]; exact norm_nonneg _
  · intro s x st h hx
    show φ (s.2.elim 0 _) = if x.worm.any fun w => decide (flavList fs = w.flavors) then φ ((sgnC A).at x) else 0
    rw [h.reps.worm]
    cases e : x.worm with
    | none => rw [e] at hx; simp at hx
    | some w =>
      simp only [Option.elim_some, equalTimeData, Option.any_some]
      by_cases hf : flavList fs = w.flavors
      · rw [if_pos hf, if_pos (by simpa using hf), sign_sgnC ha h]
      · rw [if_neg hf, if_neg (by simpa using hf), map_zero]

/-! ### A concrete case: two spins without energy, in equal baths -/

/-- Loop with shifts and exchanges of the two spins. -/
noncomputable def freeLoop : LoopC := ⟨[.green 1, .equalTime 1], [.equalTime 1], fun k => 1 + k.numFlavors, fun _ => 1, fun _ => 1, 4, 2, true, true⟩

theorem freeLoop_ok : freeLoop.OK freeCode where
  code := freeCode_ok
  meas := measurable_freeHyb
  bounded := ⟨5, fun a b h1 h2 => by
    have e1 : freeCode.beta = 4 := rfl
    rw [e1] at h1 h2
    obtain ⟨a1, a2⟩ := h1
    obtain ⟨b1, b2⟩ := h2
    show ‖freeHyb a.flavor b.flavor (a.time.time - b.time.time)‖ ≤ 5
    unfold freeHyb
    rw [Real.norm_eq_abs, abs_le]
    split_ifs <;> constructor <;> linarith⟩
  beta := show (0 : ℝ) < 4 by norm_num
  nf := Nat.two_pos
  ns := Nat.two_pos
  flavors := freeMoves_ok.flavors
  kindFlavors := by decide
  nodup := by decide
  green := by simp [freeLoop]
  sw := fun k => by unfold freeLoop; positivity
  dist := ⟨fun _ => one_pos, fun _ _ _ => rfl⟩
  movers := by simp [freeLoop, WormKind.numTimes]
  shift := freeCode_safe.2

/-- Two plans with probabilities 1/4 and 3/4. -/
noncomputable def freePlan : Rand ℝ (List (ℕ × List (ℕ → ℕ))) :=
  {(1 / 4, [(1, []), (2, [fun f => 1 - f])]), (3 / 4, [(2, [fun f => 1 - f]), (1, [])])}

theorem freePlan_ok : PlanC freeCode freePlan := by
  constructor
  · show (Multiset.map _ ((1 / 4, _) ::ₘ (3 / 4, _) ::ₘ 0)).sum = 1
    simp only [Multiset.map_cons, Multiset.map_zero, Multiset.sum_cons, Multiset.sum_zero, mul_one, add_zero]
    rw [← ENNReal.ofReal_add (by norm_num) (by norm_num)]
    norm_num
  · intro r hr q hq p hp
    have : p = fun f => 1 - f := by
      simp only [freePlan, Multiset.insert_eq_cons, Multiset.mem_cons, Multiset.mem_singleton] at hr
      rcases hr with rfl | rfl <;> simp only [List.mem_cons, List.not_mem_nil, or_false] at hq <;> rcases hq with rfl | rfl <;>
        simp at hp <;> exact hp
    subst this
    exact freeCode_safe.1

/-- The demands of `C84_equal_time_partial` are met: the density of the second spin. -/
example : ∃ σ : WCfg ℝ → CodeState freeCode (Option (Worm ℝ)),
    let E := loopMeanC freeCode freeLoop 0 freePlan σ
    let inZ : CodeState freeCode (Option (Worm ℝ)) → ℝ := fun s => if s.2 = none then 1 else 0
    let inW : CodeState freeCode (Option (Worm ℝ)) → ℝ := fun s => if s.2.any fun w => decide (w.kind = .equalTime 1) then 1 else 0
    wormCoeff (1 / 4) (E inW / (1 + (2 : ℕ))) (E inZ) (E (fun s => inZ s * RCLike.re s.1.cfg.sign) / E inZ) *
        (E (fun s => inW s * (s.2.elim 0 fun w => equalTimeData w.flavors s.1.cfg.sign [1, 1])) / E inW) =
      (∫ t in Set.Icc 0 4, cfgInt 4 2 (some (mkW (.equalTime 1) (nf := 2) (fun _ => t) fun _ => 1)) (signedC freeCode) /
        cfgInt 4 2 none (signedC freeCode)) / 4 := by
  obtain ⟨σ, hσ⟩ := exists_stands freeCode_ok (n := 4) (by norm_num)
  exact ⟨σ, C84_equal_time_partial (k := 0) freeLoop_ok freePlan_ok (st := ⟨2, 0, true, 4⟩) ⟨by norm_num, rfl, by norm_num, dvd_zero _⟩ hσ
    (r := 1) (by simp [freeLoop]) (fun _ => (1 : Fin 2)) (ContinuousLinearMap.id ℝ ℝ)⟩

/-- The demands of `C84_bath_partial` are met: whether there is no operator. -/
example : ∃ σ : WCfg ℝ → CodeState freeCode (Option (Worm ℝ)),
    let E := loopMeanC freeCode freeLoop 0 freePlan σ
    let inZ : CodeState freeCode (Option (Worm ℝ)) → ℝ := fun s => if s.2 = none then 1 else 0
    (E (fun s => inZ s * if (cfgOf freeCode s).cd.length = 0 then 1 else 0) / E inZ) / (E (fun s => inZ s * RCLike.re s.1.cfg.sign) / E inZ) =
      cfgInt 4 2 none (fun X X' ω => codeW freeCode X X' ω * if Multiset.card X = 0 then 1 else 0) / cfgInt 4 2 none (signedC freeCode) := by
  obtain ⟨σ, hσ⟩ := exists_stands freeCode_ok (n := 4) (by norm_num)
  refine ⟨σ, C84_bath_partial (k := 0) freeLoop_ok freePlan_ok (st := ⟨2, 0, true, 4⟩) ⟨by norm_num, rfl, by norm_num, dvd_zero _⟩ hσ
    (d := fun X _ _ => if Multiset.card X = 0 then 1 else 0) ⟨fun m n => ?_, fun k fs m n => ?_⟩ (B := 1) (fun X _ _ => ?_)
    fun s x st h _ => ?_⟩
  · have : (fun z : Lab m n => CfgFun.at (fun X _ _ => if Multiset.card X = 0 then (1 : ℝ) else 0) (z.cfg (none : Option (Worm ℝ)))) =
      fun _ => if m = 0 then 1 else 0 := funext fun z => by simp [CfgFun.at, Lab.cfg]
    rw [this]
    exact measurable_const
  · have e : ∀ z : Fin m → BOp ℝ, Multiset.card (ms z) = m := fun z => by simp [ms]
    simp only [e]
    exact measurable_const
  · split_ifs <;> simp
  · exact (at_same (fun X _ _ => if Multiset.card X = 0 then (1 : ℝ) else 0) h.reps.same_cfgOf).symm

end CTHyb
