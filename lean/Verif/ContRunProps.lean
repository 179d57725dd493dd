import Verif.ContRunLemmas

/-!
# Runs of pair updates, shifts and flavor updates in continuous time

Specification: `allFlow` (Verif/ContInsProps.lean) is the integral over all configurations; the average of
`ψ` with the weight `w` is `allFlow 1 w ψ`.
-/

namespace CTHyb

open Rand MeasureTheory ENNReal

variable {W : Type}

/-- **Specification.**  No operator twice, all flavors below `nf`. -/
def GoodCfg (nf : ℕ) (X X' : Multiset (BOp ℝ)) : Prop :=
  (X.Nodup ∧ ∀ o ∈ X, o.2 < nf) ∧ (X'.Nodup ∧ ∀ o ∈ X', o.2 < nf)

theorem goodCfg_lab {nf m n : ℕ} (z : Lab m n) : GoodCfg nf (ms z.1) (ms z.2) ↔
    (Function.Injective z.1 ∧ ∀ i, (z.1 i).2 < nf) ∧ (Function.Injective z.2 ∧ ∀ i, (z.2 i).2 < nf) := by
  unfold GoodCfg
  simp only [ms, Multiset.coe_nodup, List.nodup_ofFn, Multiset.mem_coe, List.mem_ofFn, forall_exists_index,
    forall_apply_eq_imp_iff]

/-- **Specification.**  The parameters are admissible: windows in `[0, β]`, no margin for the pair update,
equal step sizes within a block for the shift. -/
def CStep.OK (β : ℝ) (E : PEnv) : CStep → Prop
  | .pair cw _ => cw.OK β
  | .shift cw maxDist => 0 ≤ cw.lo ∧ cw.hi ≤ β ∧ (∀ f, 0 < maxDist f) ∧
      ∀ f f', E.sector f = E.sector f' → maxDist f = maxDist f'
  | .flavor _ => True

theorem step_stationary {β : ℝ} (E : PEnv) (hns : ∀ f, f < E.nf → E.sector f < E.ns) (s : CStep) (hs : s.OK β E)
    (w : CfgFun W ℝ) (ψ : CfgFun W ℝ≥0∞) (ω : W) (hw : w.Meas ω) (hψ : ψ.Meas ω) (h0 : ∀ X X', 0 ≤ w X X' ω) :
    allFlow β E.nf ω (fun _ _ _ => 1) w (fun x => s.step E w ψ x) = allFlow β E.nf ω (fun _ _ _ => 1) w ψ.at := by
  rcases s with ⟨cw, rank⟩ | ⟨cw, d⟩ | ⟨cw⟩
  · exact C77_stationary_partial hs E hns rank w ψ ω hw hψ h0
  · obtain ⟨h1, h2, h3, h4⟩ := hs
    refine tsum_congr fun p => ?_
    refine hold_stationary hw (shiftE E cw d w) p.1 p.2
      (fun φ ψ hφ hψ => C79_shift_balance_partial E h1 h2 h3 h4 w φ ψ ω hw hφ hψ h0 p.1 p.2) (fun ψ hψ => ?_)
      (shiftE_le E cw d w) ψ hψ
    simp only [shiftE_eq]
    exact (measurable_labE (symDraw_shift E h1 h2 h3 h4) selAll selAll hw hψ p.1 p.2).aemeasurable
  · refine tsum_congr fun p => ?_
    refine hold_stationary hw (flavorE E.nf cw w) p.1 p.2
      (fun φ ψ hφ hψ => C79_flavor_balance β E.nf cw w φ ψ ω hw hφ hψ h0 p.1 p.2) (fun ψ hψ => ?_)
      (flavorE_le E.nf cw w) ψ hψ
    simp only [flavorE_eq]
    exact (measurable_labE (symDraw_flavor β E.nf cw) selCd selC hw hψ p.1 p.2).aemeasurable

/-! ### Functions of the good configurations -/

/-- Measurable on the good configurations and independent of the order of the operators. -/
structure Nice (nf : ℕ) (ω : W) (F : PCfg ℝ W → ℝ≥0∞) : Prop where
  meas : ∀ m n, ∃ g : Lab m n → ℝ≥0∞, Measurable g ∧ ∀ z : Lab m n, GoodCfg nf (ms z.1) (ms z.2) → F (z.cfg ω) = g z
  perm : ∀ m n (z : Lab m n), GoodCfg nf (ms z.1) (ms z.2) → ∀ (σ : Equiv.Perm (Fin m)) (τ : Equiv.Perm (Fin n)),
    F (Lab.cfg (z.1 ∘ σ, z.2 ∘ τ) ω) = F (z.cfg ω)

theorem nice_at {nf : ℕ} {ω : W} {ψ : CfgFun W ℝ≥0∞} (hψ : ψ.Meas ω) : Nice nf ω ψ.at where
  meas m n := ⟨_, hψ m n, fun _ _ => rfl⟩
  perm m n z _ σ τ := by
    show ψ (ms (z.1 ∘ σ)) (ms (z.2 ∘ τ)) ω = ψ (ms z.1) (ms z.2) ω
    rw [ms_perm, ms_perm]

theorem nice_acc {β : ℝ} (E : PEnv) (hns : ∀ f, f < E.nf → E.sector f < E.ns) (s : CStep) (hs : s.OK β E)
    {w : CfgFun W ℝ} {ψ : CfgFun W ℝ≥0∞} {ω : W} (hw : w.Meas ω) (hψ : ψ.Meas ω) :
    Nice E.nf ω (fun x => s.acc E w ψ x) := by
  rcases s with ⟨cw, rank⟩ | ⟨cw, d⟩ | ⟨cw⟩
  · have hir : ∀ x : PCfg ℝ W, irE E cw rank w ψ x =
        ENNReal.ofReal (1 / 2) * insE E cw rank w ψ x + ENNReal.ofReal (1 / 2) * remE E cw rank w ψ x := by
      intro x
      rw [irE, meanE_coin_half]
      simp
    refine ⟨fun m n => ?_, fun m n z hz σ τ => ?_⟩
    · refine ⟨fun z => ENNReal.ofReal (1 / 2) * insE E cw rank w ψ (z.cfg ω) + ENNReal.ofReal (1 / 2) *
        meanE (blockDraws ℝ E.ns rank) fun bl =>
        ∑ S ∈ (Finset.univ : Finset (Fin m)).powersetCard rank,
          ∑ S' ∈ (Finset.univ : Finset (Fin n)).powersetCard rank,
            remTerm E cw w ψ ω bl (Sᶜ.val.map z.1) (S'ᶜ.val.map z.2) (S.val.map z.1) (S'.val.map z.2), ?_, ?_⟩
      · refine ((measurable_insE hs E rank w ψ ω hw hψ m n).const_mul _).add (Measurable.const_mul ?_ _)
        refine measurable_meanE _ _ fun p hp => ?_
        obtain ⟨hlen, hbl⟩ := mem_blockDraws hp
        refine Finset.measurable_sum _ fun S hS => Finset.measurable_sum _ fun S' hS' => ?_
        have hS := (Finset.mem_powersetCard.1 hS).2
        have hS' := (Finset.mem_powersetCard.1 hS').2
        have hm : rank ≤ m := by rw [← hS]; simpa using Finset.card_le_univ S
        have hn : rank ≤ n := by rw [← hS']; simpa using Finset.card_le_univ S'
        obtain ⟨m, rfl⟩ := Nat.exists_eq_add_of_le' hm
        obtain ⟨n, rfl⟩ := Nat.exists_eq_add_of_le' hn
        subst hlen
        exact measurable_labels _ (measurable_remTerm E cw hw hψ p.2 hbl m n) S S' hS hS'
      · intro z hz
        have hz := (goodCfg_lab z).1 hz
        show irE E cw rank w ψ _ = _
        rw [hir, remE_eq E cw hns rank w ψ ω z hz.1.1 hz.2.1 hz.1.2 hz.2.2]
    · have hz := (goodCfg_lab z).1 hz
      show irE E cw rank w ψ _ = irE E cw rank w ψ _
      rw [hir, hir, insE_perm hs E rank hw hψ, remE_perm E cw hns rank w ψ ω z hz.1.1 hz.2.1 hz.1.2 hz.2.2]
  · obtain ⟨h1, h2, h3, h4⟩ := hs
    refine ⟨fun m n => ⟨_, measurable_labE (symDraw_shift E h1 h2 h3 h4) selAll selAll hw hψ m n, fun z _ => shiftE_eq E cw d w ψ ω z⟩,
      fun m n z _ σ τ => ?_⟩
    show shiftE E cw d w ψ _ = shiftE E cw d w ψ _
    rw [shiftE_eq, shiftE_eq, labE_perm]
  · refine ⟨fun m n => ⟨_, measurable_labE (symDraw_flavor β E.nf cw) selCd selC hw hψ m n, fun z _ => flavorE_eq E.nf cw w ψ ω z⟩,
      fun m n z _ σ τ => ?_⟩
    show flavorE E.nf cw w ψ _ = flavorE E.nf cw w ψ _
    rw [flavorE_eq, flavorE_eq, labE_perm]

theorem nice_step {β : ℝ} (E : PEnv) (hns : ∀ f, f < E.nf → E.sector f < E.ns) (s : CStep) (hs : s.OK β E)
    {w : CfgFun W ℝ} {ψ : CfgFun W ℝ≥0∞} {ω : W} (hw : w.Meas ω) (hψ : ψ.Meas ω) :
    Nice E.nf ω (fun x => s.step E w ψ x) := by
  have ha := nice_acc E hns s hs hw hψ
  have h1 := nice_acc E hns s hs hw (ψ := fun _ _ _ => 1) (ω := ω) (fun _ _ => measurable_const)
  have hp := nice_at (nf := E.nf) hψ
  refine ⟨fun m n => ?_, fun m n z hz σ τ => ?_⟩
  · obtain ⟨ga, hga, ha⟩ := ha.meas m n
    obtain ⟨g1, hg1, h1⟩ := h1.meas m n
    obtain ⟨gp, hgp, hp⟩ := hp.meas m n
    refine ⟨fun z => ga z + (1 - g1 z) * gp z, hga.add ((measurable_const.sub hg1).mul hgp), fun z hz => ?_⟩
    show s.acc E w ψ _ + (1 - s.acc E w _ _) * ψ.at _ = ga z + (1 - g1 z) * gp z
    rw [← ha z hz, ← h1 z hz, ← hp z hz]
  · have e1 := ha.perm m n z hz σ τ
    have e2 := h1.perm m n z hz σ τ
    have e3 := hp.perm m n z hz σ τ
    simp only [CStep.step] at e1 e2 e3 ⊢
    rw [e1, e2, e3]

theorem exists_perm {m : ℕ} {y : Fin m → BOp ℝ} (hy : Function.Injective y) {l : List (BOp ℝ)} (h : (l : Multiset (BOp ℝ)) = ms y) :
    ∃ σ : Equiv.Perm (Fin m), l = List.ofFn (y ∘ σ) := by
  have hp : l.Perm (List.ofFn y) := Multiset.coe_eq_coe.1 h
  have hlen : l.length = m := by rw [hp.length_eq, List.length_ofFn]
  subst hlen
  have hl : l = List.ofFn l.get := (List.ofFn_get l).symm
  have hinj : Function.Injective l.get := List.nodup_iff_injective_get.1 (hp.nodup_iff.2 (List.nodup_ofFn.2 hy))
  have hr : Set.range l.get = Set.range y := by
    ext o
    have h1 : o ∈ Set.range l.get ↔ o ∈ l := by
      conv_rhs => rw [hl]
      exact List.mem_ofFn.symm
    exact h1.trans (hp.mem_iff.trans List.mem_ofFn)
  refine ⟨(Equiv.ofInjective _ hinj).trans ((Equiv.setCongr hr).trans (Equiv.ofInjective _ hy).symm), ?_⟩
  conv_lhs => rw [hl]
  congr 1
  funext i
  simp [Equiv.apply_ofInjective_symm]

/-- The function of the set of operators is the function of any list of them. -/
theorem setFun_at {nf : ℕ} {ω : W} {F : PCfg ℝ W → ℝ≥0∞} (hF : Nice nf ω F) {m n : ℕ} (z : Lab m n)
    (hz : GoodCfg nf (ms z.1) (ms z.2)) : (setFun F).at (z.cfg ω) = F (z.cfg ω) := by
  have hz' := (goodCfg_lab z).1 hz
  obtain ⟨σ, hσ⟩ := exists_perm hz'.1.1 (l := (ms z.1).toList) (Multiset.coe_toList _)
  obtain ⟨τ, hτ⟩ := exists_perm hz'.2.1 (l := (ms z.2).toList) (Multiset.coe_toList _)
  rw [← hF.perm m n z hz σ τ]
  show F ⟨(ms z.1).toList, (ms z.2).toList, ω⟩ = F ⟨List.ofFn (z.1 ∘ σ), List.ofFn (z.2 ∘ τ), ω⟩
  rw [hσ, hτ]

open Classical in
/-- The function, zero outside the good configurations. -/
noncomputable def onGood (nf : ℕ) (F : CfgFun W ℝ≥0∞) : CfgFun W ℝ≥0∞ := fun X X' ω => if GoodCfg nf X X' then F X X' ω else 0

theorem measurableSet_good (nf m n : ℕ) : MeasurableSet {z : Lab m n | GoodCfg nf (ms z.1) (ms z.2)} := by
  have h : ∀ k, MeasurableSet {y : Fin k → BOp ℝ | Function.Injective y ∧ ∀ i, (y i).2 < nf} := by
    intro k
    have h1 : MeasurableSet {y : Fin k → BOp ℝ | Function.Injective y} := by
      have : {y : Fin k → BOp ℝ | Function.Injective y} = ⋂ i, ⋂ j, {y | y i = y j → i = j} := by
        ext y
        simp [Function.Injective]
      rw [this]
      refine MeasurableSet.iInter fun i => MeasurableSet.iInter fun j => ?_
      by_cases hij : i = j
      · simp [hij]
      · have : {y : Fin k → BOp ℝ | y i = y j → i = j} = {y | y i = y j}ᶜ := by
          ext y; simp [hij]
        rw [this]
        exact (measurableSet_eq_fun (measurable_pi_apply i) (measurable_pi_apply j)).compl
    have h2 : MeasurableSet {y : Fin k → BOp ℝ | ∀ i, (y i).2 < nf} := by
      have : {y : Fin k → BOp ℝ | ∀ i, (y i).2 < nf} = ⋂ i, {y | (y i).2 < nf} := by
        ext y; simp
      rw [this]
      refine MeasurableSet.iInter fun i => measurableSet_lt (measurable_snd.comp (measurable_pi_apply i)) measurable_const
    exact h1.inter h2
  have hz : {z : Lab m n | GoodCfg nf (ms z.1) (ms z.2)} =
      {y : Fin m → BOp ℝ | Function.Injective y ∧ ∀ i, (y i).2 < nf} ×ˢ
        {y : Fin n → BOp ℝ | Function.Injective y ∧ ∀ i, (y i).2 < nf} := by
    ext z
    exact goodCfg_lab z
  rw [hz]
  exact (h m).prod (h n)

theorem meas_onGood {nf : ℕ} {ω : W} {F : PCfg ℝ W → ℝ≥0∞} (hF : Nice nf ω F) : (onGood nf (setFun F)).Meas ω := by
  classical
  intro m n
  obtain ⟨g, hg, h⟩ := hF.meas m n
  have : (fun z : Lab m n => (onGood nf (setFun F)).at (z.cfg ω)) =
      {z : Lab m n | GoodCfg nf (ms z.1) (ms z.2)}.indicator g := by
    funext z
    by_cases hz : GoodCfg nf (ms z.1) (ms z.2)
    · rw [Set.indicator_of_mem (show z ∈ {z : Lab m n | GoodCfg nf (ms z.1) (ms z.2)} from hz), ← h z hz, ← setFun_at hF z hz]
      exact if_pos hz
    · rw [Set.indicator_of_notMem (show z ∉ {z : Lab m n | GoodCfg nf (ms z.1) (ms z.2)} from hz)]
      exact if_neg hz
  rw [this]
  exact hg.indicator (measurableSet_good nf m n)

/-! ### Only what has weight matters -/

theorem accE_congr {w : CfgFun W ℝ} {ψ χ : CfgFun W ℝ≥0∞} (h : ∀ X X' ω, w X X' ω ≠ 0 → ψ X X' ω = χ X X' ω)
    (x : PCfg ℝ W) (m : Mv ℝ W) (corr : ℝ) : accE w ψ x m corr = accE w χ x m corr := by
  unfold accE
  by_cases h0 : w.after x m = 0
  · rw [h0]; simp
  · congr 1
    exact h _ _ _ h0

theorem acc_congr (E : PEnv) {w : CfgFun W ℝ} {ψ χ : CfgFun W ℝ≥0∞} (h : ∀ X X' ω, w X X' ω ≠ 0 → ψ X X' ω = χ X X' ω)
    (x : PCfg ℝ W) (s : CStep) : s.acc E w ψ x = s.acc E w χ x := by
  rcases s with ⟨cw, rank⟩ | ⟨cw, d⟩ | ⟨cw⟩
  · simp only [CStep.acc, irE, insE, remE, accE_congr h]
  · simp only [CStep.acc, shiftE, accE_congr h]
  · simp only [CStep.acc, flavorE, accE_congr h]

theorem nice_run {β : ℝ} (E : PEnv) (hns : ∀ f, f < E.nf → E.sector f < E.ns)
    (w : CfgFun W ℝ) (ψ : CfgFun W ℝ≥0∞) (ω : W) (hw : w.Meas ω) (hψ : ψ.Meas ω)
    (hg : ∀ X X' ω, w X X' ω ≠ 0 → GoodCfg E.nf X X') (L : List CStep) (hL : ∀ s ∈ L, s.OK β E) :
    Nice E.nf ω (runE E w ψ L) ∧ ∀ s : CStep, ∀ m n (z : Lab m n), GoodCfg E.nf (ms z.1) (ms z.2) →
      runE E w ψ (s :: L) (z.cfg ω) = s.step E w (onGood E.nf (setFun (runE E w ψ L))) (z.cfg ω) := by
  have key : ∀ (L : List CStep) (s : CStep) (m n) (z : Lab m n), GoodCfg E.nf (ms z.1) (ms z.2) →
      runE E w ψ (s :: L) (z.cfg ω) = s.step E w (onGood E.nf (setFun (runE E w ψ L))) (z.cfg ω) := by
    intro L s m n z hz
    rw [runE]
    generalize setFun (runE E w ψ L) = χ
    rw [CStep.step, CStep.step, acc_congr E (χ := onGood E.nf χ) fun X X' ω h => (if_pos (hg X X' ω h)).symm]
    congr 2
    exact (if_pos hz).symm
  induction L with
  | nil => exact ⟨nice_at hψ, key []⟩
  | cons s L ih =>
    obtain ⟨ih1, ih2⟩ := ih fun s hs => hL s (List.mem_cons_of_mem _ hs)
    have hn := nice_step E hns s (hL s List.mem_cons_self) hw (meas_onGood ih1)
    have hnice : Nice E.nf ω (runE E w ψ (s :: L)) := by
      refine ⟨fun m n => ?_, fun m n z hz σ τ => ?_⟩
      · obtain ⟨g, hgm, h⟩ := hn.meas m n
        exact ⟨g, hgm, fun z hz => (ih2 s m n z hz).trans (h z hz)⟩
      · have hz' : GoodCfg E.nf (ms (z.1 ∘ σ)) (ms (z.2 ∘ τ)) := by rw [ms_perm, ms_perm]; exact hz
        rw [ih2 s m n z hz, ih2 s m n (z.1 ∘ σ, z.2 ∘ τ) hz']
        exact hn.perm m n z hz σ τ
    exact ⟨hnice, key (s :: L)⟩

theorem allFlow_congr_good {β : ℝ} {nf : ℕ} {ω : W} {w : CfgFun W ℝ} (hg : ∀ X X' ω, w X X' ω ≠ 0 → GoodCfg nf X X')
    {K L : PCfg ℝ W → ℝ≥0∞} (h : ∀ m n (z : Lab m n), GoodCfg nf (ms z.1) (ms z.2) → K (z.cfg ω) = L (z.cfg ω)) :
    allFlow β nf ω (fun _ _ _ => 1) w K = allFlow β nf ω (fun _ _ _ => 1) w L := by
  refine tsum_congr fun p => ?_
  unfold orderFlow
  congr 1
  refine lintegral_congr fun z => ?_
  by_cases hz : GoodCfg nf (ms z.1) (ms z.2)
  · rw [h _ _ z hz]
  · have : w.at (z.cfg ω) = 0 := by
      by_contra hn
      exact hz (hg _ _ _ hn)
    rw [this]
    simp

/-- **C79** (runs).  A run of pair updates, shifts and flavor updates of any length which starts with the
distribution `w` ends with the distribution `w`: the average of every measurable `ψ` at the end of the run
is the average of `ψ` with the weight `w`. -/
theorem C79_run_partial {β : ℝ} (E : PEnv) (hns : ∀ f, f < E.nf → E.sector f < E.ns)
    (w : CfgFun W ℝ) (ψ : CfgFun W ℝ≥0∞) (ω : W) (hw : w.Meas ω) (hψ : ψ.Meas ω) (h0 : ∀ X X', 0 ≤ w X X' ω)
    (hg : ∀ X X' ω, w X X' ω ≠ 0 → GoodCfg E.nf X X') (L : List CStep) (hL : ∀ s ∈ L, s.OK β E) :
    allFlow β E.nf ω (fun _ _ _ => 1) w (runE E w ψ L) = allFlow β E.nf ω (fun _ _ _ => 1) w ψ.at := by
  induction L with
  | nil => rfl
  | cons s L ih =>
    have hL' : ∀ s ∈ L, s.OK β E := fun s hs => hL s (List.mem_cons_of_mem _ hs)
    obtain ⟨hn, hs⟩ := nice_run E hns w ψ ω hw hψ hg L hL'
    rw [← ih hL', allFlow_congr_good hg (L := fun x => s.step E w (onGood E.nf (setFun (runE E w ψ L))) x) (hs s), step_stationary E hns s (hL s List.mem_cons_self) w _ ω hw (meas_onGood hn) h0]
    refine allFlow_congr_good hg fun m n z hz => ?_
    rw [← setFun_at hn z hz]
    exact if_pos hz

open Classical in
/-- A weight which vanishes if an operator occurs twice. -/
noncomputable def exW2 : CfgFun Unit ℝ := fun X X' ω => if GoodCfg 3 X X' then exW X X' ω else 0

theorem measurable_exW2 : exW2.Meas () := by
  classical
  intro m n
  have : (fun z : Lab m n => exW2.at (z.cfg ())) =
      {z : Lab m n | GoodCfg 3 (ms z.1) (ms z.2)}.indicator fun z => exW.at (z.cfg ()) := by
    funext z
    by_cases hz : GoodCfg 3 (ms z.1) (ms z.2)
    · rw [Set.indicator_of_mem (show z ∈ {z : Lab m n | GoodCfg 3 (ms z.1) (ms z.2)} from hz)]
      exact if_pos hz
    · rw [Set.indicator_of_notMem (show z ∉ {z : Lab m n | GoodCfg 3 (ms z.1) (ms z.2)} from hz)]
      exact if_neg hz
  rw [this]
  exact (measurable_exW m n).indicator (measurableSet_good 3 m n)

/-- A pair, a shift, two pairs at once and a flavor in different windows. -/
example (ψ : CfgFun Unit ℝ≥0∞) (hψ : ψ.Meas ()) :
    allFlow 2 3 () (fun _ _ _ => 1) exW2 (runE contEnv exW2 ψ
      [.pair ⟨0, 1, 0⟩ 1, .shift ⟨1 / 2, 3 / 2, 0⟩ (fun _ => 1 / 4), .pair ⟨1, 2, 0⟩ 2, .flavor ⟨0, 1, 0⟩]) =
      allFlow 2 3 () (fun _ _ _ => 1) exW2 ψ.at := by
  refine C79_run_partial (β := 2) contEnv (fun f _ => by simp only [contEnv]; split_ifs <;> norm_num) exW2 ψ ()
    measurable_exW2 hψ (fun X X' => ?_) (fun X X' ω h => ?_) _ ?_
  · unfold exW2
    split_ifs
    · exact sq_nonneg _
    · exact le_rfl
  · by_contra hn
    exact h (if_neg hn)
  · intro s hs
    simp only [List.mem_cons, List.not_mem_nil, or_false] at hs
    rcases hs with rfl | rfl | rfl | rfl
    · exact ⟨by norm_num, by norm_num, by norm_num, rfl⟩
    · exact ⟨by norm_num, by norm_num, fun _ => by norm_num, fun _ _ _ => rfl⟩
    · exact ⟨by norm_num, by norm_num, by norm_num, rfl⟩
    · trivial

end CTHyb
