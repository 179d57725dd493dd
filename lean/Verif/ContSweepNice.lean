import Verif.ContSweepWorm

/-!
Measurability and independence of the order of the operators for the updates of `Verif.ContSweep`.
-/

namespace CTHyb

open Rand MeasureTheory ENNReal

/-- Measurable on the good configurations, jointly in the times of the worm, and independent of the order of the
operators. -/
structure WNice (nf : ℕ) (F : WCfg ℝ → ℝ≥0∞) : Prop where
  none : Nice nf none F
  worm : ∀ (k : WormKind) (fs : Fin k.numFlavors → Fin nf) (m n : ℕ), ∃ g : (Fin k.numTimes → ℝ) × Lab m n → ℝ≥0∞,
    Measurable g ∧ ∀ ts (z : Lab m n), GoodCfg nf (ms z.1) (ms z.2) → F (z.cfg (some (mkW k ts fs))) = g (ts, z)
  perm : ∀ (k : WormKind) (ts : Fin k.numTimes → ℝ) (fs : Fin k.numFlavors → Fin nf) (m n : ℕ) (z : Lab m n),
    GoodCfg nf (ms z.1) (ms z.2) → ∀ (σ : Equiv.Perm (Fin m)) (τ : Equiv.Perm (Fin n)),
    F (Lab.cfg (z.1 ∘ σ, z.2 ∘ τ) (some (mkW k ts fs))) = F (z.cfg (some (mkW k ts fs)))

theorem WNice.some {nf : ℕ} {F : WCfg ℝ → ℝ≥0∞} (h : WNice nf F) (k : WormKind) (ts : Fin k.numTimes → ℝ)
    (fs : Fin k.numFlavors → Fin nf) : Nice nf (some (mkW k ts fs)) F where
  meas m n := by
    obtain ⟨g, hg, he⟩ := h.worm k fs m n
    exact ⟨_, measurable_right hg ts, fun z hz => he ts z hz⟩
  perm m n z hz σ τ := h.perm k ts fs m n z hz σ τ

theorem wnice_at {nf : ℕ} {ψ : CfgFun (Option (Worm ℝ)) ℝ≥0∞} (hψ : ψ.WMeas nf) : WNice nf ψ.at where
  none := nice_at hψ.none
  worm k fs m n := ⟨_, hψ.worm k fs m n, fun _ _ _ => rfl⟩
  perm k ts fs m n z hz σ τ := (nice_at (hψ.some k ts fs)).perm m n z hz σ τ

theorem accE_ms (w : CfgFun (Option (Worm ℝ)) ℝ) (ψ : CfgFun (Option (Worm ℝ)) ℝ≥0∞) {m n : ℕ} (z : Lab m n)
    (u u' : Option (Worm ℝ)) (c : ℝ) : accE w ψ (z.cfg u) ⟨[], [], [], [], u'⟩ c =
      ENNReal.ofReal (min 1 (w (ms z.1) (ms z.2) u' / w (ms z.1) (ms z.2) u * c)) * ψ (ms z.1) (ms z.2) u' := by
  simp only [accE, CfgFun.after, CfgFun.at, Multiset.coe_nil, tsub_zero, add_zero]
  rfl

theorem accE_perm (w : CfgFun (Option (Worm ℝ)) ℝ) (ψ : CfgFun (Option (Worm ℝ)) ℝ≥0∞) {m n : ℕ} (z : Lab m n)
    (σ : Equiv.Perm (Fin m)) (τ : Equiv.Perm (Fin n)) (u u' : Option (Worm ℝ)) (c : ℝ) :
    accE w ψ (Lab.cfg (z.1 ∘ σ, z.2 ∘ τ) u) ⟨[], [], [], [], u'⟩ c = accE w ψ (z.cfg u) ⟨[], [], [], [], u'⟩ c := by
  rw [accE_ms, accE_ms, ms_perm, ms_perm]

/-! ### The four kinds of updates -/

theorem wnice_bath {β : ℝ} (E : PEnv) (hns : ∀ f, f < E.nf → E.sector f < E.ns) (s : CStep) (hs : s.OK β E)
    {w : CfgFun (Option (Worm ℝ)) ℝ} {ψ : CfgFun (Option (Worm ℝ)) ℝ≥0∞} (hw : w.WMeas E.nf) (hψ : ψ.WMeas E.nf) :
    WNice E.nf (fun x => s.acc E w ψ x) where
  none := nice_acc E hns s hs hw.none hψ.none
  worm k fs m n := acc_par (ι := fun ts : Fin k.numTimes → ℝ => some (mkW k ts fs)) E hns s hs (hw.worm k fs) (hψ.worm k fs) m n
  perm k ts fs m n z hz σ τ := (nice_acc E hns s hs (hw.some k ts fs) (hψ.some k ts fs)).perm m n z hz σ τ

theorem pickSum_perm (E : PEnv) (cw : CWin) (bl bl' : List ℕ)
    (A : Multiset (BOp ℝ) → Multiset (BOp ℝ) → Multiset (BOp ℝ) → Multiset (BOp ℝ) → ℝ≥0∞) {m n : ℕ} (z : Lab m n)
    (σ : Equiv.Perm (Fin m)) (τ : Equiv.Perm (Fin n)) :
    pickSum E cw bl bl' A ((z.1 ∘ σ, z.2 ∘ τ) : Lab m n) = pickSum E cw bl bl' A z := by
  unfold pickSum
  rw [sum_powersetCard_perm bl.length z.1 σ fun X P =>
    ∑ S' ∈ (Finset.univ : Finset (Fin n)).powersetCard bl'.length,
      (facs E bl : ℝ≥0∞) * (facs E bl' : ℝ≥0∞) * (hitE E cw bl P * hitE E cw bl' (S'.val.map (z.2 ∘ τ)) *
        A X (S'ᶜ.val.map (z.2 ∘ τ)) P (S'.val.map (z.2 ∘ τ)))]
  refine Finset.sum_congr rfl fun S _ => ?_
  exact sum_powersetCard_perm bl'.length z.2 τ fun X' Q =>
    (facs E bl : ℝ≥0∞) * (facs E bl' : ℝ≥0∞) * (hitE E cw bl (S.val.map z.1) * hitE E cw bl' Q *
      A (Sᶜ.val.map z.1) X' (S.val.map z.1) Q)

theorem insDen'_perm (nf : ℕ) (cw : CWin) (k : WormKind) (K sw : ℝ) (w : CfgFun (Option (Worm ℝ)) ℝ)
    (ψ : CfgFun (Option (Worm ℝ)) ℝ≥0∞) (fs : Fin k.numFlavors → Fin nf) {m n : ℕ} (ts : Fin k.numTimes → ℝ) (z : Lab m n)
    (σ : Equiv.Perm (Fin m)) (τ : Equiv.Perm (Fin n)) :
    insDen' nf cw k K sw w ψ fs (ts, ((z.1 ∘ σ, z.2 ∘ τ) : Lab m n)) = insDen' nf cw k K sw w ψ fs (ts, z) := by
  unfold insDen' hybSum
  rw [pickSum_perm]
  simp only [accE_perm]

theorem nice_trans_none {β : ℝ} {cw : CWin} (hcw : cw.OK β) (nf : ℕ) (kinds : List WormKind)
    (hkf : ∀ k ∈ kinds, 0 < k.numFlavors) (sw : WormKind → ℝ) {w : CfgFun (Option (Worm ℝ)) ℝ}
    {ψ : CfgFun (Option (Worm ℝ)) ℝ≥0∞} (hw : w.WMeas nf) (hψ : ψ.WMeas nf) :
    Nice nf none (wormTransE nf cw kinds sw w ψ) where
  meas m n := ⟨_, measurable_list_sum _ _ fun k _ => Finset.measurable_sum _ fun fs _ =>
      Measurable.lintegral_prod_left' (measurable_insDen' nf cw hw hψ k kinds.length (sw k) fs m n),
    fun z hz => wormTransE_none hcw nf kinds hkf sw hw hψ z ((goodCfg_lab z).1 hz)⟩
  perm m n z hz σ τ := by
    have hz' : GoodCfg nf (ms (z.1 ∘ σ)) (ms (z.2 ∘ τ)) := by rw [ms_perm, ms_perm]; exact hz
    rw [wormTransE_none hcw nf kinds hkf sw hw hψ z ((goodCfg_lab z).1 hz),
      wormTransE_none hcw nf kinds hkf sw hw hψ (z.1 ∘ σ, z.2 ∘ τ) ((goodCfg_lab (z.1 ∘ σ, z.2 ∘ τ)).1 hz')]
    simp only [insDen'_perm]

theorem wnice_insRem {β : ℝ} {cw : CWin} (hcw : cw.OK β) (nf : ℕ) (kinds : List WormKind)
    (hkf : ∀ k ∈ kinds, 0 < k.numFlavors) (sw : WormKind → ℝ) {w : CfgFun (Option (Worm ℝ)) ℝ}
    {ψ : CfgFun (Option (Worm ℝ)) ℝ≥0∞} (hw : w.WMeas nf) (hψ : ψ.WMeas nf) :
    WNice nf (wormTransE nf cw kinds sw w ψ) where
  none := nice_trans_none hcw nf kinds hkf sw hw hψ
  worm k fs m n := ⟨_, measurable_trans_some hcw nf kinds sw hw hψ k fs m n, fun _ _ _ => rfl⟩
  perm k ts fs m n z hz σ τ := by
    by_cases h : ts ∈ Set.univ.pi fun _ : Fin k.numTimes => Set.Icc cw.lo cw.hi
    · have hin := (wormInWin_mkW cw k ts fs).2 h
      rw [wormTransE_some nf cw kinds sw w ψ (z.cfg (some (mkW k ts fs))) (mkW k ts fs) rfl hin,
        wormTransE_some nf cw kinds sw w ψ (Lab.cfg (z.1 ∘ σ, z.2 ∘ τ) (some (mkW k ts fs))) (mkW k ts fs) rfl hin]
      unfold remDen
      rw [hybE_some hcw nf (mkW k ts fs).kind _ w ψ (mkW k ts fs) (mkW_flavors k ts fs) hw.none (hw.some k ts fs) hψ.none z,
        hybE_some hcw nf (mkW k ts fs).kind _ w ψ (mkW k ts fs) (mkW_flavors k ts fs) hw.none (hw.some k ts fs) hψ.none
          (z.1 ∘ σ, z.2 ∘ τ)]
      simp only [accE_perm, ms_perm]
    · have hin : wormInWin cw.win (mkW k ts fs) = false := by
        rw [← Bool.not_eq_true, wormInWin_mkW]
        exact h
      rw [wormTransE_out nf cw kinds sw w ψ (z.cfg (some (mkW k ts fs))) (mkW k ts fs) rfl hin,
        wormTransE_out nf cw kinds sw w ψ (Lab.cfg (z.1 ∘ σ, z.2 ∘ τ) (some (mkW k ts fs))) (mkW k ts fs) rfl hin]

theorem changeE_none (nf : ℕ) (cw : CWin) (w : CfgFun (Option (Worm ℝ)) ℝ) (ψ : CfgFun (Option (Worm ℝ)) ℝ≥0∞) {m n : ℕ}
    (z : Lab m n) : changeE nf cw w ψ (z.cfg none) = 0 := by
  unfold changeE propE flavorChangePropose
  have hx : (z.cfg (none : Option (Worm ℝ))).worm = none := rfl
  rw [hx]
  simp only
  rw [meanE_ret]

theorem moverE_none (cw : CWin) (k : WormKind) (d : ℝ) (w : CfgFun (Option (Worm ℝ)) ℝ) (ψ : CfgFun (Option (Worm ℝ)) ℝ≥0∞)
    {m n : ℕ} (z : Lab m n) : moverE cw k d w ψ (z.cfg none) = 0 := rfl

theorem nice_zero {nf : ℕ} {ω : Option (Worm ℝ)} {F : WCfg ℝ → ℝ≥0∞} (h : ∀ m n (z : Lab m n), F (z.cfg ω) = 0) : Nice nf ω F where
  meas m n := ⟨fun _ => 0, measurable_const, fun z _ => h m n z⟩
  perm m n z _ σ τ := by rw [h, h]

theorem wnice_change {nf : ℕ} (cw : CWin) {w : CfgFun (Option (Worm ℝ)) ℝ} {ψ : CfgFun (Option (Worm ℝ)) ℝ≥0∞}
    (hw : w.WMeas nf) (hψ : ψ.WMeas nf) : WNice nf (changeE nf cw w ψ) where
  none := nice_zero fun _ _ z => changeE_none nf cw w ψ z
  worm k fs m n := ⟨_, measurable_changeE cw hw hψ k fs m n, fun _ _ _ => rfl⟩
  perm k ts fs m n z _ σ τ := by
    rw [changeE_eq, changeE_eq]
    simp only [accE_perm]

theorem wnice_move {β : ℝ} {cw : CWin} (hcw : cw.OK β) {nf : ℕ} (k : WormKind) (hk : k.numTimes = 1) {d : ℝ} (hd : 0 < d)
    {w : CfgFun (Option (Worm ℝ)) ℝ} {ψ : CfgFun (Option (Worm ℝ)) ℝ≥0∞} (hw : w.WMeas nf) (hψ : ψ.WMeas nf) :
    WNice nf (moverE cw k d w ψ) where
  none := nice_zero fun _ _ z => moverE_none cw k d w ψ z
  worm k' fs m n := ⟨_, measurable_moverE hcw k hk hd hw hψ k' fs m n, fun _ _ _ => rfl⟩
  perm k' ts fs m n z _ σ τ := by
    by_cases h : k' = k
    · subst h
      rw [moverE_eq hcw k' hk hd hw hψ ⟨0, by omega⟩, moverE_eq hcw k' hk hd hw hψ ⟨0, by omega⟩]
      simp only [accE_perm]
    · rw [moverE_other cw k d w ψ (z.cfg (some (mkW k' ts fs))) (mkW k' ts fs) rfl h,
        moverE_other cw k d w ψ (Lab.cfg (z.1 ∘ σ, z.2 ∘ τ) (some (mkW k' ts fs))) (mkW k' ts fs) rfl h]

/-! ### Functions of the set of operators -/

theorem wmeas_onGood {nf : ℕ} {F : WCfg ℝ → ℝ≥0∞} (hF : WNice nf F) : (onGood nf (setFun F)).WMeas nf where
  none := meas_onGood hF.none
  worm k fs m n := by
    classical
    obtain ⟨g, hg, h⟩ := hF.worm k fs m n
    have : (fun y : (Fin k.numTimes → ℝ) × Lab m n => onGood nf (setFun F) (ms y.2.1) (ms y.2.2) (some (mkW k y.1 fs))) =
        (Prod.snd ⁻¹' {z : Lab m n | GoodCfg nf (ms z.1) (ms z.2)}).indicator g := by
      funext y
      by_cases hz : GoodCfg nf (ms y.2.1) (ms y.2.2)
      · rw [Set.indicator_of_mem (show y ∈ Prod.snd ⁻¹' {z : Lab m n | GoodCfg nf (ms z.1) (ms z.2)} from hz),
          ← h y.1 y.2 hz, ← setFun_at (hF.some k y.1 fs) y.2 hz]
        exact if_pos hz
      · rw [Set.indicator_of_notMem (show y ∉ Prod.snd ⁻¹' {z : Lab m n | GoodCfg nf (ms z.1) (ms z.2)} from hz)]
        exact if_neg hz
    rw [this]
    exact hg.indicator ((measurableSet_good nf m n).preimage measurable_snd)

/-! ### Only what has weight matters -/

theorem propE_congr {w : CfgFun (Option (Worm ℝ)) ℝ} {ψ χ : CfgFun (Option (Worm ℝ)) ℝ≥0∞}
    (h : ∀ X X' ω, w X X' ω ≠ 0 → ψ X X' ω = χ X X' ω) (x : WCfg ℝ) (m : Rand ℝ (Option (Mv ℝ (Option (Worm ℝ)) × ℝ))) :
    propE w ψ x m = propE w χ x m := by
  unfold propE
  refine meanE_congr fun p _ => ?_
  rcases p.2 with _ | ⟨m, c⟩
  · rfl
  · exact accE_congr h x m c

theorem globalE_congr (g : BOp ℝ → BOp ℝ) (f : Worm ℝ → Worm ℝ) {w : CfgFun (Option (Worm ℝ)) ℝ}
    {ψ χ : CfgFun (Option (Worm ℝ)) ℝ≥0∞} (h : ∀ X X' ω, w X X' ω ≠ 0 → ψ X X' ω = χ X X' ω) (x : WCfg ℝ) :
    globalE g f w ψ x = globalE g f w χ x := by
  unfold globalE
  split_ifs
  · rfl
  · by_cases h0 : w.at ⟨x.cd.map g, x.c.map g, x.worm.map f⟩ = 0
    · rw [h0]; simp
    · congr 1
      exact h _ _ _ h0

theorem wacc_congr (E : PEnv) (kinds : List WormKind) (sw : WormKind → ℝ) {w : CfgFun (Option (Worm ℝ)) ℝ}
    {ψ χ : CfgFun (Option (Worm ℝ)) ℝ≥0∞} (h : ∀ X X' ω, w X X' ω ≠ 0 → ψ X X' ω = χ X X' ω) (x : WCfg ℝ) (s : WStep) :
    s.acc E kinds sw w ψ x = s.acc E kinds sw w χ x := by
  rcases s with s | cw | cw | ⟨cw, k, d⟩ | cw | r | p | b
  · exact acc_congr E h x s
  · simp only [WStep.acc, wormTransE, wormInsRemE, traceE, hybE, accE_congr h, propE_congr h]
  · exact propE_congr h x _
  · simp only [WStep.acc, moverE, accE_congr h]
  · simp only [WStep.acc, connectE, accE_congr h]
  · simp only [WStep.acc, greenE, propE_congr h]
  · exact globalE_congr _ _ h x
  · simp only [WStep.acc, globalShiftE, globalE_congr _ _ h]

/-! ### Sums of flows -/

theorem kindFlow_add {β : ℝ} {nf : ℕ} (k : WormKind) {w : CfgFun (Option (Worm ℝ)) ℝ} {φ : CfgFun (Option (Worm ℝ)) ℝ≥0∞}
    (hw : w.WMeas nf) (hφ : φ.WMeas nf) (K L : WCfg ℝ → ℝ≥0∞)
    (hK : ∀ (fs : Fin k.numFlavors → Fin nf) (m n : ℕ),
      Measurable fun y : (Fin k.numTimes → ℝ) × Lab m n => K (y.2.cfg (some (mkW k y.1 fs)))) :
    kindFlow β nf φ w (fun x => K x + L x) k = kindFlow β nf φ w K k + kindFlow β nf φ w L k := by
  unfold kindFlow
  rw [← Finset.sum_add_distrib]
  refine Finset.sum_congr rfl fun fs _ => ?_
  have hmeas : Measurable fun ts : Fin k.numTimes → ℝ => allFlow β nf (some (mkW k ts fs)) φ w K := by
    unfold allFlow orderFlow
    exact Measurable.tsum fun p => (Measurable.lintegral_prod_right' (ν := labMeasure β nf p.1 p.2)
      (measurable_flowAt hφ hw (hK fs p.1 p.2))).const_mul _
  rw [← lintegral_add_left hmeas]
  refine lintegral_congr fun ts => ?_
  exact allFlow_add β nf _ φ w (hφ.some k ts fs) (hw.some k ts fs) _ _ fun m n => (measurable_right (hK fs m n) ts).aemeasurable

theorem kindFlow_congr {β : ℝ} {nf : ℕ} (k : WormKind) (φ φ' : CfgFun (Option (Worm ℝ)) ℝ≥0∞)
    (w : CfgFun (Option (Worm ℝ)) ℝ) (K K' : WCfg ℝ → ℝ≥0∞) (h : ∀ x, φ.at x * K x = φ'.at x * K' x) :
    kindFlow β nf φ w K k = kindFlow β nf φ' w K' k := by
  have ha : ∀ ω, allFlow β nf ω φ w K = allFlow β nf ω φ' w K' := by
    intro ω
    refine tsum_congr fun p => ?_
    unfold orderFlow
    congr 1
    refine lintegral_congr fun z => ?_
    rw [mul_right_comm, h, mul_right_comm]
  unfold kindFlow
  simp only [ha]

theorem hold_kind {β : ℝ} {nf : ℕ} (k : WormKind) {w : CfgFun (Option (Worm ℝ)) ℝ} (hw : w.WMeas nf)
    (K : CfgFun (Option (Worm ℝ)) ℝ≥0∞ → WCfg ℝ → ℝ≥0∞)
    (hrev : ∀ φ ψ : CfgFun (Option (Worm ℝ)) ℝ≥0∞, φ.WMeas nf → ψ.WMeas nf → kindFlow β nf φ w (K ψ) k = kindFlow β nf ψ w (K φ) k)
    (hK : ∀ ψ : CfgFun (Option (Worm ℝ)) ℝ≥0∞, ψ.WMeas nf → ∀ (fs : Fin k.numFlavors → Fin nf) (m n : ℕ),
      Measurable fun y : (Fin k.numTimes → ℝ) × Lab m n => K ψ (y.2.cfg (some (mkW k y.1 fs))))
    (hle : ∀ x, K (fun _ _ _ => 1) x ≤ 1) (ψ : CfgFun (Option (Worm ℝ)) ℝ≥0∞) (hψ : ψ.WMeas nf) :
    kindFlow β nf (fun _ _ _ => 1) w (fun x => K ψ x + (1 - K (fun _ _ _ => 1) x) * ψ.at x) k =
      kindFlow β nf (fun _ _ _ => 1) w ψ.at k := by
  have h1 := wmeas_one nf
  rw [kindFlow_add k hw h1 _ _ (hK ψ hψ), hrev _ ψ h1 hψ,
    kindFlow_congr k _ ψ w (fun x => (1 - K (fun _ _ _ => 1) x) * ψ.at x) (fun x => 1 - K (fun _ _ _ => 1) x),
    ← kindFlow_add k hw hψ _ _ (hK _ h1)]
  · refine kindFlow_congr k _ _ w _ _ fun x => ?_
    beta_reduce
    rw [add_tsub_cancel_of_le (hle _), mul_one]
    show ψ.at x = 1 * ψ.at x
    rw [one_mul]
  · intro x
    show 1 * (_ * ψ.at x) = ψ.at x * _
    rw [one_mul, mul_comm]

end CTHyb
