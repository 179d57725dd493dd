import Verif.ContWormSwap

/-!
# Insertion and removal of worms in continuous time

Specification: the configurations without worm and, for each worm type `k`, the configurations with a worm of
type `k`, the flavors of the worm and its times in `[0, β]`.  `allFlow` (Verif/ContInsProps.lean) is the integral over the
operators of the bath.  The configurations with a worm of type `k` carry the additional weight `spaceWeight k`.
-/

namespace CTHyb

open Rand MeasureTheory ENNReal

/-- **Specification.**  Integral of `φ · w · K` over all configurations with a worm of type `k`. -/
noncomputable def kindFlow (β : ℝ) (nf : ℕ) (φ : CfgFun (Option (Worm ℝ)) ℝ≥0∞) (w : CfgFun (Option (Worm ℝ)) ℝ)
    (K : WCfg ℝ → ℝ≥0∞) (k : WormKind) : ℝ≥0∞ :=
  ∑ fs : Fin k.numFlavors → Fin nf, ∫⁻ ts, allFlow β nf (some (mkW k ts fs)) φ w K
    ∂(Measure.pi fun _ : Fin k.numTimes => volume.restrict (Set.Icc 0 β))

/-- **Specification.**  Integral of `φ · w · K` over all configurations, those with a worm of type `k` weighted by
`spaceWeight k`. -/
noncomputable def wFlow (β : ℝ) (nf : ℕ) (kinds : List WormKind) (spaceWeight : WormKind → ℝ)
    (φ : CfgFun (Option (Worm ℝ)) ℝ≥0∞) (w : CfgFun (Option (Worm ℝ)) ℝ) (K : WCfg ℝ → ℝ≥0∞) : ℝ≥0∞ :=
  allFlow β nf none φ w K + (kinds.map fun k => ENNReal.ofReal (spaceWeight k) * kindFlow β nf φ w K k).sum

/-- **C80** (balance).  The flow from the configurations without worm to those with a worm is the flow back. -/
theorem C80_balance_partial {β : ℝ} {cw : CWin} (hcw : cw.OK β) (nf : ℕ) (hnf : 0 < nf) (kinds : List WormKind)
    (hkf : ∀ k ∈ kinds, 0 < k.numFlavors) (sw : WormKind → ℝ) (hsw : ∀ k ∈ kinds, 0 < sw k)
    {w : CfgFun (Option (Worm ℝ)) ℝ} {φ ψ : CfgFun (Option (Worm ℝ)) ℝ≥0∞} (hw : w.WMeas nf) (hφ : φ.WMeas nf)
    (hψ : ψ.WMeas nf) (h0 : ∀ X X' ω, 0 ≤ w X X' ω) :
    allFlow β nf none φ w (wormTransE nf cw kinds sw w ψ) =
      (kinds.map fun k => ENNReal.ofReal (sw k) * kindFlow β nf ψ w (wormTransE nf cw kinds sw w φ) k).sum := by
  rw [allFlow_trans hcw nf kinds hkf sw hw hφ hψ]
  congr 1
  refine List.map_congr_left fun k hk => ?_
  have hK : (0 : ℝ) < kinds.length := Nat.cast_pos.2 (List.length_pos_of_mem hk)
  unfold kindFlow
  rw [Finset.mul_sum]
  refine Finset.sum_congr rfl fun fs _ => ?_
  rw [lintegral_window hcw k.numTimes, ← lintegral_const_mul' _ _ ENNReal.ofReal_ne_top]
  · have hae : ∀ᵐ ts ∂(winTimes cw k.numTimes), ts ∈ Set.univ.pi fun _ : Fin k.numTimes => Set.Icc cw.lo cw.hi := by
      have hS : MeasurableSet (Set.univ.pi fun _ : Fin k.numTimes => Set.Icc cw.lo cw.hi) :=
        MeasurableSet.univ_pi fun _ => measurableSet_Icc
      unfold winTimes
      rw [← Measure.restrict_pi_pi]
      exact ae_restrict_mem hS
    refine lintegral_congr_ae ?_
    filter_upwards [hae] with ts hts
    rw [worm_all hcw nf hnf k hw hφ hψ h0 ts fs hK (hsw k hk)]
    congr 1
    refine tsum_congr fun p => ?_
    unfold orderFlow
    congr 1
    refine lintegral_congr fun z => ?_
    rw [wormTransE_some nf cw kinds sw w φ (z.cfg (some (mkW k ts fs))) (mkW k ts fs) rfl ((wormInWin_mkW cw k ts fs).2 hts)]
    rfl
  · intro ts hts
    have hin : wormInWin cw.win (mkW k ts fs) = false := by
      rw [← Bool.not_eq_true, wormInWin_mkW]
      exact hts
    unfold allFlow orderFlow
    have : ∀ (p : ℕ × ℕ) (z : Lab p.1 p.2), wormTransE nf cw kinds sw w φ (z.cfg (some (mkW k ts fs))) = 0 := fun p z =>
      wormTransE_out nf cw kinds sw w φ (z.cfg (some (mkW k ts fs))) (mkW k ts fs) rfl hin
    simp only [this, mul_zero, lintegral_zero, tsum_zero]

/-- **C80** (reversibility).  Insertion and removal of worms, with the choice of the worm type, are reversible with respect
to the weight `w`, times `spaceWeight k` for the configurations with a worm of type `k`. -/
theorem C80_reversible_partial {β : ℝ} {cw : CWin} (hcw : cw.OK β) (nf : ℕ) (hnf : 0 < nf) (kinds : List WormKind)
    (hkf : ∀ k ∈ kinds, 0 < k.numFlavors) (sw : WormKind → ℝ) (hsw : ∀ k ∈ kinds, 0 < sw k)
    {w : CfgFun (Option (Worm ℝ)) ℝ} {φ ψ : CfgFun (Option (Worm ℝ)) ℝ≥0∞} (hw : w.WMeas nf) (hφ : φ.WMeas nf)
    (hψ : ψ.WMeas nf) (h0 : ∀ X X' ω, 0 ≤ w X X' ω) :
    wFlow β nf kinds sw φ w (wormTransE nf cw kinds sw w ψ) = wFlow β nf kinds sw ψ w (wormTransE nf cw kinds sw w φ) := by
  unfold wFlow
  rw [C80_balance_partial hcw nf hnf kinds hkf sw hsw hw hφ hψ h0, C80_balance_partial hcw nf hnf kinds hkf sw hsw hw hψ hφ h0,
    add_comm]

/-! ### The whole step -/

theorem measurable_list_sum {A X : Type} [MeasurableSpace X] (f : A → X → ℝ≥0∞) :
    ∀ L : List A, (∀ a ∈ L, Measurable (f a)) → Measurable fun x => (L.map fun a => f a x).sum
  | [], _ => by simp
  | a :: L, h => by
    simp only [List.map_cons, List.sum_cons]
    exact (h a List.mem_cons_self).add (measurable_list_sum f L fun b hb => h b (List.mem_cons_of_mem _ hb))

theorem aemeasurable_trans_none {β : ℝ} {cw : CWin} (hcw : cw.OK β) (nf : ℕ) (kinds : List WormKind)
    (hkf : ∀ k ∈ kinds, 0 < k.numFlavors) (sw : WormKind → ℝ) {w : CfgFun (Option (Worm ℝ)) ℝ}
    {ψ : CfgFun (Option (Worm ℝ)) ℝ≥0∞} (hw : w.WMeas nf) (hψ : ψ.WMeas nf) (m n : ℕ) :
    AEMeasurable (fun z : Lab m n => wormTransE nf cw kinds sw w ψ (z.cfg none)) (labMeasure β nf m n) := by
  have hae : (fun z : Lab m n => wormTransE nf cw kinds sw w ψ (z.cfg none)) =ᵐ[labMeasure β nf m n] fun z =>
      (kinds.map fun k => ∑ fs : Fin k.numFlavors → Fin nf,
        ∫⁻ ts, insDen' nf cw k kinds.length (sw k) w ψ fs (ts, z) ∂(winTimes cw k.numTimes)).sum := by
    filter_upwards [ae_labels β nf m n] with z hz
    exact wormTransE_none hcw nf kinds hkf sw hw hψ z hz
  refine AEMeasurable.congr (Measurable.aemeasurable ?_) hae.symm
  exact measurable_list_sum _ _ fun k _ => Finset.measurable_sum _ fun fs _ =>
    Measurable.lintegral_prod_left' (measurable_insDen' nf cw hw hψ k kinds.length (sw k) fs m n)

theorem measurable_accRem_par {nf : ℕ} {w : CfgFun (Option (Worm ℝ)) ℝ} {φ : CfgFun (Option (Worm ℝ)) ℝ≥0∞}
    (hw : w.WMeas nf) (hφ : φ.WMeas nf) (k : WormKind) (fs : Fin k.numFlavors → Fin nf) (c : ℝ) (m n : ℕ) :
    Measurable fun z : (Fin k.numTimes → ℝ) × Lab m n => accE w φ (z.2.cfg (some (mkW k z.1 fs))) ⟨[], [], [], [], none⟩ c := by
  have : (fun z : (Fin k.numTimes → ℝ) × Lab m n => accE w φ (z.2.cfg (some (mkW k z.1 fs))) ⟨[], [], [], [], none⟩ c) =
      fun z => ENNReal.ofReal (min 1 (w (ms z.2.1) (ms z.2.2) none / w (ms z.2.1) (ms z.2.2) (some (mkW k z.1 fs)) * c)) *
        φ (ms z.2.1) (ms z.2.2) none := by
    funext z
    simp only [accE, CfgFun.after, CfgFun.at, Multiset.coe_nil, tsub_zero, add_zero]
    rfl
  rw [this]
  exact (ENNReal.measurable_ofReal.comp (measurable_const.min
    ((((hw.none m n).comp measurable_snd).div (hw.worm k fs m n)).mul_const _))).mul ((hφ.none m n).comp measurable_snd)

theorem measurable_hybRemT_par (nf : ℕ) (cw : CWin) {w : CfgFun (Option (Worm ℝ)) ℝ} {φ : CfgFun (Option (Worm ℝ)) ℝ≥0∞}
    (hw : w.WMeas nf) (hφ : φ.WMeas nf) (k : WormKind) (fs : Fin k.numFlavors → Fin nf) (bl bl' : List ℕ) (c : ℝ) (m n a b : ℕ) :
    Measurable fun z : ((Fin k.numTimes → ℝ) × Lab m n) × Lab a b => hybRemT nf cw w φ bl bl' c (some (mkW k z.1.1 fs))
      (ms z.1.2.1) (ms z.1.2.2) (ms z.2.1) (ms z.2.2) := by
  have hts : Measurable fun z : ((Fin k.numTimes → ℝ) × Lab m n) × Lab a b => (z.1.2, z.2) :=
    (measurable_snd.comp measurable_fst).prodMk measurable_snd
  unfold hybRemT
  refine Measurable.mul (ENNReal.measurable_ofReal.comp (measurable_const.min ?_)) ((hφ.none.add₂ m n a b).comp hts)
  exact (((hw.none.add₂ m n a b).comp hts).div ((hw.worm k fs m n).comp measurable_fst)).mul
    ((measurable_hybC nf cw bl bl' c m n).comp (measurable_snd.comp measurable_fst)).inv

theorem measurable_hybE_par {β : ℝ} {cw : CWin} (hcw : cw.OK β) (nf : ℕ) (ws : ℝ) {w : CfgFun (Option (Worm ℝ)) ℝ}
    {φ : CfgFun (Option (Worm ℝ)) ℝ≥0∞} (hw : w.WMeas nf) (hφ : φ.WMeas nf) (k : WormKind) (fs : Fin k.numFlavors → Fin nf)
    (m n : ℕ) :
    Measurable fun z : (Fin k.numTimes → ℝ) × Lab m n => hybE nf cw k ws w φ (z.2.cfg (some (mkW k z.1 fs))) := by
  have : (fun z : (Fin k.numTimes → ℝ) × Lab m n => hybE nf cw k ws w φ (z.2.cfg (some (mkW k z.1 fs)))) = fun z =>
      ENNReal.ofReal (listDens (flavEnv nf) cw (wormFlavs k fs .creation)) *
      ENNReal.ofReal (listDens (flavEnv nf) cw (wormFlavs k fs .annihilation)) *
      ∫⁻ v, hybRemT nf cw w φ (wormFlavs k fs .creation) (wormFlavs k fs .annihilation)
          (ws * (cw.hi - cw.lo) ^ k.numTimes * (nf : ℝ) ^ k.numFlavors) (some (mkW k z.1 fs)) (ms z.2.1) (ms z.2.2)
          (ms v.1) (ms v.2)
        ∂((listMeasure β (flavEnv nf) cw (wormFlavs k fs .creation)).prod
          (listMeasure β (flavEnv nf) cw (wormFlavs k fs .annihilation))) := by
    funext z
    have hE := hybE_some hcw nf k ws w φ (mkW k z.1 fs) (mkW_flavors k z.1 fs) hw.none (hw.some k z.1 fs) hφ.none z.2
    rw [typeFlavors_mkW, typeFlavors_mkW] at hE
    exact hE
  rw [this]
  exact (Measurable.lintegral_prod_right' (measurable_hybRemT_par nf cw hw hφ k fs _ _ _ m n _ _)).const_mul _

open Classical in
theorem measurable_trans_some {β : ℝ} {cw : CWin} (hcw : cw.OK β) (nf : ℕ) (kinds : List WormKind)
    (sw : WormKind → ℝ) {w : CfgFun (Option (Worm ℝ)) ℝ}
    {φ : CfgFun (Option (Worm ℝ)) ℝ≥0∞} (hw : w.WMeas nf) (hφ : φ.WMeas nf) (k : WormKind) (fs : Fin k.numFlavors → Fin nf)
    (m n : ℕ) :
    Measurable fun z : (Fin k.numTimes → ℝ) × Lab m n => wormTransE nf cw kinds sw w φ (z.2.cfg (some (mkW k z.1 fs))) := by
  have hS : MeasurableSet {z : (Fin k.numTimes → ℝ) × Lab m n | z.1 ∈ Set.univ.pi fun _ : Fin k.numTimes => Set.Icc cw.lo cw.hi} :=
    (MeasurableSet.univ_pi fun _ => measurableSet_Icc).preimage measurable_fst
  have : (fun z : (Fin k.numTimes → ℝ) × Lab m n => wormTransE nf cw kinds sw w φ (z.2.cfg (some (mkW k z.1 fs)))) =
      {z : (Fin k.numTimes → ℝ) × Lab m n | z.1 ∈ Set.univ.pi fun _ : Fin k.numTimes => Set.Icc cw.lo cw.hi}.indicator fun z =>
        remDen nf cw k kinds.length (sw k) w φ (mkW k z.1 fs) (z.2.cfg (some (mkW k z.1 fs))) := by
    funext z
    by_cases h : z.1 ∈ Set.univ.pi fun _ : Fin k.numTimes => Set.Icc cw.lo cw.hi
    · rw [Set.indicator_of_mem (by exact h)]
      exact wormTransE_some nf cw kinds sw w φ _ (mkW k z.1 fs) rfl ((wormInWin_mkW cw k z.1 fs).2 h)
    · rw [Set.indicator_of_notMem (by exact h)]
      refine wormTransE_out nf cw kinds sw w φ _ (mkW k z.1 fs) rfl ?_
      rw [← Bool.not_eq_true, wormInWin_mkW]
      exact h
  rw [this]
  refine Measurable.indicator ?_ hS
  unfold remDen
  refine Measurable.add (Measurable.add ((measurable_accRem_par hw hφ k fs _ m n).const_mul _) ?_)
    ((measurable_hybE_par hcw nf _ hw hφ k fs m n).const_mul _)
  by_cases hd : wormDiagonal (⟨k, [], flavList fs⟩ : Worm ℝ) = true
  · have hd' : ∀ ts : Fin k.numTimes → ℝ, wormDiagonal (mkW k ts fs) = true := fun ts => hd
    simp only [hd', if_true]
    exact (measurable_accRem_par hw hφ k fs _ m n).const_mul _
  · have hd' : ∀ ts : Fin k.numTimes → ℝ, ¬ wormDiagonal (mkW k ts fs) = true := fun ts => hd
    simp only [hd', if_false]
    exact measurable_const

theorem wFlow_add {β : ℝ} {cw : CWin} (hcw : cw.OK β) (nf : ℕ) (kinds : List WormKind) (hkf : ∀ k ∈ kinds, 0 < k.numFlavors)
    (sw : WormKind → ℝ) {w : CfgFun (Option (Worm ℝ)) ℝ} {φ ψ : CfgFun (Option (Worm ℝ)) ℝ≥0∞} (hw : w.WMeas nf)
    (hφ : φ.WMeas nf) (hψ : ψ.WMeas nf) (L : WCfg ℝ → ℝ≥0∞) :
    wFlow β nf kinds sw φ w (fun x => wormTransE nf cw kinds sw w ψ x + L x) =
      wFlow β nf kinds sw φ w (wormTransE nf cw kinds sw w ψ) + wFlow β nf kinds sw φ w L := by
  unfold wFlow
  have hk : ∀ k, kindFlow β nf φ w (fun x => wormTransE nf cw kinds sw w ψ x + L x) k =
      kindFlow β nf φ w (wormTransE nf cw kinds sw w ψ) k + kindFlow β nf φ w L k := by
    intro k
    unfold kindFlow
    rw [← Finset.sum_add_distrib]
    refine Finset.sum_congr rfl fun fs _ => ?_
    have hj : ∀ m n, Measurable fun z : (Fin k.numTimes → ℝ) × Lab m n =>
        φ.at (z.2.cfg (some (mkW k z.1 fs))) * ENNReal.ofReal (w.at (z.2.cfg (some (mkW k z.1 fs)))) *
          wormTransE nf cw kinds sw w ψ (z.2.cfg (some (mkW k z.1 fs))) := fun m n =>
      ((hφ.worm k fs m n).mul (ENNReal.measurable_ofReal.comp (hw.worm k fs m n))).mul
        (measurable_trans_some hcw nf kinds sw hw hψ k fs m n)
    have hmeas : Measurable fun ts : Fin k.numTimes → ℝ =>
        allFlow β nf (some (mkW k ts fs)) φ w (wormTransE nf cw kinds sw w ψ) := by
      unfold allFlow orderFlow
      exact Measurable.tsum fun p => (Measurable.lintegral_prod_right' (ν := labMeasure β nf p.1 p.2) (hj p.1 p.2)).const_mul _
    rw [← lintegral_add_left hmeas]
    refine lintegral_congr fun ts => ?_
    exact allFlow_add β nf _ φ w (hφ.some k ts fs) (hw.some k ts fs) _ _ fun m n =>
      (measurable_right (measurable_trans_some hcw nf kinds sw hw hψ k fs m n) ts).aemeasurable
  rw [allFlow_add β nf none φ w hφ.none hw.none _ _ (aemeasurable_trans_none hcw nf kinds hkf sw hw hψ)]
  simp only [hk, mul_add]
  rw [List.sum_map_add]
  ring

/-! ### The probability to accept is at most one -/

theorem subProb_coin : SubProb (coin (1 / 2 : ℝ)) := by
  rw [SubProb, meanE_coin_half, mul_one, ← ENNReal.ofReal_add (by norm_num) (by norm_num)]
  norm_num

theorem timesC_le (cw : CWin) (n : ℕ) : ∀ G : List ℝ → ℝ≥0∞, (∀ ts, G ts ≤ 1) → timesC cw n G ≤ 1 := by
  induction n with
  | zero => exact fun G h => h []
  | succ n ih =>
    intro G h
    refine (lintegral_mono (g := fun _ => 1) fun u => ih _ fun ts => h _).trans ?_
    simp

theorem attachC_le (cw : CWin) (os : List (Psi (OpTime ℝ))) : ∀ G : List (BOp ℝ) → List (BOp ℝ) → ℝ≥0∞,
    (∀ p q, G p q ≤ 1) → attachC cw os G ≤ 1 := by
  induction os with
  | nil => exact fun G h => h [] []
  | cons o os ih =>
    intro G h
    refine (lintegral_mono (g := fun _ => 1) fun u => ih _ fun p q => ?_).trans ?_
    · split_ifs
      · exact h _ _
      · exact h _ _
    · simp

theorem subProb_drawList {A : Type} {m : Rand ℝ A} (hm : NonnegR m) (h : SubProb m) (n : ℕ) : SubProb (drawList m n) := by
  induction n with
  | zero => exact SubProb.ret _
  | succ n ih => exact SubProb.bind hm h fun _ => SubProb.bind (nnr_drawList hm n) ih fun _ => SubProb.ret _

theorem subProb_frontIdx (N n : ℕ) : SubProb (frontIdx ℝ N n) := by
  induction n generalizing N with
  | zero => exact SubProb.ret _
  | succ n ih => exact SubProb.bind (nnr_unif _) (SubProb.unif _) fun _ => SubProb.bind (nnr_frontIdx _ _) (ih _) fun _ => SubProb.ret _

theorem subProb_pickFlavors (ops : ℕ → List (BOp ℝ)) (m : ℕ → ℕ) (fs : List ℕ) : SubProb (pickFlavors ops m fs) := by
  induction fs with
  | nil => exact SubProb.ret _
  | cons f fs ih =>
    rw [pickFlavors]
    split_ifs
    · exact ih
    · exact SubProb.bind (nnr_bind (nnr_frontIdx _ _) fun _ => nnr_ret _)
        (SubProb.bind (nnr_frontIdx _ _) (subProb_frontIdx _ _) fun _ => SubProb.ret _) fun _ =>
        SubProb.bind (nnr_pickFlavors _ _ _) ih fun _ => SubProb.ret _

theorem propE_le (w : CfgFun (Option (Worm ℝ)) ℝ) (x : WCfg ℝ) {m : Rand ℝ (Option (Mv ℝ (Option (Worm ℝ)) × ℝ))}
    (hm : SubProb m) : propE w (fun _ _ _ => 1) x m ≤ 1 := by
  refine hm.le fun p _ => ?_
  rcases p.2 with _ | ⟨m, c⟩
  · exact zero_le
  · exact accE_one_le _ _ _ _

theorem traceE_le (nf : ℕ) (cw : CWin) (k : WormKind) (ws : ℝ) (w : CfgFun (Option (Worm ℝ)) ℝ) (x : WCfg ℝ) :
    traceE nf cw k ws w (fun _ _ _ => 1) x ≤ 1 := by
  unfold traceE
  rcases hx : x.worm with _ | u
  · refine timesC_le cw _ _ fun ts => subProb_coin.le fun p _ => ?_
    split_ifs
    · exact (subProb_drawList (nnr_unif _) (SubProb.unif _) _).le fun _ _ => accE_one_le _ _ _ _
    · exact (SubProb.unif _).le fun _ _ => accE_one_le _ _ _ _
  · refine propE_le w x ?_
    unfold tracePropose
    rw [hx]
    refine SubProb.bind nnr_coin subProb_coin fun b => ?_
    split_ifs
    · exact SubProb.ret _
    · exact SubProb.ret _
    · exact SubProb.ret _

theorem hybE_le (nf : ℕ) (cw : CWin) (k : WormKind) (ws : ℝ) (w : CfgFun (Option (Worm ℝ)) ℝ) (x : WCfg ℝ) :
    hybE nf cw k ws w (fun _ _ _ => 1) x ≤ 1 := by
  unfold hybE
  rcases hx : x.worm with _ | u
  · refine timesC_le cw _ _ fun ts => (subProb_drawList (nnr_unif _) (SubProb.unif _) _).le fun p _ => propE_le w x ?_
    unfold hybPick
    simp only
    split_ifs
    · exact SubProb.ret _
    · exact SubProb.bind (nnr_pickFlavors _ _ _) (subProb_pickFlavors _ _ _) fun _ =>
        SubProb.bind (nnr_pickFlavors _ _ _) (subProb_pickFlavors _ _ _) fun _ => SubProb.ret _
  · exact attachC_le cw _ _ fun p q => accE_one_le _ _ _ _

theorem wormInsRemE_le (nf : ℕ) (cw : CWin) (k : WormKind) (sw rate : ℝ) (w : CfgFun (Option (Worm ℝ)) ℝ) (x : WCfg ℝ) :
    wormInsRemE nf cw k sw rate w (fun _ _ _ => 1) x ≤ 1 := by
  unfold wormInsRemE
  split_ifs
  · exact zero_le
  · refine subProb_coin.le fun p _ => ?_
    split_ifs
    · exact traceE_le _ _ _ _ _ _
    · exact hybE_le _ _ _ _ _ _

theorem wormTransE_le (nf : ℕ) (cw : CWin) (kinds : List WormKind) (sw : WormKind → ℝ) (w : CfgFun (Option (Worm ℝ)) ℝ)
    (x : WCfg ℝ) : wormTransE nf cw kinds sw w (fun _ _ _ => 1) x ≤ 1 := by
  unfold wormTransE
  rcases x.worm with _ | u
  · exact (SubProb.unif _).le fun _ _ => wormInsRemE_le _ _ _ _ _ _ _
  · exact wormInsRemE_le _ _ _ _ _ _ _

/-- The whole step: the accepted moves, and otherwise the configuration stays. -/
noncomputable def wormStepE (nf : ℕ) (cw : CWin) (kinds : List WormKind) (spaceWeight : WormKind → ℝ)
    (w : CfgFun (Option (Worm ℝ)) ℝ) (ψ : CfgFun (Option (Worm ℝ)) ℝ≥0∞) (x : WCfg ℝ) : ℝ≥0∞ :=
  wormTransE nf cw kinds spaceWeight w ψ x +
    (1 - wormTransE nf cw kinds spaceWeight w (fun _ _ _ => 1) x) * ψ.at x

theorem wFlow_congr (β : ℝ) (nf : ℕ) (kinds : List WormKind) (sw : WormKind → ℝ) (φ φ' : CfgFun (Option (Worm ℝ)) ℝ≥0∞)
    (w : CfgFun (Option (Worm ℝ)) ℝ) (K K' : WCfg ℝ → ℝ≥0∞) (h : ∀ x, φ.at x * K x = φ'.at x * K' x) :
    wFlow β nf kinds sw φ w K = wFlow β nf kinds sw φ' w K' := by
  have ha : ∀ ω, allFlow β nf ω φ w K = allFlow β nf ω φ' w K' := by
    intro ω
    refine tsum_congr fun p => ?_
    unfold orderFlow
    congr 1
    refine lintegral_congr fun z => ?_
    rw [mul_right_comm, h, mul_right_comm]
  unfold wFlow kindFlow
  simp only [ha]

theorem wmeas_one (nf : ℕ) : CfgFun.WMeas nf (fun _ _ _ => 1 : CfgFun (Option (Worm ℝ)) ℝ≥0∞) :=
  ⟨fun _ _ => measurable_const, fun _ _ _ _ => measurable_const⟩

/-- **C80** (stationarity).  A step of the chain, with the rejected moves, does not change the average of `ψ`. -/
theorem C80_stationary_partial {β : ℝ} {cw : CWin} (hcw : cw.OK β) (nf : ℕ) (hnf : 0 < nf) (kinds : List WormKind)
    (hkf : ∀ k ∈ kinds, 0 < k.numFlavors) (sw : WormKind → ℝ) (hsw : ∀ k ∈ kinds, 0 < sw k)
    {w : CfgFun (Option (Worm ℝ)) ℝ} {ψ : CfgFun (Option (Worm ℝ)) ℝ≥0∞} (hw : w.WMeas nf)
    (hψ : ψ.WMeas nf) (h0 : ∀ X X' ω, 0 ≤ w X X' ω) :
    wFlow β nf kinds sw (fun _ _ _ => 1) w (wormStepE nf cw kinds sw w ψ) = wFlow β nf kinds sw (fun _ _ _ => 1) w ψ.at := by
  have h1 := wmeas_one nf
  unfold wormStepE
  rw [wFlow_add hcw nf kinds hkf sw hw h1 hψ, C80_reversible_partial hcw nf hnf kinds hkf sw hsw hw h1 hψ h0,
    wFlow_congr β nf kinds sw _ ψ w (fun x => (1 - wormTransE nf cw kinds sw w (fun _ _ _ => 1) x) * ψ.at x)
      (fun x => 1 - wormTransE nf cw kinds sw w (fun _ _ _ => 1) x), ← wFlow_add hcw nf kinds hkf sw hw hψ h1]
  · refine wFlow_congr β nf kinds sw _ _ w _ _ fun x => ?_
    beta_reduce
    rw [add_tsub_cancel_of_le (wormTransE_le _ _ _ _ _ _), mul_one]
    show ψ.at x = 1 * ψ.at x
    rw [one_mul]
  · intro x
    show 1 * (_ * ψ.at x) = ψ.at x * _
    rw [one_mul, mul_comm]

/-! ### An example -/

/-- A weight which depends on the times of the bath and of the worm. -/
def exWW : CfgFun (Option (Worm ℝ)) ℝ := fun X X' ω =>
  ((X.map (·.1)).sum - (X'.map (·.1)).sum + (ω.elim 0 fun u => u.times.sum)) ^ 2

theorem wmeas_exWW (nf : ℕ) : exWW.WMeas nf := by
  have hs : ∀ {n : ℕ} (y : Fin n → BOp ℝ), ((ms y).map (·.1)).sum = ∑ i, (y i).1 := fun y => by
    rw [ms_eq, Multiset.map_map]
    rfl
  have h1 : ∀ m n, Measurable fun z : Lab m n => ∑ i, (z.1 i).1 := fun m n => Finset.measurable_sum _ fun i _ =>
    measurable_fst.comp ((measurable_pi_apply i).comp measurable_fst)
  have h2 : ∀ m n, Measurable fun z : Lab m n => ∑ i, (z.2 i).1 := fun m n => Finset.measurable_sum _ fun i _ =>
    measurable_fst.comp ((measurable_pi_apply i).comp measurable_snd)
  constructor
  · intro m n
    have h : (fun z : Lab m n => exWW.at (z.cfg none)) = fun z => (∑ i, (z.1 i).1 - ∑ i, (z.2 i).1 + 0) ^ 2 := by
      funext z
      show (((ms z.1).map (·.1)).sum - ((ms z.2).map (·.1)).sum + 0) ^ 2 = _
      rw [hs, hs]
    rw [h]
    exact (((h1 m n).sub (h2 m n)).add_const 0).pow_const 2
  · intro k fs m n
    have h : (fun z : (Fin k.numTimes → ℝ) × Lab m n => exWW (ms z.2.1) (ms z.2.2) (some (mkW k z.1 fs))) =
        fun z => (∑ i, (z.2.1 i).1 - ∑ i, (z.2.2 i).1 + ∑ i, z.1 i) ^ 2 := by
      funext z
      show (((ms z.2.1).map (·.1)).sum - ((ms z.2.2).map (·.1)).sum + (List.ofFn z.1).sum) ^ 2 = _
      rw [hs, hs, List.sum_ofFn]
    rw [h]
    exact ((((h1 m n).sub (h2 m n)).comp measurable_snd).add
      ((Finset.measurable_sum _ fun i _ => measurable_pi_apply i).comp measurable_fst)).pow_const 2

/-- Two flavors, worms for the one-particle Green's function and for two pairs at equal times, the window
`[1/2, 3/2]` for `β = 2`. -/
example (ψ : CfgFun (Option (Worm ℝ)) ℝ≥0∞) (hψ : ψ.WMeas 2) :
    wFlow 2 2 [.green 1, .equalTime 2] (fun k => 1 + k.numFlavors) (fun _ _ _ => 1) exWW
        (wormStepE 2 ⟨1 / 2, 3 / 2, 0⟩ [.green 1, .equalTime 2] (fun k => 1 + k.numFlavors) exWW ψ) =
      wFlow 2 2 [.green 1, .equalTime 2] (fun k => 1 + k.numFlavors) (fun _ _ _ => 1) exWW ψ.at :=
  C80_stationary_partial (β := 2) (cw := ⟨1 / 2, 3 / 2, 0⟩) ⟨by norm_num, by norm_num, by norm_num, rfl⟩ 2 (by norm_num)
    [.green 1, .equalTime 2] (by decide) _ (fun k _ => by positivity) (wmeas_exWW 2) hψ fun _ _ _ => sq_nonneg _

end CTHyb
