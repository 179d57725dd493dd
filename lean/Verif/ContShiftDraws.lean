import Verif.ContShiftLemmas

/-!
The new operator of the shift and of the flavor update: distribution and symmetry.
-/

namespace CTHyb

open Rand MeasureTheory ENNReal

variable {W : Type}

open Classical in
/-- Probability of the new flavor `f'` for the old flavor `f`. -/
noncomputable def flavP (E : PEnv) (f f' : ℕ) : ℝ≥0∞ :=
  ENNReal.ofReal (1 / 2) * (if f' = f then 1 else 0) +
    ENNReal.ofReal (1 / 2) * (ENNReal.ofReal (1 / ((blockFlavors E (E.sector f)).length : ℝ)) *
      (if f' ∈ blockFlavors E (E.sector f) then 1 else 0))

theorem nodup_blockFlavors (E : PEnv) (b : ℕ) : (blockFlavors E b).Nodup :=
  List.nodup_range.filter _

theorem mem_blockFlavors' (E : PEnv) (b f : ℕ) : f ∈ blockFlavors E b ↔ f < E.nf ∧ E.sector f = b := by
  simp [blockFlavors]

theorem meanE_shiftFlavor (E : PEnv) (f : ℕ) (A : ℕ → ℝ≥0∞) :
    meanE (shiftFlavor E f) A = ∑' f', flavP E f f' * A f' := by
  classical
  have h1 : ∑' f', (if f' = f then (1 : ℝ≥0∞) else 0) * A f' = A f := by
    rw [tsum_eq_single f]
    · simp
    · intro f' h; simp [h]
  have h2 : ∑' f', (if f' ∈ blockFlavors E (E.sector f) then (1 : ℝ≥0∞) else 0) * A f' =
      ((blockFlavors E (E.sector f)).map A).sum := by
    rw [← List.sum_toFinset _ (nodup_blockFlavors _ _), tsum_eq_sum (s := (blockFlavors E (E.sector f)).toFinset)]
    · refine Finset.sum_congr rfl fun f' h => ?_
      rw [List.mem_toFinset] at h
      simp [h]
    · intro f' h
      rw [List.mem_toFinset] at h
      simp [h]
  rw [shiftFlavor, meanE_bind nnr_coin, meanE_coin_half]
  simp only [if_true, Bool.false_eq_true, if_false]
  rw [meanE_ret, genNewFlavor, meanE_unif, ← h2, ← h1, ← ENNReal.tsum_mul_left, ← ENNReal.tsum_mul_left,
    ← ENNReal.tsum_mul_left, ← ENNReal.tsum_add]
  refine tsum_congr fun f' => ?_
  rw [flavP]
  ring

theorem flavP_symm (E : PEnv) {f f' : ℕ} (hf : f < E.nf) (hf' : f' < E.nf) : flavP E f f' = flavP E f' f := by
  unfold flavP
  simp only [mem_blockFlavors', hf, hf', true_and]
  by_cases h : E.sector f' = E.sector f
  · rw [h]
    simp only [if_true]
    congr 2
    simp only [eq_comm]
  · have hn : f' ≠ f := fun e => h (by rw [e])
    rw [if_neg hn, if_neg hn.symm, if_neg h, if_neg (Ne.symm h)]
    simp

theorem flavP_zero (E : PEnv) {f f' : ℕ} (h : E.sector f' ≠ E.sector f) : flavP E f f' = 0 := by
  have hn : f' ≠ f := fun e => h (by rw [e])
  simp [flavP, mem_blockFlavors', h, hn]

theorem flavP_out (E : PEnv) {f f' : ℕ} (hf : f < E.nf) (hf' : ¬ f' < E.nf) : flavP E f f' = 0 := by
  have hn : f' ≠ f := fun e => hf' (by rw [e]; exact hf)
  simp [flavP, mem_blockFlavors', hf', hn]

theorem lintegral_shift {d : ℝ} (hd : 0 < d) (t : ℝ) (g : ℝ → ℝ≥0∞) :
    ∫⁻ u in Set.Ico (0 : ℝ) 1, g (shiftedTime d t u) =
      ENNReal.ofReal (1 / (2 * d)) * ∫⁻ t' in Set.Icc (t - d) (t + d), g t' := by
  have himg : shiftedTime d t '' Set.Ico 0 1 = Set.Ico (t - d) (t + d) := by
    ext s
    constructor
    · rintro ⟨u, ⟨h0, h1⟩, rfl⟩
      unfold shiftedTime
      constructor <;> nlinarith
    · rintro ⟨h1, h2⟩
      refine ⟨(s - t + d) / (2 * d), ⟨div_nonneg (by linarith) (by linarith), ?_⟩, ?_⟩
      · rw [div_lt_one (by linarith)]; linarith
      · unfold shiftedTime
        field_simp
        ring
  have hder : ∀ u ∈ Set.Ico (0 : ℝ) 1, HasDerivWithinAt (shiftedTime d t) (2 * d) (Set.Ico 0 1) u := by
    intro u _
    have := ((hasDerivAt_id u).const_mul (2 * d)).add_const (t - d)
    rw [mul_one] at this
    refine HasDerivAt.hasDerivWithinAt (this.congr_of_eventuallyEq ?_)
    refine Filter.Eventually.of_forall fun v => ?_
    unfold shiftedTime
    simp only [id]
    ring
  have hinj : Set.InjOn (shiftedTime d t) (Set.Ico 0 1) := by
    intro u _ v _ huv
    unfold shiftedTime at huv
    have : d * (u - v) = 0 := by linarith
    rcases mul_eq_zero.1 this with h' | h'
    · linarith
    · linarith
  have key := lintegral_image_eq_lintegral_abs_deriv_mul measurableSet_Ico hder hinj g
  rw [himg] at key
  rw [← restrict_Ico_eq_restrict_Icc, key, abs_of_pos (by linarith), lintegral_const_mul' _ _ ENNReal.ofReal_ne_top,
    ← mul_assoc, ← ENNReal.ofReal_mul (by positivity), one_div_mul_cancel (by positivity), ENNReal.ofReal_one, one_mul]

/-- All operators. -/
noncomputable abbrev opAll : Measure (BOp ℝ) := (volume : Measure ℝ).prod (Measure.count : Measure ℕ)

open Classical in
/-- Density of the new operator of the shift. -/
noncomputable def shiftK (E : PEnv) (cw : CWin) (maxDist : ℕ → ℝ) (o o' : BOp ℝ) : ℝ≥0∞ :=
  flavP E o.2 o'.2 * (ENNReal.ofReal (1 / (2 * maxDist o.2)) *
    (inW cw o' * if |o'.1 - o.1| ≤ maxDist o.2 then 1 else 0))

theorem measurable_shiftK (E : PEnv) (cw : CWin) (maxDist : ℕ → ℝ) :
    Measurable fun p : BOp ℝ × BOp ℝ => shiftK E cw maxDist p.1 p.2 := by
  have hf : Measurable fun p : BOp ℝ × BOp ℝ => flavP E p.1.2 p.2.2 :=
    (measurable_from_prod_countable_right (f := fun q : ℕ × ℕ => flavP E q.1 q.2) fun k => measurable_from_nat).comp
      ((measurable_snd.comp measurable_fst).prodMk (measurable_snd.comp measurable_snd))
  have hd : Measurable fun p : BOp ℝ × BOp ℝ => maxDist p.1.2 :=
    (measurable_from_nat (f := maxDist)).comp (measurable_snd.comp measurable_fst)
  have hc : Measurable fun p : BOp ℝ × BOp ℝ => ENNReal.ofReal (1 / (2 * maxDist p.1.2)) :=
    (measurable_from_nat (f := fun f => ENNReal.ofReal (1 / (2 * maxDist f)))).comp (measurable_snd.comp measurable_fst)
  refine hf.mul (hc.mul (((measurable_inW cw).comp measurable_snd).mul ?_))
  refine Measurable.ite (measurableSet_le ?_ hd) measurable_const measurable_const
  have hs : Measurable fun p : BOp ℝ × BOp ℝ => p.2.1 - p.1.1 :=
    (measurable_fst.comp measurable_snd).sub (measurable_fst.comp measurable_fst)
  exact measurable_norm.comp hs

theorem shiftDrawC_eq (E : PEnv) (cw : CWin) {maxDist : ℕ → ℝ} (hd : ∀ f, 0 < maxDist f) (o : BOp ℝ)
    {G : BOp ℝ → ℝ≥0∞} (hG : Measurable G) :
    shiftDrawC E cw maxDist o G = ∫⁻ o', shiftK E cw maxDist o o' * G o' ∂opAll := by
  have hm : Measurable fun o' => shiftK E cw maxDist o o' * G o' :=
    ((measurable_shiftK E cw maxDist).comp measurable_prodMk_left).mul hG
  rw [opAll, lintegral_prod_symm _ hm.aemeasurable, lintegral_count, shiftDrawC, meanE_shiftFlavor]
  refine tsum_congr fun f => ?_
  rw [lintegral_shift (hd o.2) o.1 (fun t => if cw.win.inWin t then G (t, f) else 0),
    ← lintegral_indicator measurableSet_Icc, ← mul_assoc]
  have hfin : flavP E o.2 f * ENNReal.ofReal (1 / (2 * maxDist o.2)) ≠ ∞ := by
    refine ENNReal.mul_ne_top ?_ ENNReal.ofReal_ne_top
    unfold flavP
    refine ENNReal.add_ne_top.2 ⟨ENNReal.mul_ne_top ENNReal.ofReal_ne_top ?_,
      ENNReal.mul_ne_top ENNReal.ofReal_ne_top (ENNReal.mul_ne_top ENNReal.ofReal_ne_top ?_)⟩ <;>
    split_ifs <;> simp
  rw [← lintegral_const_mul' _ _ hfin]
  refine lintegral_congr fun t => ?_
  have hmem : t ∈ Set.Icc (o.1 - maxDist o.2) (o.1 + maxDist o.2) ↔ |t - o.1| ≤ maxDist o.2 := by
    rw [abs_le, Set.mem_Icc]
    constructor <;> intro h <;> constructor <;> linarith [h.1, h.2]
  rw [shiftK, inW]
  by_cases h : |t - o.1| ≤ maxDist o.2
  · rw [Set.indicator_of_mem (hmem.2 h)]
    simp only [h, if_true]
    split_ifs <;> simp [mul_assoc]
  · rw [Set.indicator_of_notMem fun hh => h (hmem.1 hh)]
    simp [h]

theorem shiftDrawC_win (E : PEnv) (cw : CWin) (maxDist : ℕ → ℝ) (o : BOp ℝ) (G : BOp ℝ → ℝ≥0∞) :
    shiftDrawC E cw maxDist o G = shiftDrawC E cw maxDist o fun o' => inW cw o' * G o' := by
  unfold shiftDrawC
  refine congrArg (meanE _) (funext fun f => lintegral_congr fun u => ?_)
  unfold inW
  split_ifs with h
  · simp only [h, if_true, one_mul]
  · rfl

/-- The shift is symmetric if the flavors of a block have the same `max_distance_`. -/
theorem symDraw_shift {β : ℝ} (E : PEnv) {cw : CWin} (hlo : 0 ≤ cw.lo) (hhi : cw.hi ≤ β) {maxDist : ℕ → ℝ}
    (hd : ∀ f, 0 < maxDist f) (hs : ∀ f f', E.sector f = E.sector f' → maxDist f = maxDist f') :
    SymDraw β E.nf cw (shiftDrawC E cw maxDist) where
  smul o r G hG := by
    rw [shiftDrawC_eq E cw hd o hG, shiftDrawC_eq E cw hd o (hG.const_mul r), ← lintegral_const_mul]
    · refine lintegral_congr fun o' => ?_
      ring
    · exact ((measurable_shiftK E cw maxDist).comp measurable_prodMk_left).mul hG
  meas {Z} _ g H hg hH := by
    have h : ∀ z, shiftDrawC E cw maxDist (g z) (H z) = ∫⁻ o', shiftK E cw maxDist (g z) o' * H z o' ∂opAll := fun z =>
      shiftDrawC_eq E cw hd (g z) (hH.comp measurable_prodMk_left)
    simp only [h]
    refine Measurable.lintegral_prod_right' (f := fun p : Z × BOp ℝ => shiftK E cw maxDist (g p.1) p.2 * H p.1 p.2) ?_
    exact ((measurable_shiftK E cw maxDist).comp ((hg.comp measurable_fst).prodMk measurable_snd)).mul hH
  symm H hH := by
    classical
    have hop : opMeasure β E.nf = opAll.restrict (Set.Icc 0 β ×ˢ Set.Iio E.nf) := by
      rw [opMeasure, opAll, Measure.prod_restrict]
    have hms : MeasurableSet (Set.Icc (0 : ℝ) β ×ˢ Set.Iio E.nf) := measurableSet_Icc.prod measurableSet_Iio
    set L : BOp ℝ → BOp ℝ → ℝ≥0∞ := fun o o' =>
      (Set.Icc (0 : ℝ) β ×ˢ Set.Iio E.nf).indicator (fun _ => 1) o * inW cw o * shiftK E cw maxDist o o' * inW cw o'
      with hL
    have hLm : Measurable fun p : BOp ℝ × BOp ℝ => L p.1 p.2 :=
      ((((measurable_const.indicator hms).comp measurable_fst).mul ((measurable_inW cw).comp measurable_fst)).mul
        (measurable_shiftK E cw maxDist)).mul ((measurable_inW cw).comp measurable_snd)
    have key : ∀ K : BOp ℝ → BOp ℝ → ℝ≥0∞, Measurable (fun p : BOp ℝ × BOp ℝ => K p.1 p.2) →
        ∫⁻ o, inW cw o * shiftDrawC E cw maxDist o (fun o' => inW cw o' * K o o') ∂(opMeasure β E.nf) =
          ∫⁻ o, ∫⁻ o', L o o' * K o o' ∂opAll ∂opAll := by
      intro K hK
      rw [hop, ← lintegral_indicator hms]
      refine lintegral_congr fun o => ?_
      have hKo : Measurable fun o' => inW cw o' * K o o' := (measurable_inW cw).mul (hK.comp measurable_prodMk_left)
      by_cases ho : o ∈ Set.Icc (0 : ℝ) β ×ˢ Set.Iio E.nf
      · rw [Set.indicator_of_mem ho, shiftDrawC_eq E cw hd o hKo, ← lintegral_const_mul]
        · refine lintegral_congr fun o' => ?_
          rw [hL]
          simp only [Set.indicator_of_mem ho]
          ring
        · exact ((measurable_shiftK E cw maxDist).comp measurable_prodMk_left).mul hKo
      · rw [Set.indicator_of_notMem ho]
        simp only [hL, Set.indicator_of_notMem ho, zero_mul, lintegral_zero]
    rw [key H hH, key (fun o o' => H o' o) (hH.comp measurable_swap), lintegral_lintegral_swap]
    · refine lintegral_congr fun o => lintegral_congr fun o' => ?_
      congr 1
      simp only [hL]
      rcases inW_cases cw o with h1 | h1
      · rw [h1]; simp
      rcases inW_cases cw o' with h2 | h2
      · rw [h2]; simp
      have hin : ∀ p : BOp ℝ, inW cw p = 1 → p.1 ∈ Set.Icc (0 : ℝ) β := by
        intro p hp
        have : cw.win.inWin p.1 = true := by
          by_contra hn
          rw [inW, if_neg hn] at hp
          exact zero_ne_one hp
        have := (inWin_iff cw p.1).1 this
        exact ⟨hlo.trans this.1, this.2.trans hhi⟩
      have hi : ∀ p : BOp ℝ, inW cw p = 1 → (Set.Icc (0 : ℝ) β ×ˢ Set.Iio E.nf).indicator (fun _ => (1 : ℝ≥0∞)) p =
          if p.2 < E.nf then 1 else 0 := by
        intro p hp
        rw [Set.indicator_apply]
        refine if_congr ?_ rfl rfl
        rw [Set.mem_prod, Set.mem_Iio]
        exact and_iff_right (hin p hp)
      rw [h1, h2, hi o h1, hi o' h2, shiftK, shiftK, h1, h2]
      by_cases hf : o.2 < E.nf
      · by_cases hf' : o'.2 < E.nf
        · by_cases hsec : E.sector o'.2 = E.sector o.2
          · rw [flavP_symm E hf' hf, hs _ _ hsec, abs_sub_comm]
            simp [hf, hf']
          · rw [flavP_zero E hsec, flavP_zero E (Ne.symm hsec)]
            simp
        · rw [flavP_out E hf hf']
          simp [hf']
      · by_cases hf' : o'.2 < E.nf
        · rw [flavP_out E hf' hf]
          simp [hf]
        · simp [hf, hf']
    · exact (hLm.mul hH).aemeasurable
  win o G _ := shiftDrawC_win E cw maxDist o G

/-- The new operator of the flavor update (src/moves/moves.ipp:566-586). -/
noncomputable def flavorDrawC (nf : ℕ) (o : BOp ℝ) (G : BOp ℝ → ℝ≥0∞) : ℝ≥0∞ :=
  meanE (unif (List.range nf)) fun f => G (o.1, f)

theorem flavorDrawC_eq (nf : ℕ) (o : BOp ℝ) (G : BOp ℝ → ℝ≥0∞) :
    flavorDrawC nf o G = ENNReal.ofReal (1 / (nf : ℝ)) * ∑ f ∈ Finset.range nf, G (o.1, f) := by
  rw [flavorDrawC, meanE_unif, List.length_range, ← List.sum_toFinset _ List.nodup_range, List.toFinset_range]

theorem lintegral_op (β : ℝ) (nf : ℕ) {G : BOp ℝ → ℝ≥0∞} (hG : Measurable G) :
    ∫⁻ o, G o ∂(opMeasure β nf) = ∫⁻ t in Set.Icc 0 β, ∑ f ∈ Finset.range nf, G (t, f) := by
  rw [opMeasure, lintegral_prod _ hG.aemeasurable]
  refine lintegral_congr fun t => ?_
  have : Set.Iio nf = ((Finset.range nf : Finset ℕ) : Set ℕ) := by ext f; simp
  rw [this, lintegral_finset]
  simp

theorem symDraw_flavor (β : ℝ) (nf : ℕ) (cw : CWin) : SymDraw β nf cw (flavorDrawC nf) where
  smul o r G _ := by
    rw [flavorDrawC_eq, flavorDrawC_eq, ← Finset.mul_sum]
    ring
  meas {Z} _ g H hg hH := by
    simp only [flavorDrawC_eq]
    refine Measurable.const_mul (Finset.measurable_sum _ fun f _ => ?_) _
    exact hH.comp (measurable_id.prodMk ((measurable_fst.comp hg).prodMk measurable_const))
  symm H hH := by
    have hm : ∀ K : BOp ℝ → BOp ℝ → ℝ≥0∞, Measurable (fun p : BOp ℝ × BOp ℝ => K p.1 p.2) →
        Measurable fun o => inW cw o * flavorDrawC nf o (fun o' => inW cw o' * K o o') := by
      intro K hK
      simp only [flavorDrawC_eq]
      refine (measurable_inW cw).mul (Measurable.const_mul (Finset.measurable_sum _ fun f _ => ?_) _)
      have hp : Measurable fun o : BOp ℝ => (o, ((o.1, f) : BOp ℝ)) := measurable_id.prodMk (measurable_fst.prodMk measurable_const)
      exact ((measurable_inW cw).comp (measurable_fst.prodMk measurable_const)).mul (hK.comp hp)
    rw [lintegral_op β nf (hm H hH), lintegral_op β nf (hm (fun o o' => H o' o) (hH.comp measurable_swap))]
    refine lintegral_congr fun t => ?_
    simp only [flavorDrawC_eq, Finset.mul_sum]
    rw [Finset.sum_comm]
    refine Finset.sum_congr rfl fun f _ => Finset.sum_congr rfl fun f' _ => ?_
    have : inW cw (t, f) = inW cw (t, f') := rfl
    rw [this]
  win o G ho := by
    unfold flavorDrawC
    refine congrArg (meanE _) (funext fun f => ?_)
    show _ = inW cw o * _
    rw [ho, one_mul]

/-! ### The two updates as sums over the labels -/

theorem sum_winOps (cw : CWin) {m : ℕ} (y : Fin m → BOp ℝ) (F : BOp ℝ → ℝ≥0∞) :
    ((winOps cw.win (List.ofFn y)).map F).sum = ∑ i, inW cw (y i) * F (y i) := by
  have h : ∀ l : List (BOp ℝ), ((winOps cw.win l).map F).sum = (l.map fun o => inW cw o * F o).sum := by
    intro l
    induction l with
    | nil => rfl
    | cons a l ih =>
      unfold winOps at ih ⊢
      rw [List.filter_cons, List.map_cons, List.sum_cons, ← ih, inW]
      split_ifs <;> simp
  rw [h, List.map_ofFn, List.sum_ofFn]
  rfl

theorem draw_cd {cw : CWin} {Q : BOp ℝ → (BOp ℝ → ℝ≥0∞) → ℝ≥0∞}
    (hQ : ∀ o G, inW cw o = 1 → Q o G = Q o (fun o' => inW cw o' * G o'))
    (s : ℕ → ℕ → ℝ≥0∞) (w : CfgFun W ℝ) (ψ : CfgFun W ℝ≥0∞) (ω : W) {m n : ℕ} (z : Lab m n) (i : Fin m) :
    s (wcount cw (ms z.1)) (wcount cw (ms z.2)) *
      (inW cw (z.1 i) * Q (z.1 i) (fun o' => accE w ψ (z.cfg ω) (replaceMv true (z.1 i) o' ω) 1)) =
      cdTerm cw Q s w ψ ω i z := by
  rw [cdTerm, oneTerm]
  congr 1
  rcases inW_cases cw (z.1 i) with h | h
  · rw [h, zero_mul, zero_mul]
  · rw [hQ _ _ h]
    congr 2
    funext o'
    congr 1
    rw [accE, mul_one]
    simp only [CfgFun.after, CfgFun.at, replaceMv, if_true, Lab.cfg, Multiset.coe_nil, tsub_zero, add_zero,
      Multiset.coe_singleton, ms_update]

theorem draw_c {cw : CWin} {Q : BOp ℝ → (BOp ℝ → ℝ≥0∞) → ℝ≥0∞}
    (hQ : ∀ o G, inW cw o = 1 → Q o G = Q o (fun o' => inW cw o' * G o'))
    (s : ℕ → ℕ → ℝ≥0∞) (w : CfgFun W ℝ) (ψ : CfgFun W ℝ≥0∞) (ω : W) {m n : ℕ} (z : Lab m n) (j : Fin n) :
    s (wcount cw (ms z.1)) (wcount cw (ms z.2)) *
      (inW cw (z.2 j) * Q (z.2 j) (fun o' => accE w ψ (z.cfg ω) (replaceMv false (z.2 j) o' ω) 1)) =
      cTerm cw Q s w ψ ω j z := by
  rw [cTerm, oneTerm]
  congr 1
  rcases inW_cases cw (z.2 j) with h | h
  · rw [h, zero_mul, zero_mul]
  · rw [hQ _ _ h]
    congr 2
    funext o'
    congr 1
    rw [accE, mul_one]
    simp only [CfgFun.after, CfgFun.at, replaceMv, Bool.false_eq_true, if_false, Lab.cfg, Multiset.coe_nil, tsub_zero,
      add_zero, Multiset.coe_singleton, ms_update]

/-- One operator out of all. -/
noncomputable def selAll (a b : ℕ) : ℝ≥0∞ := ENNReal.ofReal (1 / ((a + b : ℕ) : ℝ))

theorem shiftE_eq (E : PEnv) (cw : CWin) (maxDist : ℕ → ℝ)
    (w : CfgFun W ℝ) (ψ : CfgFun W ℝ≥0∞) (ω : W) {m n : ℕ} (z : Lab m n) :
    shiftE E cw maxDist w ψ (z.cfg ω) = labE cw (shiftDrawC E cw maxDist) selAll selAll w ψ ω z := by
  have hQ := fun o G (_ : inW cw o = 1) => shiftDrawC_win E cw maxDist o G
  have hlen : ((winOps cw.win (z.cfg ω).cd).map (true, ·) ++ (winOps cw.win (z.cfg ω).c).map (false, ·)).length =
      wcount cw (ms z.1) + wcount cw (ms z.2) := by
    rw [List.length_append, List.length_map, List.length_map, winOps_length, winOps_length]
    rfl
  have hcd : ∀ i, cdTerm cw (shiftDrawC E cw maxDist) selAll w ψ ω i z = _ := fun i => (draw_cd hQ selAll w ψ ω z i).symm
  have hc : ∀ j, cTerm cw (shiftDrawC E cw maxDist) selAll w ψ ω j z = _ := fun j => (draw_c hQ selAll w ψ ω z j).symm
  rw [labE]
  simp only [hcd, hc]
  rw [← Finset.mul_sum, ← Finset.mul_sum, ← mul_add]
  simp only [shiftE]
  rw [hlen]
  split_ifs with h
  · rw [selAll, h]; simp
  · rw [meanE_unif, hlen, List.map_append, List.sum_append, List.map_map, List.map_map]
    show _ * (((winOps cw.win (List.ofFn z.1)).map _).sum + ((winOps cw.win (List.ofFn z.2)).map _).sum) = _
    rw [sum_winOps, sum_winOps]
    rfl

/-- Creation operator of the flavor update. -/
noncomputable def selCd (a b : ℕ) : ℝ≥0∞ :=
  if a = 0 ∨ b = 0 then 0 else ENNReal.ofReal (1 / 2) * ENNReal.ofReal (1 / (a : ℝ))

/-- Annihilation operator of the flavor update. -/
noncomputable def selC (a b : ℕ) : ℝ≥0∞ :=
  if a = 0 ∨ b = 0 then 0 else ENNReal.ofReal (1 / 2) * ENNReal.ofReal (1 / (b : ℝ))

theorem flavorE_eq (nf : ℕ) (cw : CWin) (w : CfgFun W ℝ) (ψ : CfgFun W ℝ≥0∞) (ω : W) {m n : ℕ} (z : Lab m n) :
    flavorE nf cw w ψ (z.cfg ω) = labE cw (flavorDrawC nf) selCd selC w ψ ω z := by
  have hQ := (symDraw_flavor 1 nf cw).win
  have hcd : ∀ i, cdTerm cw (flavorDrawC nf) selCd w ψ ω i z = _ := fun i => (draw_cd hQ selCd w ψ ω z i).symm
  have hc : ∀ j, cTerm cw (flavorDrawC nf) selC w ψ ω j z = _ := fun j => (draw_c hQ selC w ψ ω z j).symm
  rw [labE]
  simp only [hcd, hc]
  rw [← Finset.mul_sum, ← Finset.mul_sum, ← sum_winOps cw z.1 (fun o => flavorDrawC nf o fun o' =>
    accE w ψ (z.cfg ω) (replaceMv true o o' ω) 1), ← sum_winOps cw z.2 (fun o => flavorDrawC nf o fun o' =>
    accE w ψ (z.cfg ω) (replaceMv false o o' ω) 1)]
  have h1 : (winOps cw.win (z.cfg ω).cd).length = wcount cw (ms z.1) := winOps_length _ _
  have h2 : (winOps cw.win (z.cfg ω).c).length = wcount cw (ms z.2) := winOps_length _ _
  rw [flavorE, flavorPropose, h1, h2, selCd, selC]
  split_ifs with h
  · rw [meanE_ret]; simp
  · have hn : ∀ (b : Bool) (o : BOp ℝ), NonnegR (bind (unif (List.range nf)) fun f =>
        (ret (some (replaceMv b o (o.1, f) (z.cfg ω).worm, (1 : ℝ))) : Rand ℝ (Option (Mv ℝ W × ℝ)))) := fun b o =>
      nnr_bind (nnr_unif _) fun _ => nnr_ret _
    rw [meanE_bind nnr_coin, meanE_coin_half]
    simp only [if_true, Bool.false_eq_true, if_false]
    rw [meanE_bind (nnr_unif _), meanE_bind (nnr_unif _), meanE_unif, meanE_unif, h1, h2]
    simp only [meanE_bind (nnr_unif _), meanE_ret]
    rw [mul_assoc, mul_assoc]
    rfl

end CTHyb
