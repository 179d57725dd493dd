import Verif.ContShiftDraws

/-!
# Shift of one operator and change of one flavor in continuous time

Specification: `Lab`, `labMeasure`, `orderFlow` in `Verif/ContInsFlow.lean`, `allFlow` in
`Verif/ContInsProps.lean`.
-/

namespace CTHyb

open Rand MeasureTheory ENNReal

variable {W : Type}

/-- **C79** (shift).  Detailed balance of `SingleOperatorShiftUpdater` in continuous time if the flavors of
a block have the same `max_distance_`: for all measurable `φ`, `ψ` the accepted moves carry as much from
`φ` to `ψ` as from `ψ` to `φ`. -/
theorem C79_shift_balance_partial {β : ℝ} (E : PEnv) {cw : CWin} (hlo : 0 ≤ cw.lo) (hhi : cw.hi ≤ β) {maxDist : ℕ → ℝ}
    (hd : ∀ f, 0 < maxDist f) (hs : ∀ f f', E.sector f = E.sector f' → maxDist f = maxDist f')
    (w : CfgFun W ℝ) (φ ψ : CfgFun W ℝ≥0∞) (ω : W) (hw : w.Meas ω) (hφ : φ.Meas ω) (hψ : ψ.Meas ω)
    (h0 : ∀ X X', 0 ≤ w X X' ω) (m n : ℕ) :
    orderFlow β E.nf m n ω φ w (shiftE E cw maxDist w ψ) = orderFlow β E.nf m n ω ψ w (shiftE E cw maxDist w φ) := by
  have hQ := symDraw_shift E hlo hhi hd hs
  unfold orderFlow
  simp only [shiftE_eq]
  rw [labE_symm hQ selAll selAll hw hφ hψ h0 m n]

/-- **C79** (flavor).  Detailed balance of `OperatorPairFlavorUpdater` in continuous time. -/
theorem C79_flavor_balance (β : ℝ) (nf : ℕ) (cw : CWin)
    (w : CfgFun W ℝ) (φ ψ : CfgFun W ℝ≥0∞) (ω : W) (hw : w.Meas ω) (hφ : φ.Meas ω) (hψ : ψ.Meas ω)
    (h0 : ∀ X X', 0 ≤ w X X' ω) (m n : ℕ) :
    orderFlow β nf m n ω φ w (flavorE nf cw w ψ) = orderFlow β nf m n ω ψ w (flavorE nf cw w φ) := by
  unfold orderFlow
  simp only [flavorE_eq]
  rw [labE_symm (symDraw_flavor β nf cw) selCd selC hw hφ hψ h0 m n]

/-- A shift by at most `1/4` in the window `[1/2, 3/2]` for `β = 2`. -/
example (φ ψ : CfgFun Unit ℝ≥0∞) (hφ : φ.Meas ()) (hψ : ψ.Meas ()) (m n : ℕ) :
    orderFlow 2 3 m n () φ exW (shiftE contEnv ⟨1 / 2, 3 / 2, 0⟩ (fun _ => 1 / 4) exW ψ) =
      orderFlow 2 3 m n () ψ exW (shiftE contEnv ⟨1 / 2, 3 / 2, 0⟩ (fun _ => 1 / 4) exW φ) :=
  C79_shift_balance_partial (β := 2) contEnv (cw := ⟨1 / 2, 3 / 2, 0⟩) (by norm_num) (by norm_num)
    (fun _ => by norm_num) (fun _ _ _ => rfl) exW φ ψ () measurable_exW hφ hψ (fun _ _ => sq_nonneg _) m n

example (φ ψ : CfgFun Unit ℝ≥0∞) (hφ : φ.Meas ()) (hψ : ψ.Meas ()) (m n : ℕ) :
    orderFlow 2 3 m n () φ exW (flavorE 3 ⟨1 / 2, 3 / 2, 0⟩ exW ψ) =
      orderFlow 2 3 m n () ψ exW (flavorE 3 ⟨1 / 2, 3 / 2, 0⟩ exW φ) :=
  C79_flavor_balance 2 3 ⟨1 / 2, 3 / 2, 0⟩ exW φ ψ () measurable_exW hφ hψ (fun _ _ => sq_nonneg _) m n

/-! ### Different step sizes in a block -/

open Classical in
/-- Indicator of the configurations with a creation operator of flavor `f` in `[a, b]`. -/
noncomputable def hasOp (f : ℕ) (a b : ℝ) : CfgFun Unit ℝ≥0∞ := fun X _ _ =>
  if ∃ o ∈ X, o.2 = f ∧ o.1 ∈ Set.Icc a b then 1 else 0

theorem measurable_hasOp (f : ℕ) (a b : ℝ) : (hasOp f a b).Meas () := by
  classical
  intro m n
  have h : (fun z : Lab m n => (hasOp f a b).at (z.cfg ())) =
      (⋃ i : Fin m, {z : Lab m n | z.1 i ∈ Set.Icc a b ×ˢ ({f} : Set ℕ)}).indicator fun _ => 1 := by
    funext z
    rw [Set.indicator_apply, CfgFun.at, hasOp]
    refine if_congr ?_ rfl rfl
    rw [Set.mem_iUnion]
    constructor
    · rintro ⟨o, ho, h1, h2⟩
      obtain ⟨i, rfl⟩ := List.mem_ofFn.1 (Multiset.mem_coe.1 ho)
      exact ⟨i, h2, h1⟩
    · rintro ⟨i, h2, h1⟩
      exact ⟨z.1 i, Multiset.mem_coe.2 (List.mem_ofFn.2 ⟨i, rfl⟩), h1, h2⟩
  rw [h]
  refine measurable_const.indicator (MeasurableSet.iUnion fun i => ?_)
  exact (measurableSet_Icc.prod (measurableSet_singleton f)).preimage ((measurable_pi_apply i).comp measurable_fst)

theorem wcount_one (cw : CWin) {y : Fin 1 → BOp ℝ} (h : inW cw (y 0) = 1) : wcount cw (ms y) = 1 := by
  have : cw.win.inWin (y 0).1 = true := by
    by_contra hn
    rw [inW, if_neg hn] at h
    exact zero_ne_one h
  simp [wcount, ms, this]

theorem update_one (y : Fin 1 → BOp ℝ) (o : BOp ℝ) : ms (Function.update y 0 o) = {o} := by
  simp [ms]

theorem shiftK_pos (E : PEnv) (cw : CWin) {maxDist : ℕ → ℝ} (hd : ∀ f, 0 < maxDist f) {f g : ℕ} (hg : g < E.nf)
    (hfg : E.sector g = E.sector f) {t t' : ℝ} (h' : t' ∈ Set.Icc cw.lo cw.hi) (ht : |t' - t| ≤ maxDist f) :
    ENNReal.ofReal (1 / 2) * ENNReal.ofReal (1 / ((blockFlavors E (E.sector f)).length : ℝ)) *
      ENNReal.ofReal (1 / (2 * maxDist f)) ≤ shiftK E cw maxDist (t, f) (t', g) := by
  have h1 : inW cw (t', g) = 1 := if_pos ((inWin_iff cw t').2 h')
  have hm : g ∈ blockFlavors E (E.sector f) := (mem_blockFlavors' E _ g).2 ⟨hg, hfg⟩
  rw [shiftK, h1, flavP, if_pos hm, if_pos ht, mul_one, mul_one, mul_one]
  gcongr
  exact le_add_self

/-- **C79, violated.**  If two flavors `f`, `g` of a block have different `max_distance_` and the window is
longer than the smaller one, then detailed balance fails: `g` is moved to places from which `f` never
comes back. -/
theorem C79_unequal_steps_violated {β : ℝ} (E : PEnv) {cw : CWin} (hlo : 0 ≤ cw.lo) (hhi : cw.hi ≤ β) {maxDist : ℕ → ℝ}
    (hd : ∀ f, 0 < maxDist f) {f g : ℕ} (hf : f < E.nf) (hg : g < E.nf) (hfg : E.sector g = E.sector f)
    (hlt : maxDist f < maxDist g) (hwin : maxDist f < cw.hi - cw.lo) :
    ∃ φ ψ : CfgFun Unit ℝ≥0∞, φ.Meas () ∧ ψ.Meas () ∧
      orderFlow β E.nf 1 0 () φ (fun _ _ _ => 1) (shiftE E cw maxDist (fun _ _ _ => 1) ψ) = 0 ∧
      0 < orderFlow β E.nf 1 0 () ψ (fun _ _ _ => 1) (shiftE E cw maxDist (fun _ _ _ => 1) φ) := by
  obtain ⟨δ, hδ, hδ1, hδ2⟩ : ∃ δ : ℝ, 0 < δ ∧ maxDist f + 3 * δ ≤ maxDist g ∧ maxDist f + 3 * δ ≤ cw.hi - cw.lo := by
    refine ⟨min (maxDist g - maxDist f) (cw.hi - cw.lo - maxDist f) / 3, ?_, ?_, ?_⟩
    · exact div_pos (lt_min (by linarith) (by linarith)) (by norm_num)
    · have := min_le_left (maxDist g - maxDist f) (cw.hi - cw.lo - maxDist f); linarith
    · have := min_le_right (maxDist g - maxDist f) (cw.hi - cw.lo - maxDist f); linarith
  have hdf := hd f
  -- `f` is at the upper place, `g` at the lower one
  set φ := hasOp f (cw.lo + maxDist f + 2 * δ) (cw.lo + maxDist f + 3 * δ) with hφ
  set ψ := hasOp g cw.lo (cw.lo + δ) with hψ
  have hdraw : ∀ (χ : CfgFun Unit ℝ≥0∞), χ.Meas () → ∀ z : Lab 1 0, shiftE E cw maxDist (fun _ _ _ => 1) χ (z.cfg ()) =
      selAll (wcount cw (ms z.1)) 0 * (inW cw (z.1 0) *
        ∫⁻ o', shiftK E cw maxDist (z.1 0) o' * (inW cw o' * χ {o'} 0 ()) ∂opAll) := by
    intro χ hχ z
    have hmχ : Measurable fun o' : BOp ℝ => inW cw o' * χ {o'} 0 () := by
      refine (measurable_inW cw).mul ?_
      have hz : Measurable fun o' : BOp ℝ => ((fun _ => o', z.2) : Lab 1 0) :=
        (measurable_pi_iff.2 fun _ => measurable_id).prodMk measurable_const
      exact (hχ 1 0).comp hz
    rw [shiftE_eq, labE, Fin.sum_univ_one, Fin.sum_univ_zero, add_zero, cdTerm, oneTerm, ← shiftDrawC_eq E cw hd _ hmχ]
    have hz2 : ms z.2 = 0 := by simp [ms]
    simp only [hz2, update_one, div_one, min_self, ENNReal.ofReal_one, one_mul]
    rfl
  refine ⟨φ, ψ, measurable_hasOp _ _ _, measurable_hasOp _ _ _, ?_, ?_⟩
  · have hz : ∀ z : Lab 1 0, φ.at (z.cfg ()) * ENNReal.ofReal (CfgFun.at (fun _ _ _ => 1 : CfgFun Unit ℝ) (z.cfg ())) *
        shiftE E cw maxDist (fun _ _ _ => 1) ψ (z.cfg ()) = 0 := by
      intro z
      by_cases hz : (z.1 0).2 = f ∧ (z.1 0).1 ∈ Set.Icc (cw.lo + maxDist f + 2 * δ) (cw.lo + maxDist f + 3 * δ)
      · refine mul_eq_zero_of_right _ ?_
        rw [hdraw ψ (measurable_hasOp _ _ _) z]
        refine mul_eq_zero_of_right _ (mul_eq_zero_of_right _ ?_)
        rw [← lintegral_zero (μ := opAll)]
        refine lintegral_congr fun o' => ?_
        by_cases ho : o'.2 = g ∧ o'.1 ∈ Set.Icc cw.lo (cw.lo + δ)
        · have hn : ¬ |o'.1 - (z.1 0).1| ≤ maxDist (z.1 0).2 := by
            rw [hz.1, abs_le, not_and_or]
            left
            have h1 := hz.2.1
            have h2 := ho.2.2
            linarith
          rw [shiftK, if_neg hn]
          simp
        · have : ψ {o'} 0 () = 0 := by
            rw [hψ, hasOp, if_neg]
            rintro ⟨o, h, h1⟩
            rw [Multiset.mem_singleton] at h
            subst h
            exact ho h1
          rw [this]
          simp
      · have : φ.at (z.cfg ()) = 0 := by
          rw [hφ, CfgFun.at, hasOp, if_neg]
          rintro ⟨o, h, h1⟩
          obtain ⟨i, rfl⟩ := List.mem_ofFn.1 (Multiset.mem_coe.1 h)
          rw [Fin.fin_one_eq_zero i] at h1
          exact hz h1
        rw [this]
        simp
    unfold orderFlow
    simp only [hz, lintegral_zero, mul_zero]
  · unfold orderFlow
    refine ENNReal.mul_pos (ENNReal.inv_ne_zero.2 (ENNReal.natCast_ne_top _)) (ne_of_gt ?_)
    set c0 : ℝ≥0∞ := ENNReal.ofReal (1 / 2) * ENNReal.ofReal (1 / ((blockFlavors E (E.sector g)).length : ℝ)) *
      ENNReal.ofReal (1 / (2 * maxDist g)) with hc0
    have hlen : 0 < ((blockFlavors E (E.sector g)).length : ℝ) := by
      have : g ∈ blockFlavors E (E.sector g) := (mem_blockFlavors' E _ g).2 ⟨hg, rfl⟩
      exact_mod_cast List.length_pos_of_mem this
    have hc0p : 0 < c0 := by
      have hdg := hd g
      refine ENNReal.mul_pos (ENNReal.mul_pos (ENNReal.ofReal_pos.2 (by norm_num)).ne'
        (ENNReal.ofReal_pos.2 (by positivity)).ne').ne' (ENNReal.ofReal_pos.2 (by positivity)).ne'
    set B : Set (BOp ℝ) := Set.Icc (cw.lo + maxDist f + 2 * δ) (cw.lo + maxDist f + 3 * δ) ×ˢ {f} with hB
    have hBm : MeasurableSet B := measurableSet_Icc.prod (measurableSet_singleton f)
    have hBp : 0 < opAll B := by
      rw [hB, opAll, Measure.prod_prod, Real.volume_Icc, Measure.count_singleton, mul_one]
      exact ENNReal.ofReal_pos.2 (by linarith)
    refine lintegral_pos_of_le (labMeasure β E.nf 1 0) (A := {z | z.1 0 ∈ Set.Icc cw.lo (cw.lo + δ) ×ˢ ({g} : Set ℕ)})
      (c := c0 * opAll B) ?_ (ENNReal.mul_pos hc0p.ne' hBp.ne') ?_ (ae_of_all _ fun z hz => ?_)
    · have hset : {z : Lab 1 0 | z.1 0 ∈ Set.Icc cw.lo (cw.lo + δ) ×ˢ ({g} : Set ℕ)} =
          (Set.univ.pi fun _ : Fin 1 => Set.Icc cw.lo (cw.lo + δ) ×ˢ ({g} : Set ℕ)) ×ˢ
            (Set.univ.pi fun _ : Fin 0 => Set.univ) := by
        ext z
        simp [Set.mem_pi, Set.mem_prod]
      rw [hset, labMeasure, Measure.prod_prod, opsMeasure, opsMeasure, Measure.pi_pi, Measure.pi_pi]
      simp only [Finset.univ_unique, Finset.prod_singleton, Finset.univ_eq_empty, Finset.prod_empty, mul_one]
      rw [opMeasure, Measure.prod_prod, Measure.restrict_apply measurableSet_Icc,
        Measure.restrict_apply (measurableSet_singleton _), Set.inter_eq_left.2 (Set.Icc_subset_Icc hlo (by linarith)),
        Real.volume_Icc, Set.inter_eq_left.2 (Set.singleton_subset_iff.2 (Set.mem_Iio.2 hg)), Measure.count_singleton, mul_one]
      exact ENNReal.ofReal_pos.2 (by linarith)
    · exact (measurableSet_Icc.prod (measurableSet_singleton g)).preimage ((measurable_pi_apply 0).comp measurable_fst)
    · obtain ⟨ht, hgz⟩ := hz
      have hgz : (z.1 0).2 = g := hgz
      have hz0 : z.1 0 = ((z.1 0).1, g) := Prod.ext rfl hgz
      have h1 : inW cw (z.1 0) = 1 := if_pos ((inWin_iff cw _).2 ⟨ht.1, by linarith [ht.2]⟩)
      have hψz : ψ.at (z.cfg ()) = 1 := by
        rw [hψ, CfgFun.at, hasOp, if_pos]
        exact ⟨z.1 0, Multiset.mem_coe.2 (List.mem_ofFn.2 ⟨0, rfl⟩), hgz, ht⟩
      have hsel : selAll 1 0 = 1 := by simp [selAll]
      have hone : ENNReal.ofReal (CfgFun.at (fun _ _ _ => 1 : CfgFun Unit ℝ) (z.cfg ())) = 1 := ENNReal.ofReal_one
      rw [hdraw φ (measurable_hasOp _ _ _) z, hψz, hone, wcount_one cw h1, hsel, h1, one_mul, one_mul, one_mul, one_mul]
      rw [← setLIntegral_const, ← lintegral_indicator hBm]
      refine lintegral_mono fun o' => ?_
      by_cases ho : o' ∈ B
      · have ho2 : o'.2 = f := ho.2
        have ho1 := ho.1
        have hin : o'.1 ∈ Set.Icc cw.lo cw.hi := ⟨by linarith [ho1.1], by linarith [ho1.2]⟩
        have h2 : inW cw o' = 1 := if_pos ((inWin_iff cw _).2 hin)
        have hφo : φ {o'} 0 () = 1 := by
          rw [hφ, hasOp, if_pos]
          exact ⟨o', Multiset.mem_singleton_self _, ho2, ho1⟩
        rw [Set.indicator_of_mem ho, h2, hφo, mul_one, mul_one, hz0]
        have ho' : o' = (o'.1, f) := Prod.ext rfl ho2
        rw [ho']
        refine shiftK_pos E cw hd hf hfg.symm hin ?_
        rw [abs_le]
        constructor
        · linarith [ho1.1, ht.2, hd g]
        · linarith [ho1.2, ht.1]
      · rw [Set.indicator_of_notMem ho]
        exact zero_le

/-- Two flavors in one block with `max_distance_` `1` and `2`, the window is `[0, 3]`. -/
example : ∃ φ ψ : CfgFun Unit ℝ≥0∞, φ.Meas () ∧ ψ.Meas () ∧
    orderFlow 3 3 1 0 () φ (fun _ _ _ => 1) (shiftE contEnv ⟨0, 3, 0⟩ (fun f => f + 1) (fun _ _ _ => 1) ψ) = 0 ∧
    0 < orderFlow 3 3 1 0 () ψ (fun _ _ _ => 1) (shiftE contEnv ⟨0, 3, 0⟩ (fun f => f + 1) (fun _ _ _ => 1) φ) :=
  C79_unequal_steps_violated (β := 3) contEnv (cw := ⟨0, 3, 0⟩) (maxDist := fun f => f + 1) le_rfl le_rfl
    (fun f => by positivity) (f := 0) (g := 1) (by decide) (by decide) rfl (by norm_num) (by norm_num)

end CTHyb
