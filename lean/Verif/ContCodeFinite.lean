import Verif.ContCodeProps
import Mathlib.LinearAlgebra.Matrix.AbsoluteValue
import Mathlib.Topology.Algebra.Module.FiniteDimension
import Mathlib.Analysis.SpecialFunctions.Exponential

/-!
The integral of the weight of the code over all configurations is finite and positive, so that the weight is a distribution.
-/

namespace CTHyb

open Rand MeasureTheory ENNReal Matrix

variable {𝕜 : Type} [RCLike 𝕜] {N : ℕ}

section bounds
open scoped Matrix.Norms.L2Operator

theorem timeOrderedMat_le {H : Matrix (Fin N) (Fin N) 𝕜} {O : OpType → ℕ → Matrix (Fin N) (Fin N) 𝕜} {β M K : ℝ}
    (hM : ∀ t ∈ Set.Icc (-β) β, ‖NormedSpace.exp (((t : ℝ) : 𝕜) • H)‖ ≤ M) (hM0 : 0 ≤ M) (hO : ∀ y f, ‖O y f‖ ≤ K)
    (L : List (TPsi ℝ)) (hL : ∀ o ∈ L, 0 ≤ o.time.time ∧ o.time.time ≤ β) (a : ℝ) (ha : 0 ≤ a) (ha' : a ≤ β) :
    ‖timeOrderedMat H O β L a‖ ≤ M * (K * M) ^ L.length := by
  induction L generalizing a with
  | nil =>
    simp only [timeOrderedMat, List.length_nil, pow_zero, mul_one]
    exact hM _ ⟨by linarith, by linarith⟩
  | cons o L ih =>
    have h := hL o List.mem_cons_self
    have h1 := ih (fun o' h' => hL o' (List.mem_cons_of_mem _ h')) o.time.time h.1 h.2
    have h2 := hM (-(o.time.time - a)) ⟨by linarith, by linarith⟩
    have hK : 0 ≤ K := (norm_nonneg _).trans (hO .creation 0)
    simp only [timeOrderedMat, List.length_cons]
    calc _ ≤ ‖timeOrderedMat H O β L o.time.time‖ * ‖O o.type o.flavor‖ * ‖NormedSpace.exp (((-(o.time.time - a) : ℝ) : 𝕜) • H)‖ :=
          (norm_mul_le _ _).trans (mul_le_mul_of_nonneg_right (norm_mul_le _ _) (norm_nonneg _))
      _ ≤ (M * (K * M) ^ L.length) * K * M := by
          gcongr
          exact hO _ _
      _ = _ := by ring

theorem trace_bound {A : CodeArgs 𝕜 N} (hA : A.OK) : ∃ T M : ℝ, 0 ≤ T ∧ 0 ≤ M ∧ ∀ L : List (TPsi ℝ),
    (∀ o ∈ L, 0 ≤ o.time.time ∧ o.time.time ≤ A.beta) → ‖fullTrace (ebEnv A.B A.p A.beta) L‖ ≤ T * M ^ L.length := by
  obtain ⟨E0, P, Q, -, -, -, e⟩ := C57_trace (p := A.p) hA.base hA.solver hA.dim hA.inner
  set H := A.B.H - ((E0 : ℝ) : 𝕜) • (1 : Matrix (Fin N) (Fin N) 𝕜) with hH
  have hc : Continuous fun x : ℝ => NormedSpace.exp (((x : ℝ) : 𝕜) • H) := by
    have h1 : Continuous fun x : ℝ => ((x : ℝ) : 𝕜) • H := Continuous.smul (RCLike.continuous_ofReal (K := 𝕜)) (continuous_const (y := H))
    letI : NormedAlgebra ℚ (Matrix (Fin N) (Fin N) 𝕜) := .restrictScalars ℚ 𝕜 _
    exact NormedSpace.exp_continuous.comp h1
  obtain ⟨M, hM⟩ := (isCompact_Icc (a := -A.beta) (b := A.beta)).exists_bound_of_continuousOn hc.continuousOn
  have hM0 : 0 ≤ M := (norm_nonneg _).trans (hM 0 ⟨by linarith [hA.beta], hA.beta⟩)
  let F : Matrix (Fin N) (Fin N) 𝕜 →ₗ[𝕜] 𝕜 := (traceLinearMap (Fin N) 𝕜 𝕜).comp (LinearMap.mulLeft 𝕜 Q)
  have hF : ∀ X, ‖trace (Q * X)‖ ≤ ‖LinearMap.toContinuousLinearMap F‖ * ‖X‖ := fun X =>
    (LinearMap.toContinuousLinearMap F).le_opNorm X
  have hO : ∀ y f, ‖P * A.B.op y f * P‖ ≤ ‖P‖ * ‖P‖ := fun y f =>
    calc _ ≤ ‖P‖ * ‖A.B.op y f‖ * ‖P‖ := (norm_mul_le _ _).trans (mul_le_mul_of_nonneg_right (norm_mul_le _ _) (norm_nonneg _))
      _ ≤ ‖P‖ * 1 * ‖P‖ := by gcongr; exact hA.norm y f
      _ = _ := by ring
  refine ⟨‖LinearMap.toContinuousLinearMap F‖ * M, ‖P‖ * ‖P‖ * M, by positivity, by positivity, fun L hL => ?_⟩
  rw [e]
  refine (hF _).trans ?_
  rw [mul_assoc]
  exact mul_le_mul_of_nonneg_left (timeOrderedMat_le hM hM0 hO L hL 0 le_rfl hA.beta) (norm_nonneg _)

end bounds

/-- **Specification.**  The hybridization function is bounded for times in `[0, beta]`. -/
def CodeArgs.Bounded (A : CodeArgs 𝕜 N) (C : ℝ) : Prop :=
  ∀ a b : TPsi ℝ, a.time.time ∈ Set.Icc 0 A.beta → b.time.time ∈ Set.Icc 0 A.beta → ‖A.G a b‖ ≤ C

theorem CodeArgs.Bounded.nonneg {A : CodeArgs 𝕜 N} (hA : A.OK) {C : ℝ} (hC : A.Bounded C) : 0 ≤ C :=
  (norm_nonneg _).trans (hC ⟨⟨0, 0⟩, .creation, 0⟩ ⟨⟨0, 0⟩, .creation, 0⟩ ⟨le_rfl, hA.beta⟩ ⟨le_rfl, hA.beta⟩)

theorem listDet_bound (G : TPsi ℝ → TPsi ℝ → 𝕜) {C : ℝ} (hC0 : 0 ≤ C) (cs cds : List (TPsi ℝ)) (hC : ∀ a ∈ cs, ∀ b ∈ cds, ‖G a b‖ ≤ C) :
    ‖timeDet G cs cds‖ ≤ cs.length.factorial * C ^ cs.length := by
  unfold timeDet listDet
  split_ifs with h
  · have := det_le (abv := normAbs 𝕜) (A := of fun i j : Fin (timeSort cs).length =>
      G ((timeSort cs).get i) ((timeSort cds).get (j.cast h.symm))) (x := C) fun i j =>
      hC _ ((timeSort_perm cs).mem_iff.1 (List.get_mem _ _)) _ ((timeSort_perm cds).mem_iff.1 (List.get_mem _ _))
    rw [Fintype.card_fin, nsmul_eq_mul] at this
    have e := (timeSort_perm cs).length_eq
    rw [← e]
    exact this
  · rw [norm_zero]
    positivity

/-- Bound of the weight. -/
theorem codeW_bound {A : CodeArgs 𝕜 N} (hA : A.OK) {C : ℝ} (hC : A.Bounded C) :
    ∃ T M : ℝ, 0 ≤ T ∧ 0 ≤ M ∧ ∀ x : WCfg ℝ, (∀ o ∈ x.ops id (codeWops id), 0 ≤ o.time.time ∧ o.time.time ≤ A.beta) →
      (codeW A).at x ≤ if x.cd.length = x.c.length then
        (x.cd.length.factorial * C ^ x.cd.length) * (T * M ^ (x.ops id (codeWops id)).length) else 0 := by
  classical
  obtain ⟨T, M, hT, hM, h⟩ := trace_bound hA
  have hC0 : 0 ≤ C := hC.nonneg hA
  refine ⟨T, M, hT, hM, fun x hx => ?_⟩
  split_ifs with hl
  · rw [codeW_at]
    split_ifs with hc
    · unfold cfgW CodeArgs.weight
      rw [norm_mul]
      have h1 := listDet_bound A.G hC0 (x.c.map (mkOp id .annihilation)) (x.cd.map (mkOp id .creation)) fun a ha b hb => hC a b
        (hx a (List.mem_append_left _ (List.mem_append_right _ ha))) (hx b (List.mem_append_left _ (List.mem_append_left _ hb)))
      have h2 := h (x.sorted id (codeWops id)) fun o ho => hx o ((x.sorted_perm (tau := id) (wops := codeWops id)).mem_iff.1 ho)
      rw [List.length_map, ← hl] at h1
      rw [(x.sorted_perm (tau := id) (wops := codeWops id)).length_eq] at h2
      exact mul_le_mul h1 h2 (norm_nonneg _) (by positivity)
    · positivity
  · by_contra hn
    refine hl ?_
    have : (codeW A).at x ≠ 0 := fun h0 => hn h0.le
    simpa using codeW_card A this

/-! ### Masses -/

theorem opMeasure_univ (β : ℝ) (nf : ℕ) : opMeasure β nf Set.univ = ENNReal.ofReal β * nf := by
  unfold opMeasure
  rw [← Set.univ_prod_univ, Measure.prod_prod, Measure.restrict_apply_univ, Measure.restrict_apply_univ, Real.volume_Icc,
    sub_zero]
  congr 1
  have : (Set.Iio nf : Set ℕ) = ((Finset.range nf : Finset ℕ) : Set ℕ) := by
    ext a
    simp
  rw [this, Measure.count_apply_finset, Finset.card_range]

theorem labMeasure_univ (β : ℝ) (nf m n : ℕ) :
    labMeasure β nf m n Set.univ = (ENNReal.ofReal β * nf) ^ m * (ENNReal.ofReal β * nf) ^ n := by
  unfold labMeasure opsMeasure
  rw [← Set.univ_prod_univ, Measure.prod_prod, Measure.pi_univ, Measure.pi_univ]
  simp only [opMeasure_univ, Finset.prod_const, Finset.card_univ, Fintype.card_fin]

theorem ae_opMeasure (β : ℝ) (nf : ℕ) : ∀ᵐ o ∂(opMeasure β nf), 0 ≤ o.1 ∧ o.1 ≤ β := by
  unfold opMeasure
  exact (Measure.quasiMeasurePreserving_fst).ae (ae_restrict_mem measurableSet_Icc)

theorem ae_opsMeasure (β : ℝ) (nf n : ℕ) : ∀ᵐ z ∂(opsMeasure β nf n), ∀ i, 0 ≤ (z i).1 ∧ (z i).1 ≤ β := by
  unfold opsMeasure
  exact ae_all_iff.2 fun i => (Measure.tendsto_eval_ae_ae (μ := fun _ : Fin n => opMeasure β nf) (i := i)).eventually
    (p := fun o : BOp ℝ => 0 ≤ o.1 ∧ o.1 ≤ β) (ae_opMeasure β nf)

theorem ae_labMeasure (β : ℝ) (nf m n : ℕ) : ∀ᵐ z ∂(labMeasure β nf m n),
    (∀ i, 0 ≤ (z.1 i).1 ∧ (z.1 i).1 ≤ β) ∧ ∀ i, 0 ≤ (z.2 i).1 ∧ (z.2 i).1 ≤ β := by
  unfold labMeasure
  exact ((Measure.quasiMeasurePreserving_fst).ae (ae_opsMeasure β nf m)).and
    ((Measure.quasiMeasurePreserving_snd).ae (ae_opsMeasure β nf n))

/-! ### Orders -/

theorem codeW_lab {A : CodeArgs 𝕜 N} {C T M : ℝ} (h : ∀ x : WCfg ℝ, (∀ o ∈ x.ops id (codeWops id), 0 ≤ o.time.time ∧ o.time.time ≤ A.beta) →
      (codeW A).at x ≤ if x.cd.length = x.c.length then
        (x.cd.length.factorial * C ^ x.cd.length) * (T * M ^ (x.ops id (codeWops id)).length) else 0)
    {ω : Option (Worm ℝ)} (hω : ∀ o ∈ wormOps (codeWops id ω), 0 ≤ o.time.time ∧ o.time.time ≤ A.beta) {m n : ℕ} (z : Lab m n)
    (hz : (∀ i, 0 ≤ (z.1 i).1 ∧ (z.1 i).1 ≤ A.beta) ∧ ∀ i, 0 ≤ (z.2 i).1 ∧ (z.2 i).1 ≤ A.beta) :
    (codeW A).at (z.cfg ω) ≤ if m = n then
      (m.factorial * C ^ m) * (T * M ^ (m + n + (wormOps (codeWops id ω)).length)) else 0 := by
  have := h (z.cfg ω) ?_
  · simpa [Lab.cfg, PCfg.ops, add_assoc] using this
  · intro o ho
    simp only [PCfg.ops, Lab.cfg, List.mem_append, List.mem_map, List.mem_ofFn] at ho
    rcases ho with (⟨_, ⟨i, rfl⟩, rfl⟩ | ⟨_, ⟨i, rfl⟩, rfl⟩) | ho
    · exact hz.1 i
    · exact hz.2 i
    · exact hω o ho

theorem orderFlow_bound {A : CodeArgs 𝕜 N} {C T M : ℝ} (hC : 0 ≤ C) (hT : 0 ≤ T) (hM : 0 ≤ M) (hβ : 0 ≤ A.beta)
    (h : ∀ x : WCfg ℝ, (∀ o ∈ x.ops id (codeWops id), 0 ≤ o.time.time ∧ o.time.time ≤ A.beta) →
      (codeW A).at x ≤ if x.cd.length = x.c.length then
        (x.cd.length.factorial * C ^ x.cd.length) * (T * M ^ (x.ops id (codeWops id)).length) else 0)
    {ω : Option (Worm ℝ)} (hω : ∀ o ∈ wormOps (codeWops id ω), 0 ≤ o.time.time ∧ o.time.time ≤ A.beta) (m n : ℕ) :
    orderFlow A.beta A.P.nf m n ω (fun _ _ _ => 1) (codeW A) (fun _ => 1) ≤ if m = n then
      ENNReal.ofReal (T * M ^ (wormOps (codeWops id ω)).length * ((C * (M * (A.beta * A.P.nf)) ^ 2) ^ n / n.factorial)) else 0 := by
  unfold orderFlow
  simp only [CfgFun.at, one_mul, mul_one]
  have hb : ∫⁻ z, ENNReal.ofReal ((codeW A).at (Lab.cfg z ω)) ∂(labMeasure A.beta A.P.nf m n) ≤
      ∫⁻ _, ENNReal.ofReal (if m = n then
        (m.factorial * C ^ m) * (T * M ^ (m + n + (wormOps (codeWops id ω)).length)) else 0) ∂(labMeasure A.beta A.P.nf m n) :=
    lintegral_mono_ae ((ae_labMeasure A.beta A.P.nf m n).mono fun z hz => ENNReal.ofReal_le_ofReal (codeW_lab h hω z hz))
  refine (mul_le_mul_right hb _).trans ?_
  rw [lintegral_const, labMeasure_univ]
  split_ifs with e
  · subst e
    have hV : (ENNReal.ofReal A.beta * (A.P.nf : ℝ≥0∞)) = ENNReal.ofReal (A.beta * A.P.nf) := by
      rw [ENNReal.ofReal_mul hβ, ENNReal.ofReal_natCast]
    have hf : (((m.factorial * m.factorial : ℕ) : ℝ≥0∞))⁻¹ = ENNReal.ofReal ((m.factorial * m.factorial : ℕ) : ℝ)⁻¹ := by
      rw [ENNReal.ofReal_inv_of_pos (by positivity), ENNReal.ofReal_natCast]
    have hB : 0 ≤ A.beta * (A.P.nf : ℝ) := by positivity
    rw [hV, hf, ← ENNReal.ofReal_pow hB, ← ENNReal.ofReal_mul (by positivity), ← ENNReal.ofReal_mul (by positivity),
      ← ENNReal.ofReal_mul (by positivity)]
    refine le_of_eq (congrArg _ ?_)
    have : (m.factorial : ℝ) ≠ 0 := by positivity
    push_cast
    field_simp
    ring
  · simp

/-- Sum over the orders. -/
theorem allFlow_bound {A : CodeArgs 𝕜 N} {C T M : ℝ} (hC : 0 ≤ C) (hT : 0 ≤ T) (hM : 0 ≤ M) (hβ : 0 ≤ A.beta)
    (h : ∀ x : WCfg ℝ, (∀ o ∈ x.ops id (codeWops id), 0 ≤ o.time.time ∧ o.time.time ≤ A.beta) →
      (codeW A).at x ≤ if x.cd.length = x.c.length then
        (x.cd.length.factorial * C ^ x.cd.length) * (T * M ^ (x.ops id (codeWops id)).length) else 0)
    {ω : Option (Worm ℝ)} (hω : ∀ o ∈ wormOps (codeWops id ω), 0 ≤ o.time.time ∧ o.time.time ≤ A.beta) :
    allFlow A.beta A.P.nf ω (fun _ _ _ => 1) (codeW A) (fun _ => 1) ≤
      ENNReal.ofReal (T * M ^ (wormOps (codeWops id ω)).length * Real.exp (C * (M * (A.beta * A.P.nf)) ^ 2)) := by
  unfold allFlow
  have hp := orderFlow_bound hC hT hM hβ h hω
  generalize ha : C * (M * (A.beta * A.P.nf)) ^ 2 = a at hp ⊢
  have ha0 : 0 ≤ a := by rw [← ha]; positivity
  generalize hb : T * M ^ (wormOps (codeWops id ω)).length = b at hp ⊢
  have hb0 : 0 ≤ b := by rw [← hb]; positivity
  have hs : Summable fun n : ℕ => b * (a ^ n / n.factorial) := (Real.summable_pow_div_factorial a).mul_left b
  have h1 : ∑' p : ℕ × ℕ, orderFlow A.beta A.P.nf p.1 p.2 ω (fun _ _ _ => 1) (codeW A) (fun _ => 1) ≤
      ∑' p : ℕ × ℕ, if p.1 = p.2 then ENNReal.ofReal (b * (a ^ p.2 / p.2.factorial)) else 0 :=
    ENNReal.tsum_le_tsum fun p => hp p.1 p.2
  have h2 : (∑' p : ℕ × ℕ, if p.1 = p.2 then ENNReal.ofReal (b * (a ^ p.2 / p.2.factorial)) else 0) =
      ∑' n : ℕ, ENNReal.ofReal (b * (a ^ n / n.factorial)) := by
    rw [ENNReal.tsum_prod (f := fun m n : ℕ => if m = n then ENNReal.ofReal (b * (a ^ n / n.factorial)) else 0)]
    refine tsum_congr fun m => ?_
    rw [tsum_eq_single m fun n hn => if_neg (Ne.symm hn), if_pos rfl]
  refine h1.trans (le_of_eq (h2.trans ?_))
  rw [← ENNReal.ofReal_tsum_of_nonneg (fun n => mul_nonneg hb0 (div_nonneg (pow_nonneg ha0 n) (Nat.cast_nonneg _))) hs,
    tsum_mul_left, Real.exp_eq_exp_ℝ, NormedSpace.exp_eq_tsum_div]

theorem worm_times {nf : ℕ} {β : ℝ} (hβ : 0 ≤ β) (k : WormKind) (fs : Fin k.numFlavors → Fin nf) {ts : Fin k.numTimes → ℝ}
    (ht : ∀ i, 0 ≤ ts i ∧ ts i ≤ β) :
    (∀ o ∈ wormOps (codeWops id (some (mkW k ts fs))), 0 ≤ o.time.time ∧ o.time.time ≤ β) ∧
      (wormOps (codeWops id (some (mkW k ts fs)))).length = k.numFlavors := by
  have hg : ∀ i, 0 ≤ (List.ofFn ts).getD i default ∧ (List.ofFn ts).getD i default ≤ β := fun i => by
    rw [List.getD_eq_getElem?_getD, List.getElem?_ofFn]
    split_ifs with h
    · exact ht _
    · exact ⟨le_rfl, hβ⟩
  have e : wormOps (codeWops id (some (mkW k ts fs))) = (mkW k ts fs).operators := by
    show ((mkW k ts fs).operators.map (mapOp id)) = _
    conv_rhs => rw [← List.map_id (mkW k ts fs).operators]
    rfl
  rw [e]
  rcases k with r | r | r
  · refine ⟨fun o ho => ?_, by simp [Worm.operators, mkW, WormKind.numFlavors, List.length_flatMap, mul_comm]⟩
    obtain ⟨i, -, hi⟩ := List.mem_flatMap.1 ho
    rcases List.mem_cons.1 hi with rfl | hi
    · exact hg i
    · rw [List.mem_singleton.1 hi]
      exact hg i
  · refine ⟨fun o ho => ?_, by simp [Worm.operators, mkW, WormKind.numFlavors, List.length_flatMap, mul_comm]⟩
    obtain ⟨i, -, hi⟩ := List.mem_flatMap.1 ho
    rcases List.mem_cons.1 hi with rfl | hi
    · exact hg (2 * i)
    · rw [List.mem_singleton.1 hi]
      exact hg (2 * i + 1)
  · refine ⟨fun o ho => ?_, by simp [Worm.operators, mkW, WormKind.numFlavors, List.length_flatMap, mul_comm]⟩
    obtain ⟨i, -, hi⟩ := List.mem_flatMap.1 ho
    rcases List.mem_cons.1 hi with rfl | hi
    · exact hg 0
    · rw [List.mem_singleton.1 hi]
      exact hg 0

theorem ae_worm_times (β : ℝ) (k : ℕ) :
    ∀ᵐ ts ∂(Measure.pi fun _ : Fin k => (volume : Measure ℝ).restrict (Set.Icc 0 β)), ∀ i, 0 ≤ ts i ∧ ts i ≤ β :=
  ae_all_iff.2 fun i => (Measure.tendsto_eval_ae_ae (μ := fun _ : Fin k => (volume : Measure ℝ).restrict (Set.Icc 0 β)) (i := i)).eventually
    (p := fun t : ℝ => 0 ≤ t ∧ t ≤ β) (ae_restrict_mem measurableSet_Icc)

theorem kindFlow_finite {A : CodeArgs 𝕜 N} (hA : A.OK) {C : ℝ} (hC : A.Bounded C) (k : WormKind) :
    kindFlow A.beta A.P.nf (fun _ _ _ => 1) (codeW A) (fun _ => 1) k < ∞ := by
  obtain ⟨T, M, hT, hM, h⟩ := codeW_bound hA hC
  have hC0 : 0 ≤ C := hC.nonneg hA
  unfold kindFlow
  refine ENNReal.sum_lt_top.2 fun fs _ => ?_
  refine lt_of_le_of_lt (lintegral_mono_ae (g := fun _ =>
    ENNReal.ofReal (T * M ^ k.numFlavors * Real.exp (C * (M * (A.beta * A.P.nf)) ^ 2)))
    ((ae_worm_times A.beta k.numTimes).mono fun ts ht => ?_)) ?_
  · obtain ⟨h1, h2⟩ := worm_times hA.beta k fs ht
    rw [← h2]
    exact allFlow_bound hC0 hT hM hA.beta h h1
  · rw [lintegral_const]
    refine ENNReal.mul_lt_top ENNReal.ofReal_lt_top ?_
    rw [Measure.pi_univ]
    refine ENNReal.prod_lt_top fun i _ => ?_
    rw [Measure.restrict_apply_univ, Real.volume_Icc]
    exact ENNReal.ofReal_lt_top

/-- **C83** (orders).  If the hybridization function is bounded, the configurations with `n` creation and `n` annihilation operators
have together a weight of at most `T aⁿ / n!`. -/
theorem C83_orders {A : CodeArgs 𝕜 N} (hA : A.OK) {C : ℝ} (hC : A.Bounded C) :
    ∃ T a : ℝ, ∀ n, orderFlow A.beta A.P.nf n n none (fun _ _ _ => 1) (codeW A) (fun _ => 1) ≤
      ENNReal.ofReal (T * (a ^ n / n.factorial)) := by
  obtain ⟨T, M, hT, hM, h⟩ := codeW_bound hA hC
  have hC0 : 0 ≤ C := hC.nonneg hA
  refine ⟨T, C * (M * (A.beta * A.P.nf)) ^ 2, fun n => ?_⟩
  have := orderFlow_bound hC0 hT hM hA.beta h (ω := none) (by simp [codeWops, wormOps]) n n
  simpa [codeWops, wormOps] using this

/-- **C83** (normalization).  If the hybridization function is bounded, the integral of the weight over all configuration spaces is
finite, and it is positive: divided by it the weight is a probability distribution. -/
theorem C83_finite {A : CodeArgs 𝕜 N} (hA : A.OK) {C : ℝ} (hC : A.Bounded C) (kinds : List WormKind) (sw : WormKind → ℝ) :
    wFlow A.beta A.P.nf kinds sw (fun _ _ _ => 1) (codeW A) (fun _ => 1) < ∞ ∧
      0 < allFlow A.beta A.P.nf none (fun _ _ _ => 1) (codeW A) (fun _ => 1) := by
  constructor
  · obtain ⟨T, M, hT, hM, h⟩ := codeW_bound hA hC
    have hC0 : 0 ≤ C := hC.nonneg hA
    unfold wFlow
    refine ENNReal.add_lt_top.2 ⟨lt_of_le_of_lt (allFlow_bound hC0 hT hM hA.beta h (by simp [codeWops, wormOps])) ENNReal.ofReal_lt_top, ?_⟩
    induction kinds with
    | nil => simp
    | cons k kinds ih =>
      rw [List.map_cons, List.sum_cons]
      exact ENNReal.add_lt_top.2 ⟨ENNReal.mul_lt_top ENNReal.ofReal_lt_top (kindFlow_finite hA hC k), ih⟩
  · obtain ⟨E0, z, -, hz, e, -⟩ := C60_partition_function (p := A.p) hA.base hA.solver hA.dim hA.inner hA.outer A.beta
    have h0 : ∀ y : Lab 0 0, (codeW A).at (y.cfg none) = z := fun y => by
      classical
      have ey : (y.cfg none : WCfg ℝ) = ⟨[], [], none⟩ := by simp [Lab.cfg]
      rw [ey, codeW_at, if_pos ⟨by simp [PCfg.ops, codeWops, wormOps], by simp, by simp⟩]
      unfold cfgW CodeArgs.weight
      have e1 : timeDet A.G (([] : List (BOp ℝ)).map (mkOp id .annihilation)) (([] : List (BOp ℝ)).map (mkOp id .creation)) = 1 := by
        unfold timeDet
        have : timeSort ([] : List (TPsi ℝ)) = [] := List.mergeSort_nil
        rw [List.map_nil, List.map_nil, this]
        unfold listDet
        rw [dif_pos rfl]
        exact Matrix.det_fin_zero
      have e2 : (⟨[], [], none⟩ : WCfg ℝ).sorted id (codeWops id) = [] := by
        simp [PCfg.sorted, PCfg.ops, codeWops, wormOps]
      rw [e2, e, norm_mul]
      simp only [List.map_nil] at e1
      simp [e1, abs_of_pos hz]
    have h1 : 0 < orderFlow A.beta A.P.nf 0 0 none (fun _ _ _ => 1) (codeW A) (fun _ => 1) := by
      unfold orderFlow
      have e1 : ∀ y : Lab 0 0, CfgFun.at (fun _ _ _ => (1 : ℝ≥0∞)) (y.cfg (none : Option (Worm ℝ))) = 1 := fun _ => rfl
      simp only [h0, e1, mul_one, one_mul]
      rw [lintegral_const, labMeasure_univ]
      simpa using hz
    exact lt_of_lt_of_le h1 (ENNReal.le_tsum (f := fun p : ℕ × ℕ =>
      orderFlow A.beta A.P.nf p.1 p.2 none (fun _ _ _ => 1) (codeW A) (fun _ => 1)) (0, 0))

end CTHyb
