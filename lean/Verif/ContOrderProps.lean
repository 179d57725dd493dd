import Mathlib.Analysis.Calculus.SmoothSeries
import Verif.ContCorrProps
import Verif.OrderHistProps

/-!
# C88: expansion orders in continuous time

The numbers recorded for `PerturbationOrderFlavors` (src/impurity.ipp:385-389) and `k` (src/impurity.ipp:270-272) after the loop of
`update` with real times.  They are not bounded, so the sums over the orders have to converge.

Specification: `countOf`, the number of creation operators of a flavor; `zOf`, the integral over all configurations without worm, as a
function of the strength of the hybridization.
-/

namespace CTHyb

open Rand MeasureTheory ENNReal Matrix

variable {𝕜 : Type} [RCLike 𝕜] {N : ℕ}

/-! ### Specification -/

/-- **Specification.**  Number of operators of flavor `f`. -/
def countOf {T : Type} (f : ℕ) (X : Multiset (BOp T)) : ℕ := X.countP fun o => o.2 = f

/-- **Specification.**  The integral over all configurations without worm, with the hybridization function multiplied by `l`. -/
noncomputable def zOf (A : CodeArgs 𝕜 N) (l : ℝ) : ℝ :=
  cfgInt A.beta A.P.nf none (fun X X' ω => RCLike.re (signedC ({ A with G := fun o o' => (l : 𝕜) * A.G o o' } : CodeArgs 𝕜 N) X X' ω))

/-! ### Convergence -/

variable {A : CodeArgs 𝕜 N} {a : LoopC} {k : ℕ} {plan : Rand ℝ (List (ℕ × List (ℕ → ℕ)))}
  {σ : WCfg ℝ → CodeState A (Option (Worm ℝ))} {st : SavedState}

/-- The integrals of the weight fall faster than any power. -/
theorem order_bound (ha : a.OK A) : ∃ u : ℕ × ℕ → ℝ, (∀ p, 0 ≤ u p) ∧ (∀ p, p.1 ≠ p.2 → u p = 0) ∧
    (∀ K : ℝ, Summable fun p => K ^ (p.1 + p.2) * u p) ∧
    ∀ p : ℕ × ℕ, orderFlow A.beta A.P.nf p.1 p.2 none (fun _ _ _ => 1) (codeW A) (fun _ => 1) ≤ ENNReal.ofReal (u p) := by
  obtain ⟨C, hC⟩ := ha.bounded
  obtain ⟨T, M, hT, hM, hbd⟩ := codeW_bound ha.code hC
  have hC0 := hC.nonneg ha.code
  have h := orderFlow_bound hC0 hT hM ha.code.beta hbd (ω := none) (by simp [codeWops, wormOps])
  generalize hx : C * (M * (A.beta * A.P.nf)) ^ 2 = x at h
  have hx0 : 0 ≤ x := by rw [← hx]; positivity
  generalize hb : T * M ^ (wormOps (codeWops id (none : Option (Worm ℝ)))).length = b at h
  have hb0 : 0 ≤ b := by rw [← hb]; positivity
  refine ⟨fun p => if p.1 = p.2 then b * (x ^ p.2 / p.2.factorial) else 0, fun p => ?_, fun p hp => if_neg hp, ?_, fun p => ?_⟩
  · simp only
    split_ifs
    · positivity
    · exact le_rfl
  · intro K
    have hinj : Function.Injective fun n : ℕ => (n, n) := fun m n e => (Prod.mk.inj e).1
    rw [← hinj.summable_iff]
    · refine ((Real.summable_pow_div_factorial (K ^ 2 * x)).mul_left b).congr fun n => ?_
      simp only [Function.comp, if_true]
      rw [mul_pow, ← two_mul, pow_mul]
      ring
    · rintro ⟨m, n⟩ hp
      have : m ≠ n := fun e => hp ⟨m, by rw [e]⟩
      simp [this]
  · refine (h p.1 p.2).trans (le_of_eq ?_)
    by_cases e : p.1 = p.2 <;> simp [e]

/-- Expectation values of numbers which do not grow faster than `2^(number of operators)`. -/
theorem mean_growth (ha : a.OK A) (hp : PlanC A plan) (hst : WindowOK 0 st) (hσ : StatesC A st σ)
    {d : CfgFun (Option (Worm ℝ)) ℝ} (hd : d.WMeas A.P.nf) (hB : ∀ X X' ω, |d X X' ω| ≤ 2 ^ (Multiset.card X + Multiset.card X'))
    {F : CodeState A (Option (Worm ℝ)) → ℝ} (hF : ∀ s x st, Stands A st x s → x.worm = none → F s = d.at x) :
    loopMeanC A a k plan σ (fun s => (if s.2 = none then 1 else 0) * F s) =
      cfgInt A.beta A.P.nf none (fun X X' ω => codeW A X X' ω * d X X' ω) / totalC A a := by
  refine mean_onZ_int ha hp hst hσ hd ?_ hF
  obtain ⟨u, hu0, -, hs', hu⟩ := order_bound ha
  have hs := hs' 2
  refine ne_top_of_le_ne_top hs.tsum_ofReal_ne_top (ENNReal.tsum_le_tsum fun p => ?_)
  have h1 : orderFlow A.beta A.P.nf p.1 p.2 none (fun _ _ _ => 1) (codeW A) (fun x => ENNReal.ofReal |d.at x|) ≤
      ENNReal.ofReal (2 ^ (p.1 + p.2)) * orderFlow A.beta A.P.nf p.1 p.2 none (fun _ _ _ => 1) (codeW A) (fun _ => 1) := by
    unfold orderFlow
    rw [mul_left_comm]
    refine mul_le_mul' le_rfl ?_
    rw [← lintegral_const_mul' _ _ ENNReal.ofReal_ne_top]
    refine lintegral_mono fun z => ?_
    rw [mul_one, mul_comm]
    refine mul_le_mul' (ENNReal.ofReal_le_ofReal ?_) le_rfl
    have := hB (ms z.1) (ms z.2) none
    rw [ms_eq, ms_eq] at this
    simpa [CfgFun.at, Lab.cfg] using this
  refine h1.trans ?_
  rw [ENNReal.ofReal_mul (by positivity)]
  exact mul_le_mul' le_rfl (hu p)

/-! ### Orders of the flavors -/

theorem measurable_countOf (f : ℕ) {n : ℕ} : Measurable fun z : Fin n → BOp ℝ => ((countOf f (ms z) : ℕ) : ℝ) := by
  have e : (fun z : Fin n → BOp ℝ => ((countOf f (ms z) : ℕ) : ℝ)) = fun z => ∑ i, if (z i).2 = f then (1 : ℝ) else 0 := by
    funext z
    unfold countOf
    rw [ms_eq, Multiset.countP_map, ← Finset.filter_val, Finset.card_val, Finset.card_filter]
    push_cast
    rfl
  rw [e]
  refine Finset.measurable_sum _ fun i _ => Measurable.ite ?_ measurable_const measurable_const
  have : Measurable fun z : Fin n → BOp ℝ => (z i).2 := measurable_snd.comp (measurable_pi_apply i)
  exact this (measurableSet_singleton f)

/-- **C88, orders of the flavors.**  In equilibrium the mean of `PerturbationOrderFlavors` for flavor `f` is the mean number of creation
operators of this flavor, with the weight as density.  Missing for the full statement: as in `C83_loop_partial`. -/
theorem C88_orders_partial (ha : a.OK A) (hp : PlanC A plan) (hst : WindowOK 0 st) (hσ : StatesC A st σ) {f : ℕ} (hf : f < A.P.nf) :
    let E := loopMeanC A a k plan σ
    let inZ : CodeState A (Option (Worm ℝ)) → ℝ := fun s => if s.2 = none then 1 else 0
    E (fun s => inZ s * (((orderFlavors (countCreation A.P.nf (A.env.D.cdagg s.1.cfg.M))).getD f 0 : ℚ) : ℝ)) / E inZ =
      cfgInt A.beta A.P.nf none (fun X X' ω => codeW A X X' ω * countOf f X) / cfgInt A.beta A.P.nf none (codeW A) := by
  intro E inZ
  have e1 : E (fun s => inZ s * (((orderFlavors (countCreation A.P.nf (A.env.D.cdagg s.1.cfg.M))).getD f 0 : ℚ) : ℝ)) = _ :=
    mean_growth ha hp hst hσ (d := fun X _ _ => (countOf f X : ℝ))
      ⟨fun m n => (measurable_countOf f).comp measurable_fst, fun _ _ m n => (measurable_countOf f).comp (measurable_fst.comp measurable_snd)⟩
      (fun X X' _ => by
        rw [abs_of_nonneg (Nat.cast_nonneg _)]
        have h1 : countOf f X ≤ Multiset.card X + Multiset.card X' := (Multiset.countP_le_card _ _).trans (Nat.le_add_right _ _)
        exact_mod_cast h1.trans Nat.lt_two_pow_self.le)
      fun s x st h _ => by
        obtain ⟨-, h2⟩ := C68_counts A.P.nf (A.env.D.cdagg s.1.cfg.M)
        have h3 := h2 f hf
        rw [orderFlavors, List.getD_eq_getElem?_getD, List.getElem?_map, h3]
        show (((List.countP _ _ : ℕ) : ℚ) : ℝ) = ((countOf f (x.cd : Multiset (BOp ℝ)) : ℕ) : ℝ)
        rw [h.reps.cd.countP_eq, List.countP_map, Rat.cast_natCast, countOf, Multiset.coe_countP]
        congr 2
  have e3 : E inZ = _ := mean_one_onZ ha hp hst hσ
  obtain ⟨hT, -⟩ := ha.total_pos
  rw [e1, e3, div_div_div_cancel_right₀ hT.ne']

/-! ### The strength of the hybridization -/

theorem timeDet_scale (G : TPsi ℝ → TPsi ℝ → 𝕜) (l : 𝕜) (cs cds : List (TPsi ℝ)) :
    timeDet (fun o o' => l * G o o') cs cds = l ^ cs.length * timeDet G cs cds := by
  unfold timeDet listDet
  split_ifs with h
  · have e : (Matrix.of fun i j : Fin (timeSort cs).length => l * G ((timeSort cs).get i) ((timeSort cds).get (j.cast h.symm))) =
        l • Matrix.of fun i j : Fin (timeSort cs).length => G ((timeSort cs).get i) ((timeSort cds).get (j.cast h.symm)) := by
      ext i j; rfl
    have hl : l ^ (timeSort cs).length = l ^ cs.length := by rw [(timeSort_perm cs).length_eq]
    rw [e, Matrix.det_smul, Fintype.card_fin, hl]
  · rw [mul_zero]

theorem signedC_scale (A : CodeArgs 𝕜 N) (l : 𝕜) (X X' : Multiset (BOp ℝ)) (ω : Option (Worm ℝ)) :
    signedC ({ A with G := fun o o' => l * A.G o o' } : CodeArgs 𝕜 N) X X' ω = l ^ Multiset.card X' * signedC A X X' ω := by
  by_cases h : CodeCfg A.P.nf ⟨X.toList, X'.toList, ω⟩
  · have e1 : signedC ({ A with G := fun o o' => l * A.G o o' } : CodeArgs 𝕜 N) X X' ω =
        signedR ({ A with G := fun o o' => l * A.G o o' } : CodeArgs 𝕜 N) ⟨X.toList, X'.toList, ω⟩ := if_pos h
    have e2 : signedC A X X' ω = signedR A ⟨X.toList, X'.toList, ω⟩ := if_pos h
    rw [e1, e2]
    unfold signedR CodeArgs.weight
    rw [timeDet_scale, List.length_map, Multiset.length_toList]
    ring
  · have e1 : signedC ({ A with G := fun o o' => l * A.G o o' } : CodeArgs 𝕜 N) X X' ω = 0 := if_neg h
    have e2 : signedC A X X' ω = 0 := if_neg h
    rw [e1, e2, mul_zero]

/-- Integral over the configurations with given numbers of operators. -/
noncomputable def zTerm (A : CodeArgs 𝕜 N) (p : ℕ × ℕ) : ℝ :=
  ((p.1.factorial * p.2.factorial : ℕ) : ℝ)⁻¹ *
    ∫ z : Lab p.1 p.2, RCLike.re (signedC A (ms z.1) (ms z.2) none) ∂(labMeasure A.beta A.P.nf p.1 p.2)

theorem card_ms {n : ℕ} (z : Fin n → BOp ℝ) : Multiset.card (ms z) = n := by simp [ms]

theorem zOf_eq (A : CodeArgs 𝕜 N) (l : ℝ) : zOf A l = ∑' p, l ^ p.2 * zTerm A p := by
  unfold zOf cfgInt
  refine tsum_congr fun p => ?_
  have e : ∀ z : Lab p.1 p.2, CfgFun.at (fun X X' ω => RCLike.re (signedC ({ A with G := fun o o' => (l : 𝕜) * A.G o o' } : CodeArgs 𝕜 N)
      X X' ω)) (z.cfg none) = l ^ p.2 * RCLike.re (signedC A (ms z.1) (ms z.2) none) := fun z => by
    show RCLike.re (signedC _ (ms z.1) (ms z.2) none) = _
    rw [signedC_scale, card_ms, ← RCLike.ofReal_pow, RCLike.re_ofReal_mul]
  unfold zTerm
  simp only [e]
  rw [integral_const_mul, mul_left_comm]

theorem zTerm_le {p : ℕ × ℕ} {b : ℝ} (hb : 0 ≤ b)
    (h : orderFlow A.beta A.P.nf p.1 p.2 none (fun _ _ _ => 1) (codeW A) (fun _ => 1) ≤ ENNReal.ofReal b) : |zTerm A p| ≤ b := by
  unfold zTerm
  rw [abs_mul, abs_of_nonneg (by positivity), ← Real.norm_eq_abs]
  refine (mul_le_mul_of_nonneg_left (norm_integral_le_lintegral_norm _) (by positivity)).trans ?_
  have h1 : ∫⁻ z : Lab p.1 p.2, ENNReal.ofReal ‖RCLike.re (signedC A (ms z.1) (ms z.2) none)‖ ∂(labMeasure A.beta A.P.nf p.1 p.2) ≤
      ∫⁻ z : Lab p.1 p.2, ENNReal.ofReal (codeW A (ms z.1) (ms z.2) none) ∂(labMeasure A.beta A.P.nf p.1 p.2) :=
    lintegral_mono fun z => ENNReal.ofReal_le_ofReal (by rw [← norm_signedC]; exact RCLike.abs_re_le_norm _)
  have h2 : ((p.1.factorial * p.2.factorial : ℕ) : ℝ≥0∞)⁻¹ *
      ∫⁻ z : Lab p.1 p.2, ENNReal.ofReal (codeW A (ms z.1) (ms z.2) none) ∂(labMeasure A.beta A.P.nf p.1 p.2) ≤ ENNReal.ofReal b := by
    refine le_trans (le_of_eq ?_) h
    unfold orderFlow
    congr 1
    refine lintegral_congr fun z => ?_
    show _ = 1 * ENNReal.ofReal (codeW A (ms z.1) (ms z.2) none) * 1
    rw [one_mul, mul_one]
  have h3 := ENNReal.toReal_mono ENNReal.ofReal_ne_top ((mul_le_mul' le_rfl h1).trans h2)
  rw [ENNReal.toReal_mul, ENNReal.toReal_inv, ENNReal.toReal_natCast, ENNReal.toReal_ofReal hb] at h3
  exact h3

/-- The sum over the orders may be differentiated. -/
theorem zOf_deriv (ha : a.OK A) :
    HasDerivAt (zOf A) (∑' p, (p.2 : ℝ) * zTerm A p) 1 ∧
      cfgInt A.beta A.P.nf none (fun X X' ω => ((Multiset.card X + Multiset.card X' : ℕ) : ℝ) * RCLike.re (signedC A X X' ω)) =
        2 * ∑' p, (p.2 : ℝ) * zTerm A p := by
  obtain ⟨u, hu0, hoff, hs', hu⟩ := order_bound ha
  have hs := hs' 2
  have hz : ∀ p, |zTerm A p| ≤ u p := fun p => zTerm_le (hu0 p) (hu p)
  have h0 : ∀ p, p.1 ≠ p.2 → zTerm A p = 0 := fun p hp => by
    have := hz p
    rw [hoff p hp] at this
    exact abs_eq_zero.1 (le_antisymm this (abs_nonneg _))
  constructor
  · have hd := hasDerivAt_tsum_of_isPreconnected (𝕜 := ℝ) (g := fun (p : ℕ × ℕ) (l : ℝ) => l ^ p.2 * zTerm A p)
      (g' := fun p l => (p.2 : ℝ) * l ^ (p.2 - 1) * zTerm A p) (t := Set.Ioo 0 2) (y₀ := 1) (y := 1) hs isOpen_Ioo isPreconnected_Ioo
      (fun p y _ => (hasDerivAt_pow p.2 y).mul_const _) (fun p y hy => ?_) (by norm_num) ?_ (by norm_num)
    · have e : zOf A = fun l => ∑' p, l ^ p.2 * zTerm A p := funext (zOf_eq A)
      rw [e]
      simpa using hd
    · rw [Real.norm_eq_abs, abs_mul]
      by_cases hp : p.1 = p.2
      swap
      · rw [h0 p hp, abs_zero, mul_zero]
        exact mul_nonneg (by positivity) (hu0 p)
      refine mul_le_mul ?_ (hz p) (abs_nonneg _) (by positivity)
      rw [abs_of_nonneg (mul_nonneg (Nat.cast_nonneg _) (pow_nonneg hy.1.le _))]
      have h1 : y ^ (p.2 - 1) ≤ 2 ^ p.2 :=
        (pow_le_pow_left₀ hy.1.le hy.2.le _).trans (pow_le_pow_right₀ (by norm_num) (Nat.sub_le _ _))
      have h2 : (p.2 : ℝ) ≤ 2 ^ p.2 := by exact_mod_cast Nat.lt_two_pow_self.le
      rw [hp, pow_add]
      exact mul_le_mul h2 h1 (pow_nonneg hy.1.le _) (by positivity)
    · simp only [one_pow, one_mul]
      refine Summable.of_norm_bounded hs fun p => ?_
      rw [Real.norm_eq_abs]
      exact (hz p).trans (le_mul_of_one_le_left (hu0 p) (one_le_pow₀ (by norm_num)))
  · unfold cfgInt
    rw [← tsum_mul_left]
    refine tsum_congr fun p => ?_
    have e : ∀ z : Lab p.1 p.2, CfgFun.at (fun X X' ω => ((Multiset.card X + Multiset.card X' : ℕ) : ℝ) * RCLike.re (signedC A X X' ω))
        (z.cfg none) = ((p.1 + p.2 : ℕ) : ℝ) * RCLike.re (signedC A (ms z.1) (ms z.2) none) := fun z => by
      show ((Multiset.card (ms z.1) + Multiset.card (ms z.2) : ℕ) : ℝ) * _ = _
      rw [card_ms, card_ms]
      rfl
    simp only [e]
    rw [integral_const_mul]
    by_cases hp : p.1 = p.2
    · unfold zTerm
      rw [hp]
      push_cast
      ring
    · have := h0 p hp
      unfold zTerm at this ⊢
      rw [mul_left_comm, this]
      simp

/-- **C88, number of operators.**  In equilibrium the mean of `k`, divided by the mean of the sign, is twice the logarithmic derivative of
the partition function with respect to the strength of the hybridization.  Missing for the full statement: as in `C83_loop_partial`. -/
theorem C88_strength_partial (ha : a.OK A) (hp : PlanC A plan) (hst : WindowOK 0 st) (hσ : StatesC A st σ) :
    let E := loopMeanC A a k plan σ
    let inZ : CodeState A (Option (Worm ℝ)) → ℝ := fun s => if s.2 = none then 1 else 0
    DifferentiableAt ℝ (zOf A) 1 ∧
    (E (fun s => inZ s * RCLike.re (recordK A s.1)) / E inZ) / (E (fun s => inZ s * RCLike.re s.1.cfg.sign) / E inZ) =
      2 * (deriv (zOf A) 1 / zOf A 1) := by
  intro E inZ
  obtain ⟨hd, hc⟩ := zOf_deriv ha
  refine ⟨hd.differentiableAt, ?_⟩
  have hm := sgnC_wmeas ha
  have e1 : E (fun s => inZ s * RCLike.re (recordK A s.1)) = _ :=
    mean_growth ha hp hst hσ (d := fun X X' ω => ((Multiset.card X + Multiset.card X' : ℕ) : ℝ) * RCLike.re (sgnC A X X' ω))
      ⟨fun m n => by
        have e : (fun z : Lab m n => CfgFun.at (fun X X' ω => ((Multiset.card X + Multiset.card X' : ℕ) : ℝ) * RCLike.re (sgnC A X X' ω))
            (z.cfg none)) = fun z => ((m + n : ℕ) : ℝ) * RCLike.re ((sgnC A).at (z.cfg none)) := funext fun z => by
          show ((Multiset.card (ms z.1) + Multiset.card (ms z.2) : ℕ) : ℝ) * _ = _
          rw [card_ms, card_ms]
          rfl
        rw [e]
        exact (RCLike.continuous_re.measurable.comp (hm.none m n)).const_mul _,
      fun k fs m n => by
        simp only [card_ms]
        exact (RCLike.continuous_re.measurable.comp (hm.worm k fs m n)).const_mul _⟩
      (fun X X' ω => by
        rw [abs_mul, abs_of_nonneg (Nat.cast_nonneg _)]
        refine (mul_le_of_le_one_right (Nat.cast_nonneg _) ((RCLike.abs_re_le_norm _).trans (norm_sgnC A X X' ω))).trans ?_
        exact_mod_cast Nat.lt_two_pow_self.le)
      fun s x st h hx => by
        have hl := (h.reps.ops_perm h.inv).length_eq
        have e : (x.ops id (codeWops id)).length = x.cd.length + x.c.length := by
          simp [PCfg.ops, hx, codeWops, wormOps]
        unfold recordK
        rw [← hl, e, sign_sgnC ha h, ← RCLike.ofReal_natCast, RCLike.re_ofReal_mul]
        rfl
  have e2 : E (fun s => inZ s * RCLike.re s.1.cfg.sign) = _ := mean_sign ha hp hst hσ
  have e3 : E inZ = _ := mean_one_onZ ha hp hst hσ
  have e4 : cfgInt A.beta A.P.nf none (fun X X' ω => codeW A X X' ω * (((Multiset.card X + Multiset.card X' : ℕ) : ℝ) *
      RCLike.re (sgnC A X X' ω))) =
      cfgInt A.beta A.P.nf none (fun X X' ω => ((Multiset.card X + Multiset.card X' : ℕ) : ℝ) * RCLike.re (signedC A X X' ω)) :=
    cfgInt_congr fun X X' => by rw [← mul_sgnC A X X' none, RCLike.re_ofReal_mul]; ring
  have e5 : zOf A 1 = cfgInt A.beta A.P.nf none (fun X X' ω => RCLike.re (signedC A X X' ω)) := by
    unfold zOf
    refine cfgInt_congr fun X X' => ?_
    rw [signedC_scale, RCLike.ofReal_one, one_pow, one_mul]
  obtain ⟨hT, hZ⟩ := ha.total_pos
  rw [e1, e2, e3, e4, hc, hd.deriv, e5]
  generalize totalC A a = T at hT ⊢
  generalize cfgInt A.beta A.P.nf none (codeW A) = Z at hZ ⊢
  generalize cfgInt A.beta A.P.nf none (fun X X' ω => RCLike.re (signedC A X X' ω)) = S
  have hT' := hT.ne'
  have hZ' := hZ.ne'
  rcases eq_or_ne S 0 with rfl | hS
  · simp
  field_simp

/-! ### A concrete case: two spins in equal baths -/

/-- The demands of `C88_orders_partial` and `C88_strength_partial` are met, with a bath. -/
example : ∃ σ : WCfg ℝ → CodeState freeCode (Option (Worm ℝ)),
    let E := loopMeanC freeCode freeLoop 0 freePlan σ
    let inZ : CodeState freeCode (Option (Worm ℝ)) → ℝ := fun s => if s.2 = none then 1 else 0
    E (fun s => inZ s * (((orderFlavors (countCreation 2 (freeCode.env.D.cdagg s.1.cfg.M))).getD 1 0 : ℚ) : ℝ)) / E inZ =
        cfgInt 4 2 none (fun X X' ω => codeW freeCode X X' ω * countOf 1 X) / cfgInt 4 2 none (codeW freeCode) ∧
      (E (fun s => inZ s * RCLike.re (recordK freeCode s.1)) / E inZ) / (E (fun s => inZ s * RCLike.re s.1.cfg.sign) / E inZ) =
        2 * (deriv (zOf freeCode) 1 / zOf freeCode 1) := by
  obtain ⟨σ, hσ⟩ := exists_stands freeCode_ok (n := 4) (by norm_num)
  exact ⟨σ, C88_orders_partial (k := 0) freeLoop_ok freePlan_ok (st := ⟨2, 0, true, 4⟩) ⟨by norm_num, rfl, by norm_num, dvd_zero _⟩ hσ
      (f := 1) (show 1 < 2 by norm_num),
    (C88_strength_partial (k := 0) freeLoop_ok freePlan_ok (st := ⟨2, 0, true, 4⟩) ⟨by norm_num, rfl, by norm_num, dvd_zero _⟩ hσ).2⟩

end CTHyb
