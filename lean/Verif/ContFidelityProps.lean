import Verif.ContOrderProps
import Verif.ZMeasMeanProps

/-!
# C91: numbers for the fidelity susceptibility in continuous time

The number recorded for `kLkR` (src/impurity.ipp:267-269, src/measurement/measurement.hpp:185-189) after the loop of `update` with real
times.  The number of operators has no bound, so the arithmetic of the code with 32 bits is part of the result.

Specification: `halfIn`, the number of operators in the half circle; `halfOut`, the number of the others.
-/

namespace CTHyb

open Rand MeasureTheory ENNReal Matrix

variable {𝕜 : Type} [RCLike 𝕜] {N : ℕ}

/-! ### Specification -/

/-- **Specification.**  Number of operators with times in the half circle that begins at `start`. -/
noncomputable def halfIn (beta start : ℝ) (X : Multiset (BOp ℝ)) : ℕ := X.countP fun o => start ≤ o.1 ∧ o.1 < start + beta / 2

/-- **Specification.**  Number of the other operators. -/
noncomputable def halfOut (beta start : ℝ) (X : Multiset (BOp ℝ)) : ℕ := X.countP fun o => ¬ (start ≤ o.1 ∧ o.1 < start + beta / 2)

/-- **Specification.**  Product of the numbers of operators in the two halves. -/
noncomputable def halfProd (beta start : ℝ) (X X' : Multiset (BOp ℝ)) : ℕ :=
  (halfIn beta start X + halfIn beta start X') * (halfOut beta start X + halfOut beta start X')

/-! ### What the code records -/

theorem half_add (beta start : ℝ) (X : Multiset (BOp ℝ)) : halfIn beta start X + halfOut beta start X = Multiset.card X :=
  (Multiset.card_eq_countP_add_countP _ _).symm

/-- The 64 bit numbers wrap, the result is right modulo `2^32`. -/
theorem wrap_mul (a b : ℕ) : ((a % 2 ^ 32) * ((a + b + 2 ^ 64 - a % 2 ^ 32) % 2 ^ 64)) % 2 ^ 64 % 2 ^ 32 = a * b % 2 ^ 32 := by
  rw [Nat.mod_mod_of_dvd _ (by norm_num : (2 ^ 32 : ℕ) ∣ 2 ^ 64)]
  have h1 : (a + b + 2 ^ 64 - a % 2 ^ 32) % 2 ^ 64 % 2 ^ 32 = b % 2 ^ 32 := by
    rw [Nat.mod_mod_of_dvd _ (by norm_num : (2 ^ 32 : ℕ) ∣ 2 ^ 64)]
    omega
  rw [Nat.mul_mod, h1, Nat.mod_mod, ← Nat.mul_mod]

variable {A : CodeArgs 𝕜 N} {a : LoopC} {k : ℕ} {plan : Rand ℝ (List (ℕ × List (ℕ → ℕ)))}
  {σ : WCfg ℝ → CodeState A (Option (Worm ℝ))} {st : SavedState}

theorem measureKLKR_at {x : WCfg ℝ} {s : CodeState A (Option (Worm ℝ))} (h : Stands A st x s) (hx : x.worm = none) (start : ℝ) :
    measureKLKR s.1.cfg.ops A.beta start = halfProd A.beta start x.cd x.c % 2 ^ 32 := by
  have hp := h.reps.ops_perm h.inv
  have hb : x.ops id (codeWops id) = x.cd.map (mkOp id .creation) ++ x.c.map (mkOp id .annihilation) := by
    simp [PCfg.ops, hx, codeWops, wormOps]
  rw [hb] at hp
  have hw : ∀ o : BOp ℝ, ∀ K, inWindow (⟨start, 0⟩ : OpTime ℝ) ⟨start + 1 / 2 * A.beta, 0⟩ (mkOp id K o) =
      decide (start ≤ o.1 ∧ o.1 < start + A.beta / 2) := by
    intro o K
    rw [inWindow, decide_eq_decide, OpTime.le_def, OpTime.lt_def, show start + 1 / 2 * A.beta = start + A.beta / 2 by ring]
    simp [mkOp, le_iff_lt_or_eq]
  have hc : s.1.cfg.ops.countP (inWindow ⟨start, 0⟩ ⟨start + 1 / 2 * A.beta, 0⟩) =
      halfIn A.beta start x.cd + halfIn A.beta start x.c := by
    rw [← hp.countP_eq, List.countP_append, List.countP_map, List.countP_map]
    simp only [Function.comp_def, hw]
    rfl
  have hl : s.1.cfg.ops.length = (halfIn A.beta start x.cd + halfIn A.beta start x.c) +
      (halfOut A.beta start x.cd + halfOut A.beta start x.c) := by
    rw [← hp.length_eq, add_add_add_comm, half_add, half_add]
    simp
  unfold measureKLKR
  simp only [hc, hl]
  exact wrap_mul _ _

/-! ### Measurability and growth -/

theorem measurable_halfIn (beta start : ℝ) {n : ℕ} : Measurable fun z : Fin n → BOp ℝ => halfIn beta start (ms z) := by
  have e : (fun z : Fin n → BOp ℝ => halfIn beta start (ms z)) =
      fun z => ∑ i, if start ≤ (z i).1 ∧ (z i).1 < start + beta / 2 then 1 else 0 := by
    funext z
    unfold halfIn
    rw [ms_eq, Multiset.countP_map, ← Finset.filter_val, Finset.card_val, Finset.card_filter]
  rw [e]
  refine Finset.measurable_sum _ fun i _ => Measurable.ite ?_ measurable_const measurable_const
  have : Measurable fun z : Fin n → BOp ℝ => (z i).1 := measurable_fst.comp (measurable_pi_apply i)
  exact this (measurableSet_Ico (a := start) (b := start + beta / 2))

theorem measurable_halfOut (beta start : ℝ) {n : ℕ} : Measurable fun z : Fin n → BOp ℝ => halfOut beta start (ms z) := by
  have e : (fun z : Fin n → BOp ℝ => halfOut beta start (ms z)) = fun z => n - halfIn beta start (ms z) := by
    funext z
    have := half_add beta start (ms z)
    rw [card_ms] at this
    omega
  rw [e]
  exact (Measurable.of_discrete (f := fun q : ℕ => n - q)).comp (measurable_halfIn beta start)

theorem measurable_halfProd (beta start : ℝ) (m n : ℕ) (g : ℕ → ℝ) :
    Measurable fun z : Lab m n => g (halfProd beta start (ms z.1) (ms z.2)) := by
  refine (Measurable.of_discrete (f := g)).comp ?_
  exact (((measurable_halfIn beta start).comp measurable_fst).add ((measurable_halfIn beta start).comp measurable_snd)).mul
    (((measurable_halfOut beta start).comp measurable_fst).add ((measurable_halfOut beta start).comp measurable_snd))

theorem halfProd_le (beta start : ℝ) (X X' : Multiset (BOp ℝ)) : halfProd beta start X X' ≤ 2 ^ (Multiset.card X + Multiset.card X') := by
  rw [← half_add beta start X, ← half_add beta start X', add_add_add_comm, pow_add]
  exact Nat.mul_le_mul Nat.lt_two_pow_self.le Nat.lt_two_pow_self.le

/-- Expectation values of numbers that depend on the product only. -/
theorem mean_half (ha : a.OK A) (hp : PlanC A plan) (hst : WindowOK 0 st) (hσ : StatesC A st σ) (start : ℝ) {g : ℕ → ℝ}
    (hg : ∀ q, |g q| ≤ q) {F : CodeState A (Option (Worm ℝ)) → ℝ}
    (hF : ∀ s x st, Stands A st x s → x.worm = none → F s = g (halfProd A.beta start x.cd x.c) * RCLike.re s.1.cfg.sign) :
    loopMeanC A a k plan σ (fun s => (if s.2 = none then 1 else 0) * F s) =
      cfgInt A.beta A.P.nf none (fun X X' ω => g (halfProd A.beta start X X') * RCLike.re (signedC A X X' ω)) / totalC A a := by
  have hm := sgnC_wmeas ha
  rw [mean_growth ha hp hst hσ (d := fun X X' ω => g (halfProd A.beta start X X') * RCLike.re (sgnC A X X' ω))
    ⟨fun m n => (measurable_halfProd A.beta start m n g).mul (RCLike.continuous_re.measurable.comp (hm.none m n)),
      fun k fs m n => ((measurable_halfProd A.beta start m n g).comp measurable_snd).mul
        (RCLike.continuous_re.measurable.comp (hm.worm k fs m n))⟩
    (fun X X' ω => by
      rw [abs_mul]
      refine (mul_le_of_le_one_right (abs_nonneg _) ((RCLike.abs_re_le_norm _).trans (norm_sgnC A X X' ω))).trans ((hg _).trans ?_)
      exact_mod_cast halfProd_le A.beta start X X')
    fun s x st h hx => by rw [hF s x st h hx, sign_sgnC ha h]; rfl]
  congr 1
  refine cfgInt_congr fun X X' => ?_
  rw [← mul_sgnC A X X' none, RCLike.re_ofReal_mul]
  ring

/-- **C91, product of the numbers of operators.**  In equilibrium the mean of `kLkR`, divided by the mean of the sign, is for every value
`u` of the random number the mean of the product of the numbers of operators in the half circle that begins at `β u / 2` and of the
others, reduced modulo `2^32`, in the expansion with real times.  Missing for the full statement: as in `C83_loop_partial`. -/
theorem C91_kLkR_partial (ha : a.OK A) (hp : PlanC A plan) (hst : WindowOK 0 st) (hσ : StatesC A st σ) (u : ℝ) :
    let E := loopMeanC A a k plan σ
    let inZ : CodeState A (Option (Worm ℝ)) → ℝ := fun s => if s.2 = none then 1 else 0
    (E (fun s => inZ s * RCLike.re (recordKLKR A u s.1)) / E inZ) / (E (fun s => inZ s * RCLike.re s.1.cfg.sign) / E inZ) =
      cfgInt A.beta A.P.nf none (fun X X' ω => ((halfProd A.beta (1 / 2 * A.beta * u) X X' % 2 ^ 32 : ℕ) : ℝ) *
        RCLike.re (signedC A X X' ω)) / cfgInt A.beta A.P.nf none (fun X X' ω => RCLike.re (signedC A X X' ω)) := by
  intro E inZ
  have e1 : E (fun s => inZ s * RCLike.re (recordKLKR A u s.1)) = _ :=
    mean_half ha hp hst hσ (1 / 2 * A.beta * u) (g := fun q => ((q % 2 ^ 32 : ℕ) : ℝ))
      (fun q => by rw [abs_of_nonneg (Nat.cast_nonneg _)]; exact_mod_cast Nat.mod_le _ _) fun s x st h hx => by
        unfold recordKLKR
        rw [measureKLKR_at h hx, ← RCLike.ofReal_natCast, RCLike.re_ofReal_mul]
  have e2 : E (fun s => inZ s * RCLike.re s.1.cfg.sign) = _ := mean_sign ha hp hst hσ
  have e3 : E inZ = _ := mean_one_onZ ha hp hst hσ
  obtain ⟨hT, hZ⟩ := ha.total_pos
  rw [e1, e2, e3]
  have hT' := hT.ne'
  have hZ' := hZ.ne'
  generalize totalC A a = T at hT' ⊢
  generalize cfgInt A.beta A.P.nf none (codeW A) = Z at hZ' ⊢
  generalize cfgInt A.beta A.P.nf none (fun X X' ω => RCLike.re (signedC A X X' ω)) = S
  rcases eq_or_ne S 0 with rfl | hS
  · simp
  field_simp

/-! ### Different strengths of the hybridization in the two halves -/

/-- **Specification.**  The factor of an operator: `l` in the half circle that begins at `start`, `r` in the other half. -/
noncomputable def halfFac (beta start l r : ℝ) (t : ℝ) : ℝ := if start ≤ t ∧ t < start + beta / 2 then l else r

/-- **Specification.**  The hybridization function multiplied by a factor for each of its two operators: `l` in the half circle that
begins at `start`, `r` in the other half. -/
noncomputable def halfA (A : CodeArgs 𝕜 N) (start l r : ℝ) : CodeArgs 𝕜 N :=
  { A with G := fun o o' => ((halfFac A.beta start l r o.time.time : ℝ) : 𝕜) * ((halfFac A.beta start l r o'.time.time : ℝ) : 𝕜) * A.G o o' }

/-- **Specification.**  The integral over all configurations without worm with this hybridization function. -/
noncomputable def zHalf (A : CodeArgs 𝕜 N) (start l r : ℝ) : ℝ :=
  cfgInt A.beta A.P.nf none (fun X X' ω => RCLike.re (signedC (halfA A start l r) X X' ω))

theorem prod_get_cast {α K : Type} [CommMonoid K] (f : α → K) (l : List α) {n : ℕ} (h : n = l.length) :
    ∏ i : Fin n, f (l.get (i.cast h)) = (l.map f).prod := by
  subst h
  exact Fin.prod_univ_fun_getElem l f

theorem timeDet_factors (G : TPsi ℝ → TPsi ℝ → 𝕜) (f : TPsi ℝ → 𝕜) (cs cds : List (TPsi ℝ)) :
    timeDet (fun o o' => f o * f o' * G o o') cs cds = (cs.map f).prod * (cds.map f).prod * timeDet G cs cds := by
  unfold timeDet listDet
  split_ifs with h
  · have e : (Matrix.of fun i j : Fin (timeSort cs).length => f ((timeSort cs).get i) * f ((timeSort cds).get (j.cast h.symm)) *
        G ((timeSort cs).get i) ((timeSort cds).get (j.cast h.symm))) =
        Matrix.of fun i j => f ((timeSort cs).get i) * (Matrix.of fun i j : Fin (timeSort cs).length =>
          f ((timeSort cds).get (j.cast h.symm)) * (Matrix.of fun i j : Fin (timeSort cs).length =>
            G ((timeSort cs).get i) ((timeSort cds).get (j.cast h.symm))) i j) i j := by
      ext i j
      simp only [Matrix.of_apply]
      ring
    rw [e, Matrix.det_mul_column, Matrix.det_mul_row (fun j : Fin (timeSort cs).length => f ((timeSort cds).get (j.cast h.symm))),
      prod_get_cast f (timeSort cds) h.symm]
    have e2 : ∏ i, f ((timeSort cs).get i) = ((timeSort cs).map f).prod := prod_get_cast f (timeSort cs) rfl
    rw [e2, ((timeSort_perm cs).map f).prod_eq, ((timeSort_perm cds).map f).prod_eq, mul_assoc]
  · rw [mul_zero]

theorem prod_halfFac (beta start l r : ℝ) (X : Multiset (BOp ℝ)) (K : OpType) :
    ((X.toList.map (mkOp id K)).map fun o : TPsi ℝ => ((halfFac beta start l r o.time.time : ℝ) : 𝕜)).prod =
      ((l ^ halfIn beta start X * r ^ halfOut beta start X : ℝ) : 𝕜) := by
  have e : ∀ L : List (BOp ℝ), ((L.map (mkOp id K)).map fun o : TPsi ℝ => ((halfFac beta start l r o.time.time : ℝ) : 𝕜)).prod =
      ((l ^ halfIn beta start L * r ^ halfOut beta start L : ℝ) : 𝕜) := by
    intro L
    induction L with
    | nil => simp [halfIn, halfOut]
    | cons o L ih =>
      rw [List.map_cons, List.map_cons, List.prod_cons, ih, ← RCLike.ofReal_mul]
      congr 1
      unfold halfIn halfOut halfFac
      rw [← Multiset.cons_coe, Multiset.countP_cons, Multiset.countP_cons]
      by_cases h : start ≤ o.1 ∧ o.1 < start + beta / 2
      · simp only [mkOp, id, h, and_self, if_true, not_true_eq_false, if_false, add_zero]
        ring
      · simp only [mkOp, id, h, if_false, not_false_eq_true, if_true, add_zero]
        ring
  have := e X.toList
  rwa [Multiset.coe_toList] at this

theorem signedC_half (A : CodeArgs 𝕜 N) (start l r : ℝ) (X X' : Multiset (BOp ℝ)) (ω : Option (Worm ℝ)) :
    signedC (halfA A start l r) X X' ω =
    ((l ^ (halfIn A.beta start X + halfIn A.beta start X') * r ^ (halfOut A.beta start X + halfOut A.beta start X') : ℝ) : 𝕜) *
      signedC A X X' ω := by
  by_cases h : CodeCfg A.P.nf ⟨X.toList, X'.toList, ω⟩
  · have e1 : signedC (halfA A start l r) X X' ω = signedR (halfA A start l r) ⟨X.toList, X'.toList, ω⟩ := if_pos h
    have e2 : signedC A X X' ω = signedR A ⟨X.toList, X'.toList, ω⟩ := if_pos h
    rw [e1, e2]
    unfold signedR CodeArgs.weight
    have := timeDet_factors A.G (fun o => ((halfFac A.beta start l r o.time.time : ℝ) : 𝕜)) (X'.toList.map (mkOp id .annihilation))
      (X.toList.map (mkOp id .creation))
    rw [prod_halfFac, prod_halfFac] at this
    simp only [halfA]
    rw [this]
    simp only [RCLike.ofReal_mul, pow_add]
    change _ * (_ * fullTrace (ebEnv A.B A.p A.beta) _) = _ * (_ * (_ * fullTrace (ebEnv A.B A.p A.beta) _))
    ring
  · have e1 : signedC (halfA A start l r) X X' ω = 0 := if_neg h
    have e2 : signedC A X X' ω = 0 := if_neg h
    rw [e1, e2, mul_zero]

/-- Integral over the configurations with given numbers of operators, `q` of them in the half circle. -/
noncomputable def halfTerm (A : CodeArgs 𝕜 N) (start : ℝ) (p : ℕ × ℕ) (q : ℕ) : ℝ :=
  ((p.1.factorial * p.2.factorial : ℕ) : ℝ)⁻¹ * ∫ z : Lab p.1 p.2, (if halfIn A.beta start (ms z.1) + halfIn A.beta start (ms z.2) = q then
    RCLike.re (signedC A (ms z.1) (ms z.2) none) else 0) ∂(labMeasure A.beta A.P.nf p.1 p.2)

theorem integrable_signed (ha : a.OK A) (p : ℕ × ℕ) :
    Integrable (fun z : Lab p.1 p.2 => RCLike.re (signedC A (ms z.1) (ms z.2) none)) (labMeasure A.beta A.P.nf p.1 p.2) := by
  obtain ⟨u, hu0, -, -, hu⟩ := order_bound ha
  refine ⟨(RCLike.continuous_re.measurable.comp ((signedC_wmeas ha.code ha.meas).none p.1 p.2)).aestronglyMeasurable, ?_⟩
  have h1 : ∫⁻ z : Lab p.1 p.2, ENNReal.ofReal (codeW A (ms z.1) (ms z.2) none) ∂(labMeasure A.beta A.P.nf p.1 p.2) ≠ ⊤ := by
    intro e
    have h := hu p
    unfold orderFlow at h
    have e' : ∫⁻ z : Lab p.1 p.2, CfgFun.at (fun _ _ _ => (1 : ℝ≥0∞)) (z.cfg (none : Option (Worm ℝ))) * ENNReal.ofReal ((codeW A).at (z.cfg none)) * 1
        ∂(labMeasure A.beta A.P.nf p.1 p.2) = ⊤ := by
      rw [← e]
      refine lintegral_congr fun z => ?_
      show 1 * ENNReal.ofReal (codeW A (ms z.1) (ms z.2) none) * 1 = _
      rw [one_mul, mul_one]
    rw [e', ENNReal.mul_top (ENNReal.inv_ne_zero.2 (ENNReal.natCast_ne_top _))] at h
    exact ENNReal.ofReal_ne_top (top_le_iff.1 h)
  refine lt_of_le_of_lt (lintegral_mono fun z => ?_) (lt_top_iff_ne_top.2 h1)
  rw [← ofReal_norm]
  exact ENNReal.ofReal_le_ofReal (by rw [← norm_signedC]; exact RCLike.abs_re_le_norm _)

theorem measurable_sumIn (beta start : ℝ) (m n : ℕ) :
    Measurable fun z : Lab m n => halfIn beta start (ms z.1) + halfIn beta start (ms z.2) :=
  ((measurable_halfIn beta start).comp measurable_fst).add ((measurable_halfIn beta start).comp measurable_snd)

theorem integrable_half (ha : a.OK A) (start : ℝ) (p : ℕ × ℕ) (q : ℕ) :
    Integrable (fun z : Lab p.1 p.2 => if halfIn A.beta start (ms z.1) + halfIn A.beta start (ms z.2) = q then
      RCLike.re (signedC A (ms z.1) (ms z.2) none) else 0) (labMeasure A.beta A.P.nf p.1 p.2) := by
  refine ((integrable_signed ha p).indicator (measurable_sumIn A.beta start p.1 p.2 (measurableSet_singleton q))).congr
    (ae_of_all _ fun z => ?_)
  by_cases h : halfIn A.beta start (ms z.1) + halfIn A.beta start (ms z.2) = q
  · rw [Set.indicator_of_mem (show z ∈ _ from h)]
    exact (if_pos h).symm
  · rw [Set.indicator_of_notMem (show z ∉ _ from h)]
    exact (if_neg h).symm

/-- Integrals of functions of the numbers of operators in the two halves. -/
theorem cfgInt_half (ha : a.OK A) (start : ℝ) (f : ℕ → ℕ → ℝ) :
    cfgInt A.beta A.P.nf none (fun X X' ω => f (halfIn A.beta start X + halfIn A.beta start X') (halfOut A.beta start X + halfOut A.beta start X') *
      RCLike.re (signedC A X X' ω)) =
    ∑' p : ℕ × ℕ, ∑ q ∈ Finset.range (p.1 + p.2 + 1), f q (p.1 + p.2 - q) * halfTerm A start p q := by
  unfold cfgInt
  refine tsum_congr fun p => ?_
  have e : ∀ z : Lab p.1 p.2, CfgFun.at (fun X X' ω => f (halfIn A.beta start X + halfIn A.beta start X')
      (halfOut A.beta start X + halfOut A.beta start X') * RCLike.re (signedC A X X' ω)) (z.cfg none) =
      ∑ q ∈ Finset.range (p.1 + p.2 + 1), f q (p.1 + p.2 - q) * (if halfIn A.beta start (ms z.1) + halfIn A.beta start (ms z.2) = q then
        RCLike.re (signedC A (ms z.1) (ms z.2) none) else 0) := by
    intro z
    have h1 := half_add A.beta start (ms z.1)
    have h2 := half_add A.beta start (ms z.2)
    rw [card_ms] at h1 h2
    have hm : halfIn A.beta start (ms z.1) + halfIn A.beta start (ms z.2) ∈ Finset.range (p.1 + p.2 + 1) :=
      Finset.mem_range.2 (by omega)
    rw [Finset.sum_eq_single_of_mem _ hm fun q _ hq => by rw [if_neg (Ne.symm hq), mul_zero], if_pos rfl,
      show p.1 + p.2 - (halfIn A.beta start (ms z.1) + halfIn A.beta start (ms z.2)) =
        halfOut A.beta start (ms z.1) + halfOut A.beta start (ms z.2) by omega]
    rfl
  simp only [e]
  rw [integral_finsetSum _ fun q _ => (integrable_half ha start p q).const_mul _, Finset.mul_sum]
  refine Finset.sum_congr rfl fun q _ => ?_
  rw [integral_const_mul]
  unfold halfTerm
  ring

/-- The integrals fall faster than any power. -/
theorem halfTerm_bound (ha : a.OK A) (start : ℝ) : ∃ u : ℕ × ℕ → ℝ, (∀ p, 0 ≤ u p) ∧ (∀ K : ℝ, Summable fun p => K ^ (p.1 + p.2) * u p) ∧
    ∀ p, ∀ q, |halfTerm A start p q| ≤ u p := by
  obtain ⟨u, hu0, -, hs, hu⟩ := order_bound ha
  refine ⟨u, hu0, hs, fun p q => ?_⟩
  unfold halfTerm
  rw [abs_mul, abs_of_nonneg (by positivity), ← Real.norm_eq_abs]
  refine (mul_le_mul_of_nonneg_left (norm_integral_le_lintegral_norm _) (by positivity)).trans ?_
  have h1 : ∫⁻ z : Lab p.1 p.2, ENNReal.ofReal ‖if halfIn A.beta start (ms z.1) + halfIn A.beta start (ms z.2) = q then
      RCLike.re (signedC A (ms z.1) (ms z.2) none) else 0‖ ∂(labMeasure A.beta A.P.nf p.1 p.2) ≤
      ∫⁻ z : Lab p.1 p.2, ENNReal.ofReal (codeW A (ms z.1) (ms z.2) none) ∂(labMeasure A.beta A.P.nf p.1 p.2) :=
    lintegral_mono fun z => ENNReal.ofReal_le_ofReal (by
      rw [← norm_signedC]
      split_ifs
      · exact RCLike.abs_re_le_norm _
      · rw [norm_zero]; exact norm_nonneg _)
  have h2 : ((p.1.factorial * p.2.factorial : ℕ) : ℝ≥0∞)⁻¹ *
      ∫⁻ z : Lab p.1 p.2, ENNReal.ofReal (codeW A (ms z.1) (ms z.2) none) ∂(labMeasure A.beta A.P.nf p.1 p.2) ≤ ENNReal.ofReal (u p) := by
    refine le_trans (le_of_eq ?_) (hu p)
    unfold orderFlow
    congr 1
    refine lintegral_congr fun z => ?_
    show _ = 1 * ENNReal.ofReal (codeW A (ms z.1) (ms z.2) none) * 1
    rw [one_mul, mul_one]
  have h3 := ENNReal.toReal_mono ENNReal.ofReal_ne_top ((mul_le_mul' le_rfl h1).trans h2)
  rw [ENNReal.toReal_mul, ENNReal.toReal_inv, ENNReal.toReal_natCast, ENNReal.toReal_ofReal (hu0 p)] at h3
  exact h3

/-- Sums over the orders with factors that do not grow faster than a power. -/
theorem half_term_le {u : ℝ} (hu : 0 ≤ u) {n : ℕ} {K : ℝ} {f t : ℕ → ℝ} (hf : ∀ q ≤ n, |f q| ≤ K ^ n) (ht : ∀ q, |t q| ≤ u) (hK : 0 ≤ K) :
    |∑ q ∈ Finset.range (n + 1), f q * t q| ≤ (2 * K) ^ n * u := by
  refine (Finset.abs_sum_le_sum_abs _ _).trans ((Finset.sum_le_sum (g := fun _ => K ^ n * u) fun q hq => ?_).trans ?_)
  · rw [abs_mul]
    exact mul_le_mul (hf q (by have := Finset.mem_range.1 hq; omega)) (ht q) (abs_nonneg _) (by positivity)
  · rw [Finset.sum_const, Finset.card_range, nsmul_eq_mul, mul_pow, mul_assoc]
    refine mul_le_mul_of_nonneg_right ?_ (by positivity)
    exact_mod_cast Nat.lt_two_pow_self

theorem zHalf_eq (ha : a.OK A) (start l r : ℝ) :
    zHalf A start l r = ∑' p : ℕ × ℕ, ∑ q ∈ Finset.range (p.1 + p.2 + 1), (l ^ q * r ^ (p.1 + p.2 - q)) * halfTerm A start p q := by
  rw [← cfgInt_half ha start fun i j => l ^ i * r ^ j]
  unfold zHalf
  refine cfgInt_congr fun X X' => ?_
  rw [signedC_half, RCLike.re_ofReal_mul]

theorem pow_le_two {x : ℝ} (h0 : 0 ≤ x) (h2 : x ≤ 2) {m n : ℕ} (h : m ≤ n) : x ^ m ≤ 2 ^ n :=
  (pow_le_pow_left₀ h0 h2 _).trans (pow_le_pow_right₀ (by norm_num) h)

theorem cast_le_two {m n : ℕ} (h : m ≤ n) : (m : ℝ) ≤ 2 ^ n :=
  (by exact_mod_cast Nat.lt_two_pow_self.le : (m : ℝ) ≤ 2 ^ m).trans (pow_le_pow_right₀ (by norm_num) h)

/-- The derivative with respect to the strength in the second half. -/
theorem zHalf_deriv_r (ha : a.OK A) (start : ℝ) {l : ℝ} (hl : l ∈ Set.Ioo (0 : ℝ) 2) :
    HasDerivAt (fun r => zHalf A start l r)
      (∑' p : ℕ × ℕ, ∑ q ∈ Finset.range (p.1 + p.2 + 1), (l ^ q * ((p.1 + p.2 - q : ℕ) : ℝ)) * halfTerm A start p q) 1 := by
  obtain ⟨u, hu0, hs, hu⟩ := halfTerm_bound ha start
  have hd := hasDerivAt_tsum_of_isPreconnected (𝕜 := ℝ)
    (g := fun (p : ℕ × ℕ) (r : ℝ) => ∑ q ∈ Finset.range (p.1 + p.2 + 1), (l ^ q * r ^ (p.1 + p.2 - q)) * halfTerm A start p q)
    (g' := fun p r => ∑ q ∈ Finset.range (p.1 + p.2 + 1), (l ^ q * (((p.1 + p.2 - q : ℕ) : ℝ) * r ^ (p.1 + p.2 - q - 1))) * halfTerm A start p q)
    (t := Set.Ioo 0 2) (y₀ := 1) (y := 1) (hs (2 * (2 * 2 * 2))) isOpen_Ioo isPreconnected_Ioo
    (fun p y _ => HasDerivAt.fun_sum fun q _ => ((hasDerivAt_pow _ y).const_mul _).mul_const _) (fun p y hy => ?_) (by norm_num) ?_ (by norm_num)
  · have e : (fun r => zHalf A start l r) = fun r => ∑' p : ℕ × ℕ, ∑ q ∈ Finset.range (p.1 + p.2 + 1),
        (l ^ q * r ^ (p.1 + p.2 - q)) * halfTerm A start p q := funext (zHalf_eq ha start l)
    rw [e]
    simpa using hd
  · rw [Real.norm_eq_abs]
    refine half_term_le (hu0 p) (fun q hq => ?_) (hu p) (by norm_num)
    have := hl.1
    have := hy.1
    rw [abs_of_nonneg (by positivity), mul_pow, mul_pow, mul_assoc]
    refine mul_le_mul (pow_le_two hl.1.le hl.2.le hq) ?_ (by positivity) (by positivity)
    exact mul_le_mul (cast_le_two (by omega)) (pow_le_two hy.1.le hy.2.le (by omega)) (by positivity) (by positivity)
  · refine Summable.of_norm_bounded (hs (2 * 2)) fun p => ?_
    rw [Real.norm_eq_abs]
    refine half_term_le (hu0 p) (fun q hq => ?_) (hu p) (by norm_num)
    have := hl.1
    rw [one_pow, mul_one, abs_of_nonneg (by positivity)]
    exact pow_le_two hl.1.le hl.2.le hq

/-- The derivative with respect to the strength in the first half, with any factors that do not grow faster than a power. -/
theorem half_deriv_l (ha : a.OK A) (start : ℝ) {c : ℕ → ℝ} (hc0 : ∀ m, 0 ≤ c m) (hc : ∀ m n, m ≤ n → c m ≤ 2 ^ n) :
    HasDerivAt (fun l : ℝ => ∑' p : ℕ × ℕ, ∑ q ∈ Finset.range (p.1 + p.2 + 1), (l ^ q * c (p.1 + p.2 - q)) * halfTerm A start p q)
      (∑' p : ℕ × ℕ, ∑ q ∈ Finset.range (p.1 + p.2 + 1), (q * c (p.1 + p.2 - q)) * halfTerm A start p q) 1 := by
  obtain ⟨u, hu0, hs, hu⟩ := halfTerm_bound ha start
  have hd := hasDerivAt_tsum_of_isPreconnected (𝕜 := ℝ)
    (g := fun (p : ℕ × ℕ) (l : ℝ) => ∑ q ∈ Finset.range (p.1 + p.2 + 1), (l ^ q * c (p.1 + p.2 - q)) * halfTerm A start p q)
    (g' := fun p l => ∑ q ∈ Finset.range (p.1 + p.2 + 1), (((q : ℝ) * l ^ (q - 1)) * c (p.1 + p.2 - q)) * halfTerm A start p q)
    (t := Set.Ioo 0 2) (y₀ := 1) (y := 1) (hs (2 * (2 * 2 * 2))) isOpen_Ioo isPreconnected_Ioo
    (fun p y _ => HasDerivAt.fun_sum fun q _ => ((hasDerivAt_pow _ y).mul_const _).mul_const _) (fun p y hy => ?_) (by norm_num) ?_ (by norm_num)
  · simpa using hd
  · rw [Real.norm_eq_abs]
    refine half_term_le (hu0 p) (fun q hq => ?_) (hu p) (by norm_num)
    have := hy.1
    have := hc0 (p.1 + p.2 - q)
    rw [abs_of_nonneg (by positivity), mul_pow, mul_pow]
    refine mul_le_mul ?_ (hc _ _ (by omega)) (by positivity) (by positivity)
    exact mul_le_mul (cast_le_two hq) (pow_le_two hy.1.le hy.2.le (by omega)) (by positivity) (by positivity)
  · refine Summable.of_norm_bounded (hs (2 * 2)) fun p => ?_
    rw [Real.norm_eq_abs]
    refine half_term_le (hu0 p) (fun q hq => ?_) (hu p) (by norm_num)
    rw [one_pow, one_mul, abs_of_nonneg (hc0 _)]
    exact hc _ _ (by omega)

/-- The mixed derivative gives the product of the numbers. -/
theorem zHalf_mixed (ha : a.OK A) (start : ℝ) :
    HasDerivAt (fun l => deriv (fun r => zHalf A start l r) 1)
      (cfgInt A.beta A.P.nf none (fun X X' ω => (halfProd A.beta start X X' : ℝ) * RCLike.re (signedC A X X' ω))) 1 := by
  have h := half_deriv_l ha start (c := fun m => (m : ℝ)) (fun m => Nat.cast_nonneg m) fun m n h => cast_le_two h
  have e : cfgInt A.beta A.P.nf none (fun X X' ω => (halfProd A.beta start X X' : ℝ) * RCLike.re (signedC A X X' ω)) = _ :=
    (cfgInt_congr fun X X' => by unfold halfProd; rw [Nat.cast_mul]).trans (cfgInt_half ha start fun i j => (i : ℝ) * (j : ℝ))
  rw [e]
  refine h.congr_of_eventuallyEq ?_
  filter_upwards [Ioo_mem_nhds (show (0 : ℝ) < 1 by norm_num) (show (1 : ℝ) < 2 by norm_num)] with l hl
  exact (zHalf_deriv_r ha start hl).deriv

/-- Reduction modulo `2^32` and the multiples of `2^32` that are lost. -/
theorem cfgInt_mod (ha : a.OK A) (start : ℝ) :
    cfgInt A.beta A.P.nf none (fun X X' ω => ((halfProd A.beta start X X' % 2 ^ 32 : ℕ) : ℝ) * RCLike.re (signedC A X X' ω)) =
      cfgInt A.beta A.P.nf none (fun X X' ω => (halfProd A.beta start X X' : ℝ) * RCLike.re (signedC A X X' ω)) -
      2 ^ 32 * cfgInt A.beta A.P.nf none (fun X X' ω => ((halfProd A.beta start X X' / 2 ^ 32 : ℕ) : ℝ) * RCLike.re (signedC A X X' ω)) := by
  obtain ⟨u, hu0, hs, hu⟩ := halfTerm_bound ha start
  have h1 := cfgInt_half ha start fun i j => (((i * j) % 2 ^ 32 : ℕ) : ℝ)
  have h2 := cfgInt_half ha start fun i j => ((i * j : ℕ) : ℝ)
  have h3 := cfgInt_half ha start fun i j => (((i * j) / 2 ^ 32 : ℕ) : ℝ)
  have hsum : ∀ g : ℕ → ℕ, (∀ m, g m ≤ m) → Summable fun p : ℕ × ℕ => ∑ q ∈ Finset.range (p.1 + p.2 + 1),
      ((g (q * (p.1 + p.2 - q)) : ℕ) : ℝ) * halfTerm A start p q := fun g hg => by
    refine Summable.of_norm_bounded (hs (2 * (2 * 2))) fun p => ?_
    rw [Real.norm_eq_abs]
    refine half_term_le (hu0 p) (fun q hq => ?_) (hu p) (by norm_num)
    rw [abs_of_nonneg (Nat.cast_nonneg _), mul_pow]
    refine (Nat.cast_le.2 (hg _)).trans ?_
    rw [Nat.cast_mul]
    exact mul_le_mul (cast_le_two hq) (cast_le_two (by omega)) (Nat.cast_nonneg _) (by positivity)
  refine h1.trans ?_
  refine Eq.trans ?_ (congrArg₂ (fun x y => x - 2 ^ 32 * y) h2 h3).symm
  rw [← tsum_mul_left, ← (hsum (fun m => m) fun m => le_rfl).tsum_sub ((hsum (fun m => m / 2 ^ 32) fun m => Nat.div_le_self _ _).mul_left _)]
  refine tsum_congr fun p => ?_
  rw [Finset.mul_sum, ← Finset.sum_sub_distrib]
  refine Finset.sum_congr rfl fun q _ => ?_
  have : ((q * (p.1 + p.2 - q) : ℕ) : ℝ) = ((q * (p.1 + p.2 - q) % 2 ^ 32 : ℕ) : ℝ) +
      2 ^ 32 * ((q * (p.1 + p.2 - q) / 2 ^ 32 : ℕ) : ℝ) := by
    exact_mod_cast (Nat.mod_add_div (q * (p.1 + p.2 - q)) (2 ^ 32)).symm
  rw [this]
  ring

theorem zHalf_one (A : CodeArgs 𝕜 N) (start : ℝ) :
    zHalf A start 1 1 = cfgInt A.beta A.P.nf none (fun X X' ω => RCLike.re (signedC A X X' ω)) := by
  unfold zHalf
  refine cfgInt_congr fun X X' => ?_
  rw [signedC_half]
  simp

/-- **C91, mixed derivative.**  In equilibrium the mean of `kLkR`, divided by the mean of the sign, is for every value `u` of the random
number the mixed derivative of the partition function with respect to the strengths of the hybridization in the two halves of the circle,
divided by the partition function, less `2^32` times the mean number of overflows.  Missing for the full statement: as in
`C83_loop_partial`. -/
theorem C91_mixed_partial (ha : a.OK A) (hp : PlanC A plan) (hst : WindowOK 0 st) (hσ : StatesC A st σ) (u : ℝ) :
    let E := loopMeanC A a k plan σ
    let inZ : CodeState A (Option (Worm ℝ)) → ℝ := fun s => if s.2 = none then 1 else 0
    let start := 1 / 2 * A.beta * u
    (∀ᶠ l in nhds (1 : ℝ), DifferentiableAt ℝ (fun r => zHalf A start l r) 1) ∧
    DifferentiableAt ℝ (fun l => deriv (fun r => zHalf A start l r) 1) 1 ∧
    (E (fun s => inZ s * RCLike.re (recordKLKR A u s.1)) / E inZ) / (E (fun s => inZ s * RCLike.re s.1.cfg.sign) / E inZ) =
      deriv (fun l => deriv (fun r => zHalf A start l r) 1) 1 / zHalf A start 1 1 -
      2 ^ 32 * (cfgInt A.beta A.P.nf none (fun X X' ω => ((halfProd A.beta start X X' / 2 ^ 32 : ℕ) : ℝ) * RCLike.re (signedC A X X' ω)) /
        zHalf A start 1 1) := by
  intro E inZ start
  have hm := zHalf_mixed ha start
  refine ⟨?_, hm.differentiableAt, ?_⟩
  · filter_upwards [Ioo_mem_nhds (show (0 : ℝ) < 1 by norm_num) (show (1 : ℝ) < 2 by norm_num)] with l hl
    exact (zHalf_deriv_r ha start hl).differentiableAt
  have h := C91_kLkR_partial (k := k) ha hp hst hσ u
  change _ = cfgInt _ _ _ (fun X X' ω => ((halfProd A.beta start X X' % 2 ^ 32 : ℕ) : ℝ) * _) / _ at h
  rw [cfgInt_mod ha start, ← zHalf_one A start] at h
  rw [hm.deriv]
  refine h.trans ?_
  ring

/-! ### A concrete case: two spins in equal baths -/

/-- The demands of `C91_mixed_partial` are met, with a bath. -/
example (u : ℝ) : ∃ σ : WCfg ℝ → CodeState freeCode (Option (Worm ℝ)),
    let E := loopMeanC freeCode freeLoop 0 freePlan σ
    let inZ : CodeState freeCode (Option (Worm ℝ)) → ℝ := fun s => if s.2 = none then 1 else 0
    let start := 1 / 2 * 4 * u
    (E (fun s => inZ s * RCLike.re (recordKLKR freeCode u s.1)) / E inZ) / (E (fun s => inZ s * RCLike.re s.1.cfg.sign) / E inZ) =
      deriv (fun l => deriv (fun r => zHalf freeCode start l r) 1) 1 / zHalf freeCode start 1 1 -
      2 ^ 32 * (cfgInt 4 2 none (fun X X' ω => ((halfProd 4 start X X' / 2 ^ 32 : ℕ) : ℝ) * RCLike.re (signedC freeCode X X' ω)) /
        zHalf freeCode start 1 1) := by
  obtain ⟨σ, hσ⟩ := exists_stands freeCode_ok (n := 4) (by norm_num)
  exact ⟨σ, (C91_mixed_partial (k := 0) freeLoop_ok freePlan_ok (st := ⟨2, 0, true, 4⟩)
    ⟨by norm_num, rfl, by norm_num, dvd_zero _⟩ hσ u).2.2⟩

/-- The demands of `C91_kLkR_partial` are met, with a bath. -/
example (u : ℝ) : ∃ σ : WCfg ℝ → CodeState freeCode (Option (Worm ℝ)),
    let E := loopMeanC freeCode freeLoop 0 freePlan σ
    let inZ : CodeState freeCode (Option (Worm ℝ)) → ℝ := fun s => if s.2 = none then 1 else 0
    (E (fun s => inZ s * RCLike.re (recordKLKR freeCode u s.1)) / E inZ) / (E (fun s => inZ s * RCLike.re s.1.cfg.sign) / E inZ) =
      cfgInt 4 2 none (fun X X' ω => ((halfProd 4 (1 / 2 * 4 * u) X X' % 2 ^ 32 : ℕ) : ℝ) * RCLike.re (signedC freeCode X X' ω)) /
        cfgInt 4 2 none (fun X X' ω => RCLike.re (signedC freeCode X X' ω)) := by
  obtain ⟨σ, hσ⟩ := exists_stands freeCode_ok (n := 4) (by norm_num)
  exact ⟨σ, C91_kLkR_partial (k := 0) freeLoop_ok freePlan_ok (st := ⟨2, 0, true, 4⟩) ⟨by norm_num, rfl, by norm_num, dvd_zero _⟩ hσ u⟩

end CTHyb
