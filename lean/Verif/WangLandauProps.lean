import Verif.WangLandau
import Mathlib.Tactic.Linarith
import Mathlib.Tactic.NormNum
import Mathlib.Tactic.Ring
import Mathlib.Tactic.FieldSimp
import Mathlib.Tactic.Positivity
import Mathlib.Analysis.SpecialFunctions.Exp

/-! C27-C29: flat-histogram weights. -/

namespace CTHyb

/-! ### C27: ratios -/

/-- The ratio is not clipped. -/
def WL.Unclipped (s : WL) (a b : ℕ) : Prop := |s.logF b - s.logF a| ≤ maxLogVal

theorem weightRatio_of_le (s : WL) {a b : ℕ} (ha : a ≤ s.maxVal) (hb : b ≤ s.maxVal) :
    s.weightRatio a b = some (if s.logF b - s.logF a > maxLogVal then 10 ^ 50
      else if s.logF b - s.logF a < -maxLogVal then (10 ^ 50)⁻¹
      else Real.exp (s.logF b - s.logF a)) := by
  have e : -s.logF a - -s.logF b = s.logF b - s.logF a := by ring
  simp only [WL.weightRatio, WL.logWeight, if_neg (not_lt.2 ha), if_pos ha, if_pos hb,
    Option.bind_some, Option.map_some, e]

theorem weightRatio_unclipped (s : WL) {a b : ℕ} (ha : a ≤ s.maxVal) (hb : b ≤ s.maxVal)
    (h : s.Unclipped a b) : s.weightRatio a b = some (Real.exp (s.logF b - s.logF a)) := by
  obtain ⟨h1, h2⟩ := abs_le.1 h
  rw [weightRatio_of_le s ha hb, if_neg (by linarith), if_neg (by linarith)]

theorem maxLogVal_pos : 0 < maxLogVal := by norm_num [maxLogVal]

/-- **C27.** The ratio of a move times the ratio of the reverse move is 1, clipped or not. -/
theorem C27_reverse (s : WL) (a b : ℕ) (ha : a ≤ s.maxVal) (hb : b ≤ s.maxVal) :
    ∃ x y, s.weightRatio a b = some x ∧ s.weightRatio b a = some y ∧ 0 < x ∧ x * y = 1 := by
  have hm := maxLogVal_pos
  rw [weightRatio_of_le s ha hb, weightRatio_of_le s hb ha]
  refine ⟨_, _, rfl, rfl, ?_⟩
  by_cases h1 : s.logF b - s.logF a > maxLogVal
  · rw [if_pos h1, if_neg (by linarith), if_pos (by linarith)]
    norm_num
  · by_cases h2 : s.logF b - s.logF a < -maxLogVal
    · rw [if_neg h1, if_pos h2, if_pos (by linarith)]
      norm_num
    · rw [if_neg h1, if_neg h2, if_neg (by linarith), if_neg (by linarith)]
      refine ⟨Real.exp_pos _, ?_⟩
      rw [← Real.exp_add, sub_add_sub_cancel, sub_self, Real.exp_zero]

/-- **C27.** Unclipped ratios compose. -/
theorem C27_compose (s : WL) (a b c : ℕ) (ha : a ≤ s.maxVal) (hb : b ≤ s.maxVal) (hc : c ≤ s.maxVal)
    (h1 : s.Unclipped a b) (h2 : s.Unclipped b c) (h3 : s.Unclipped a c) :
    ∃ x y, s.weightRatio a b = some x ∧ s.weightRatio b c = some y ∧
      s.weightRatio a c = some (x * y) := by
  refine ⟨_, _, weightRatio_unclipped s ha hb h1, weightRatio_unclipped s hb hc h2, ?_⟩
  rw [weightRatio_unclipped s ha hc h3, ← Real.exp_add]
  congr 2
  ring

/-- **C27.** The ratio to a value out of range is 0. -/
theorem C27_out_of_range (s : WL) (a b : ℕ) (ha : s.maxVal < a) : s.weightRatio a b = some 0 := by
  simp [WL.weightRatio, ha]

/-- **C27.** Rescaling changes no ratio. -/
theorem C27_rescale (s : WL) (a b : ℕ) (hb : b ≤ s.maxVal) :
    s.rescale.weightRatio a b = s.weightRatio a b := by
  by_cases ha : a ≤ s.maxVal
  · have ha' : a ≤ s.rescale.maxVal := ha
    have hb' : b ≤ s.rescale.maxVal := hb
    rw [weightRatio_of_le s ha hb, weightRatio_of_le _ ha' hb']
    have : s.rescale.logF b - s.rescale.logF a = s.logF b - s.logF a := by
      simp only [WL.rescale]
      rw [if_pos (by omega), if_pos (by omega)]
      ring
    rw [this]
  · rw [C27_out_of_range s a b (by omega), C27_out_of_range _ a b (by simpa [WL.rescale] using ha)]

/-- **C27.** After rescaling no value has a weight below 1 (its logarithm is not negative), and the
most visited one has weight 1: the logarithms do not grow without limit. -/
theorem C27_rescale_normalised (s : WL) :
    (∀ v, v ≤ s.maxVal → ∃ x, s.rescale.logWeight v = some x ∧ 0 ≤ x) ∧
    ∃ v, v ≤ s.maxVal ∧ s.rescale.logWeight v = some 0 := by
  constructor
  · intro v hv
    have hv' : v ≤ s.rescale.maxVal := hv
    refine ⟨_, by rw [WL.logWeight, if_pos hv'], ?_⟩
    have : s.logF v ≤ maxUpTo s.maxVal s.logF := Finset.le_sup' s.logF (by simp; omega)
    simp only [WL.rescale]
    rw [if_pos (by omega)]
    linarith
  · obtain ⟨v, hv, e⟩ := Finset.exists_mem_eq_sup' (s := Finset.range (s.maxVal + 1)) ⟨0, by simp⟩ s.logF
    have hv2 : v < s.maxVal + 1 := Finset.mem_range.1 hv
    refine ⟨v, by omega, ?_⟩
    have hv' : v ≤ s.rescale.maxVal := by simp only [WL.rescale]; omega
    rw [WL.logWeight, if_pos hv']
    simp only [WL.rescale]
    rw [if_pos hv2, maxUpTo, e]
    simp

/-! ### Histories -/

/-- What can happen on one rank. -/
inductive WLOp
  | measure (v : ℕ)
  | update
  | finish

/-- One operation. -/
noncomputable def WLOp.exec (s : WL) : WLOp → Option WL
  | .measure v => s.measure v
  | .update => some s.updateLambda
  | .finish => some s.finish

/-- A history. -/
noncomputable def runWL : List WLOp → WL → Option WL
  | [], s => some s
  | o :: l, s => (o.exec s).bind (runWL l)

/-- Specification: modification factor after `k` refinements. -/
noncomputable def lambdaAfter (k : ℕ) : ℝ := max (initLogLambda / 2 ^ k) minLogLambda

/-- Specification of a history: number of refinements, whether finished, and the accumulated
penalty of each value, never rescaled. -/
structure WLSpec where
  k : ℕ
  done : Bool
  W : ℕ → ℝ

/-- Specification of one operation: while learning, a visit of `v` adds `λ_k / target v`. -/
noncomputable def WLSpec.exec (target : ℕ → ℝ) (t : WLSpec) : WLOp → WLSpec
  | .measure v => if t.done then t
      else { t with W := fun i => if i = v then t.W i + lambdaAfter t.k / target v else t.W i }
  | .update => if t.done then t else { t with k := t.k + 1 }
  | .finish => { t with done := true }

theorem minLogLambda_pos : 0 < minLogLambda := by norm_num [minLogLambda]

theorem lambdaAfter_succ (k : ℕ) :
    max (-2 * Real.log ((k + 1 : ℕ) : ℝ)) (max (0.5 * lambdaAfter k) minLogLambda) =
      lambdaAfter (k + 1) := by
  have hlog : 0 ≤ Real.log ((k + 1 : ℕ) : ℝ) := Real.log_nonneg (by simp)
  have hpos := minLogLambda_pos
  have h1 : -2 * Real.log ((k + 1 : ℕ) : ℝ) ≤ max (0.5 * lambdaAfter k) minLogLambda :=
    le_trans (by linarith) (le_max_right _ _)
  rw [max_eq_right h1]
  unfold lambdaAfter
  rw [pow_succ]
  rcases le_total (initLogLambda / 2 ^ k) minLogLambda with h | h
  · rw [max_eq_right h, max_eq_right (by linarith)]
    have : initLogLambda / (2 ^ k * 2) = (initLogLambda / 2 ^ k) / 2 := by field_simp
    rw [this, max_eq_right (by linarith)]
  · rw [max_eq_left h]
    congr 1
    field_simp
    ring

/-- Relation between implementation and specification. -/
structure WLRel (M : ℕ) (tg : ℕ → ℝ) (s : WL) (t : WLSpec) : Prop where
  maxVal : s.maxVal = M
  target : s.target = tg
  done : s.done = t.done
  k : s.numUpdates = t.k
  lam : s.logLambda = lambdaAfter t.k
  diff : ∀ a b, a ≤ M → b ≤ M → s.logF a - s.logF b = t.W a - t.W b

theorem rescale_diff (s : WL) {a b : ℕ} (ha : a ≤ s.maxVal) (hb : b ≤ s.maxVal) :
    s.rescale.logF a - s.rescale.logF b = s.logF a - s.logF b := by
  simp only [WL.rescale]
  rw [if_pos (by omega), if_pos (by omega)]
  ring

theorem WLRel.exec {M : ℕ} {target : ℕ → ℝ} {s : WL} {t : WLSpec} (h : WLRel M target s t) (o : WLOp)
    (ho : ∀ v, o = .measure v → v ≤ M) :
    ∃ s', o.exec s = some s' ∧ WLRel M target s' (t.exec target o) := by
  obtain ⟨h1, h2, h3, h4, h5, h6⟩ := h
  cases o with
  | measure v =>
    have hv := ho v rfl
    by_cases hd : s.done = true
    · refine ⟨s, by simp [WLOp.exec, WL.measure, hd], ?_⟩
      simp only [WLSpec.exec, ← h3, hd, if_true]
      exact ⟨h1, h2, h3, h4, h5, h6⟩
    · have hf : s.done = false := by simpa using hd
      have hv' : ¬ v > s.maxVal := by omega
      refine ⟨_, by simp only [WLOp.exec, WL.measure, hd, if_neg hv']; rfl, ?_⟩
      simp only [WLSpec.exec, ← h3, hf, Bool.false_eq_true, if_false]
      refine ⟨h1, h2, rfl, h4, h5, fun a b ha hb => ?_⟩
      have := h6 a b ha hb
      simp only [Function.update_apply, h2, h5]
      split_ifs with ea eb eb
      · subst ea; subst eb; simp
      · subst ea; linarith
      · subst eb; linarith
      · exact this
  | update =>
    refine ⟨s.updateLambda, rfl, ?_⟩
    by_cases hd : s.done = true
    · simp only [WL.updateLambda, hd, if_true, WLSpec.exec, ← h3]
      exact ⟨h1, h2, h3, h4, h5, h6⟩
    · have hf : s.done = false := by simpa using hd
      simp only [WL.updateLambda, hf, WLSpec.exec, ← h3, Bool.false_eq_true, if_false]
      refine ⟨h1, h2, rfl, ?_, ?_, fun a b ha hb => ?_⟩
      · simp [WL.rescale, h4]
      · simp only [WL.rescale, h4, h5]
        exact lambdaAfter_succ _
      · have ha' : a ≤ s.maxVal := by omega
        have hb' : b ≤ s.maxVal := by omega
        have := h6 a b ha hb
        simp only [WL.rescale]
        rw [if_pos (by omega), if_pos (by omega)]
        linarith
  | finish =>
    refine ⟨s.finish, rfl, ?_⟩
    refine ⟨h1, h2, rfl, h4, h5, fun a b ha hb => ?_⟩
    have := h6 a b ha hb
    simp only [WL.finish, WL.rescale, WLSpec.exec]
    rw [if_pos (by omega), if_pos (by omega)]
    linarith

theorem runWL_rel {M : ℕ} {target : ℕ → ℝ} (l : List WLOp) {s : WL} {t : WLSpec}
    (h : WLRel M target s t) (hl : ∀ v, WLOp.measure v ∈ l → v ≤ M) :
    ∃ s', runWL l s = some s' ∧ WLRel M target s' (l.foldl (WLSpec.exec target) t) := by
  induction l generalizing s t with
  | nil => exact ⟨s, rfl, h⟩
  | cons o l ih =>
    obtain ⟨s1, e1, h1⟩ := h.exec o (fun v hv => hl v (by simp [hv]))
    obtain ⟨s2, e2, h2⟩ := ih h1 (fun v hv => hl v (List.mem_cons_of_mem _ hv))
    exact ⟨s2, by simp [runWL, e1, e2], h2⟩

theorem init_rel (M : ℕ) (target : ℕ → ℝ) :
    WLRel M target (WL.init M target) ⟨0, false, fun _ => 0⟩ := by
  refine ⟨rfl, rfl, rfl, rfl, ?_, fun a b _ _ => rfl⟩
  simp only [WL.init, lambdaAfter, pow_zero, div_one]
  rw [max_eq_left]
  norm_num [initLogLambda, minLogLambda]

/-- **C27.** After any history of visits within the range, refinements and the end of learning, no
exception occurred and every unclipped ratio of weights is the exponential of the difference of the
accumulated penalties, whatever rescalings happened. -/
theorem C27_history (M : ℕ) (target : ℕ → ℝ) (l : List WLOp)
    (hl : ∀ v, WLOp.measure v ∈ l → v ≤ M) :
    ∃ s, runWL l (WL.init M target) = some s ∧
      let W := (l.foldl (WLSpec.exec target) ⟨0, false, fun _ => 0⟩).W
      ∀ a b, a ≤ M → b ≤ M → |W b - W a| ≤ maxLogVal →
        s.weightRatio a b = some (Real.exp (W b - W a)) := by
  obtain ⟨s, e, h⟩ := runWL_rel l (init_rel M target) hl
  refine ⟨s, e, fun a b ha hb hu => ?_⟩
  have hd := h.diff b a hb ha
  rw [weightRatio_unclipped s (by rw [h.maxVal]; exact ha) (by rw [h.maxVal]; exact hb)
    (by unfold WL.Unclipped; rw [hd]; exact hu), hd]

/-- **C27.** A visit of `v` lowers the weight of `v` relative to every other value by the factor
`exp(-λ/target v)`. -/
theorem C27_visit (s : WL) (hd : s.done = false) (v u : ℕ) (hv : v ≤ s.maxVal) (hu : u ≤ s.maxVal)
    (huv : u ≠ v) (h1 : s.Unclipped v u) :
    ∃ s', s.measure v = some s' ∧ (s'.Unclipped v u →
      ∃ x, s.weightRatio v u = some x ∧
        s'.weightRatio v u = some (x * Real.exp (-(s.logLambda / s.target v)))) := by
  refine ⟨_, by simp only [WL.measure, hd, if_neg (not_lt.2 hv)]; rfl, fun h2 => ?_⟩
  refine ⟨_, weightRatio_unclipped s hv hu h1, ?_⟩
  rw [weightRatio_unclipped _ (by exact hv) (by exact hu) h2]
  simp only [Function.update_of_ne huv, Function.update_self]
  rw [← Real.exp_add]
  congr 2
  ring

/-! ### C28 -/

/-- **C28.** The modification factor is `max(λ₀/2^k, λ_min)` after `k` refinements, whatever else
happened. -/
theorem C28_lambda (M : ℕ) (target : ℕ → ℝ) (l : List WLOp)
    (hl : ∀ v, WLOp.measure v ∈ l → v ≤ M) :
    ∃ s, runWL l (WL.init M target) = some s ∧ s.logLambda = lambdaAfter s.numUpdates := by
  obtain ⟨s, e, h⟩ := runWL_rel l (init_rel M target) hl
  exact ⟨s, e, by rw [h.lam, h.k]⟩

/-- **C28.** It never increases and never drops below the minimum. -/
theorem C28_monotone : Antitone lambdaAfter ∧ ∀ k, minLogLambda ≤ lambdaAfter k := by
  refine ⟨antitone_nat_of_succ_le (fun k => ?_), fun k => le_max_right _ _⟩
  unfold lambdaAfter
  apply max_le_max _ le_rfl
  have h : (0 : ℝ) ≤ initLogLambda := by norm_num [initLogLambda]
  have h2 : (2 : ℝ) ^ k ≤ 2 ^ (k + 1) := pow_le_pow_right₀ (by norm_num) (by omega)
  exact div_le_div_of_nonneg_left h (by positivity) h2

/-- **C28.** Convergence is reached with the 14th refinement, not before, and kept. -/
theorem C28_converged (M : ℕ) (target : ℕ → ℝ) (l : List WLOp)
    (hl : ∀ v, WLOp.measure v ∈ l → v ≤ M) :
    ∃ s, runWL l (WL.init M target) = some s ∧ (s.converged ↔ 14 ≤ s.numUpdates) := by
  obtain ⟨s, e, h⟩ := C28_lambda M target l hl
  refine ⟨s, e, ?_⟩
  unfold WL.converged
  rw [h]
  constructor
  · intro hc
    by_contra hk
    have : lambdaAfter 13 ≤ lambdaAfter s.numUpdates := C28_monotone.1 (by omega)
    have h13 : initLogLambda / 2 ^ 13 ≤ lambdaAfter 13 := le_max_left _ _
    have : 1.01 * minLogLambda < initLogLambda / 2 ^ 13 := by norm_num [initLogLambda, minLogLambda]
    linarith
  · intro hk
    have h1 : lambdaAfter s.numUpdates ≤ lambdaAfter 14 := C28_monotone.1 hk
    have h14 : lambdaAfter 14 < 1.01 * minLogLambda := by
      unfold lambdaAfter
      apply max_lt
      · norm_num [initLogLambda, minLogLambda]
      · norm_num [minLogLambda]
    linarith

/-- **C28.** Fourteen refinements suffice from any history that is not finished. -/
theorem C28_terminates (M : ℕ) (target : ℕ → ℝ) (l : List WLOp)
    (hl : ∀ v, WLOp.measure v ∈ l → v ≤ M) (hf : WLOp.finish ∉ l)
    (hk : 14 ≤ (l.filter (fun o => match o with | .update => true | _ => false)).length) :
    ∃ s, runWL l (WL.init M target) = some s ∧ s.converged := by
  obtain ⟨s, e, h⟩ := runWL_rel l (init_rel M target) hl
  obtain ⟨s', e', h'⟩ := C28_converged M target l hl
  rw [e] at e'
  obtain rfl := Option.some.inj e'
  refine ⟨s, e, h'.2 ?_⟩
  have count : ∀ (l : List WLOp) (t : WLSpec), WLOp.finish ∉ l → t.done = false →
      (l.foldl (WLSpec.exec target) t).k = t.k +
        (l.filter (fun o => match o with | .update => true | _ => false)).length := by
    intro l
    induction l with
    | nil => intro t _ _; simp
    | cons o l ih =>
      intro t hf hd
      have hf2 : WLOp.finish ∉ l := fun h => hf (List.mem_cons_of_mem _ h)
      cases o with
      | measure v =>
        rw [List.foldl_cons, ih _ hf2 (by simp [WLSpec.exec, hd])]
        simp [WLSpec.exec, hd]
      | update =>
        rw [List.foldl_cons, ih _ hf2 (by simp [WLSpec.exec, hd])]
        simp [WLSpec.exec, hd]
        omega
      | finish => simp at hf
  rw [h.k, count l _ hf rfl]
  simpa using hk

/-- **C28.** After the end of learning nothing changes any ratio of weights. -/
theorem C28_frozen (s : WL) (hd : s.done = true) (l : List WLOp) :
    ∃ s', runWL l s = some s' ∧ s'.done = true ∧ s'.maxVal = s.maxVal ∧
      ∀ a b, b ≤ s.maxVal → s'.weightRatio a b = s.weightRatio a b := by
  induction l generalizing s with
  | nil => exact ⟨s, rfl, hd, rfl, fun a b _ => rfl⟩
  | cons o l ih =>
    have step : ∃ s1, o.exec s = some s1 ∧ s1.done = true ∧ s1.maxVal = s.maxVal ∧
        ∀ a b, b ≤ s.maxVal → s1.weightRatio a b = s.weightRatio a b := by
      cases o with
      | measure v => exact ⟨s, by simp [WLOp.exec, WL.measure, hd], hd, rfl, fun a b _ => rfl⟩
      | update => exact ⟨s, by simp [WLOp.exec, WL.updateLambda, hd], hd, rfl, fun a b _ => rfl⟩
      | finish =>
        refine ⟨s.finish, rfl, rfl, rfl, fun a b hb => ?_⟩
        exact C27_rescale { s with done := true } a b hb
    obtain ⟨s1, e1, d1, m1, r1⟩ := step
    obtain ⟨s2, e2, d2, m2, r2⟩ := ih s1 d1
    refine ⟨s2, by simp [runWL, e1, e2], d2, by omega, fun a b hb => ?_⟩
    rw [r2 a b (by omega), r1 a b hb]

/-- **C28.** The procedure called after each sweep during thermalization is one of the histories above. -/
theorem C28_adjust (s : WL) (v : ℕ) :
    s.adjust v = runWL [.measure v] s ∨ s.adjust v = runWL [.measure v, .update] s := by
  unfold WL.adjust
  cases h : s.measure v with
  | none => left; simp [runWL, WLOp.exec, h]
  | some s1 =>
    by_cases hf : s1.flatEnough
    · right; simp [runWL, WLOp.exec, h, hf]
    · left; simp [runWL, WLOp.exec, h, hf]

/-- **C28.** What "flat" means: every value was visited (in units of its target fraction) more than
0.8 times the mean, and at least 10 times. -/
theorem C28_flat (s : WL) (h : s.flatEnough) (i : ℕ) (hi : i ≤ s.maxVal) :
    10 ≤ s.counter i ∧
    0.8 * ((∑ i ∈ Finset.range (s.maxVal + 1), s.counter i) / (s.maxVal + 1)) < s.counter i := by
  obtain ⟨h1, h2⟩ := h
  have hmin : ∀ j ≤ s.maxVal, minUpTo s.maxVal s.counter ≤ s.counter j := fun j hj =>
    Finset.inf'_le _ (by simp; omega)
  have h3 : 10 ≤ minUpTo s.maxVal s.counter := le_trans (le_max_left _ _) (not_lt.1 h1)
  have hi' := hmin i hi
  refine ⟨by linarith, ?_⟩
  have hsum : 0 < ∑ i ∈ Finset.range (s.maxVal + 1), s.counter i := by
    apply Finset.sum_pos
    · intro j hj
      have := hmin j (by simp at hj; omega)
      linarith
    · exact ⟨0, by simp⟩
  have hmean : 0 < (∑ i ∈ Finset.range (s.maxVal + 1), s.counter i) / ((s.maxVal : ℝ) + 1) := by
    positivity
  have := (lt_div_iff₀ hmean).1 h2
  linarith

/-- Visits only: the counters grow by one over the target fraction for each visit. -/
theorem runWL_measures (m : List ℕ) (s : WL) (hd : s.done = false) (hm : ∀ v ∈ m, v ≤ s.maxVal) :
    ∃ s', runWL (m.map .measure) s = some s' ∧
      ∀ v, s'.counter v = s.counter v + (m.count v : ℝ) / s.target v := by
  induction m generalizing s with
  | nil => exact ⟨s, rfl, fun v => by simp⟩
  | cons u m ih =>
    have hu : ¬ u > s.maxVal := not_lt.2 (hm u (by simp))
    let s1 : WL := { s with
        logF := Function.update s.logF u (s.logF u + s.logLambda / s.target u)
        counter := Function.update s.counter u (s.counter u + 1 / s.target u) }
    have e1 : (WLOp.measure u).exec s = some s1 := by
      rw [WLOp.exec, WL.measure, if_neg (by simp [hd]), if_neg hu]
    obtain ⟨s', e, h⟩ := ih s1 hd (fun v hv => hm v (List.mem_cons_of_mem _ hv))
    refine ⟨s', by rw [List.map_cons, runWL, e1, Option.bind_some]; exact e, fun v => ?_⟩
    rw [h v]
    simp only [s1, Function.update_apply, List.count_cons]
    by_cases huv : v = u
    · subst huv; simp; ring
    · have : ¬ (u == v) = true := by simpa using fun h => huv h.symm
      simp [huv, this]

/-- **C28.** The histogram tested for flatness contains exactly the visits since the last refinement
(or since the start), each counted in units of the target fraction. -/
theorem C28_counter (M : ℕ) (target : ℕ → ℝ) (l : List WLOp) (m : List ℕ)
    (hl : ∀ v, WLOp.measure v ∈ l → v ≤ M) (hf : WLOp.finish ∉ l) (hm : ∀ v ∈ m, v ≤ M) :
    (∃ s, runWL (l ++ .update :: m.map .measure) (WL.init M target) = some s ∧
      ∀ v, s.counter v = (m.count v : ℝ) / target v) ∧
    ∃ s, runWL (m.map .measure) (WL.init M target) = some s ∧
      ∀ v, s.counter v = (m.count v : ℝ) / target v := by
  have happ : ∀ (a b : List WLOp) (s : WL), runWL (a ++ b) s = (runWL a s).bind (runWL b) := by
    intro a b
    induction a with
    | nil => intro s; rfl
    | cons o a ih =>
      intro s
      simp only [List.cons_append, runWL]
      cases o.exec s with
      | none => rfl
      | some s1 => simp only [Option.bind_some]; exact ih s1
  constructor
  · obtain ⟨s, e, h⟩ := runWL_rel l (init_rel M target) hl
    have hd : s.done = false := by
      rw [h.done]
      have : ∀ (l : List WLOp) (t : WLSpec), WLOp.finish ∉ l → t.done = false →
          (l.foldl (WLSpec.exec target) t).done = false := by
        intro l
        induction l with
        | nil => intro t _ ht; exact ht
        | cons o l ih =>
          intro t hfin ht
          rw [List.foldl_cons]
          refine ih _ (fun h => hfin (List.mem_cons_of_mem _ h)) ?_
          cases o with
          | measure v => simp [WLSpec.exec, ht]
          | update => simp [WLSpec.exec, ht]
          | finish => simp at hfin
      exact this l _ hf rfl
    have eu : (WLOp.update).exec s = some s.updateLambda := rfl
    have hmv : s.updateLambda.maxVal = M := by simp [WL.updateLambda, hd, WL.rescale, h.maxVal]
    obtain ⟨s', e', h'⟩ := runWL_measures m s.updateLambda
      (by simp [WL.updateLambda, hd, WL.rescale]) (fun v hv => by rw [hmv]; exact hm v hv)
    refine ⟨s', ?_, fun v => ?_⟩
    · rw [happ, e, Option.bind_some, runWL, eu, Option.bind_some]; exact e'
    · rw [h' v]
      simp [WL.updateLambda, hd, WL.rescale, h.target]
  · obtain ⟨s', e', h'⟩ := runWL_measures m (WL.init M target) rfl hm
    exact ⟨s', e', fun v => by rw [h' v]; simp [WL.init]⟩

/-! ### C29 -/

/-- **C29.** If no rank has finished learning, synchronisation succeeds and afterwards all ranks with
the same range agree on every ratio; an unclipped new ratio to the power of the number of ranks is the
product of the former (unclipped) ratios. -/
theorem C29_synchronize {p : ℕ} (hp : 0 < p) (M : ℕ) (s : Fin p → WL) (hM : ∀ r, (s r).maxVal = M)
    (hd : ∀ r, (s r).done = false) :
    ∃ s', syncAll s = some s' ∧
      (∀ r q a b, a ≤ M → b ≤ M → (s' r).weightRatio a b = (s' q).weightRatio a b) ∧
      (∀ r a b, a ≤ M → b ≤ M → (∀ q, (s q).Unclipped a b) →
        (s' r).Unclipped a b ∧
        ∃ x, (s' r).weightRatio a b = some x ∧ ∃ y : Fin p → ℝ,
          (∀ q, (s q).weightRatio a b = some (y q)) ∧ x ^ p = ∏ q, y q) := by
  have hnd : ¬ ∃ r, (s r).done = true := by
    rintro ⟨r, h⟩; rw [hd r] at h; cases h
  refine ⟨_, by simp only [syncAll, if_neg hnd]; rfl, ?_, ?_⟩
  · intro r q a b ha hb
    rw [weightRatio_of_le _ (by simpa [hM] using ha) (by simpa [hM] using hb),
      weightRatio_of_le _ (by simpa [hM] using ha) (by simpa [hM] using hb)]
  · intro r a b ha hb hu
    have hp' : (0 : ℝ) < p := by exact_mod_cast hp
    have e : (∑ q, (s q).logF b) / (p : ℝ) - (∑ q, (s q).logF a) / (p : ℝ) =
        (∑ q, ((s q).logF b - (s q).logF a)) / p := by
      rw [Finset.sum_sub_distrib]; ring
    have hunc : |(∑ q, ((s q).logF b - (s q).logF a)) / (p : ℝ)| ≤ maxLogVal := by
      rw [abs_div, abs_of_pos hp', div_le_iff₀ hp']
      refine le_trans (Finset.abs_sum_le_sum_abs _ _) ?_
      refine le_trans (Finset.sum_le_sum (fun q _ => hu q)) ?_
      simp [mul_comm]
    refine ⟨by unfold WL.Unclipped; simp only; rw [e]; exact hunc, _,
      weightRatio_unclipped _ (by simpa [hM] using ha) (by simpa [hM] using hb)
        (by unfold WL.Unclipped; simp only; rw [e]; exact hunc), _,
      fun q => weightRatio_unclipped (s q) (by rw [hM]; exact ha) (by rw [hM]; exact hb) (hu q), ?_⟩
    rw [← Real.exp_sum, ← Real.exp_nat_mul]
    congr 1
    simp only
    rw [e]
    field_simp

/-- **C29.** The end of learning after the synchronisation keeps the agreement. -/
theorem C29_finish {p : ℕ} (M : ℕ) (s : Fin p → WL) (hM : ∀ r, (s r).maxVal = M)
    (hd : ∀ r, (s r).done = false) :
    ∃ s', syncAll s = some s' ∧ ∀ r q a b, a ≤ M → b ≤ M →
      (s' r).finish.weightRatio a b = (s' q).finish.weightRatio a b := by
  by_cases hp : 0 < p
  · obtain ⟨s', e, h, -⟩ := C29_synchronize hp M s hM hd
    refine ⟨s', e, fun r q a b ha hb => ?_⟩
    have hM' : ∀ r, (s' r).maxVal = M := by
      intro r
      have hnd : ¬ ∃ r, (s r).done = true := by
        rintro ⟨r, h⟩; rw [hd r] at h; cases h
      simp only [syncAll, if_neg hnd, Option.some.injEq] at e
      rw [← e]; exact hM r
    have f : ∀ r, (s' r).finish.weightRatio a b = (s' r).weightRatio a b := fun r =>
      C27_rescale { s' r with done := true } a b (by rw [show ({ s' r with done := true } : WL).maxVal = (s' r).maxVal from rfl, hM' r]; exact hb)
    rw [f r, f q, h r q a b ha hb]
  · have : p = 0 := by omega
    subst this
    refine ⟨_, by simp only [syncAll]; rw [if_neg (by rintro ⟨r, -⟩; exact r.elim0)], fun r => r.elim0⟩

/-! Concrete cases. -/

/-- Two visits of 1, one of 0, one refinement, another visit of 1: the accumulated penalties with
target fraction 1/2 for the value 1. -/
example : (([.measure 1, .measure 1, .measure 0, .update, .measure 1] : List WLOp).foldl
    (WLSpec.exec (fun i => if i = 1 then 1 / 2 else 1)) ⟨0, false, fun _ => 0⟩).W 1 =
    5 * initLogLambda := by
  have h0 : lambdaAfter 0 = initLogLambda := by
    simp only [lambdaAfter, pow_zero, div_one]
    rw [max_eq_left]; norm_num [initLogLambda, minLogLambda]
  have h1 : lambdaAfter 1 = initLogLambda / 2 := by
    simp only [lambdaAfter, pow_one]
    rw [max_eq_left]; norm_num [initLogLambda, minLogLambda]
  simp [WLSpec.exec, h0, h1]
  ring

/-- Hypotheses of `C27_history` are met by this history. -/
example : ∀ v, WLOp.measure v ∈ ([.measure 1, .measure 1, .measure 0, .update, .measure 1] : List WLOp) →
    v ≤ 1 := by
  intro v h
  simp only [List.mem_cons, WLOp.measure.injEq, reduceCtorEq, List.not_mem_nil, or_false, false_or] at h
  omega

/-- Two ranks, unfinished, with different weights (`C29_synchronize`). -/
example : ∃ s : Fin 2 → WL, (∀ r, (s r).maxVal = 1) ∧ (∀ r, (s r).done = false) ∧
    (s 0).weightRatio 1 0 ≠ (s 1).weightRatio 1 0 := by
  refine ⟨![⟨1, fun _ => 1, 1, fun i => if i = 1 then 1 else 0, fun _ => 0, false, 0⟩,
    ⟨1, fun _ => 1, 1, fun _ => 0, fun _ => 0, false, 0⟩], ?_, ?_, ?_⟩
  · intro r; fin_cases r <;> rfl
  · intro r; fin_cases r <;> rfl
  · have h1 : ∀ s : WL, s.maxVal = 1 → s.logF 1 = 1 → s.logF 0 = 0 →
        s.weightRatio 1 0 = some (Real.exp (-1)) := by
      intro s h1 h2 h3
      rw [weightRatio_unclipped s (by omega) (by omega)]
      · rw [h2, h3]; norm_num
      · unfold WL.Unclipped; rw [h2, h3]; norm_num [maxLogVal]
    have h2 : ∀ s : WL, s.maxVal = 1 → s.logF 1 = 0 → s.logF 0 = 0 →
        s.weightRatio 1 0 = some 1 := by
      intro s h1 h2 h3
      rw [weightRatio_unclipped s (by omega) (by omega)]
      · rw [h2, h3]; norm_num
      · unfold WL.Unclipped; rw [h2, h3]; norm_num [maxLogVal]
    rw [h1 _ rfl (by simp) (by simp), h2 _ rfl (by simp) (by simp)]
    intro h
    have := Option.some.inj h
    rw [Real.exp_eq_one_iff] at this
    norm_num at this

end CTHyb
