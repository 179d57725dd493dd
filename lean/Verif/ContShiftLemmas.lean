import Verif.ContShift
import Verif.ContInsProps

/-!
Lemmas for `Verif.ContShiftProps`: replacing one of the labelled operators.
-/

namespace CTHyb

open Rand MeasureTheory ENNReal

variable {W : Type}

/-- One in the window, zero outside. -/
noncomputable def inW (cw : CWin) (o : BOp ℝ) : ℝ≥0∞ := if cw.win.inWin o.1 then 1 else 0

theorem inWin_iff (cw : CWin) (t : ℝ) : cw.win.inWin t = true ↔ t ∈ Set.Icc cw.lo cw.hi := by
  simp [CWin.win]

theorem measurable_inW (cw : CWin) : Measurable (inW cw) := by
  have h : inW cw = (Set.Icc cw.lo cw.hi ×ˢ (Set.univ : Set ℕ)).indicator fun _ => 1 := by
    funext o
    by_cases ho : cw.win.inWin o.1
    · rw [inW, if_pos ho, Set.indicator_of_mem (show o ∈ Set.Icc cw.lo cw.hi ×ˢ (Set.univ : Set ℕ) from
        ⟨(inWin_iff cw o.1).1 ho, trivial⟩)]
    · rw [inW, if_neg ho, Set.indicator_of_notMem fun hm => ho ((inWin_iff cw o.1).2 hm.1)]
  rw [h]
  exact measurable_const.indicator (measurableSet_Icc.prod MeasurableSet.univ)

/-- Number of operators in the window. -/
noncomputable def wcount (cw : CWin) (s : Multiset (BOp ℝ)) : ℕ := (s.map fun o => if cw.win.inWin o.1 then 1 else 0).sum

theorem winOps_length (cw : CWin) (l : List (BOp ℝ)) : (winOps cw.win l).length = wcount cw l := by
  induction l with
  | nil => rfl
  | cons a l ih =>
    have hc : wcount cw (a :: l : List (BOp ℝ)) = (if cw.win.inWin a.1 then 1 else 0) + wcount cw l := by
      simp [wcount]
    rw [hc, ← ih]
    unfold winOps
    rw [List.filter_cons]
    split_ifs <;> simp [add_comm]

theorem measurable_wcount (cw : CWin) (m : ℕ) : Measurable fun y : Fin m → BOp ℝ => wcount cw (ms y) := by
  have h : (fun y : Fin m → BOp ℝ => wcount cw (ms y)) = fun y =>
      ∑ i : Fin m, (Set.Icc cw.lo cw.hi ×ˢ (Set.univ : Set ℕ)).indicator (fun _ => (1 : ℕ)) (y i) := by
    funext y
    rw [wcount, ms_eq, Multiset.map_map]
    refine Finset.sum_congr rfl fun i _ => ?_
    by_cases ho : cw.win.inWin (y i).1
    · rw [Set.indicator_of_mem (show y i ∈ Set.Icc cw.lo cw.hi ×ˢ (Set.univ : Set ℕ) from ⟨(inWin_iff cw _).1 ho, trivial⟩)]; simp [ho]
    · rw [Set.indicator_of_notMem fun hm => ho ((inWin_iff cw _).2 hm.1)]; simp [ho]
  rw [h]
  exact Finset.measurable_sum _ fun i _ =>
    (measurable_const.indicator (measurableSet_Icc.prod MeasurableSet.univ)).comp (measurable_pi_apply i)

theorem ms_insertNth {k : ℕ} (i : Fin (k + 1)) (a : BOp ℝ) (r : Fin k → BOp ℝ) :
    ms (i.insertNth (α := fun _ => BOp ℝ) a r) = a ::ₘ ms r := by
  have h := List.ofFn_succ (f := Fin.cons (α := fun _ => BOp ℝ) a r)
  have hp : ms (i.insertNth (α := fun _ => BOp ℝ) a r) = ms (Fin.cons (α := fun _ => BOp ℝ) a r) := by
    rw [← Fin.insertNth_zero', ms_eq, ms_eq]
    have e : ∀ j : Fin (k + 1), Finset.univ.val.map (j.insertNth (α := fun _ => BOp ℝ) a r) =
        a ::ₘ Finset.univ.val.map r := by
      intro j
      rw [Fin.univ_succAbove k j, Finset.cons_val, Multiset.map_cons, Fin.insertNth_apply_same, Finset.map_val,
        Multiset.map_map]
      congr 1
      refine Multiset.map_congr rfl fun x _ => ?_
      simp
    rw [e, e]
  rw [hp, ms, h]
  simp

theorem ms_update {m : ℕ} (y : Fin m → BOp ℝ) (i : Fin m) (o : BOp ℝ) :
    ms (Function.update y i o) = ms y - {y i} + {o} := by
  obtain _ | k := m
  · exact i.elim0
  obtain ⟨a, r, rfl⟩ : ∃ a r, y = i.insertNth (α := fun _ => BOp ℝ) a r :=
    ⟨y i, i.removeNth y, (Fin.insertNth_self_removeNth i y).symm⟩
  rw [Fin.update_insertNth, ms_insertNth, ms_insertNth, Fin.insertNth_apply_same, ← Multiset.singleton_add,
    ← Multiset.singleton_add, add_tsub_cancel_left, add_comm]

/-- Random replacement of an operator: linear, measurable, and symmetric with respect to the measure of
the operators. -/
structure SymDraw (β : ℝ) (nf : ℕ) (cw : CWin) (Q : BOp ℝ → (BOp ℝ → ℝ≥0∞) → ℝ≥0∞) : Prop where
  smul : ∀ o r G, Measurable G → Q o (fun o' => r * G o') = r * Q o G
  meas : ∀ {Z : Type} [MeasurableSpace Z] (g : Z → BOp ℝ) (H : Z → BOp ℝ → ℝ≥0∞), Measurable g →
    Measurable (fun p : Z × BOp ℝ => H p.1 p.2) → Measurable fun z => Q (g z) (H z)
  symm : ∀ H : BOp ℝ → BOp ℝ → ℝ≥0∞, Measurable (fun p : BOp ℝ × BOp ℝ => H p.1 p.2) →
    ∫⁻ o, inW cw o * Q o (fun o' => inW cw o' * H o o') ∂(opMeasure β nf) =
      ∫⁻ o, inW cw o * Q o (fun o' => inW cw o' * H o' o) ∂(opMeasure β nf)
  win : ∀ o G, inW cw o = 1 → Q o G = Q o (fun o' => inW cw o' * G o')

theorem measurable_update (m : ℕ) (i : Fin m) :
    Measurable fun p : (Fin m → BOp ℝ) × BOp ℝ => Function.update p.1 i p.2 := by
  refine measurable_pi_iff.2 fun j => ?_
  by_cases h : j = i
  · subst h; simpa using measurable_snd
  · simp only [Function.update_of_ne h]
    exact (measurable_pi_apply j).comp measurable_fst

theorem inW_cases (cw : CWin) (o : BOp ℝ) : inW cw o = 0 ∨ inW cw o = 1 := by
  unfold inW; split_ifs <;> simp

/-- Replacing the operator `i`, there and back. -/
theorem replace_symm {β : ℝ} {nf : ℕ} {cw : CWin} {Q : BOp ℝ → (BOp ℝ → ℝ≥0∞) → ℝ≥0∞} (hQ : SymDraw β nf cw Q)
    {m : ℕ} (i : Fin m) (T T' : Multiset (BOp ℝ) → Multiset (BOp ℝ) → ℝ≥0∞)
    (hT : Measurable fun p : (Fin m → BOp ℝ) × BOp ℝ => T (ms p.1) (ms (Function.update p.1 i p.2)))
    (hT' : Measurable fun p : (Fin m → BOp ℝ) × BOp ℝ => T' (ms p.1) (ms (Function.update p.1 i p.2)))
    (h : ∀ a o R, inW cw a = 1 → inW cw o = 1 → T (a ::ₘ R) (o ::ₘ R) = T' (o ::ₘ R) (a ::ₘ R)) :
    ∫⁻ y, inW cw (y i) * Q (y i) (fun o' => inW cw o' * T (ms y) (ms (Function.update y i o'))) ∂(opsMeasure β nf m) =
      ∫⁻ y, inW cw (y i) * Q (y i) (fun o' => inW cw o' * T' (ms y) (ms (Function.update y i o')))
        ∂(opsMeasure β nf m) := by
  obtain _ | k := m
  · exact i.elim0
  have key : ∀ S : Multiset (BOp ℝ) → Multiset (BOp ℝ) → ℝ≥0∞,
      (Measurable fun p : (Fin (k + 1) → BOp ℝ) × BOp ℝ => S (ms p.1) (ms (Function.update p.1 i p.2))) →
      ∫⁻ y, inW cw (y i) * Q (y i) (fun o' => inW cw o' * S (ms y) (ms (Function.update y i o')))
        ∂(opsMeasure β nf (k + 1)) =
      ∫⁻ r, ∫⁻ a, inW cw a * Q a (fun o' => inW cw o' * S (a ::ₘ ms r) (o' ::ₘ ms r)) ∂(opMeasure β nf)
        ∂(opsMeasure β nf k) := by
    intro S hS
    have hm : Measurable fun y : Fin (k + 1) → BOp ℝ =>
        inW cw (y i) * Q (y i) (fun o' => inW cw o' * S (ms y) (ms (Function.update y i o'))) :=
      ((measurable_inW cw).comp (measurable_pi_apply i)).mul
        (hQ.meas (fun y : Fin (k + 1) → BOp ℝ => y i) _ (measurable_pi_apply i)
          (((measurable_inW cw).comp measurable_snd).mul hS))
    have hp := (measurePreserving_piFinSuccAbove (fun _ : Fin (k + 1) => opMeasure β nf) i).symm
    rw [opsMeasure, ← hp.lintegral_comp hm, lintegral_prod_symm]
    rotate_left
    · exact (hm.comp hp.measurable).aemeasurable
    refine lintegral_congr fun r => lintegral_congr fun a => ?_
    show inW cw (i.insertNth (α := fun _ => BOp ℝ) a r i) * Q (i.insertNth (α := fun _ => BOp ℝ) a r i)
      (fun o' => inW cw o' * S (ms (i.insertNth (α := fun _ => BOp ℝ) a r))
        (ms (Function.update (i.insertNth (α := fun _ => BOp ℝ) a r) i o'))) = _
    simp only [Fin.update_insertNth, ms_insertNth, Fin.insertNth_apply_same]
  rw [key T hT, key T' hT']
  refine lintegral_congr fun r => ?_
  have hmS : Measurable fun p : BOp ℝ × BOp ℝ => T (p.1 ::ₘ ms r) (p.2 ::ₘ ms r) := by
    have hi : Measurable fun p : BOp ℝ × BOp ℝ => (i.insertNth (α := fun _ => BOp ℝ) p.1 r, p.2) := by
      refine Measurable.prodMk ?_ measurable_snd
      refine measurable_pi_iff.2 fun j => ?_
      refine Fin.succAboveCases i ?_ (fun j => ?_) j
      · simpa using measurable_fst
      · simp
    have := hT.comp hi
    simpa only [Function.comp_def, Fin.update_insertNth, ms_insertNth] using this
  rw [hQ.symm _ hmS]
  refine lintegral_congr fun a => ?_
  rcases inW_cases cw a with ha | ha
  · rw [ha, zero_mul, zero_mul]
  · congr 2
    funext o'
    rcases inW_cases cw o' with ho | ho
    · rw [ho, zero_mul, zero_mul]
    · rw [h o' a (ms r) ho ha]

theorem metropolis_min {a b : ℝ} (ha : 0 ≤ a) (hb : 0 ≤ b) :
    ENNReal.ofReal a * ENNReal.ofReal (min 1 (b / a)) = ENNReal.ofReal (min a b) := by
  rw [← ENNReal.ofReal_mul ha]
  rcases ha.eq_or_lt with h | h
  · subst h; simp [hb]
  · rw [mul_min_of_nonneg _ _ ha, mul_one, mul_div_cancel₀ _ h.ne']

/-- Replacing the operator `i` with the acceptance test; `s` is the probability of choosing it. -/
noncomputable def oneTerm {V : Type} (cw : CWin) (Q : BOp ℝ → (BOp ℝ → ℝ≥0∞) → ℝ≥0∞) (s : ℕ → V → ℝ≥0∞)
    (wt : Multiset (BOp ℝ) → V → ℝ) (ψ : Multiset (BOp ℝ) → V → ℝ≥0∞) {m : ℕ} (i : Fin m) (y : Fin m → BOp ℝ) (v : V) :
    ℝ≥0∞ :=
  s (wcount cw (ms y)) v * (inW cw (y i) * Q (y i) fun o' => inW cw o' *
    (ENNReal.ofReal (min 1 (wt (ms (Function.update y i o')) v / wt (ms y) v)) * ψ (ms (Function.update y i o')) v))

theorem measurable_updV {V : Type} [MeasurableSpace V] (m : ℕ) (i : Fin m) :
    Measurable fun p : ((Fin m → BOp ℝ) × V) × BOp ℝ => (Function.update p.1.1 i p.2, p.1.2) :=
  ((measurable_update m i).comp ((measurable_fst.comp measurable_fst).prodMk measurable_snd)).prodMk
    (measurable_snd.comp measurable_fst)

theorem measurable_count {V : Type} [MeasurableSpace V] (cw : CWin) (m : ℕ) {s : ℕ → V → ℝ≥0∞}
    (hs : ∀ k, Measurable (s k)) : Measurable fun p : (Fin m → BOp ℝ) × V => s (wcount cw (ms p.1)) p.2 := by
  have : Measurable fun p : ℕ × V => s p.1 p.2 := measurable_from_prod_countable_right hs
  exact this.comp (((measurable_wcount cw m).comp measurable_fst).prodMk measurable_snd)

theorem measurable_oneTerm {β : ℝ} {nf : ℕ} {V : Type} [MeasurableSpace V] {cw : CWin} {Q : BOp ℝ → (BOp ℝ → ℝ≥0∞) → ℝ≥0∞}
    (hQ : SymDraw β nf cw Q) {s : ℕ → V → ℝ≥0∞} (hs : ∀ k, Measurable (s k)) {wt : Multiset (BOp ℝ) → V → ℝ}
    {ψ : Multiset (BOp ℝ) → V → ℝ≥0∞} {m : ℕ} (hw : Measurable fun p : (Fin m → BOp ℝ) × V => wt (ms p.1) p.2)
    (hψ : Measurable fun p : (Fin m → BOp ℝ) × V => ψ (ms p.1) p.2) (i : Fin m) :
    Measurable fun p : (Fin m → BOp ℝ) × V => oneTerm cw Q s wt ψ i p.1 p.2 := by
  refine (measurable_count cw m hs).mul (((measurable_inW cw).comp ((measurable_pi_apply i).comp measurable_fst)).mul
    (hQ.meas (fun p : (Fin m → BOp ℝ) × V => p.1 i) _ ((measurable_pi_apply i).comp measurable_fst) ?_))
  refine ((measurable_inW cw).comp measurable_snd).mul (Measurable.mul ?_ ?_)
  · exact ENNReal.measurable_ofReal.comp (measurable_const.min
      ((hw.comp (measurable_updV m i)).div (hw.comp measurable_fst)))
  · exact hψ.comp (measurable_updV m i)

/-- One operator of one kind: detailed balance. -/
theorem one_flow {β : ℝ} {nf : ℕ} {V : Type} [MeasurableSpace V] (ν : Measure V) [SFinite ν] {cw : CWin}
    {Q : BOp ℝ → (BOp ℝ → ℝ≥0∞) → ℝ≥0∞}
    (hQ : SymDraw β nf cw Q) {s : ℕ → V → ℝ≥0∞} (hs : ∀ k, Measurable (s k)) {wt : Multiset (BOp ℝ) → V → ℝ}
    {φ ψ : Multiset (BOp ℝ) → V → ℝ≥0∞} {m : ℕ} (hw : Measurable fun p : (Fin m → BOp ℝ) × V => wt (ms p.1) p.2)
    (hφ : Measurable fun p : (Fin m → BOp ℝ) × V => φ (ms p.1) p.2)
    (hψ : Measurable fun p : (Fin m → BOp ℝ) × V => ψ (ms p.1) p.2) (h0 : ∀ X v, 0 ≤ wt X v) (i : Fin m) :
    ∫⁻ p, φ (ms p.1) p.2 * ENNReal.ofReal (wt (ms p.1) p.2) * oneTerm cw Q s wt ψ i p.1 p.2
        ∂((opsMeasure β nf m).prod ν) =
      ∫⁻ p, ψ (ms p.1) p.2 * ENNReal.ofReal (wt (ms p.1) p.2) * oneTerm cw Q s wt φ i p.1 p.2
        ∂((opsMeasure β nf m).prod ν) := by
  have hm : ∀ {φ ψ : Multiset (BOp ℝ) → V → ℝ≥0∞}, (Measurable fun p : (Fin m → BOp ℝ) × V => φ (ms p.1) p.2) →
      (Measurable fun p : (Fin m → BOp ℝ) × V => ψ (ms p.1) p.2) → Measurable fun p : (Fin m → BOp ℝ) × V =>
        φ (ms p.1) p.2 * ENNReal.ofReal (wt (ms p.1) p.2) * oneTerm cw Q s wt ψ i p.1 p.2 := fun hφ hψ =>
    (hφ.mul (ENNReal.measurable_ofReal.comp hw)).mul (measurable_oneTerm hQ hs hw hψ i)
  rw [lintegral_prod_symm _ (hm hφ hψ).aemeasurable, lintegral_prod_symm _ (hm hψ hφ).aemeasurable]
  refine lintegral_congr fun v => ?_
  have hv : Measurable fun y : Fin m → BOp ℝ => (y, v) := measurable_prodMk_right
  have hv2 : Measurable fun p : (Fin m → BOp ℝ) × BOp ℝ => (Function.update p.1 i p.2, v) :=
    (measurable_update m i).prodMk measurable_const
  have key : ∀ {φ ψ : Multiset (BOp ℝ) → V → ℝ≥0∞}, (Measurable fun p : (Fin m → BOp ℝ) × V => φ (ms p.1) p.2) →
      (Measurable fun p : (Fin m → BOp ℝ) × V => ψ (ms p.1) p.2) →
      ∀ y : Fin m → BOp ℝ, φ (ms y) v * ENNReal.ofReal (wt (ms y) v) * oneTerm cw Q s wt ψ i y v =
        inW cw (y i) * Q (y i) (fun o' => inW cw o' *
          (fun X Y => s (wcount cw X) v * (φ X v * (ENNReal.ofReal (min (wt X v) (wt Y v)) * ψ Y v))) (ms y)
            (ms (Function.update y i o'))) := by
    intro φ ψ hφ hψ y
    have hy : Measurable fun o' : BOp ℝ => (Function.update y i o', v) :=
      ((measurable_update m i).comp measurable_prodMk_left).prodMk measurable_const
    have hG : Measurable fun o' : BOp ℝ => inW cw o' *
        (ENNReal.ofReal (min 1 (wt (ms (Function.update y i o')) v / wt (ms y) v)) * ψ (ms (Function.update y i o')) v) :=
      (measurable_inW cw).mul ((ENNReal.measurable_ofReal.comp (measurable_const.min
        ((hw.comp hy).div measurable_const))).mul (hψ.comp hy))
    have hsm := hQ.smul (y i) (φ (ms y) v * ENNReal.ofReal (wt (ms y) v) * s (wcount cw (ms y)) v) _ hG
    calc _ = inW cw (y i) * (φ (ms y) v * ENNReal.ofReal (wt (ms y) v) * s (wcount cw (ms y)) v * Q (y i) fun o' =>
          inW cw o' * (ENNReal.ofReal (min 1 (wt (ms (Function.update y i o')) v / wt (ms y) v)) *
            ψ (ms (Function.update y i o')) v)) := by rw [oneTerm]; ring
      _ = _ := by
        rw [← hsm]
        congr 2
        funext o'
        simp only []
        rw [← metropolis_min (h0 _ _) (h0 _ _)]
        ring
  have hT : ∀ {φ ψ : Multiset (BOp ℝ) → V → ℝ≥0∞}, (Measurable fun p : (Fin m → BOp ℝ) × V => φ (ms p.1) p.2) →
      (Measurable fun p : (Fin m → BOp ℝ) × V => ψ (ms p.1) p.2) →
      Measurable fun p : (Fin m → BOp ℝ) × BOp ℝ =>
        (fun X Y => s (wcount cw X) v * (φ X v * (ENNReal.ofReal (min (wt X v) (wt Y v)) * ψ Y v))) (ms p.1)
            (ms (Function.update p.1 i p.2)) := by
    intro φ ψ hφ hψ
    have hf : Measurable fun p : (Fin m → BOp ℝ) × BOp ℝ => (p.1, v) := measurable_fst.prodMk measurable_const
    exact ((measurable_count cw m hs).comp hf).mul ((hφ.comp hf).mul
      ((ENNReal.measurable_ofReal.comp ((hw.comp hf).min (hw.comp hv2))).mul (hψ.comp hv2)))
  rw [lintegral_congr (key hφ hψ), lintegral_congr (key hψ hφ)]
  refine replace_symm hQ i (fun X Y => s (wcount cw X) v * (φ X v * (ENNReal.ofReal (min (wt X v) (wt Y v)) * ψ Y v)))
    (fun X Y => s (wcount cw X) v * (ψ X v * (ENNReal.ofReal (min (wt X v) (wt Y v)) * φ Y v)))
    (hT hφ hψ) (hT hψ hφ) fun a o R ha ho => ?_
  have hc : wcount cw (a ::ₘ R) = wcount cw (o ::ₘ R) := by
    have h1 : ∀ b, inW cw b = 1 → wcount cw (b ::ₘ R) = 1 + wcount cw R := by
      intro b hb
      rw [wcount, Multiset.map_cons, Multiset.sum_cons, if_pos, wcount]
      unfold inW at hb
      by_contra hn
      rw [if_neg hn] at hb
      exact zero_ne_one hb
    rw [h1 a ha, h1 o ho]
  rw [hc, min_comm]
  ring

theorem CfgFun.Meas.swap {A : Type} [MeasurableSpace A] {F : CfgFun W A} {ω : W} (hF : F.Meas ω) (m n : ℕ) :
    Measurable fun p : (Fin n → BOp ℝ) × (Fin m → BOp ℝ) => F (ms p.2) (ms p.1) ω :=
  (hF m n).comp measurable_swap

/-- Creation operator `i`. -/
noncomputable def cdTerm (cw : CWin) (Q : BOp ℝ → (BOp ℝ → ℝ≥0∞) → ℝ≥0∞) (s : ℕ → ℕ → ℝ≥0∞) (w : CfgFun W ℝ)
    (ψ : CfgFun W ℝ≥0∞) (ω : W) {m n : ℕ} (i : Fin m) (z : Lab m n) : ℝ≥0∞ :=
  oneTerm (V := Fin n → BOp ℝ) cw Q (fun k v => s k (wcount cw (ms v))) (fun X v => w X (ms v) ω)
    (fun X v => ψ X (ms v) ω) i z.1 z.2

/-- Annihilation operator `j`. -/
noncomputable def cTerm (cw : CWin) (Q : BOp ℝ → (BOp ℝ → ℝ≥0∞) → ℝ≥0∞) (s : ℕ → ℕ → ℝ≥0∞) (w : CfgFun W ℝ)
    (ψ : CfgFun W ℝ≥0∞) (ω : W) {m n : ℕ} (j : Fin n) (z : Lab m n) : ℝ≥0∞ :=
  oneTerm (V := Fin m → BOp ℝ) cw Q (fun k v => s (wcount cw (ms v)) k) (fun X v => w (ms v) X ω)
    (fun X v => ψ (ms v) X ω) j z.2 z.1

section
variable {β : ℝ} {nf : ℕ} {cw : CWin} {Q : BOp ℝ → (BOp ℝ → ℝ≥0∞) → ℝ≥0∞} (hQ : SymDraw β nf cw Q)
    (s : ℕ → ℕ → ℝ≥0∞) {w : CfgFun W ℝ} {φ ψ : CfgFun W ℝ≥0∞} {ω : W} (hw : w.Meas ω) (hφ : φ.Meas ω) (hψ : ψ.Meas ω)
include hQ hw hψ

theorem measurable_cdTerm (m n : ℕ) (i : Fin m) : Measurable fun z : Lab m n => cdTerm cw Q s w ψ ω i z :=
  measurable_oneTerm (V := Fin n → BOp ℝ) hQ (s := fun k v => s k (wcount cw (ms v)))
    (wt := fun X v => w X (ms v) ω) (ψ := fun X v => ψ X (ms v) ω)
    (fun k => (measurable_from_nat (f := fun l => s k l)).comp (measurable_wcount cw n)) (hw.base m n) (hψ.base m n) i

theorem measurable_cTerm (m n : ℕ) (j : Fin n) : Measurable fun z : Lab m n => cTerm cw Q s w ψ ω j z :=
  (measurable_oneTerm (V := Fin m → BOp ℝ) hQ (s := fun k v => s (wcount cw (ms v)) k)
    (wt := fun X v => w (ms v) X ω) (ψ := fun X v => ψ (ms v) X ω)
    (fun k => (measurable_from_nat (f := fun l => s l k)).comp (measurable_wcount cw m)) (hw.swap m n) (hψ.swap m n) j).comp
    measurable_swap

include hφ

theorem cdTerm_symm (h0 : ∀ X X', 0 ≤ w X X' ω) (m n : ℕ) (i : Fin m) :
    ∫⁻ z, φ.at (z.cfg ω) * ENNReal.ofReal (w.at (z.cfg ω)) * cdTerm cw Q s w ψ ω i z ∂(labMeasure β nf m n) =
      ∫⁻ z, ψ.at (z.cfg ω) * ENNReal.ofReal (w.at (z.cfg ω)) * cdTerm cw Q s w φ ω i z ∂(labMeasure β nf m n) :=
  one_flow (opsMeasure β nf n) hQ (s := fun k v => s k (wcount cw (ms v)))
    (wt := fun X v => w X (ms v) ω) (φ := fun X v => φ X (ms v) ω) (ψ := fun X v => ψ X (ms v) ω)
    (fun k => (measurable_from_nat (f := fun l => s k l)).comp (measurable_wcount cw n)) (hw.base m n) (hφ.base m n)
    (hψ.base m n) (fun _ _ => h0 _ _) i

theorem cTerm_symm (h0 : ∀ X X', 0 ≤ w X X' ω) (m n : ℕ) (j : Fin n) :
    ∫⁻ z, φ.at (z.cfg ω) * ENNReal.ofReal (w.at (z.cfg ω)) * cTerm cw Q s w ψ ω j z ∂(labMeasure β nf m n) =
      ∫⁻ z, ψ.at (z.cfg ω) * ENNReal.ofReal (w.at (z.cfg ω)) * cTerm cw Q s w φ ω j z ∂(labMeasure β nf m n) := by
  have h := one_flow (opsMeasure β nf m) hQ (s := fun k v => s (wcount cw (ms v)) k)
    (wt := fun X v => w (ms v) X ω) (φ := fun X v => φ (ms v) X ω) (ψ := fun X v => ψ (ms v) X ω)
    (fun k => (measurable_from_nat (f := fun l => s l k)).comp (measurable_wcount cw m)) (hw.swap m n) (hφ.swap m n)
    (hψ.swap m n) (fun _ _ => h0 _ _) j
  exact (lintegral_prod_swap (μ := opsMeasure β nf n) (ν := opsMeasure β nf m) _).trans (h.trans
    (lintegral_prod_swap (μ := opsMeasure β nf n) (ν := opsMeasure β nf m) _).symm)

end

/-- Sum over the creation and the annihilation operators. -/
noncomputable def labE (cw : CWin) (Q : BOp ℝ → (BOp ℝ → ℝ≥0∞) → ℝ≥0∞) (s s' : ℕ → ℕ → ℝ≥0∞) (w : CfgFun W ℝ)
    (ψ : CfgFun W ℝ≥0∞) (ω : W) {m n : ℕ} (z : Lab m n) : ℝ≥0∞ :=
  ∑ i, cdTerm cw Q s w ψ ω i z + ∑ j, cTerm cw Q s' w ψ ω j z

theorem measurable_labE {β : ℝ} {nf : ℕ} {cw : CWin} {Q : BOp ℝ → (BOp ℝ → ℝ≥0∞) → ℝ≥0∞} (hQ : SymDraw β nf cw Q)
    (s s' : ℕ → ℕ → ℝ≥0∞) {w : CfgFun W ℝ} {ψ : CfgFun W ℝ≥0∞} {ω : W} (hw : w.Meas ω) (hψ : ψ.Meas ω) (m n : ℕ) :
    Measurable fun z : Lab m n => labE cw Q s s' w ψ ω z :=
  (Finset.measurable_sum _ fun i _ => measurable_cdTerm hQ s hw hψ m n i).add
    (Finset.measurable_sum _ fun j _ => measurable_cTerm hQ s' hw hψ m n j)

/-- Replacing one operator: detailed balance. -/
theorem labE_symm {β : ℝ} {nf : ℕ} {cw : CWin} {Q : BOp ℝ → (BOp ℝ → ℝ≥0∞) → ℝ≥0∞} (hQ : SymDraw β nf cw Q)
    (s s' : ℕ → ℕ → ℝ≥0∞) {w : CfgFun W ℝ} {φ ψ : CfgFun W ℝ≥0∞} {ω : W} (hw : w.Meas ω) (hφ : φ.Meas ω) (hψ : ψ.Meas ω)
    (h0 : ∀ X X', 0 ≤ w X X' ω) (m n : ℕ) :
    ∫⁻ z, φ.at (z.cfg ω) * ENNReal.ofReal (w.at (z.cfg ω)) * labE cw Q s s' w ψ ω z ∂(labMeasure β nf m n) =
      ∫⁻ z, ψ.at (z.cfg ω) * ENNReal.ofReal (w.at (z.cfg ω)) * labE cw Q s s' w φ ω z ∂(labMeasure β nf m n) := by
  have key : ∀ {φ ψ : CfgFun W ℝ≥0∞}, φ.Meas ω → ψ.Meas ω →
      ∫⁻ z, φ.at (z.cfg ω) * ENNReal.ofReal (w.at (z.cfg ω)) * labE cw Q s s' w ψ ω z ∂(labMeasure β nf m n) =
      ∑ i : Fin m, ∫⁻ z, φ.at (z.cfg ω) * ENNReal.ofReal (w.at (z.cfg ω)) * cdTerm cw Q s w ψ ω i z
        ∂(labMeasure β nf m n) +
      ∑ j : Fin n, ∫⁻ z, φ.at (z.cfg ω) * ENNReal.ofReal (w.at (z.cfg ω)) * cTerm cw Q s' w ψ ω j z
        ∂(labMeasure β nf m n) := by
    intro φ ψ hφ hψ
    have hb : Measurable fun z : Lab m n => φ.at (z.cfg ω) * ENNReal.ofReal (w.at (z.cfg ω)) :=
      (hφ m n).mul (ENNReal.measurable_ofReal.comp (hw m n))
    have h1 : ∀ i : Fin m, Measurable fun z : Lab m n =>
        φ.at (z.cfg ω) * ENNReal.ofReal (w.at (z.cfg ω)) * cdTerm cw Q s w ψ ω i z :=
      fun i => hb.mul (measurable_cdTerm hQ s hw hψ m n i)
    have h2 : ∀ j : Fin n, Measurable fun z : Lab m n =>
        φ.at (z.cfg ω) * ENNReal.ofReal (w.at (z.cfg ω)) * cTerm cw Q s' w ψ ω j z :=
      fun j => hb.mul (measurable_cTerm hQ s' hw hψ m n j)
    rw [← lintegral_finsetSum _ fun i _ => h1 i, ← lintegral_finsetSum _ fun j _ => h2 j,
      ← lintegral_add_left (Finset.measurable_sum _ fun i _ => h1 i)]
    refine lintegral_congr fun z => ?_
    rw [labE, mul_add, Finset.mul_sum, Finset.mul_sum]
  rw [key hφ hψ, key hψ hφ]
  congr 1
  · exact Finset.sum_congr rfl fun i _ => cdTerm_symm hQ s hw hφ hψ h0 m n i
  · exact Finset.sum_congr rfl fun j _ => cTerm_symm hQ s' hw hφ hψ h0 m n j

end CTHyb
