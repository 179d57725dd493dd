import Verif.ContSweepNice

/-!
Lemmas for `Verif.ContSweepProps`: the connection of the equal-time and two-time spaces.
-/

namespace CTHyb

open Rand MeasureTheory ENNReal

/-- Equal-time G1 worm. -/
def wE (t : ℝ) (f0 f1 : ℕ) : Worm ℝ := ⟨.equalTime 1, [t], [f0, f1]⟩

/-- Two-time G2 worm. -/
def wC (t t1 : ℝ) (f0 f1 f2 f3 : ℕ) : Worm ℝ := ⟨.corr 2, [t, t1], [f0, f1, f2, f3]⟩

theorem mkW_wE {nf : ℕ} (t : ℝ) (f0 f1 : Fin nf) : mkW (.equalTime 1) (fun _ => t) ![f0, f1] = wE t f0 f1 := rfl

theorem mkW_wC {nf : ℕ} (t t1 : ℝ) (f0 f1 f2 f3 : Fin nf) :
    mkW (.corr 2) ![t, t1] ![f0, f1, f2, f3] = wC t t1 f0 f1 f2 f3 := rfl

theorem meanE_half (f : Bool → ℝ≥0∞) :
    meanE (coin (1 / 2)) f = ENNReal.ofReal (1 / 2) * f true + ENNReal.ofReal (1 / 2) * f false := by
  unfold meanE coin
  simp only [Multiset.insert_eq_cons, Multiset.map_cons, Multiset.map_singleton, Multiset.sum_cons, Multiset.sum_singleton]
  norm_num

theorem connectE_other (nf : ℕ) (cw : CWin) (a b : ℝ) (w : CfgFun (Option (Worm ℝ)) ℝ) (ψ : CfgFun (Option (Worm ℝ)) ℝ≥0∞)
    (x : WCfg ℝ) (u : Worm ℝ) (hx : x.worm = some u) (h1 : u.kind ≠ .equalTime 1) (h2 : u.kind ≠ .corr 2) :
    connectE nf cw a b w ψ x = 0 := by
  unfold connectE
  rw [hx]
  split
  · rename_i h; injection h with h; exact absurd (congrArg Worm.kind h) h1
  · rename_i h; injection h with h; exact absurd (congrArg Worm.kind h) h2
  · rfl

theorem connectE_none (nf : ℕ) (cw : CWin) (a b : ℝ) (w : CfgFun (Option (Worm ℝ)) ℝ) (ψ : CfgFun (Option (Worm ℝ)) ℝ≥0∞)
    {m n : ℕ} (z : Lab m n) : connectE nf cw a b w ψ (z.cfg none) = 0 := rfl

/-- Probability density of the proposal. -/
noncomputable def connP (nf : ℕ) (cw : CWin) : ℝ≥0∞ :=
  ENNReal.ofReal (1 / (cw.hi - cw.lo)) * (ENNReal.ofReal (1 / 2) * (ENNReal.ofReal (1 / (nf : ℝ)) * ENNReal.ofReal (1 / (nf : ℝ))))

/-- Acceptance of the step up. -/
noncomputable def connUp {m n : ℕ} (nf : ℕ) (cw : CWin) (a b : ℝ) (w : CfgFun (Option (Worm ℝ)) ℝ)
    (ψ : CfgFun (Option (Worm ℝ)) ℝ≥0∞) (z : Lab m n) (t t1 : ℝ) (f0 f1 f2 f3 : ℕ) : ℝ≥0∞ :=
  accE w ψ (z.cfg (some (wE t f0 f1))) ⟨[], [], [], [], some (wC t t1 f0 f1 f2 f3)⟩
    ((b / a) * (nf : ℝ) * (nf : ℝ) * (cw.hi - cw.lo))

/-- Acceptance of the step down. -/
noncomputable def connDn {m n : ℕ} (nf : ℕ) (cw : CWin) (a b : ℝ) (w : CfgFun (Option (Worm ℝ)) ℝ)
    (ψ : CfgFun (Option (Worm ℝ)) ℝ≥0∞) (z : Lab m n) (t t1 : ℝ) (f0 f1 f2 f3 : ℕ) : ℝ≥0∞ :=
  accE w ψ (z.cfg (some (wC t t1 f0 f1 f2 f3))) ⟨[], [], [], [], some (wE t f0 f1)⟩
    ((a / b) / ((nf : ℝ) * (nf : ℝ) * (cw.hi - cw.lo)))

theorem connectE_wE {β : ℝ} {cw : CWin} (hcw : cw.OK β) (nf : ℕ) (a b : ℝ) (w : CfgFun (Option (Worm ℝ)) ℝ)
    (ψ : CfgFun (Option (Worm ℝ)) ℝ≥0∞) (t : ℝ) (f0 f1 : ℕ) {m n : ℕ} (z : Lab m n)
    (hm : ∀ f2 f3 : Fin nf, Measurable fun t1 => connUp nf cw a b w ψ z t t1 f0 f1 f2 f3) :
    connectE nf cw a b w ψ (z.cfg (some (wE t f0 f1))) = connP nf cw *
      ∫⁻ t1 in Set.Icc cw.lo cw.hi, ∑ f2 : Fin nf, ∑ f3 : Fin nf, connUp nf cw a b w ψ z t t1 f0 f1 f2 f3 := by
  refine (lintegral_openRandom' hcw fun t1 => meanE (coin (1 / 2)) fun b' => if b' then
        meanE (unif (List.range nf)) fun f2 => meanE (unif (List.range nf)) fun f3 =>
          connUp nf cw a b w ψ z t t1 f0 f1 f2 f3 else 0).trans ?_
  simp only [meanE_half, meanE_unif, List.length_range, sum_range_fin, if_true, Bool.false_eq_true, if_false, mul_zero, add_zero]
  unfold connP
  rw [mul_assoc]
  congr 1
  rw [← lintegral_const_mul]
  · refine lintegral_congr fun t1 => ?_
    rw [← Finset.mul_sum]
    ring
  · exact Finset.measurable_sum _ fun f2 _ => Finset.measurable_sum _ fun f3 _ => hm f2 f3

theorem connectE_wC (nf : ℕ) (cw : CWin) (a b : ℝ) (w : CfgFun (Option (Worm ℝ)) ℝ)
    (ψ : CfgFun (Option (Worm ℝ)) ℝ≥0∞) (t t1 : ℝ) (f0 f1 f2 f3 : ℕ) {m n : ℕ} (z : Lab m n) :
    connectE nf cw a b w ψ (z.cfg (some (wC t t1 f0 f1 f2 f3))) = (Set.Icc cw.lo cw.hi).indicator (fun _ => 1) t1 *
      (ENNReal.ofReal (1 / 2) * connDn nf cw a b w ψ z t t1 f0 f1 f2 f3) := by
  have e : connectE nf cw a b w ψ (z.cfg (some (wC t t1 f0 f1 f2 f3))) = if cw.win.inWin t1 then
      meanE (coin (1 / 2)) fun b' => if b' then connDn nf cw a b w ψ z t t1 f0 f1 f2 f3 else 0 else 0 := rfl
  rw [e, meanE_half]
  by_cases ht : t1 ∈ Set.Icc cw.lo cw.hi
  · have hin : cw.win.inWin t1 = true := by
      simpa only [CWin.win, Bool.and_eq_true, decide_eq_true_eq, Set.mem_Icc] using ht
    rw [if_pos hin, Set.indicator_of_mem ht]
    simp
  · have hin : ¬ cw.win.inWin t1 = true := by
      simpa only [CWin.win, Bool.and_eq_true, decide_eq_true_eq, Set.mem_Icc] using ht
    rw [if_neg hin, Set.indicator_of_notMem ht, zero_mul]

/-! ### Sums and integrals -/

theorem sum_two {nf : ℕ} (F : (Fin 2 → Fin nf) → ℝ≥0∞) : ∑ fs, F fs = ∑ f0, ∑ f1, F ![f0, f1] := by
  rw [← (finTwoArrowEquiv (Fin nf)).symm.sum_comp, Fintype.sum_prod_type]
  rfl

theorem sum_four {nf : ℕ} (F : (Fin 4 → Fin nf) → ℝ≥0∞) :
    ∑ fs, F fs = ∑ f0, ∑ f1, ∑ f2, ∑ f3, F ![f0, f1, f2, f3] := by
  rw [← (Fin.consEquiv fun _ => Fin nf).sum_comp, Fintype.sum_prod_type]
  refine Finset.sum_congr rfl fun f0 _ => ?_
  rw [← (Fin.consEquiv fun _ => Fin nf).sum_comp, Fintype.sum_prod_type]
  refine Finset.sum_congr rfl fun f1 _ => ?_
  rw [sum_two]
  rfl

theorem lintegral_two_times (β : ℝ) {F : (Fin 2 → ℝ) → ℝ≥0∞} (hF : Measurable F) :
    ∫⁻ ts, F ts ∂(wTimes β 2) = ∫⁻ t in Set.Icc 0 β, ∫⁻ t1 in Set.Icc 0 β, F ![t, t1] := by
  have hp := (measurePreserving_finTwoArrow (volume.restrict (Set.Icc 0 β))).symm
  have hm : Measurable fun q : ℝ × ℝ => F ![q.1, q.2] := hF.comp hp.measurable
  rw [← lintegral_prod _ hm.aemeasurable]
  exact (hp.lintegral_comp hF).symm

/-! ### The flow between two worms -/

/-- `φ · w · K` at one worm. -/
noncomputable def flowW {m n : ℕ} (φ : CfgFun (Option (Worm ℝ)) ℝ≥0∞) (w : CfgFun (Option (Worm ℝ)) ℝ) (K : WCfg ℝ → ℝ≥0∞)
    (z : Lab m n) (u : Worm ℝ) : ℝ≥0∞ :=
  φ (ms z.1) (ms z.2) (some u) * ENNReal.ofReal (w (ms z.1) (ms z.2) (some u)) * K (z.cfg (some u))

theorem conn_arith {nf : ℕ} (hnf : 0 < nf) {L a b x y : ℝ} (hL : 0 < L) (ha : 0 < a) (hb : 0 < b) (hx : 0 ≤ x) (hy : 0 ≤ y) :
    ENNReal.ofReal a * (ENNReal.ofReal x * (ENNReal.ofReal (1 / L) * (ENNReal.ofReal (1 / 2) *
      (ENNReal.ofReal (1 / (nf : ℝ)) * ENNReal.ofReal (1 / (nf : ℝ)))) *
      ENNReal.ofReal (min 1 (y / x * (b / a * nf * nf * L))))) =
    ENNReal.ofReal b * (ENNReal.ofReal y * (ENNReal.ofReal (1 / 2) * ENNReal.ofReal (min 1 (x / y * (a / b / (nf * nf * L)))))) := by
  have hn : (0 : ℝ) < nf := by exact_mod_cast hnf
  have hA : 0 ≤ a * x / (nf * nf * L) := by positivity
  have hB : 0 ≤ b * y := by positivity
  have h1 := metropolis_min hA hB
  have h2 := metropolis_min hB hA
  rw [min_comm (b * y)] at h2
  have e1 : y / x * (b / a * nf * nf * L) = b * y / (a * x / (nf * nf * L)) := by
    rcases hx.eq_or_lt with h | h
    · subst h; simp
    · field_simp
  have e2 : x / y * (a / b / (nf * nf * L)) = a * x / (nf * nf * L) / (b * y) := by
    rcases hy.eq_or_lt with h | h
    · subst h; simp
    · field_simp
  rw [e1, e2]
  have l : ENNReal.ofReal a * (ENNReal.ofReal x * (ENNReal.ofReal (1 / L) * (ENNReal.ofReal (1 / 2) *
      (ENNReal.ofReal (1 / (nf : ℝ)) * ENNReal.ofReal (1 / (nf : ℝ)))))) =
      ENNReal.ofReal (1 / 2) * ENNReal.ofReal (a * x / (nf * nf * L)) := by
    rw [← ENNReal.ofReal_mul (by positivity), ← ENNReal.ofReal_mul (by positivity), ← ENNReal.ofReal_mul (by positivity),
      ← ENNReal.ofReal_mul (by positivity), ← ENNReal.ofReal_mul (by positivity), ← ENNReal.ofReal_mul (by positivity)]
    congr 1
    field_simp
  have r : ENNReal.ofReal b * ENNReal.ofReal y = ENNReal.ofReal (b * y) := (ENNReal.ofReal_mul hb.le).symm
  generalize ENNReal.ofReal (min 1 (b * y / (a * x / (nf * nf * L)))) = M at h1 ⊢
  generalize ENNReal.ofReal (min 1 (a * x / (nf * nf * L) / (b * y))) = M' at h2 ⊢
  rw [show ∀ p q r s : ℝ≥0∞, p * (q * (r * s)) = p * (q * r) * s from fun p q r s => by ring, l, mul_assoc, h1,
    ← h2, ← r]
  ring

/-- The flow up is the flow down. -/
theorem conn_flow {nf : ℕ} (hnf : 0 < nf) {β : ℝ} {cw : CWin} (hcw : cw.OK β) {a b : ℝ} (ha : 0 < a) (hb : 0 < b)
    {w : CfgFun (Option (Worm ℝ)) ℝ} (h0 : ∀ X X' ω, 0 ≤ w X X' ω) (φ ψ : CfgFun (Option (Worm ℝ)) ℝ≥0∞) {m n : ℕ}
    (z : Lab m n) (t t1 : ℝ) (f0 f1 f2 f3 : ℕ) :
    ENNReal.ofReal a * (φ (ms z.1) (ms z.2) (some (wE t f0 f1)) *
        ENNReal.ofReal (w (ms z.1) (ms z.2) (some (wE t f0 f1))) * (connP nf cw * connUp nf cw a b w ψ z t t1 f0 f1 f2 f3)) =
      ENNReal.ofReal b * (ψ (ms z.1) (ms z.2) (some (wC t t1 f0 f1 f2 f3)) *
        ENNReal.ofReal (w (ms z.1) (ms z.2) (some (wC t t1 f0 f1 f2 f3))) *
          (ENNReal.ofReal (1 / 2) * connDn nf cw a b w φ z t t1 f0 f1 f2 f3)) := by
  have h := conn_arith hnf (sub_pos.2 hcw.lt) ha hb (h0 (ms z.1) (ms z.2) (some (wE t f0 f1)))
    (h0 (ms z.1) (ms z.2) (some (wC t t1 f0 f1 f2 f3)))
  unfold connUp connDn connP
  rw [accE_ms, accE_ms]
  generalize ENNReal.ofReal (min 1 (w (ms z.1) (ms z.2) (some (wC t t1 f0 f1 f2 f3)) /
    w (ms z.1) (ms z.2) (some (wE t f0 f1)) * (b / a * nf * nf * (cw.hi - cw.lo)))) = M at h ⊢
  generalize ENNReal.ofReal (min 1 (w (ms z.1) (ms z.2) (some (wE t f0 f1)) /
    w (ms z.1) (ms z.2) (some (wC t t1 f0 f1 f2 f3)) * (a / b / (nf * nf * (cw.hi - cw.lo))))) = M' at h ⊢
  generalize ENNReal.ofReal (1 / (cw.hi - cw.lo)) * (ENNReal.ofReal (1 / 2) *
    (ENNReal.ofReal (1 / (nf : ℝ)) * ENNReal.ofReal (1 / (nf : ℝ)))) = P at h ⊢
  generalize φ (ms z.1) (ms z.2) (some (wE t f0 f1)) = p at h ⊢
  generalize ψ (ms z.1) (ms z.2) (some (wC t t1 f0 f1 f2 f3)) = q at h ⊢
  rw [show ∀ A p x P M q : ℝ≥0∞, A * (p * x * (P * (M * q))) = p * q * (A * (x * (P * M))) from fun _ _ _ _ _ _ => by ring, h]
  ring

/-! ### Measurability -/

theorem meas_wE {α : Type} [MeasurableSpace α] {nf : ℕ} {f : CfgFun (Option (Worm ℝ)) α} (hf : f.WMeas nf) {γ : Type*}
    [MeasurableSpace γ] (f0 f1 : Fin nf) {m n : ℕ} {t : γ → ℝ} (ht : Measurable t) {z : γ → Lab m n} (hz : Measurable z) :
    Measurable fun q => f (ms (z q).1) (ms (z q).2) (some (wE (t q) f0 f1)) :=
  (hf.worm (.equalTime 1) ![f0, f1] m n).comp ((measurable_pi_iff.2 fun _ => ht).prodMk hz)

theorem meas_wC {α : Type} [MeasurableSpace α] {nf : ℕ} {f : CfgFun (Option (Worm ℝ)) α} (hf : f.WMeas nf) {γ : Type*}
    [MeasurableSpace γ] (f0 f1 f2 f3 : Fin nf) {m n : ℕ} {t t1 : γ → ℝ} (ht : Measurable t) (ht1 : Measurable t1)
    {z : γ → Lab m n} (hz : Measurable z) :
    Measurable fun q => f (ms (z q).1) (ms (z q).2) (some (wC (t q) (t1 q) f0 f1 f2 f3)) := by
  have h : Measurable fun q => (![t q, t1 q] : Fin 2 → ℝ) := by
    refine measurable_pi_iff.2 fun i => ?_
    fin_cases i
    · exact ht
    · exact ht1
  exact (hf.worm (.corr 2) ![f0, f1, f2, f3] m n).comp (h.prodMk hz)

theorem meas_connUp {nf : ℕ} (cw : CWin) (a b : ℝ) {w : CfgFun (Option (Worm ℝ)) ℝ} {ψ : CfgFun (Option (Worm ℝ)) ℝ≥0∞}
    (hw : w.WMeas nf) (hψ : ψ.WMeas nf) {γ : Type*} [MeasurableSpace γ] (f0 f1 f2 f3 : Fin nf) {m n : ℕ} {t t1 : γ → ℝ}
    (ht : Measurable t) (ht1 : Measurable t1) {z : γ → Lab m n} (hz : Measurable z) :
    Measurable fun q => connUp nf cw a b w ψ (z q) (t q) (t1 q) f0 f1 f2 f3 := by
  unfold connUp
  simp only [accE_ms]
  exact (ENNReal.measurable_ofReal.comp (measurable_const.min (((meas_wC hw f0 f1 f2 f3 ht ht1 hz).div
    (meas_wE hw f0 f1 ht hz)).mul_const _))).mul (meas_wC hψ f0 f1 f2 f3 ht ht1 hz)

theorem meas_connDn {nf : ℕ} (cw : CWin) (a b : ℝ) {w : CfgFun (Option (Worm ℝ)) ℝ} {ψ : CfgFun (Option (Worm ℝ)) ℝ≥0∞}
    (hw : w.WMeas nf) (hψ : ψ.WMeas nf) {γ : Type*} [MeasurableSpace γ] (f0 f1 f2 f3 : Fin nf) {m n : ℕ} {t t1 : γ → ℝ}
    (ht : Measurable t) (ht1 : Measurable t1) {z : γ → Lab m n} (hz : Measurable z) :
    Measurable fun q => connDn nf cw a b w ψ (z q) (t q) (t1 q) f0 f1 f2 f3 := by
  unfold connDn
  simp only [accE_ms]
  exact (ENNReal.measurable_ofReal.comp (measurable_const.min (((meas_wE hw f0 f1 ht hz).div
    (meas_wC hw f0 f1 f2 f3 ht ht1 hz)).mul_const _))).mul (meas_wE hψ f0 f1 ht hz)

theorem fin_eta2 {α : Type*} (f : Fin 2 → α) : f = ![f 0, f 1] := by
  funext i; fin_cases i <;> rfl

theorem fin_eta4 {α : Type*} (f : Fin 4 → α) : f = ![f 0, f 1, f 2, f 3] := by
  funext i; fin_cases i <;> rfl

theorem mkW_E {nf : ℕ} (ts : Fin 1 → ℝ) (fs : Fin 2 → Fin nf) : mkW (.equalTime 1) ts fs = wE (ts 0) (fs 0) (fs 1) := rfl

theorem mkW_C {nf : ℕ} (ts : Fin 2 → ℝ) (fs : Fin 4 → Fin nf) :
    mkW (.corr 2) ts fs = wC (ts 0) (ts 1) (fs 0) (fs 1) (fs 2) (fs 3) := rfl

theorem meas_conn_E {β : ℝ} {cw : CWin} (hcw : cw.OK β) {nf : ℕ} (a b : ℝ) {w : CfgFun (Option (Worm ℝ)) ℝ}
    {ψ : CfgFun (Option (Worm ℝ)) ℝ≥0∞} (hw : w.WMeas nf) (hψ : ψ.WMeas nf) (f0 f1 : Fin nf) (m n : ℕ) :
    Measurable fun y : (Fin 1 → ℝ) × Lab m n => connectE nf cw a b w ψ (y.2.cfg (some (wE (y.1 0) f0 f1))) := by
  have e : ∀ y : (Fin 1 → ℝ) × Lab m n, connectE nf cw a b w ψ (y.2.cfg (some (wE (y.1 0) f0 f1))) = connP nf cw *
      ∫⁻ t1 in Set.Icc cw.lo cw.hi, ∑ f2 : Fin nf, ∑ f3 : Fin nf, connUp nf cw a b w ψ y.2 (y.1 0) t1 f0 f1 f2 f3 := fun y =>
    connectE_wE hcw nf a b w ψ (y.1 0) f0 f1 y.2 fun f2 f3 =>
      meas_connUp cw a b hw hψ f0 f1 f2 f3 measurable_const measurable_id measurable_const
  simp only [e]
  refine Measurable.const_mul (Measurable.lintegral_prod_right' (f := fun q : ((Fin 1 → ℝ) × Lab m n) × ℝ =>
    ∑ f2 : Fin nf, ∑ f3 : Fin nf, connUp nf cw a b w ψ q.1.2 (q.1.1 0) q.2 f0 f1 f2 f3) ?_) _
  exact Finset.measurable_sum _ fun f2 _ => Finset.measurable_sum _ fun f3 _ =>
    meas_connUp cw a b hw hψ f0 f1 f2 f3 ((measurable_pi_apply 0).comp (measurable_fst.comp measurable_fst)) measurable_snd
      (measurable_snd.comp measurable_fst)

theorem meas_conn_C {nf : ℕ} (cw : CWin) (a b : ℝ) {w : CfgFun (Option (Worm ℝ)) ℝ}
    {ψ : CfgFun (Option (Worm ℝ)) ℝ≥0∞} (hw : w.WMeas nf) (hψ : ψ.WMeas nf) (f0 f1 f2 f3 : Fin nf) (m n : ℕ) :
    Measurable fun y : (Fin 2 → ℝ) × Lab m n => connectE nf cw a b w ψ (y.2.cfg (some (wC (y.1 0) (y.1 1) f0 f1 f2 f3))) := by
  simp only [connectE_wC]
  have h0 : Measurable fun y : (Fin 2 → ℝ) × Lab m n => y.1 0 := (measurable_pi_apply 0).comp measurable_fst
  have h1 : Measurable fun y : (Fin 2 → ℝ) × Lab m n => y.1 1 := (measurable_pi_apply 1).comp measurable_fst
  exact ((measurable_const.indicator measurableSet_Icc).comp h1).mul
    ((meas_connDn cw a b hw hψ f0 f1 f2 f3 h0 h1 measurable_snd).const_mul _)

theorem measurable_connectE {β : ℝ} {cw : CWin} (hcw : cw.OK β) {nf : ℕ} (a b : ℝ) {w : CfgFun (Option (Worm ℝ)) ℝ}
    {ψ : CfgFun (Option (Worm ℝ)) ℝ≥0∞} (hw : w.WMeas nf) (hψ : ψ.WMeas nf) (k : WormKind) (fs : Fin k.numFlavors → Fin nf)
    (m n : ℕ) :
    Measurable fun y : (Fin k.numTimes → ℝ) × Lab m n => connectE nf cw a b w ψ (y.2.cfg (some (mkW k y.1 fs))) := by
  by_cases h1 : k = .equalTime 1
  · subst h1
    exact meas_conn_E hcw a b hw hψ (fs (0 : Fin 2)) (fs (1 : Fin 2)) m n
  · by_cases h2 : k = .corr 2
    · subst h2
      exact meas_conn_C cw a b hw hψ (fs (0 : Fin 4)) (fs (1 : Fin 4)) (fs (2 : Fin 4)) (fs (3 : Fin 4)) m n
    · have : (fun y : (Fin k.numTimes → ℝ) × Lab m n => connectE nf cw a b w ψ (y.2.cfg (some (mkW k y.1 fs)))) = fun _ => 0 :=
        funext fun y => connectE_other nf cw a b w ψ _ (mkW k y.1 fs) rfl h1 h2
      rw [this]
      exact measurable_const

/-! ### Balance -/

theorem kindFlow_E {β : ℝ} {nf : ℕ} {φ : CfgFun (Option (Worm ℝ)) ℝ≥0∞} {w : CfgFun (Option (Worm ℝ)) ℝ} (hφ : φ.WMeas nf)
    (hw : w.WMeas nf) {K : WCfg ℝ → ℝ≥0∞}
    (hK : ∀ (fs : Fin (WormKind.equalTime 1).numFlavors → Fin nf) (m n : ℕ),
      Measurable fun y : (Fin (WormKind.equalTime 1).numTimes → ℝ) × Lab m n => K (y.2.cfg (some (mkW (.equalTime 1) y.1 fs)))) :
    kindFlow β nf φ w K (.equalTime 1) = ∑' p : ℕ × ℕ, ((p.1.factorial * p.2.factorial : ℕ) : ℝ≥0∞)⁻¹ *
      ∫⁻ z : Lab p.1 p.2, (∫⁻ t in Set.Icc 0 β, ∑ f0 : Fin nf, ∑ f1 : Fin nf, flowW φ w K z (wE t f0 f1))
        ∂(labMeasure β nf p.1 p.2) := by
  rw [kindFlow_prod hφ hw _ hK]
  refine tsum_congr fun p => ?_
  have hm : Measurable fun y : (Fin (WormKind.equalTime 1).numTimes → ℝ) × Lab p.1 p.2 =>
      ∑ fs : Fin (WormKind.equalTime 1).numFlavors → Fin nf, flowAt nf φ w K (.equalTime 1) fs y :=
    Finset.measurable_sum _ fun fs _ => measurable_flowAt hφ hw (hK fs p.1 p.2)
  rw [lintegral_prod_symm _ hm.aemeasurable]
  congr 1
  refine lintegral_congr fun z => ?_
  refine (lintegral_one_time β rfl (measurable_left hm z)).trans ?_
  refine lintegral_congr fun t => ?_
  exact sum_two _

theorem kindFlow_C {β : ℝ} {nf : ℕ} {φ : CfgFun (Option (Worm ℝ)) ℝ≥0∞} {w : CfgFun (Option (Worm ℝ)) ℝ} (hφ : φ.WMeas nf)
    (hw : w.WMeas nf) {K : WCfg ℝ → ℝ≥0∞}
    (hK : ∀ (fs : Fin (WormKind.corr 2).numFlavors → Fin nf) (m n : ℕ),
      Measurable fun y : (Fin (WormKind.corr 2).numTimes → ℝ) × Lab m n => K (y.2.cfg (some (mkW (.corr 2) y.1 fs)))) :
    kindFlow β nf φ w K (.corr 2) = ∑' p : ℕ × ℕ, ((p.1.factorial * p.2.factorial : ℕ) : ℝ≥0∞)⁻¹ *
      ∫⁻ z : Lab p.1 p.2, (∫⁻ t in Set.Icc 0 β, ∫⁻ t1 in Set.Icc 0 β, ∑ f0 : Fin nf, ∑ f1 : Fin nf, ∑ f2 : Fin nf, ∑ f3 : Fin nf,
        flowW φ w K z (wC t t1 f0 f1 f2 f3)) ∂(labMeasure β nf p.1 p.2) := by
  rw [kindFlow_prod hφ hw _ hK]
  refine tsum_congr fun p => ?_
  have hm : Measurable fun y : (Fin (WormKind.corr 2).numTimes → ℝ) × Lab p.1 p.2 =>
      ∑ fs : Fin (WormKind.corr 2).numFlavors → Fin nf, flowAt nf φ w K (.corr 2) fs y :=
    Finset.measurable_sum _ fun fs _ => measurable_flowAt hφ hw (hK fs p.1 p.2)
  rw [lintegral_prod_symm _ hm.aemeasurable]
  congr 1
  refine lintegral_congr fun z => ?_
  refine (lintegral_two_times β (measurable_left hm z)).trans ?_
  refine lintegral_congr fun t => lintegral_congr fun t1 => ?_
  exact sum_four _

/-- The common value of both flows at fixed operators. -/
noncomputable def connMid {m n : ℕ} (β : ℝ) (nf : ℕ) (cw : CWin) (a b : ℝ) (w : CfgFun (Option (Worm ℝ)) ℝ)
    (φ ψ : CfgFun (Option (Worm ℝ)) ℝ≥0∞) (z : Lab m n) : ℝ≥0∞ :=
  ∫⁻ t in Set.Icc 0 β, ∑ f0 : Fin nf, ∑ f1 : Fin nf, ∫⁻ t1 in Set.Icc cw.lo cw.hi, ∑ f2 : Fin nf, ∑ f3 : Fin nf,
    ENNReal.ofReal a * (φ (ms z.1) (ms z.2) (some (wE t f0 f1)) *
        ENNReal.ofReal (w (ms z.1) (ms z.2) (some (wE t f0 f1))) * (connP nf cw * connUp nf cw a b w ψ z t t1 f0 f1 f2 f3))

theorem conn_up {β : ℝ} {nf : ℕ} {cw : CWin} (hcw : cw.OK β) (a b : ℝ)
    {w : CfgFun (Option (Worm ℝ)) ℝ} (φ : CfgFun (Option (Worm ℝ)) ℝ≥0∞) {ψ : CfgFun (Option (Worm ℝ)) ℝ≥0∞}
    (hw : w.WMeas nf) (hψ : ψ.WMeas nf) {m n : ℕ} (z : Lab m n) :
    ∫⁻ t in Set.Icc 0 β, ENNReal.ofReal a * ∑ f0 : Fin nf, ∑ f1 : Fin nf, flowW φ w (connectE nf cw a b w ψ) z (wE t f0 f1) =
      connMid β nf cw a b w φ ψ z := by
  refine lintegral_congr fun t => ?_
  rw [Finset.mul_sum]
  refine Finset.sum_congr rfl fun f0 _ => ?_
  rw [Finset.mul_sum]
  refine Finset.sum_congr rfl fun f1 _ => ?_
  have hm : ∀ f2 f3 : Fin nf, Measurable fun t1 => connUp nf cw a b w ψ z t t1 f0 f1 f2 f3 := fun f2 f3 =>
    meas_connUp cw a b hw hψ f0 f1 f2 f3 measurable_const measurable_id measurable_const
  have hs : Measurable fun t1 => ∑ f2 : Fin nf, ∑ f3 : Fin nf, connUp nf cw a b w ψ z t t1 f0 f1 f2 f3 :=
    Finset.measurable_sum _ fun f2 _ => Finset.measurable_sum _ fun f3 _ => hm f2 f3
  unfold flowW
  rw [connectE_wE hcw nf a b w ψ t f0 f1 z hm, ← lintegral_const_mul _ hs, ← lintegral_const_mul _ (hs.const_mul _),
    ← lintegral_const_mul _ ((hs.const_mul _).const_mul _)]
  refine lintegral_congr fun t1 => ?_
  simp only [Finset.mul_sum]

theorem conn_dn {β : ℝ} {nf : ℕ} (hnf : 0 < nf) {cw : CWin} (hcw : cw.OK β) {a b : ℝ} (ha : 0 < a) (hb : 0 < b)
    {w : CfgFun (Option (Worm ℝ)) ℝ} (h0 : ∀ X X' ω, 0 ≤ w X X' ω) {φ ψ : CfgFun (Option (Worm ℝ)) ℝ≥0∞}
    (hw : w.WMeas nf) (hφ : φ.WMeas nf) (hψ : ψ.WMeas nf) {m n : ℕ} (z : Lab m n) :
    ∫⁻ t in Set.Icc 0 β, ∫⁻ t1 in Set.Icc 0 β, ENNReal.ofReal b * ∑ f0 : Fin nf, ∑ f1 : Fin nf, ∑ f2 : Fin nf, ∑ f3 : Fin nf,
        flowW ψ w (connectE nf cw a b w φ) z (wC t t1 f0 f1 f2 f3) =
      connMid β nf cw a b w φ ψ z := by
  refine lintegral_congr fun t => ?_
  have hm : ∀ f0 f1 f2 f3 : Fin nf, Measurable fun t1 => flowW ψ w (connectE nf cw a b w φ) z (wC t t1 f0 f1 f2 f3) := by
    intro f0 f1 f2 f3
    unfold flowW
    simp only [connectE_wC]
    have g1 := meas_wC hψ f0 f1 f2 f3 (γ := ℝ) (t := fun _ => t) (t1 := id) (z := fun _ => z) measurable_const measurable_id measurable_const
    have g2 := meas_wC hw f0 f1 f2 f3 (γ := ℝ) (t := fun _ => t) (t1 := id) (z := fun _ => z) measurable_const measurable_id measurable_const
    have g3 := meas_connDn cw a b hw hφ f0 f1 f2 f3 (γ := ℝ) (t := fun _ => t) (t1 := id) (z := fun _ => z) measurable_const measurable_id measurable_const
    exact (g1.mul (ENNReal.measurable_ofReal.comp g2)).mul
      ((measurable_const.indicator measurableSet_Icc).mul (g3.const_mul _))
  simp only [Finset.mul_sum]
  rw [lintegral_finsetSum _ fun f0 _ => Finset.measurable_sum _ fun f1 _ => Finset.measurable_sum _ fun f2 _ =>
    Finset.measurable_sum _ fun f3 _ => (hm f0 f1 f2 f3).const_mul _]
  refine Finset.sum_congr rfl fun f0 _ => ?_
  rw [lintegral_finsetSum _ fun f1 _ => Finset.measurable_sum _ fun f2 _ =>
    Finset.measurable_sum _ fun f3 _ => (hm f0 f1 f2 f3).const_mul _]
  refine Finset.sum_congr rfl fun f1 _ => ?_
  rw [← lintegral_win hcw]
  refine lintegral_congr fun t1 => ?_
  simp only [Finset.mul_sum]
  refine Finset.sum_congr rfl fun f2 _ => Finset.sum_congr rfl fun f3 _ => ?_
  rw [conn_flow hnf hcw ha hb h0]
  unfold flowW
  rw [connectE_wC]
  ring

theorem conn_balance {β : ℝ} {nf : ℕ} (hnf : 0 < nf) {cw : CWin} (hcw : cw.OK β) {a b : ℝ} (ha : 0 < a) (hb : 0 < b)
    {w : CfgFun (Option (Worm ℝ)) ℝ} (h0 : ∀ X X' ω, 0 ≤ w X X' ω) {φ ψ : CfgFun (Option (Worm ℝ)) ℝ≥0∞}
    (hw : w.WMeas nf) (hφ : φ.WMeas nf) (hψ : ψ.WMeas nf) :
    ENNReal.ofReal a * kindFlow β nf φ w (connectE nf cw a b w ψ) (.equalTime 1) =
      ENNReal.ofReal b * kindFlow β nf ψ w (connectE nf cw a b w φ) (.corr 2) := by
  rw [kindFlow_E hφ hw (measurable_connectE hcw a b hw hψ _), kindFlow_C hψ hw (measurable_connectE hcw a b hw hφ _),
    ← ENNReal.tsum_mul_left, ← ENNReal.tsum_mul_left]
  refine tsum_congr fun p => ?_
  rw [mul_left_comm, mul_left_comm (ENNReal.ofReal b)]
  congr 1
  rw [← lintegral_const_mul' _ _ ENNReal.ofReal_ne_top, ← lintegral_const_mul' _ _ ENNReal.ofReal_ne_top]
  refine lintegral_congr fun z => ?_
  rw [← lintegral_const_mul' _ _ ENNReal.ofReal_ne_top, conn_up hcw a b φ hw hψ z, ← conn_dn hnf hcw ha hb h0 hw hφ hψ z,
    ← lintegral_const_mul' _ _ ENNReal.ofReal_ne_top]
  refine lintegral_congr fun t => ?_
  rw [← lintegral_const_mul' _ _ ENNReal.ofReal_ne_top]

theorem connectE_le (nf : ℕ) (cw : CWin) (a b : ℝ) (w : CfgFun (Option (Worm ℝ)) ℝ) (x : WCfg ℝ) :
    connectE nf cw a b w (fun _ _ _ => 1) x ≤ 1 := by
  have hu : ∀ (F : ℕ → ℝ≥0∞), (∀ f, F f ≤ 1) → meanE (unif (List.range nf)) F ≤ 1 := fun F hF =>
    (SubProb.unif _).le fun p _ => hF p.2
  have hh : ∀ F : Bool → ℝ≥0∞, (∀ f, F f ≤ 1) → meanE (coin (1 / 2)) F ≤ 1 := fun F hF => by
    rw [meanE_half]
    calc _ ≤ ENNReal.ofReal (1 / 2) * 1 + ENNReal.ofReal (1 / 2) * 1 := by gcongr <;> apply hF
      _ = 1 := by rw [mul_one, ← ENNReal.ofReal_add (by norm_num) (by norm_num)]; norm_num
  unfold connectE
  split
  · refine (lintegral_mono fun v => (hh _ fun b => ?_ : _ ≤ (1 : ℝ≥0∞))).trans (by simp)
    split_ifs
    · exact hu _ fun _ => hu _ fun _ => accE_one_le _ _ _ _
    · exact zero_le
  · split_ifs
    · refine hh _ fun b => ?_
      split_ifs
      · exact accE_one_le _ _ _ _
      · exact zero_le
    · exact zero_le
  · exact zero_le

theorem wnice_connect {β : ℝ} {cw : CWin} (hcw : cw.OK β) {nf : ℕ} (a b : ℝ) {w : CfgFun (Option (Worm ℝ)) ℝ}
    {ψ : CfgFun (Option (Worm ℝ)) ℝ≥0∞} (hw : w.WMeas nf) (hψ : ψ.WMeas nf) : WNice nf (connectE nf cw a b w ψ) where
  none := nice_zero fun _ _ z => connectE_none nf cw a b w ψ z
  worm k' fs m n := ⟨_, measurable_connectE hcw a b hw hψ k' fs m n, fun _ _ _ => rfl⟩
  perm k ts fs m n z _ σ τ := by
    by_cases h1 : k = .equalTime 1
    · subst h1
      have hm : ∀ (z : Lab m n) (f2 f3 : Fin nf), Measurable fun t1 => connUp nf cw a b w ψ z (ts (0 : Fin 1)) t1
          (fs (0 : Fin 2)) (fs (1 : Fin 2)) f2 f3 := fun z f2 f3 =>
        meas_connUp cw a b hw hψ _ _ f2 f3 measurable_const measurable_id measurable_const
      refine (connectE_wE hcw nf a b w ψ (ts (0 : Fin 1)) (fs (0 : Fin 2)) (fs (1 : Fin 2)) (z.1 ∘ σ, z.2 ∘ τ) (hm _)).trans
        (Eq.trans ?_ (connectE_wE hcw nf a b w ψ (ts (0 : Fin 1)) (fs (0 : Fin 2)) (fs (1 : Fin 2)) z (hm _)).symm)
      unfold connUp
      simp only [accE_perm]
    · by_cases h2 : k = .corr 2
      · subst h2
        refine (connectE_wC nf cw a b w ψ (ts (0 : Fin 2)) (ts (1 : Fin 2)) (fs (0 : Fin 4)) (fs (1 : Fin 4)) (fs (2 : Fin 4))
          (fs (3 : Fin 4)) (z.1 ∘ σ, z.2 ∘ τ)).trans (Eq.trans ?_ (connectE_wC nf cw a b w ψ (ts (0 : Fin 2)) (ts (1 : Fin 2))
          (fs (0 : Fin 4)) (fs (1 : Fin 4)) (fs (2 : Fin 4)) (fs (3 : Fin 4)) z).symm)
        unfold connDn
        simp only [accE_perm]
      · rw [connectE_other nf cw a b w ψ (z.cfg (some (mkW k ts fs))) (mkW k ts fs) rfl h1 h2,
          connectE_other nf cw a b w ψ (Lab.cfg (z.1 ∘ σ, z.2 ∘ τ) (some (mkW k ts fs))) (mkW k ts fs) rfl h1 h2]

/-! ### Updates which lead from one worm space to another -/

theorem sum_pair {kinds : List WormKind} (hn : kinds.Nodup) {k l : WormKind} (hkl : k ≠ l) (hk : k ∈ kinds) (hl : l ∈ kinds)
    (G : WormKind → ℝ≥0∞) (h : ∀ k', k' ≠ k → k' ≠ l → G k' = 0) : (kinds.map G).sum = G k + G l := by
  classical
  rw [← List.sum_toFinset _ hn, ← Finset.sum_pair hkl]
  symm
  refine Finset.sum_subset ?_ fun k' _ hk' => ?_
  · intro k' hk'
    simp only [Finset.mem_insert, Finset.mem_singleton] at hk'
    rcases hk' with rfl | rfl
    · exact List.mem_toFinset.2 hk
    · exact List.mem_toFinset.2 hl
  · simp only [Finset.mem_insert, Finset.mem_singleton, not_or] at hk'
    exact h k' hk'.1 hk'.2

theorem kindFlow_zero {β : ℝ} {nf : ℕ} (φ : CfgFun (Option (Worm ℝ)) ℝ≥0∞) (w : CfgFun (Option (Worm ℝ)) ℝ) {K : WCfg ℝ → ℝ≥0∞}
    {k : WormKind} (h : ∀ ts fs m n (z : Lab m n), K (z.cfg (some (mkW k (nf := nf) ts fs))) = 0) : kindFlow β nf φ w K k = 0 := by
  unfold kindFlow allFlow orderFlow
  simp only [h, mul_zero, lintegral_zero, tsum_zero, Finset.sum_const_zero]

theorem allFlow_zero {β : ℝ} {nf : ℕ} (φ : CfgFun (Option (Worm ℝ)) ℝ≥0∞) (w : CfgFun (Option (Worm ℝ)) ℝ) {K : WCfg ℝ → ℝ≥0∞}
    {ω : Option (Worm ℝ)} (h : ∀ m n (z : Lab m n), K (z.cfg ω) = 0) : allFlow β nf ω φ w K = 0 := by
  unfold allFlow orderFlow
  simp only [h, mul_zero, lintegral_zero, tsum_zero]

theorem connect_reversible {β : ℝ} {nf : ℕ} (hnf : 0 < nf) {cw : CWin} (hcw : cw.OK β) {kinds : List WormKind} (hn : kinds.Nodup)
    (h1 : .equalTime 1 ∈ kinds) (h2 : .corr 2 ∈ kinds) {sw : WormKind → ℝ} (hsw : ∀ k ∈ kinds, 0 < sw k)
    {w : CfgFun (Option (Worm ℝ)) ℝ} (h0 : ∀ X X' ω, 0 ≤ w X X' ω) {φ ψ : CfgFun (Option (Worm ℝ)) ℝ≥0∞}
    (hw : w.WMeas nf) (hφ : φ.WMeas nf) (hψ : ψ.WMeas nf) :
    wFlow β nf kinds sw φ w (connectE nf cw (sw (.equalTime 1)) (sw (.corr 2)) w ψ) =
      wFlow β nf kinds sw ψ w (connectE nf cw (sw (.equalTime 1)) (sw (.corr 2)) w φ) := by
  have key : ∀ φ ψ : CfgFun (Option (Worm ℝ)) ℝ≥0∞,
      wFlow β nf kinds sw φ w (connectE nf cw (sw (.equalTime 1)) (sw (.corr 2)) w ψ) =
      ENNReal.ofReal (sw (.equalTime 1)) * kindFlow β nf φ w (connectE nf cw (sw (.equalTime 1)) (sw (.corr 2)) w ψ) (.equalTime 1) +
      ENNReal.ofReal (sw (.corr 2)) * kindFlow β nf φ w (connectE nf cw (sw (.equalTime 1)) (sw (.corr 2)) w ψ) (.corr 2) := by
    intro φ ψ
    unfold wFlow
    rw [allFlow_zero φ w fun m n z => connectE_none nf cw _ _ w ψ z, zero_add]
    refine sum_pair hn (by simp) h1 h2 _ fun k' hk1 hk2 => ?_
    rw [kindFlow_zero φ w fun ts fs m n z => connectE_other nf cw _ _ w ψ _ (mkW k' ts fs) rfl hk1 hk2, mul_zero]
  rw [key, key, conn_balance hnf hcw (hsw _ h1) (hsw _ h2) h0 hw hφ hψ, ← conn_balance hnf hcw (hsw _ h1) (hsw _ h2) h0 hw hψ hφ,
    add_comm]

theorem wFlow_add' {β : ℝ} {nf : ℕ} (kinds : List WormKind) (sw : WormKind → ℝ) {w : CfgFun (Option (Worm ℝ)) ℝ}
    {φ : CfgFun (Option (Worm ℝ)) ℝ≥0∞} (hw : w.WMeas nf) (hφ : φ.WMeas nf) (K L : WCfg ℝ → ℝ≥0∞)
    (hKn : ∀ m n, AEMeasurable (fun z : Lab m n => K (z.cfg none)) (labMeasure β nf m n))
    (hK : ∀ (k : WormKind) (fs : Fin k.numFlavors → Fin nf) (m n : ℕ),
      Measurable fun y : (Fin k.numTimes → ℝ) × Lab m n => K (y.2.cfg (some (mkW k y.1 fs)))) :
    wFlow β nf kinds sw φ w (fun x => K x + L x) = wFlow β nf kinds sw φ w K + wFlow β nf kinds sw φ w L := by
  unfold wFlow
  rw [allFlow_add β nf none φ w hφ.none hw.none _ _ hKn]
  have : (fun k => ENNReal.ofReal (sw k) * kindFlow β nf φ w (fun x => K x + L x) k) = fun k =>
      ENNReal.ofReal (sw k) * kindFlow β nf φ w K k + ENNReal.ofReal (sw k) * kindFlow β nf φ w L k := by
    funext k
    rw [kindFlow_add k hw hφ K L (hK k), mul_add]
  rw [this, List.sum_map_add]
  abel

/-- A reversible update with rejections leaves the distribution invariant. -/
theorem hold_wFlow {β : ℝ} {nf : ℕ} (kinds : List WormKind) (sw : WormKind → ℝ) {w : CfgFun (Option (Worm ℝ)) ℝ} (hw : w.WMeas nf)
    (K : CfgFun (Option (Worm ℝ)) ℝ≥0∞ → WCfg ℝ → ℝ≥0∞)
    (hrev : ∀ φ ψ : CfgFun (Option (Worm ℝ)) ℝ≥0∞, φ.WMeas nf → ψ.WMeas nf →
      wFlow β nf kinds sw φ w (K ψ) = wFlow β nf kinds sw ψ w (K φ))
    (hKn : ∀ ψ : CfgFun (Option (Worm ℝ)) ℝ≥0∞, ψ.WMeas nf → ∀ m n,
      AEMeasurable (fun z : Lab m n => K ψ (z.cfg none)) (labMeasure β nf m n))
    (hK : ∀ ψ : CfgFun (Option (Worm ℝ)) ℝ≥0∞, ψ.WMeas nf → ∀ (k : WormKind) (fs : Fin k.numFlavors → Fin nf) (m n : ℕ),
      Measurable fun y : (Fin k.numTimes → ℝ) × Lab m n => K ψ (y.2.cfg (some (mkW k y.1 fs))))
    (hle : ∀ x, K (fun _ _ _ => 1) x ≤ 1) (ψ : CfgFun (Option (Worm ℝ)) ℝ≥0∞) (hψ : ψ.WMeas nf) :
    wFlow β nf kinds sw (fun _ _ _ => 1) w (fun x => K ψ x + (1 - K (fun _ _ _ => 1) x) * ψ.at x) =
      wFlow β nf kinds sw (fun _ _ _ => 1) w ψ.at := by
  have h1 := wmeas_one nf
  rw [wFlow_add' kinds sw hw h1 _ _ (hKn ψ hψ) (hK ψ hψ), hrev _ ψ h1 hψ,
    wFlow_congr β nf kinds sw _ ψ w (fun x => (1 - K (fun _ _ _ => 1) x) * ψ.at x) (fun x => 1 - K (fun _ _ _ => 1) x),
    ← wFlow_add' kinds sw hw hψ _ _ (hKn _ h1) (hK _ h1)]
  · refine wFlow_congr β nf kinds sw _ _ w _ _ fun x => ?_
    beta_reduce
    rw [add_tsub_cancel_of_le (hle _), mul_one]
    show ψ.at x = 1 * ψ.at x
    rw [one_mul]
  · intro x
    show 1 * (_ * ψ.at x) = ψ.at x * _
    rw [one_mul, mul_comm]

end CTHyb
