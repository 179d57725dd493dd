import Verif.ContSweepConn
import Mathlib.MeasureTheory.Measure.Haar.Unique

/-!
Lemmas for `Verif.ContSweepProps`: updates of all operators at once.
-/

namespace CTHyb

open Rand MeasureTheory ENNReal

/-! ### The time shift keeps the measure -/

/-- Lebesgue measure on `[0, β]`. -/
noncomputable def tMeas (β : ℝ) : Measure ℝ := volume.restrict (Set.Icc 0 β)

instance (β : ℝ) : SigmaFinite (tMeas β) := by unfold tMeas; infer_instance

theorem measurable_timeShift (β : ℝ) : Measurable fun q : ℝ × ℝ => timeShift β q.1 q.2 := by
  unfold timeShift
  refine Measurable.ite ?_ ((measurable_snd.add measurable_fst).sub_const _) (measurable_snd.add measurable_fst)
  exact measurableSet_lt measurable_const (measurable_snd.add measurable_fst)

theorem timeShift_mp {β s : ℝ} (h0 : 0 ≤ s) (h1 : s ≤ β) : MeasurePreserving (timeShift β s) (tMeas β) (tMeas β) := by
  have hm : Measurable (timeShift β s) := (measurable_timeShift β).comp (measurable_const.prodMk measurable_id)
  refine ⟨hm, Measure.ext_of_lintegral _ fun F hF => ?_⟩
  rw [lintegral_map hF hm]
  unfold tMeas
  have hs : Set.Icc (0 : ℝ) β = Set.Icc 0 (β - s) ∪ Set.Ioc (β - s) β :=
    (Set.Icc_union_Ioc_eq_Icc (by linarith) (by linarith)).symm
  have hs' : Set.Icc (0 : ℝ) β = Set.Icc 0 s ∪ Set.Ioc s β := (Set.Icc_union_Ioc_eq_Icc h0 h1).symm
  have hd : ∀ a b c : ℝ, Disjoint (Set.Icc a b) (Set.Ioc b c) := fun a b c =>
    Set.disjoint_left.2 fun x hx hx' => absurd hx'.1 (not_lt.2 hx.2)
  have tr : ∀ (A : Set ℝ) (c : ℝ), MeasurableSet A → ∫⁻ t in (fun t => t + c) ⁻¹' A, F (t + c) = ∫⁻ t in A, F t := by
    intro A c hA
    exact (measurePreserving_add_right volume c).setLIntegral_comp_preimage hA hF
  have e1 : ∫⁻ t in Set.Icc 0 (β - s), F (timeShift β s t) = ∫⁻ t in Set.Icc s β, F t := by
    rw [← tr _ s measurableSet_Icc]
    have : (fun t => t + s) ⁻¹' Set.Icc s β = Set.Icc 0 (β - s) := by
      ext t; simp only [Set.mem_preimage, Set.mem_Icc]; constructor <;> rintro ⟨a, b⟩ <;> constructor <;> linarith
    rw [this]
    refine setLIntegral_congr_fun measurableSet_Icc fun t ht => ?_
    show F (timeShift β s t) = F (t + s)
    rw [timeShift, if_neg (by have := ht.2; linarith)]
  have e2 : ∫⁻ t in Set.Ioc (β - s) β, F (timeShift β s t) = ∫⁻ t in Set.Ioc 0 s, F t := by
    rw [← tr _ (s - β) measurableSet_Ioc]
    have : (fun t => t + (s - β)) ⁻¹' Set.Ioc 0 s = Set.Ioc (β - s) β := by
      ext t; simp only [Set.mem_preimage, Set.mem_Ioc]; constructor <;> rintro ⟨a, b⟩ <;> constructor <;> linarith
    rw [this]
    refine setLIntegral_congr_fun measurableSet_Ioc fun t ht => ?_
    show F (timeShift β s t) = F (t + (s - β))
    rw [timeShift, if_pos (by have := ht.1; linarith), add_sub_assoc]
  conv_lhs => rw [hs, lintegral_union measurableSet_Ioc (hd _ _ _), e1, e2]
  conv_rhs => rw [hs', lintegral_union measurableSet_Ioc (hd _ _ _)]
  rw [add_comm, setLIntegral_congr Ioc_ae_eq_Icc, setLIntegral_congr (Ioc_ae_eq_Icc (a := s)).symm]

theorem timeShift_inv {β s t : ℝ} (h0 : 0 ≤ s) (h1 : s ≤ β) (ht : 0 < t) (ht1 : t ≤ β) :
    timeShift β (β - s) (timeShift β s t) = t := by
  unfold timeShift
  by_cases h : β < t + s
  · rw [if_pos h]
    rw [if_neg (by linarith)]
    ring
  · rw [if_neg h, if_pos (by linarith)]
    ring

theorem timeShift_inv_ae {β s : ℝ} (h0 : 0 ≤ s) (h1 : s ≤ β) : ∀ᵐ t ∂tMeas β, timeShift β (β - s) (timeShift β s t) = t := by
  unfold tMeas
  have : volume.restrict (Set.Icc (0 : ℝ) β) = volume.restrict (Set.Ioc 0 β) := Measure.restrict_congr_set Ioc_ae_eq_Icc.symm
  rw [this]
  refine (ae_restrict_iff' measurableSet_Ioc).2 (Filter.Eventually.of_forall fun t ht => timeShift_inv h0 h1 ht.1 ht.2)

/-! ### The exchange of flavors keeps the measure -/

theorem flavor_mp {nf : ℕ} {p : ℕ → ℕ} (hp : ∀ f, f < nf → p f < nf ∧ p (p f) = f) :
    MeasurePreserving p ((Measure.count : Measure ℕ).restrict (Set.Iio nf)) ((Measure.count : Measure ℕ).restrict (Set.Iio nf)) := by
  refine ⟨measurable_from_nat, Measure.ext fun S hS => ?_⟩
  rw [Measure.map_apply measurable_from_nat hS, Measure.restrict_apply (measurable_from_nat hS), Measure.restrict_apply hS,
    Measure.count_apply (by measurability), Measure.count_apply (by measurability)]
  have : p ⁻¹' S ∩ Set.Iio nf = p '' (S ∩ Set.Iio nf) := by
    ext f
    constructor
    · rintro ⟨h1, h2⟩
      exact ⟨p f, ⟨h1, (hp f h2).1⟩, (hp f h2).2⟩
    · rintro ⟨g, ⟨h1, h2⟩, rfl⟩
      refine ⟨?_, (hp g h2).1⟩
      show p (p g) ∈ S
      rw [(hp g h2).2]
      exact h1
  rw [this, Set.InjOn.encard_image]
  intro f hf g hg h
  have := congrArg p h
  rwa [(hp f hf.2).2, (hp g hg.2).2] at this

/-! ### Balance of a family of transformations -/

theorem glob_bal {Y V I : Type} [MeasurableSpace Y] [MeasurableSpace V] [Fintype I] {μ : Measure Y} [SigmaFinite μ] {ν : Measure V}
    [SigmaFinite ν] {P : I → I} (hP : ∀ i, P (P i) = i) {T : V → Y → Y} {τ : V → V} (hτ : MeasurePreserving τ ν ν)
    (hT : Measurable (Function.uncurry T)) (hmp : ∀ᵐ v ∂ν, MeasurePreserving (T v) μ μ)
    (hinv : ∀ᵐ v ∂ν, ∀ᵐ y ∂μ, T (τ v) (T v y) = y) {W : I → Y → ℝ} (hW : ∀ i, Measurable (W i)) (h0 : ∀ i y, 0 ≤ W i y)
    {Φ Ψ : I → Y → ℝ≥0∞} (hΦ : ∀ i, Measurable (Φ i)) (hΨ : ∀ i, Measurable (Ψ i)) :
    ∑ i, ∫⁻ y, Φ i y * ENNReal.ofReal (W i y) *
        (∫⁻ v, ENNReal.ofReal (min 1 (W (P i) (T v y) / W i y)) * Ψ (P i) (T v y) ∂ν) ∂μ =
      ∑ i, ∫⁻ y, Ψ i y * ENNReal.ofReal (W i y) *
        (∫⁻ v, ENNReal.ofReal (min 1 (W (P i) (T v y) / W i y)) * Φ (P i) (T v y) ∂ν) ∂μ := by
  have hTs : Measurable fun q : V × Y => T q.1 q.2 := hT
  have hmeas : ∀ (A B : I → Y → ℝ≥0∞), (∀ i, Measurable (A i)) → (∀ i, Measurable (B i)) → ∀ i j, Measurable fun q : V × Y =>
      A i q.2 * B j (T q.1 q.2) * ENNReal.ofReal (min (W i q.2) (W j (T q.1 q.2))) := fun A B hA hB i j =>
    (((hA i).comp measurable_snd).mul ((hB j).comp hTs)).mul
      (ENNReal.measurable_ofReal.comp (((hW i).comp measurable_snd).min ((hW j).comp hTs)))
  have step : ∀ (A B : I → Y → ℝ≥0∞), (∀ i, Measurable (A i)) → (∀ i, Measurable (B i)) → ∀ i,
      ∫⁻ y, A i y * ENNReal.ofReal (W i y) *
        (∫⁻ v, ENNReal.ofReal (min 1 (W (P i) (T v y) / W i y)) * B (P i) (T v y) ∂ν) ∂μ =
      ∫⁻ q, A i q.2 * B (P i) (T q.1 q.2) * ENNReal.ofReal (min (W i q.2) (W (P i) (T q.1 q.2))) ∂(ν.prod μ) := by
    intro A B hA hB i
    rw [lintegral_prod_symm _ (hmeas A B hA hB i (P i)).aemeasurable]
    refine lintegral_congr fun y => ?_
    have hv : Measurable fun v => T v y := hTs.comp (measurable_id.prodMk measurable_const)
    have hmv : Measurable fun v => ENNReal.ofReal (min 1 (W (P i) (T v y) / W i y)) * B (P i) (T v y) :=
      (ENNReal.measurable_ofReal.comp (measurable_const.min (((hW (P i)).comp hv).div_const _))).mul ((hB (P i)).comp hv)
    rw [← lintegral_const_mul _ hmv]
    refine lintegral_congr fun v => ?_
    rw [← metropolis_min (h0 i y) (h0 (P i) (T v y))]
    ring
  have hS : MeasurePreserving (fun q : V × Y => (τ q.1, T q.1 q.2)) (ν.prod μ) (ν.prod μ) :=
    hτ.skew_product hT (hmp.mono fun v hv => hv.map_eq)
  rw [Finset.sum_congr rfl fun i _ => step Φ Ψ hΦ hΨ i, Finset.sum_congr rfl fun i _ => step Ψ Φ hΨ hΦ i]
  let e : I ≃ I := ⟨P, P, hP, hP⟩
  rw [← e.sum_comp fun i => ∫⁻ q, Ψ i q.2 * Φ (P i) (T q.1 q.2) * ENNReal.ofReal (min (W i q.2) (W (P i) (T q.1 q.2))) ∂(ν.prod μ)]
  refine Finset.sum_congr rfl fun i _ => ?_
  show _ = ∫⁻ q, Ψ (P i) q.2 * Φ (P (P i)) (T q.1 q.2) * ENNReal.ofReal (min (W (P i) q.2) (W (P (P i)) (T q.1 q.2))) ∂(ν.prod μ)
  rw [hP i]
  have hm2 := hmeas Ψ Φ hΨ hΦ (P i) i
  rw [← hS.lintegral_comp hm2, lintegral_prod _ (hmeas Φ Ψ hΦ hΨ i (P i)).aemeasurable]
  refine Eq.trans ?_ (lintegral_prod _ (hm2.comp hS.measurable).aemeasurable).symm
  refine lintegral_congr_ae (hinv.mono fun v hv => lintegral_congr_ae (hv.mono fun y hy => ?_))
  simp only [Function.comp_apply, hy]
  rw [min_comm, mul_comm (Φ i y)]

/-! ### Time shift and exchange of flavors at the same time -/

/-- New time and flavor of an operator. -/
def gop (A : ℝ → ℝ) (p : ℕ → ℕ) (o : BOp ℝ) : BOp ℝ := (A o.1, p o.2)

/-- New times and flavors of a worm. -/
def gworm (A : ℝ → ℝ) (p : ℕ → ℕ) (u : Worm ℝ) : Worm ℝ := ⟨u.kind, u.times.map A, u.flavors.map p⟩

/-- The update with a random transformation. -/
noncomputable def famE {V : Type} [MeasurableSpace V] (ν : Measure V) (A : V → ℝ → ℝ) (p : ℕ → ℕ) (w : CfgFun (Option (Worm ℝ)) ℝ)
    (ψ : CfgFun (Option (Worm ℝ)) ℝ≥0∞) (x : WCfg ℝ) : ℝ≥0∞ :=
  ∫⁻ v, globalE (gop (A v) p) (gworm (A v) p) w ψ x ∂ν

theorem swapE_fam (p : ℕ → ℕ) (w : CfgFun (Option (Worm ℝ)) ℝ) (ψ : CfgFun (Option (Worm ℝ)) ℝ≥0∞) :
    swapE p w ψ = famE (Measure.dirac ()) (fun _ t => t) p w ψ := by
  funext x
  unfold swapE famE
  rw [lintegral_dirac]
  congr 1
  funext u
  simp [wormExchangeFlavor, gworm]

theorem globalShiftE_fam (β : ℝ) (w : CfgFun (Option (Worm ℝ)) ℝ) (ψ : CfgFun (Option (Worm ℝ)) ℝ≥0∞) :
    globalShiftE β w ψ = famE (volume.restrict (Set.Ico (0 : ℝ) 1)) (fun v t => timeShift β (v * β) t) (fun f => f) w ψ := by
  funext x
  unfold globalShiftE famE
  refine lintegral_congr fun v => ?_
  congr 1
  funext u
  simp [shiftWorm, gworm]

/-- The family contains the inverse of each transformation. -/
structure FamOK (β : ℝ) (nf : ℕ) {V : Type} [MeasurableSpace V] (ν : Measure V) (A : V → ℝ → ℝ) (p : ℕ → ℕ) (τ : V → V) : Prop where
  tau : MeasurePreserving τ ν ν
  meas : Measurable fun q : V × ℝ => A q.1 q.2
  mp : ∀ᵐ v ∂ν, MeasurePreserving (A v) (tMeas β) (tMeas β)
  inv : ∀ᵐ v ∂ν, ∀ᵐ t ∂tMeas β, A (τ v) (A v t) = t
  flav : ∀ f, f < nf → p f < nf ∧ p (p f) = f

theorem famOK_swap (β : ℝ) {nf : ℕ} {p : ℕ → ℕ} (hp : ∀ f, f < nf → p f < nf ∧ p (p f) = f) :
    FamOK β nf (Measure.dirac ()) (fun _ t => t) p fun v => v where
  tau := MeasurePreserving.id _
  meas := measurable_snd
  mp := Filter.Eventually.of_forall fun _ => MeasurePreserving.id _
  inv := Filter.Eventually.of_forall fun _ => Filter.Eventually.of_forall fun _ => rfl
  flav := hp

theorem famOK_shift {β : ℝ} (hβ : 0 < β) (nf : ℕ) :
    FamOK β nf (volume.restrict (Set.Ico (0 : ℝ) 1)) (fun v t => timeShift β (v * β) t) (fun f => f) fun v => 1 - v where
  tau := by
    have h1 : volume.restrict (Set.Ico (0 : ℝ) 1) = volume.restrict (Set.Icc 0 1) := Measure.restrict_congr_set Ico_ae_eq_Icc
    rw [h1]
    have := (Measure.measurePreserving_sub_left (volume : Measure ℝ) 1).restrict_preimage (s := Set.Icc (0 : ℝ) 1) measurableSet_Icc
    have hs : (fun v : ℝ => 1 - v) ⁻¹' Set.Icc 0 1 = Set.Icc 0 1 := by
      ext v; simp only [Set.mem_preimage, Set.mem_Icc]; constructor <;> rintro ⟨a, b⟩ <;> constructor <;> linarith
    rwa [hs] at this
  meas := (measurable_timeShift β).comp ((measurable_fst.mul_const β).prodMk measurable_snd)
  mp := (ae_restrict_iff' measurableSet_Ico).2 (Filter.Eventually.of_forall fun v hv =>
    timeShift_mp (mul_nonneg hv.1 hβ.le) (by nlinarith [hv.2]))
  inv := (ae_restrict_iff' measurableSet_Ico).2 (Filter.Eventually.of_forall fun v hv => by
    have e : (1 - v) * β = β - v * β := by ring
    rw [e]
    exact timeShift_inv_ae (mul_nonneg hv.1 hβ.le) (by nlinarith [hv.2]))
  flav f hf := ⟨hf, rfl⟩

variable {β : ℝ} {nf : ℕ} {V : Type} [MeasurableSpace V] {ν : Measure V} {A : V → ℝ → ℝ} {p : ℕ → ℕ} {τ : V → V}

/-- Transformation of all labels. -/
def gLab (A : ℝ → ℝ) (p : ℕ → ℕ) {m n : ℕ} (z : Lab m n) : Lab m n := (fun i => gop A p (z.1 i), fun i => gop A p (z.2 i))

/-- Transformation of labels and times. -/
def gAll (A : ℝ → ℝ) (p : ℕ → ℕ) {l m n : ℕ} (y : (Fin l → ℝ) × Lab m n) : (Fin l → ℝ) × Lab m n :=
  (fun i => A (y.1 i), gLab A p y.2)

theorem meas_gop (h : FamOK β nf ν A p τ) : Measurable fun q : V × BOp ℝ => gop (A q.1) p q.2 :=
  (h.meas.comp (measurable_fst.prodMk (measurable_fst.comp measurable_snd))).prodMk
    (measurable_from_nat.comp (measurable_snd.comp measurable_snd))

theorem meas_gLab (h : FamOK β nf ν A p τ) (m n : ℕ) : Measurable (Function.uncurry fun v (z : Lab m n) => gLab (A v) p z) := by
  refine Measurable.prodMk (measurable_pi_iff.2 fun i => ?_) (measurable_pi_iff.2 fun i => ?_)
  · exact (meas_gop h).comp (measurable_fst.prodMk ((measurable_pi_apply i).comp (measurable_fst.comp measurable_snd)))
  · exact (meas_gop h).comp (measurable_fst.prodMk ((measurable_pi_apply i).comp (measurable_snd.comp measurable_snd)))

theorem meas_gAll (h : FamOK β nf ν A p τ) (l m n : ℕ) :
    Measurable (Function.uncurry fun v (y : (Fin l → ℝ) × Lab m n) => gAll (A v) p y) := by
  refine Measurable.prodMk (measurable_pi_iff.2 fun i => ?_) ?_
  · exact h.meas.comp (measurable_fst.prodMk ((measurable_pi_apply i).comp (measurable_fst.comp measurable_snd)))
  · exact (meas_gLab h m n).comp (measurable_fst.prodMk (measurable_snd.comp measurable_snd))

theorem mp_gLab (h : FamOK β nf ν A p τ) (m n : ℕ) :
    ∀ᵐ v ∂ν, MeasurePreserving (fun z : Lab m n => gLab (A v) p z) (labMeasure β nf m n) (labMeasure β nf m n) := by
  refine h.mp.mono fun v hv => ?_
  have ho : MeasurePreserving (gop (A v) p) (opMeasure β nf) (opMeasure β nf) := hv.prod (flavor_mp h.flav)
  exact (measurePreserving_pi _ _ fun _ => ho).prod (measurePreserving_pi _ _ fun _ => ho)

theorem mp_gAll (h : FamOK β nf ν A p τ) (l m n : ℕ) :
    ∀ᵐ v ∂ν, MeasurePreserving (fun y : (Fin l → ℝ) × Lab m n => gAll (A v) p y) ((wTimes β l).prod (labMeasure β nf m n))
      ((wTimes β l).prod (labMeasure β nf m n)) := by
  refine ((mp_gLab h m n).and h.mp).mono fun v hv => ?_
  exact (measurePreserving_pi (fun _ : Fin l => tMeas β) (fun _ => tMeas β) fun _ => hv.2).prod hv.1

theorem inv_gLab (h : FamOK β nf ν A p τ) (m n : ℕ) :
    ∀ᵐ v ∂ν, ∀ᵐ z ∂labMeasure β nf m n, gLab (A (τ v)) p (gLab (A v) p z) = z := by
  refine h.inv.mono fun v hv => ?_
  have ho : ∀ᵐ o ∂opMeasure β nf, gop (A (τ v)) p (gop (A v) p o) = o := by
    have h1 : ∀ᵐ o ∂opMeasure β nf, A (τ v) (A v o.1) = o.1 := Measure.quasiMeasurePreserving_fst.ae hv
    have h2 : ∀ᵐ o ∂opMeasure β nf, o.2 < nf := by
      have h : ∀ᵐ f ∂((Measure.count : Measure ℕ).restrict (Set.Iio nf)), f < nf := ae_restrict_mem measurableSet_Iio
      exact Measure.quasiMeasurePreserving_snd.ae h
    filter_upwards [h1, h2] with o e1 e2
    exact Prod.ext e1 (h.flav _ e2).2
  have hp : ∀ l, ∀ᵐ y ∂opsMeasure β nf l, ∀ i, gop (A (τ v)) p (gop (A v) p (y i)) = y i := fun l => by
    rw [ae_all_iff]
    exact fun i => (Measure.quasiMeasurePreserving_eval (fun _ : Fin l => opMeasure β nf) i).ae ho
  have a : ∀ᵐ z ∂labMeasure β nf m n, ∀ i, gop (A (τ v)) p (gop (A v) p (z.1 i)) = z.1 i :=
    Measure.quasiMeasurePreserving_fst.ae (hp m)
  have b : ∀ᵐ z ∂labMeasure β nf m n, ∀ i, gop (A (τ v)) p (gop (A v) p (z.2 i)) = z.2 i :=
    Measure.quasiMeasurePreserving_snd.ae (hp n)
  filter_upwards [a, b] with z ea eb
  exact Prod.ext (funext ea) (funext eb)

theorem inv_gAll (h : FamOK β nf ν A p τ) (l m n : ℕ) :
    ∀ᵐ v ∂ν, ∀ᵐ y ∂(wTimes β l).prod (labMeasure β nf m n), gAll (A (τ v)) p (gAll (A v) p y) = y := by
  refine ((inv_gLab h m n).and h.inv).mono fun v hv => ?_
  have ht : ∀ᵐ ts ∂wTimes β l, ∀ i, A (τ v) (A v (ts i)) = ts i := by
    rw [ae_all_iff]
    exact fun i => (Measure.quasiMeasurePreserving_eval (fun _ : Fin l => tMeas β) i).ae hv.2
  have a : ∀ᵐ y ∂(wTimes β l).prod (labMeasure β nf m n), ∀ i, A (τ v) (A v (y.1 i)) = y.1 i :=
    Measure.quasiMeasurePreserving_fst.ae ht
  have b : ∀ᵐ y ∂(wTimes β l).prod (labMeasure β nf m n), gLab (A (τ v)) p (gLab (A v) p y.2) = y.2 :=
    Measure.quasiMeasurePreserving_snd.ae hv.1
  filter_upwards [a, b] with z ea eb
  exact Prod.ext (funext ea) eb

/-! ### The update at labelled operators -/

theorem ofFn_gop (B : ℝ → ℝ) (p : ℕ → ℕ) {n : ℕ} (y : Fin n → BOp ℝ) :
    (List.ofFn y).map (gop B p) = List.ofFn fun i => gop B p (y i) := by
  rw [List.map_ofFn]; rfl

theorem globalE_lab (B : ℝ → ℝ) (p : ℕ → ℕ) (w : CfgFun (Option (Worm ℝ)) ℝ) (ψ : CfgFun (Option (Worm ℝ)) ℝ≥0∞) {m n : ℕ}
    (z : Lab m n) (ω : Option (Worm ℝ)) : globalE (gop B p) (gworm B p) w ψ (z.cfg ω) = if m = 0 then 0 else
      ENNReal.ofReal (min 1 (w (ms (gLab B p z).1) (ms (gLab B p z).2) (ω.map (gworm B p)) / w (ms z.1) (ms z.2) ω)) *
        ψ (ms (gLab B p z).1) (ms (gLab B p z).2) (ω.map (gworm B p)) := by
  unfold globalE
  have h1 : (z.cfg ω).cd.length = m := List.length_ofFn
  have h2 : (⟨(z.cfg ω).cd.map (gop B p), (z.cfg ω).c.map (gop B p), (z.cfg ω).worm.map (gworm B p)⟩ : WCfg ℝ) =
      (gLab B p z).cfg (ω.map (gworm B p)) := by
    show (⟨(List.ofFn z.1).map (gop B p), (List.ofFn z.2).map (gop B p), ω.map (gworm B p)⟩ : WCfg ℝ) = _
    rw [ofFn_gop, ofFn_gop]
    rfl
  rw [h1, h2]
  rfl

/-- The flavors of the new worm. -/
def pFin {nf : ℕ} {p : ℕ → ℕ} (hp : ∀ f, f < nf → p f < nf ∧ p (p f) = f) {l : ℕ} (fs : Fin l → Fin nf) : Fin l → Fin nf :=
  fun i => ⟨p (fs i), (hp _ (fs i).2).1⟩

theorem pFin_inv {nf : ℕ} {p : ℕ → ℕ} (hp : ∀ f, f < nf → p f < nf ∧ p (p f) = f) {l : ℕ} (fs : Fin l → Fin nf) :
    pFin hp (pFin hp fs) = fs :=
  funext fun i => Fin.ext (hp _ (fs i).2).2

theorem gworm_mkW (B : ℝ → ℝ) {nf : ℕ} {p : ℕ → ℕ} (hp : ∀ f, f < nf → p f < nf ∧ p (p f) = f) (k : WormKind)
    (ts : Fin k.numTimes → ℝ) (fs : Fin k.numFlavors → Fin nf) :
    gworm B p (mkW k ts fs) = mkW k (fun i => B (ts i)) (pFin hp fs) := by
  unfold gworm mkW flavList pFin
  simp only [List.map_ofFn]
  rfl

theorem famE_none (ν : Measure V) (A : V → ℝ → ℝ) (p : ℕ → ℕ) (w : CfgFun (Option (Worm ℝ)) ℝ) (ψ : CfgFun (Option (Worm ℝ)) ℝ≥0∞) {m n : ℕ}
    (hm : m ≠ 0) (z : Lab m n) : famE ν A p w ψ (z.cfg none) =
      ∫⁻ v, ENNReal.ofReal (min 1 (w (ms (gLab (A v) p z).1) (ms (gLab (A v) p z).2) none / w (ms z.1) (ms z.2) none)) *
        ψ (ms (gLab (A v) p z).1) (ms (gLab (A v) p z).2) none ∂ν := by
  unfold famE
  refine lintegral_congr fun v => ?_
  rw [globalE_lab, if_neg hm]
  rfl

theorem famE_zero (ν : Measure V) (A : V → ℝ → ℝ) (p : ℕ → ℕ) (w : CfgFun (Option (Worm ℝ)) ℝ) (ψ : CfgFun (Option (Worm ℝ)) ℝ≥0∞) {n : ℕ}
    (ω : Option (Worm ℝ)) (z : Lab 0 n) : famE ν A p w ψ (z.cfg ω) = 0 := by
  unfold famE
  simp only [globalE_lab, if_true, lintegral_zero]

theorem famE_worm (ν : Measure V) (A : V → ℝ → ℝ) {p : ℕ → ℕ} (hp : ∀ f, f < nf → p f < nf ∧ p (p f) = f)
    (w : CfgFun (Option (Worm ℝ)) ℝ) (ψ : CfgFun (Option (Worm ℝ)) ℝ≥0∞) {m n : ℕ} (hm : m ≠ 0) (k : WormKind)
    (fs : Fin k.numFlavors → Fin nf) (y : (Fin k.numTimes → ℝ) × Lab m n) : famE ν A p w ψ (y.2.cfg (some (mkW k y.1 fs))) =
      ∫⁻ v, ENNReal.ofReal (min 1 (w (ms (gAll (A v) p y).2.1) (ms (gAll (A v) p y).2.2) (some (mkW k (gAll (A v) p y).1 (pFin hp fs))) /
          w (ms y.2.1) (ms y.2.2) (some (mkW k y.1 fs)))) *
        ψ (ms (gAll (A v) p y).2.1) (ms (gAll (A v) p y).2.2) (some (mkW k (gAll (A v) p y).1 (pFin hp fs))) ∂ν := by
  unfold famE
  refine lintegral_congr fun v => ?_
  rw [globalE_lab, if_neg hm, Option.map_some, gworm_mkW (A v) hp k y.1 fs]
  rfl

theorem measurable_famE_none [SigmaFinite ν] (h : FamOK β nf ν A p τ) {w : CfgFun (Option (Worm ℝ)) ℝ}
    {ψ : CfgFun (Option (Worm ℝ)) ℝ≥0∞} (hw : w.WMeas nf) (hψ : ψ.WMeas nf) (m n : ℕ) :
    Measurable fun z : Lab m n => famE ν A p w ψ (z.cfg none) := by
  by_cases hm : m = 0
  · subst hm
    simp only [famE_zero]
    exact measurable_const
  · simp only [famE_none ν A p w ψ hm]
    have hT := meas_gLab h m n
    exact Measurable.lintegral_prod_left' (f := fun q : V × Lab m n =>
      ENNReal.ofReal (min 1 (w (ms (gLab (A q.1) p q.2).1) (ms (gLab (A q.1) p q.2).2) none / w (ms q.2.1) (ms q.2.2) none)) *
        ψ (ms (gLab (A q.1) p q.2).1) (ms (gLab (A q.1) p q.2).2) none)
      ((ENNReal.measurable_ofReal.comp (measurable_const.min (((hw.none m n).comp hT).div ((hw.none m n).comp measurable_snd)))).mul
        ((hψ.none m n).comp hT))

theorem measurable_famE [SigmaFinite ν] (h : FamOK β nf ν A p τ) {w : CfgFun (Option (Worm ℝ)) ℝ}
    {ψ : CfgFun (Option (Worm ℝ)) ℝ≥0∞} (hw : w.WMeas nf) (hψ : ψ.WMeas nf) (k : WormKind) (fs : Fin k.numFlavors → Fin nf)
    (m n : ℕ) : Measurable fun y : (Fin k.numTimes → ℝ) × Lab m n => famE ν A p w ψ (y.2.cfg (some (mkW k y.1 fs))) := by
  by_cases hm : m = 0
  · subst hm
    simp only [famE_zero]
    exact measurable_const
  · simp only [famE_worm ν A h.flav w ψ hm]
    have hT := meas_gAll h k.numTimes m n
    have a1 := (hw.worm k (pFin h.flav fs) m n).comp hT
    have a2 : Measurable fun q : V × ((Fin k.numTimes → ℝ) × Lab m n) => w (ms q.2.2.1) (ms q.2.2.2) (some (mkW k q.2.1 fs)) :=
      (hw.worm k fs m n).comp measurable_snd
    have a3 := (hψ.worm k (pFin h.flav fs) m n).comp hT
    exact Measurable.lintegral_prod_left' (f := fun q : V × ((Fin k.numTimes → ℝ) × Lab m n) =>
      ENNReal.ofReal (min 1 (w (ms (gAll (A q.1) p q.2).2.1) (ms (gAll (A q.1) p q.2).2.2)
          (some (mkW k (gAll (A q.1) p q.2).1 (pFin h.flav fs))) / w (ms q.2.2.1) (ms q.2.2.2) (some (mkW k q.2.1 fs)))) *
        ψ (ms (gAll (A q.1) p q.2).2.1) (ms (gAll (A q.1) p q.2).2.2) (some (mkW k (gAll (A q.1) p q.2).1 (pFin h.flav fs))))
      ((ENNReal.measurable_ofReal.comp (measurable_const.min (a1.div a2))).mul a3)

theorem famE_balance_none [SigmaFinite ν] (h : FamOK β nf ν A p τ) {w : CfgFun (Option (Worm ℝ)) ℝ}
    {φ ψ : CfgFun (Option (Worm ℝ)) ℝ≥0∞} (hw : w.WMeas nf) (hφ : φ.WMeas nf) (hψ : ψ.WMeas nf) (h0 : ∀ X X' ω, 0 ≤ w X X' ω) :
    allFlow β nf none φ w (famE ν A p w ψ) = allFlow β nf none ψ w (famE ν A p w φ) := by
  refine tsum_congr fun q => ?_
  unfold orderFlow
  refine congrArg₂ (· * ·) rfl ?_
  by_cases hm : q.1 = 0
  · have : ∀ χ (z : Lab q.1 q.2), famE ν A p w χ (z.cfg none) = 0 := by
      rw [hm]
      exact fun χ z => famE_zero ν A p w χ none z
    simp only [this, mul_zero]
  · simp only [famE_none ν A p w _ hm]
    have := glob_bal (I := Unit) (P := fun i => i) (fun _ => rfl) h.tau (meas_gLab h q.1 q.2) (mp_gLab h q.1 q.2) (inv_gLab h q.1 q.2)
      (W := fun _ z => w (ms z.1) (ms z.2) none) (fun _ => hw.none q.1 q.2) (fun _ _ => h0 _ _ _)
      (Φ := fun _ z => φ (ms z.1) (ms z.2) none) (Ψ := fun _ z => ψ (ms z.1) (ms z.2) none) (fun _ => hφ.none q.1 q.2)
      (fun _ => hψ.none q.1 q.2)
    simp only [Finset.univ_unique, Finset.sum_singleton] at this
    exact this

theorem famE_balance_kind [SigmaFinite ν] (h : FamOK β nf ν A p τ) {w : CfgFun (Option (Worm ℝ)) ℝ}
    {φ ψ : CfgFun (Option (Worm ℝ)) ℝ≥0∞} (hw : w.WMeas nf) (hφ : φ.WMeas nf) (hψ : ψ.WMeas nf) (h0 : ∀ X X' ω, 0 ≤ w X X' ω)
    (k : WormKind) : kindFlow β nf φ w (famE ν A p w ψ) k = kindFlow β nf ψ w (famE ν A p w φ) k := by
  rw [kindFlow_prod hφ hw k (measurable_famE h hw hψ k), kindFlow_prod hψ hw k (measurable_famE h hw hφ k)]
  refine tsum_congr fun q => ?_
  congr 1
  rw [lintegral_finsetSum _ fun fs _ => measurable_flowAt hφ hw (measurable_famE h hw hψ k fs q.1 q.2),
    lintegral_finsetSum _ fun fs _ => measurable_flowAt hψ hw (measurable_famE h hw hφ k fs q.1 q.2)]
  unfold flowAt
  by_cases hm : q.1 = 0
  · have : ∀ χ ω (z : Lab q.1 q.2), famE ν A p w χ (z.cfg ω) = 0 := by
      rw [hm]
      exact fun χ ω z => famE_zero ν A p w χ ω z
    simp only [this, mul_zero]
  · simp only [famE_worm ν A h.flav w _ hm]
    exact glob_bal (I := Fin k.numFlavors → Fin nf) (P := pFin h.flav) (pFin_inv h.flav) h.tau
      (meas_gAll h k.numTimes q.1 q.2) (mp_gAll h k.numTimes q.1 q.2) (inv_gAll h k.numTimes q.1 q.2)
      (W := fun fs y => w (ms y.2.1) (ms y.2.2) (some (mkW k y.1 fs))) (fun fs => hw.worm k fs q.1 q.2) (fun _ _ => h0 _ _ _)
      (Φ := fun fs y => φ (ms y.2.1) (ms y.2.2) (some (mkW k y.1 fs))) (Ψ := fun fs y => ψ (ms y.2.1) (ms y.2.2) (some (mkW k y.1 fs)))
      (fun fs => hφ.worm k fs q.1 q.2) (fun fs => hψ.worm k fs q.1 q.2)

theorem famE_reversible [SigmaFinite ν] (h : FamOK β nf ν A p τ) (kinds : List WormKind) (sw : WormKind → ℝ)
    {w : CfgFun (Option (Worm ℝ)) ℝ} {φ ψ : CfgFun (Option (Worm ℝ)) ℝ≥0∞} (hw : w.WMeas nf) (hφ : φ.WMeas nf) (hψ : ψ.WMeas nf)
    (h0 : ∀ X X' ω, 0 ≤ w X X' ω) :
    wFlow β nf kinds sw φ w (famE ν A p w ψ) = wFlow β nf kinds sw ψ w (famE ν A p w φ) := by
  unfold wFlow
  rw [famE_balance_none h hw hφ hψ h0]
  simp only [famE_balance_kind h hw hφ hψ h0]

theorem famE_le [IsProbabilityMeasure ν] (A : V → ℝ → ℝ) (p : ℕ → ℕ) (w : CfgFun (Option (Worm ℝ)) ℝ) (x : WCfg ℝ) :
    famE ν A p w (fun _ _ _ => 1) x ≤ 1 := by
  unfold famE
  have : ∀ v, globalE (gop (A v) p) (gworm (A v) p) w (fun _ _ _ => 1) x ≤ 1 := by
    intro v
    unfold globalE
    split_ifs
    · exact zero_le
    · show _ * (1 : ℝ≥0∞) ≤ 1
      rw [mul_one, ← ENNReal.ofReal_one]
      exact ENNReal.ofReal_le_ofReal (min_le_left _ _)
  exact (lintegral_mono this).trans (by simp)

theorem famE_perm (ν : Measure V) (A : V → ℝ → ℝ) (p : ℕ → ℕ) (w : CfgFun (Option (Worm ℝ)) ℝ) (ψ : CfgFun (Option (Worm ℝ)) ℝ≥0∞)
    {m n : ℕ} (z : Lab m n) (ω : Option (Worm ℝ)) (σ : Equiv.Perm (Fin m)) (τ : Equiv.Perm (Fin n)) :
    famE ν A p w ψ (Lab.cfg (z.1 ∘ σ, z.2 ∘ τ) ω) = famE ν A p w ψ (z.cfg ω) := by
  unfold famE
  refine lintegral_congr fun v => ?_
  rw [globalE_lab, globalE_lab]
  have h1 : ms (gLab (A v) p ((z.1 ∘ σ, z.2 ∘ τ) : Lab m n)).1 = ms (gLab (A v) p z).1 := ms_perm (gLab (A v) p z).1 σ
  have h2 : ms (gLab (A v) p ((z.1 ∘ σ, z.2 ∘ τ) : Lab m n)).2 = ms (gLab (A v) p z).2 := ms_perm (gLab (A v) p z).2 τ
  rw [h1, h2, ms_perm, ms_perm]

theorem wnice_fam [SigmaFinite ν] (h : FamOK β nf ν A p τ) {w : CfgFun (Option (Worm ℝ)) ℝ}
    {ψ : CfgFun (Option (Worm ℝ)) ℝ≥0∞} (hw : w.WMeas nf) (hψ : ψ.WMeas nf) : WNice nf (famE ν A p w ψ) where
  none := ⟨fun m n => ⟨_, measurable_famE_none h hw hψ m n, fun _ _ => rfl⟩, fun _ _ z _ σ τ => famE_perm ν A p w ψ z none σ τ⟩
  worm k' fs m n := ⟨_, measurable_famE h hw hψ k' fs m n, fun _ _ _ => rfl⟩
  perm _ _ _ _ _ z _ σ τ := famE_perm ν A p w ψ z _ σ τ

instance : IsProbabilityMeasure (volume.restrict (Set.Ico (0 : ℝ) 1)) := ⟨by simp⟩

end CTHyb
