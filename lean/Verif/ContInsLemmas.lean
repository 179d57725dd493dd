import Verif.ContIns
import Verif.ProposalProps
import Mathlib.MeasureTheory.Function.JacobianOneDim
import Mathlib.GroupTheory.Perm.DomMulAct

/-!
Lemmas for `Verif.ContInsProps`.
-/

namespace CTHyb

open Rand MeasureTheory ENNReal

/-! ### `meanE` -/

section
variable {α β : Type}

/-- No negative probability. -/
def NonnegR (m : Rand ℝ α) : Prop := ∀ p ∈ m, 0 ≤ p.1

theorem meanE_ret (a : α) (f : α → ℝ≥0∞) : meanE (ret a) f = f a := by simp [meanE, ret]

theorem meanE_congr {m : Rand ℝ α} {f g : α → ℝ≥0∞} (h : ∀ p ∈ m, f p.2 = g p.2) : meanE m f = meanE m g := by
  unfold meanE
  rw [Multiset.map_congr rfl fun p hp => by rw [h p hp]]

theorem meanE_bind {m : Rand ℝ α} (hm : NonnegR m) (k : α → Rand ℝ β) (f : β → ℝ≥0∞) :
    meanE (bind m k) f = meanE m fun a => meanE (k a) f := by
  unfold meanE Rand.bind
  rw [Multiset.map_bind, Multiset.sum_bind]
  refine congrArg _ (Multiset.map_congr rfl fun p hp => ?_)
  rw [Multiset.map_map, ← Multiset.sum_map_mul_left]
  refine congrArg _ (Multiset.map_congr rfl fun q _ => ?_)
  simp only [Function.comp_apply]
  rw [ENNReal.ofReal_mul (hm p hp), mul_assoc]

theorem meanE_mul_left (m : Rand ℝ α) (r : ℝ≥0∞) (f : α → ℝ≥0∞) :
    meanE m (fun a => r * f a) = r * meanE m f := by
  unfold meanE
  rw [← Multiset.sum_map_mul_left]
  refine congrArg _ (Multiset.map_congr rfl fun q _ => ?_)
  rw [← mul_assoc, ← mul_assoc, mul_comm r]

theorem meanE_zero (m : Rand ℝ α) : meanE m (fun _ => 0) = 0 := by
  have := meanE_mul_left m 0 (fun _ => 0)
  simpa using this

theorem meanE_sum {ι : Type} (m : Rand ℝ α) (s : Finset ι) (f : ι → α → ℝ≥0∞) :
    meanE m (fun a => ∑ i ∈ s, f i a) = ∑ i ∈ s, meanE m (f i) := by
  unfold meanE
  induction m using Multiset.induction_on with
  | empty => simp
  | cons p m ih =>
    simp only [Multiset.map_cons, Multiset.sum_cons, Finset.sum_add_distrib]
    rw [ih, Finset.mul_sum]

theorem meanE_unif (l : List α) (f : α → ℝ≥0∞) :
    meanE (unif l) f = ENNReal.ofReal (1 / l.length) * (l.map f).sum := by
  unfold meanE unif
  rw [Multiset.map_map]
  simp only [Function.comp_def]
  rw [Multiset.sum_map_mul_left, Multiset.map_coe, Multiset.sum_coe]

theorem meanE_ofReal {m : Rand ℝ α} (hm : NonnegR m) (f : α → ℝ) (hf : ∀ a, 0 ≤ f a) :
    meanE m (fun a => ENNReal.ofReal (f a)) = ENNReal.ofReal (mean m f) := by
  unfold meanE mean NonnegR at *
  induction m using Multiset.induction_on with
  | empty => simp
  | cons p m ih =>
    have h0 : 0 ≤ p.1 := hm p (Multiset.mem_cons_self _ _)
    have hm' : ∀ q ∈ m, 0 ≤ q.1 := fun q hq => hm q (Multiset.mem_cons_of_mem hq)
    simp only [Multiset.map_cons, Multiset.sum_cons]
    rw [ih hm', ENNReal.ofReal_add (mul_nonneg h0 (hf _)), ENNReal.ofReal_mul h0]
    refine Multiset.sum_nonneg fun x hx => ?_
    obtain ⟨q, hq, rfl⟩ := Multiset.mem_map.1 hx
    exact mul_nonneg (hm' q hq) (hf _)

theorem lintegral_meanE {X : Type} [MeasurableSpace X] (μ : Measure X) (m : Rand ℝ α) (f : X → α → ℝ≥0∞)
    (hf : ∀ p ∈ m, Measurable fun x => f x p.2) :
    ∫⁻ x, meanE m (f x) ∂μ = meanE m fun a => ∫⁻ x, f x a ∂μ := by
  unfold meanE
  induction m using Multiset.induction_on with
  | empty => simp
  | cons p m ih =>
    simp only [Multiset.map_cons, Multiset.sum_cons]
    have hp := hf p (Multiset.mem_cons_self _ _)
    rw [lintegral_add_left (hp.const_mul _), lintegral_const_mul _ hp,
      ih fun q hq => hf q (Multiset.mem_cons_of_mem hq)]

theorem nnr_ret (a : α) : NonnegR (ret a) := by
  intro p hp
  rw [ret, Multiset.mem_singleton] at hp
  subst hp; norm_num

theorem nnr_bind {m : Rand ℝ α} {k : α → Rand ℝ β} (hm : NonnegR m) (hk : ∀ a, NonnegR (k a)) :
    NonnegR (bind m k) := by
  intro p hp
  rw [Rand.bind, Multiset.mem_bind] at hp
  obtain ⟨a, ha, hp⟩ := hp
  obtain ⟨q, hq, rfl⟩ := Multiset.mem_map.1 hp
  exact mul_nonneg (hm a ha) (hk _ q hq)

theorem nnr_unif (l : List α) : NonnegR (unif l) := by
  intro p hp
  obtain ⟨a, _, rfl⟩ := Multiset.mem_map.1 hp
  positivity

theorem nnr_coin : NonnegR (coin (1 / 2)) := by
  intro p hp
  simp only [coin, Multiset.insert_eq_cons, Multiset.mem_cons, Multiset.mem_singleton] at hp
  rcases hp with rfl | rfl <;> norm_num

theorem nonneg_pickOps (l : List (BOp ℝ)) (n : ℕ) : NonnegR (pickOps l n) := by
  refine nnr_bind (fun p hp => ?_) fun _ => nnr_ret _
  obtain ⟨J, _, rfl⟩ := Multiset.mem_map.1 hp
  show (0 : ℝ) ≤ ∏ c : Fin (l.length - 1), 1 / ((c.1 + 2 : ℕ) : ℝ)
  exact Finset.prod_nonneg fun _ _ => by positivity

theorem nonneg_blockDraws (ns k : ℕ) : NonnegR (blockDraws ℝ ns k) := by
  induction k with
  | zero => exact nnr_ret _
  | succ k ih => exact nnr_bind (nnr_unif _) fun _ => nnr_bind ih fun _ => nnr_ret _

theorem nonneg_remDraws {W : Type} (E : PEnv) (win : Win ℝ ℝ) (x : PCfg ℝ W) (m : ℕ → ℕ) (bs : List ℕ) :
    NonnegR (remDraws E win x m bs) := by
  induction bs with
  | nil => exact nnr_ret _
  | cons b bs ih =>
    exact nnr_bind (nonneg_pickOps _ _) fun _ => nnr_bind (nonneg_pickOps _ _) fun _ =>
      nnr_bind ih fun _ => nnr_ret _

end

/-! ### A new operator -/

/-- Operators in the window with a flavor from the list. -/
def region (cw : CWin) (fl : List ℕ) : Set (BOp ℝ) := Set.Icc cw.lo cw.hi ×ˢ {f | f ∈ fl}

theorem measurableSet_region (cw : CWin) (fl : List ℕ) : MeasurableSet (region cw fl) :=
  measurableSet_Icc.prod (Set.to_countable _ |>.measurableSet)

theorem lintegral_openRandom {lo hi : ℝ} (h : lo < hi) (g : ℝ → ℝ≥0∞) :
    ENNReal.ofReal (hi - lo) * ∫⁻ u in Set.Ico (0 : ℝ) 1, g (openRandomU lo hi 0 u) =
      ∫⁻ t in Set.Icc lo hi, g t := by
  have himg : openRandomU lo hi 0 '' Set.Ico 0 1 = Set.Ioc lo hi := by
    ext t
    constructor
    · rintro ⟨u, ⟨h0, h1⟩, rfl⟩
      unfold openRandomU openRandom
      constructor <;> nlinarith
    · rintro ⟨h1, h2⟩
      have hp : 0 < hi - lo := sub_pos.2 h
      refine ⟨(hi - t) / (hi - lo), ⟨div_nonneg (by linarith) hp.le, ?_⟩, ?_⟩
      · rw [div_lt_one hp]; linarith
      · unfold openRandomU openRandom
        field_simp
        ring
  have hder : ∀ u ∈ Set.Ico (0 : ℝ) 1,
      HasDerivWithinAt (openRandomU lo hi 0) (lo - hi) (Set.Ico 0 1) u := by
    intro u _
    have := ((hasDerivAt_id u).const_mul (lo - hi)).add_const hi
    rw [mul_one] at this
    refine HasDerivAt.hasDerivWithinAt (this.congr_of_eventuallyEq ?_)
    refine Filter.Eventually.of_forall fun v => ?_
    unfold openRandomU openRandom
    simp
  have hinj : Set.InjOn (openRandomU lo hi 0) (Set.Ico 0 1) := by
    intro u _ v _ huv
    unfold openRandomU openRandom at huv
    have : (lo - hi) * (u - v) = 0 := by linarith
    rcases mul_eq_zero.1 this with h' | h'
    · linarith
    · linarith
  have key := lintegral_image_eq_lintegral_abs_deriv_mul measurableSet_Ico hder hinj g
  rw [himg] at key
  rw [← restrict_Ioc_eq_restrict_Icc, key, abs_of_neg (by linarith), neg_sub,
    ← lintegral_const_mul' _ _ ENNReal.ofReal_ne_top]

/-- All operators: times in `[0, β]`, flavors below `nf`, Lebesgue measure times counting measure. -/
noncomputable def opMeasure (β : ℝ) (nf : ℕ) : Measure (BOp ℝ) :=
  ((volume : Measure ℝ).restrict (Set.Icc 0 β)).prod ((Measure.count : Measure ℕ).restrict (Set.Iio nf))

instance (β : ℝ) (nf : ℕ) : SigmaFinite (opMeasure β nf) := by unfold opMeasure; infer_instance

theorem opMeasure_region {β : ℝ} {nf : ℕ} {cw : CWin} (h0 : 0 ≤ cw.lo) (h1 : cw.hi ≤ β) {fl : List ℕ}
    (hfl : ∀ f ∈ fl, f < nf) {G : BOp ℝ → ℝ≥0∞} (hG : Measurable G) :
    ∫⁻ o in region cw fl, G o ∂(opMeasure β nf) =
      ∫⁻ t in Set.Icc cw.lo cw.hi, ∑ f ∈ fl.toFinset, G (t, f) := by
  unfold region opMeasure
  rw [← Measure.prod_restrict, Measure.restrict_restrict measurableSet_Icc,
    Measure.restrict_restrict (Set.to_countable _ |>.measurableSet),
    Set.inter_eq_left.2 (Set.Icc_subset_Icc h0 h1), Set.inter_eq_left.2 (show {f | f ∈ fl} ⊆ Set.Iio nf from fun f hf => hfl f hf),
    lintegral_prod _ hG.aemeasurable]
  refine lintegral_congr fun t => ?_
  have : {f | f ∈ fl} = ((fl.toFinset : Finset ℕ) : Set ℕ) := by ext f; simp
  rw [this, lintegral_finset]
  simp

/-- A new operator is uniformly distributed over the window and the flavors. -/
theorem randOpC_eq {β : ℝ} {nf : ℕ} {cw : CWin} (h0 : 0 ≤ cw.lo) (hlt : cw.lo < cw.hi) (h1 : cw.hi ≤ β)
    (heps : cw.eps = 0) {fl : List ℕ} (hnd : fl.Nodup)
    (hfl : ∀ f ∈ fl, f < nf) {G : BOp ℝ → ℝ≥0∞} (hG : Measurable G) :
    randOpC cw fl G = ENNReal.ofReal (1 / ((cw.hi - cw.lo) * fl.length)) *
      ∫⁻ o in region cw fl, G o ∂(opMeasure β nf) := by
  rw [opMeasure_region h0 h1 hfl hG, ← lintegral_openRandom hlt]
  unfold randOpC
  rw [heps]
  have hp : 0 < cw.hi - cw.lo := sub_pos.2 hlt
  simp only [meanE_unif]
  rw [lintegral_const_mul' _ _ ENNReal.ofReal_ne_top, ← mul_assoc, ← ENNReal.ofReal_mul (by positivity)]
  congr 1
  · congr 1
    field_simp
  · refine lintegral_congr fun u => ?_
    rw [List.sum_toFinset _ hnd]

end CTHyb
