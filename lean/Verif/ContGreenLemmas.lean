import Verif.ContSweepGlob
import Mathlib.Data.Fintype.CardEmbedding
import Mathlib.Logic.Equiv.Fintype

/-!
Ordered choices of labelled operators, and Green's function worms as labelled operators.
-/

namespace CTHyb

open Rand MeasureTheory ENNReal

/-! ### `pickup_a_few_numbers` -/

theorem nonneg_pickRand (N n : ℕ) : NonnegR (pickRand ℝ N n) := by
  intro p hp
  rw [pickRand, Multiset.mem_map] at hp
  obtain ⟨J, _, rfl⟩ := hp
  show 0 ≤ ∏ c : Fin (N - 1), 1 / ((c.1 + 2 : ℕ) : ℝ)
  exact Finset.prod_nonneg fun c _ => by positivity

/-- The probability of an ordered choice. -/
noncomputable def pickD (N n : ℕ) : ℝ≥0∞ := ENNReal.ofReal (((N - n).factorial : ℝ) / (N.factorial : ℝ))

theorem meanE_pickOps {N r : ℕ} (h : r ≤ N) (y : Fin N → BOp ℝ) (F : List (BOp ℝ) → ℝ≥0∞) :
    meanE (pickOps (List.ofFn y) r) F = pickD N r * ∑ e : Fin r ↪ Fin N, F (List.ofFn (y ∘ e)) := by
  classical
  unfold pickOps
  rw [List.length_ofFn, meanE_bind (nonneg_pickRand N r)]
  simp only [meanE_ret]
  have hfm : ∀ e : Fin r ↪ Fin N, (List.ofFn fun i => (e i : ℕ)).filterMap ((List.ofFn y)[·]?) = List.ofFn (y ∘ e) := by
    intro e
    have : (List.ofFn fun i => (e i : ℕ)) = (List.ofFn e).map Fin.val := by rw [List.map_ofFn]; rfl
    rw [this, List.filterMap_map]
    have h2 : ((fun x : ℕ => (List.ofFn y)[x]?) ∘ Fin.val : Fin N → Option (BOp ℝ)) = fun i => some (y i) := by
      funext i
      simp [List.getElem?_ofFn]
    rw [h2, ← Function.comp_def, List.filterMap_eq_map, List.map_ofFn]
  have e1 : meanE (pickRand ℝ N r) (fun idx => F (idx.filterMap ((List.ofFn y)[·]?))) =
      meanE (pickRand ℝ N r) fun idx => ∑ e : Fin r ↪ Fin N,
        F (List.ofFn (y ∘ e)) * ENNReal.ofReal (if idx = List.ofFn (fun i => (e i : ℕ)) then 1 else 0) := by
    refine meanE_congr fun p hp => ?_
    obtain ⟨h1, h2, h3⟩ := mem_pickRand h hp
    have hlt : ∀ i : Fin r, p.2[i.1]'(by rw [h1]; exact i.2) < N := fun i => h3 _ (List.getElem_mem _)
    let e0 : Fin r ↪ Fin N := ⟨fun i => ⟨p.2[i.1]'(by rw [h1]; exact i.2), hlt i⟩, fun i j hij => by
      simp only [Fin.mk.injEq] at hij
      exact Fin.ext ((List.Nodup.getElem_inj_iff h2).1 hij)⟩
    have he0 : p.2 = List.ofFn (fun i => (e0 i : ℕ)) := by
      refine List.ext_getElem (by simp [h1]) fun i hi hi' => ?_
      rw [List.getElem_ofFn]
      rfl
    rw [Finset.sum_eq_single e0]
    · rw [if_pos he0, ENNReal.ofReal_one, mul_one, ← hfm e0, ← he0]
    · intro e _ hne
      rw [if_neg, ENNReal.ofReal_zero, mul_zero]
      intro hpe
      refine hne (DFunLike.ext _ _ fun i => Fin.ext ?_)
      have := List.ofFn_injective (hpe.symm.trans he0)
      exact congrFun this i
    · intro hn; exact absurd (Finset.mem_univ _) hn
  rw [e1, meanE_sum, Finset.mul_sum]
  refine Finset.sum_congr rfl fun e _ => ?_
  rw [meanE_mul_left, meanE_ofReal (nonneg_pickRand N r) _ (fun a => by split_ifs <;> norm_num), mul_comm]
  congr 1
  have hl : (List.ofFn fun i => (e i : ℕ)).length = r := List.length_ofFn
  have := mean_pickRand_eq (R := ℝ) N (List.ofFn fun i => (e i : ℕ))
    (List.nodup_ofFn.2 fun i j hij => e.injective (Fin.ext hij))
    (fun x hx => by obtain ⟨i, rfl⟩ := (List.mem_ofFn' _ _).1 hx; exact (e i).2)
  rw [hl] at this
  rw [this]
  rfl

/-! ### Symmetry of the labels -/

/-- The last `r` labels. -/
def lastE (a r : ℕ) : Fin r ↪ Fin (a + r) := ⟨Fin.natAdd a, Fin.natAdd_injective _ _⟩

theorem perm_of_emb {a r : ℕ} (e : Fin r ↪ Fin (a + r)) : ∃ σ : Equiv.Perm (Fin (a + r)), ∀ i, σ (lastE a r i) = e i := by
  classical
  let f : {x // x ∈ Set.range (lastE a r)} ≃ {x // x ∈ Set.range e} :=
    (Equiv.ofInjective _ (lastE a r).injective).symm.trans (Equiv.ofInjective _ e.injective)
  refine ⟨f.extendSubtype, fun i => ?_⟩
  rw [Equiv.extendSubtype_apply_of_mem f _ ⟨i, rfl⟩]
  have : (⟨lastE a r i, ⟨i, rfl⟩⟩ : {x // x ∈ Set.range (lastE a r)}) = Equiv.ofInjective _ (lastE a r).injective i := rfl
  simp only [f, Equiv.trans_apply]
  rw [this, Equiv.symm_apply_apply]
  rfl

/-- All ordered choices have the same share. -/
theorem lintegral_choices {β : ℝ} {nf a b r : ℕ} (T : Lab (a + r) (b + r) → (Fin r ↪ Fin (a + r)) → (Fin r ↪ Fin (b + r)) → ℝ≥0∞)
    (hT : ∀ z (σ : Equiv.Perm (Fin (a + r))) (τ : Equiv.Perm (Fin (b + r))) e e',
      T (z.1 ∘ σ, z.2 ∘ τ) e e' = T z (e.trans σ.toEmbedding) (e'.trans τ.toEmbedding))
    (hm : AEMeasurable (fun z => T z (lastE a r) (lastE b r)) (labMeasure β nf (a + r) (b + r))) :
    ∫⁻ z, ∑ e, ∑ e', T z e e' ∂(labMeasure β nf (a + r) (b + r)) =
      (((a + r).descFactorial r * (b + r).descFactorial r : ℕ) : ℝ≥0∞) *
        ∫⁻ z, T z (lastE a r) (lastE b r) ∂(labMeasure β nf (a + r) (b + r)) := by
  have hmp : ∀ (σ : Equiv.Perm (Fin (a + r))) (τ : Equiv.Perm (Fin (b + r))),
      MeasurePreserving (fun z : Lab (a + r) (b + r) => ((z.1 ∘ σ, z.2 ∘ τ) : Lab (a + r) (b + r)))
        (labMeasure β nf (a + r) (b + r)) (labMeasure β nf (a + r) (b + r)) := fun σ τ =>
    (opsMeasure_perm β nf σ).prod (opsMeasure_perm β nf τ)
  have key : ∀ e e', ∃ (σ : Equiv.Perm (Fin (a + r))) (τ : Equiv.Perm (Fin (b + r))),
      ∀ z, T z e e' = T (z.1 ∘ σ, z.2 ∘ τ) (lastE a r) (lastE b r) := by
    intro e e'
    obtain ⟨σ, hσ⟩ := perm_of_emb e
    obtain ⟨τ, hτ⟩ := perm_of_emb e'
    refine ⟨σ, τ, fun z => ?_⟩
    rw [hT]
    congr 1
    · exact DFunLike.ext _ _ fun i => (hσ i).symm
    · exact DFunLike.ext _ _ fun i => (hτ i).symm
  have hone : ∀ e e', AEMeasurable (fun z => T z e e') (labMeasure β nf (a + r) (b + r)) ∧
      ∫⁻ z, T z e e' ∂(labMeasure β nf (a + r) (b + r)) = ∫⁻ z, T z (lastE a r) (lastE b r) ∂(labMeasure β nf (a + r) (b + r)) := by
    intro e e'
    obtain ⟨σ, τ, h⟩ := key e e'
    have hp := hmp σ τ
    simp only [h]
    constructor
    · exact AEMeasurable.comp_quasiMeasurePreserving hm hp.quasiMeasurePreserving
    · have hm' : AEMeasurable (fun z => T z (lastE a r) (lastE b r))
          (Measure.map (fun z : Lab (a + r) (b + r) => ((z.1 ∘ σ, z.2 ∘ τ) : Lab (a + r) (b + r)))
            (labMeasure β nf (a + r) (b + r))) := by rw [hp.map_eq]; exact hm
      rw [← lintegral_map' hm' hp.measurable.aemeasurable, hp.map_eq]
  rw [lintegral_finsetSum' _ fun e _ => Finset.aemeasurable_fun_sum _ fun e' _ => (hone e e').1]
  have h2 : ∀ e : Fin r ↪ Fin (a + r), ∫⁻ z, ∑ e', T z e e' ∂(labMeasure β nf (a + r) (b + r)) =
      ((b + r).descFactorial r : ℕ) * ∫⁻ z, T z (lastE a r) (lastE b r) ∂(labMeasure β nf (a + r) (b + r)) := by
    intro e
    rw [lintegral_finsetSum' _ fun e' _ => (hone e e').1, Finset.sum_congr rfl fun e' _ => (hone e e').2, Finset.sum_const,
      Finset.card_univ, Fintype.card_embedding_eq, Fintype.card_fin, Fintype.card_fin, nsmul_eq_mul]
  rw [Finset.sum_congr rfl fun e _ => h2 e, Finset.sum_const, Finset.card_univ, Fintype.card_embedding_eq, Fintype.card_fin,
    Fintype.card_fin, nsmul_eq_mul, Nat.cast_mul, mul_assoc]

/-- The first and the last labels are independent. -/
theorem lintegral_lab_split (β : ℝ) (nf a b r : ℕ) {f : Lab a b × Lab r r → ℝ≥0∞} (hf : Measurable f) :
    ∫⁻ z : Lab (a + r) (b + r), f ((z.1 ∘ Fin.castAdd r, z.2 ∘ Fin.castAdd r), (z.1 ∘ Fin.natAdd a, z.2 ∘ Fin.natAdd b))
        ∂(labMeasure β nf (a + r) (b + r)) =
      ∫⁻ z : Lab a b, ∫⁻ v : Lab r r, f (z, v) ∂(labMeasure β nf r r) ∂(labMeasure β nf a b) := by
  have h1 : ∀ a, MeasurePreserving (fun y : Fin (a + r) → BOp ℝ => (y ∘ Fin.castAdd r, y ∘ Fin.natAdd a)) (opsMeasure β nf (a + r))
      ((opsMeasure β nf a).prod (opsMeasure β nf r)) := fun a => by
    have h1 := (measurePreserving_piCongrLeft (fun _ : Fin (a + r) => opMeasure β nf) (finSumFinEquiv (m := a) (n := r))).symm
    exact (measurePreserving_sumPiEquivProdPi (fun _ : Fin a ⊕ Fin r => opMeasure β nf)).comp h1
  have hmp := (h1 a).prod (h1 b)
  have hF : Measurable fun v : ((Fin a → BOp ℝ) × (Fin r → BOp ℝ)) × ((Fin b → BOp ℝ) × (Fin r → BOp ℝ)) =>
      f ((v.1.1, v.2.1), (v.1.2, v.2.2)) :=
    hf.comp (((measurable_fst.comp measurable_fst).prodMk (measurable_fst.comp measurable_snd)).prodMk
      ((measurable_snd.comp measurable_fst).prodMk (measurable_snd.comp measurable_snd)))
  refine (hmp.lintegral_comp hF).trans ?_
  rw [lintegral_prod _ hF.aemeasurable, lintegral_prod _ hF.lintegral_prod_right'.aemeasurable]
  unfold labMeasure
  rw [lintegral_prod _ hf.lintegral_prod_right'.aemeasurable]
  refine lintegral_congr fun x => ?_
  have hx : ∀ p : Fin r → BOp ℝ, Measurable fun y : (Fin b → BOp ℝ) × (Fin r → BOp ℝ) => f ((x, y.1), (p, y.2)) := fun p =>
    hF.comp ((measurable_const.prodMk measurable_const).prodMk (measurable_fst.prodMk measurable_snd) :
      Measurable fun y : (Fin b → BOp ℝ) × (Fin r → BOp ℝ) => ((x, p), (y.1, y.2)))
  have hg : Measurable fun v : ((Fin r → BOp ℝ) × (Fin b → BOp ℝ)) × (Fin r → BOp ℝ) => f ((x, v.1.2), (v.1.1, v.2)) :=
    hF.comp ((measurable_const.prodMk (measurable_fst.comp measurable_fst)).prodMk
      ((measurable_snd.comp measurable_fst).prodMk measurable_snd) :
      Measurable fun v : ((Fin r → BOp ℝ) × (Fin b → BOp ℝ)) × (Fin r → BOp ℝ) => ((x, v.1.1), (v.1.2, v.2)))
  have e1 : ∀ p : Fin r → BOp ℝ, ∫⁻ y : (Fin b → BOp ℝ) × (Fin r → BOp ℝ), f ((x, y.1), (p, y.2))
      ∂((opsMeasure β nf b).prod (opsMeasure β nf r)) =
      ∫⁻ x', ∫⁻ q, f ((x, x'), (p, q)) ∂(opsMeasure β nf r) ∂(opsMeasure β nf b) := fun p =>
    lintegral_prod _ (hx p).aemeasurable
  simp only [e1]
  rw [lintegral_lintegral_swap (f := fun p x' => ∫⁻ q, f ((x, x'), (p, q)) ∂(opsMeasure β nf r))
    hg.lintegral_prod_right'.aemeasurable]
  refine lintegral_congr fun x' => ?_
  rw [lintegral_prod _ (measurable_right hf (x, x')).aemeasurable]

/-! ### The worm as labelled operators -/

/-- Creation operators of the worm: odd positions. -/
def oddV {A : Type} {r : ℕ} (v : Fin (2 * r) → A) (i : Fin r) : A := v ⟨2 * i.1 + 1, by omega⟩

/-- Annihilation operators of the worm: even positions. -/
def evenV {A : Type} {r : ℕ} (v : Fin (2 * r) → A) (i : Fin r) : A := v ⟨2 * i.1, by omega⟩

/-- Positions of the creation and of the annihilation operators. -/
noncomputable def oddEven (r : ℕ) : Fin r ⊕ Fin r ≃ Fin (2 * r) :=
  Equiv.ofBijective (Sum.elim (fun i => ⟨2 * i.1 + 1, by omega⟩) (fun i => ⟨2 * i.1, by omega⟩))
    ((Fintype.bijective_iff_injective_and_card _).2 ⟨by
      rintro (i | i) (j | j) h <;> simp only [Sum.elim_inl, Sum.elim_inr, Fin.mk.injEq] at h
      · exact congrArg _ (Fin.ext (by omega))
      · omega
      · omega
      · exact congrArg _ (Fin.ext (by omega)), by simp; omega⟩)

theorem oddEven_mp (β : ℝ) (nf r : ℕ) : MeasurePreserving (fun v : Fin (2 * r) → BOp ℝ => ((oddV v, evenV v) : Lab r r))
    (opsMeasure β nf (2 * r)) (labMeasure β nf r r) := by
  have h1 := (measurePreserving_piCongrLeft (fun _ : Fin (2 * r) => opMeasure β nf) (oddEven r)).symm
  exact (measurePreserving_sumPiEquivProdPi (fun _ : Fin r ⊕ Fin r => opMeasure β nf)).comp h1

/-- The worm with the operators `v`. -/
def gMk (r : ℕ) (v : Fin (2 * r) → BOp ℝ) : Worm ℝ := ⟨.green r, List.ofFn fun i => (v i).1, List.ofFn fun i => (v i).2⟩

theorem gMk_ops (r : ℕ) (v : Fin (2 * r) → BOp ℝ) :
    greenOps r (gMk r v) 1 = List.ofFn (oddV v) ∧ greenOps r (gMk r v) 0 = List.ofFn (evenV v) := by
  rw [(greenOps_eq r (gMk r v) rfl).1, (greenOps_eq r (gMk r v) rfl).2]
  constructor
  · refine List.ext_getElem (by simp) fun i h1 h2 => ?_
    have hi : 2 * i + 1 < 2 * r := by simp at h1; omega
    simp [gMk, oddV, hi]
  · refine List.ext_getElem (by simp) fun i h1 h2 => ?_
    have hi : i < r := by simpa using h1
    simp [gMk, evenV, hi]

theorem greenWorm_gMk (r : ℕ) (v : Fin (2 * r) → BOp ℝ) :
    greenWorm r (List.ofFn (oddV v)) (List.ofFn (evenV v)) = gMk r v :=
  (greenWorm_iff r (gMk r v) ⟨by simp [gMk, WormKind.numTimes], by simp [gMk, WormKind.numFlavors]⟩ rfl _ _ (by simp) (by simp)).2
    ⟨(gMk_ops r v).1.symm, (gMk_ops r v).2.symm⟩

/-- Both kinds of operators in the order of the worm. -/
def mergeV {r : ℕ} (v : Lab r r) : Fin (2 * r) → BOp ℝ := fun j =>
  if j.1 % 2 = 0 then v.2 ⟨j.1 / 2, by omega⟩ else v.1 ⟨j.1 / 2, by omega⟩

theorem oddV_mergeV {r : ℕ} (v : Lab r r) : oddV (mergeV v) = v.1 := by
  funext i
  unfold oddV mergeV
  rw [if_neg (by simp)]
  exact congrArg v.1 (Fin.ext (show (2 * i.1 + 1) / 2 = i.1 by omega))

theorem evenV_mergeV {r : ℕ} (v : Lab r r) : evenV (mergeV v) = v.2 := by
  funext i
  unfold evenV mergeV
  rw [if_pos (by simp)]
  exact congrArg v.2 (Fin.ext (show 2 * i.1 / 2 = i.1 by omega))

theorem mergeV_split {r : ℕ} (v : Fin (2 * r) → BOp ℝ) : mergeV (oddV v, evenV v) = v := by
  funext j
  unfold mergeV oddV evenV
  split_ifs with h
  · exact congrArg v (Fin.ext (by simp; omega))
  · exact congrArg v (Fin.ext (by simp; omega))

theorem measurable_mergeV (r : ℕ) : Measurable fun v : Lab r r => mergeV v := by
  refine measurable_pi_iff.2 fun j => ?_
  unfold mergeV
  split_ifs
  · exact (measurable_pi_apply _).comp measurable_snd
  · exact (measurable_pi_apply _).comp measurable_fst

/-- Sum over the flavors and integral over the times as integral over operators. -/
theorem lintegral_ops_flav (β : ℝ) (nf n : ℕ) (h : (Fin n → ℝ) → (Fin n → Fin nf) → ℝ≥0∞) (hm : ∀ fs, Measurable fun ts => h ts fs) :
    ∫⁻ v, ∑ fs : Fin n → Fin nf, (if (fun i => (v i).2) = (fun i => (fs i : ℕ)) then h (fun i => (v i).1) fs else 0)
      ∂(opsMeasure β nf n) = ∫⁻ ts, ∑ fs, h ts fs ∂(wTimes β n) := by
  have hs : ∀ fs : Fin n → Fin nf, MeasurableSet {g : Fin n → ℕ | g = fun i => (fs i : ℕ)} := fun fs =>
    measurableSet_singleton _
  have hmm : ∀ fs : Fin n → Fin nf, Measurable fun y : (Fin n → ℝ) × (Fin n → ℕ) =>
      if y.2 = (fun i => (fs i : ℕ)) then h y.1 fs else 0 := fun fs =>
    Measurable.ite ((hs fs).preimage measurable_snd) ((hm fs).comp measurable_fst) measurable_const
  have hmp := measurePreserving_arrowProdEquivProdArrow ℝ ℕ (Fin n) (fun _ => (volume : Measure ℝ).restrict (Set.Icc 0 β))
    (fun _ => (Measure.count : Measure ℕ).restrict (Set.Iio nf))
  have hM : Measurable fun y : (Fin n → ℝ) × (Fin n → ℕ) =>
      ∑ fs : Fin n → Fin nf, if y.2 = (fun i => (fs i : ℕ)) then h y.1 fs else 0 := Finset.measurable_sum _ fun fs _ => hmm fs
  refine (hmp.lintegral_comp hM).trans ?_
  rw [lintegral_prod _ hM.aemeasurable]
  refine lintegral_congr fun ts => ?_
  rw [lintegral_finsetSum _ fun fs _ => measurable_right (hmm fs) ts]
  refine Finset.sum_congr rfl fun fs _ => ?_
  have : (fun g : Fin n → ℕ => if g = (fun i => (fs i : ℕ)) then h ts fs else 0) =
      Set.indicator {g : Fin n → ℕ | g = fun i => (fs i : ℕ)} fun _ => h ts fs := by
    funext g
    rw [Set.indicator_apply]
    rfl
  simp only [this]
  rw [lintegral_indicator (hs fs), setLIntegral_const]
  have hp : {g : Fin n → ℕ | g = fun i => (fs i : ℕ)} = Set.univ.pi fun i => {(fs i : ℕ)} := by
    rw [Set.univ_pi_singleton]
    rfl
  rw [hp, Measure.pi_pi]
  simp only [Measure.restrict_apply (measurableSet_singleton _)]
  rw [Finset.prod_eq_one, mul_one]
  intro i _
  rw [Set.inter_eq_left.2 (Set.singleton_subset_iff.2 (show (fs i : ℕ) ∈ Set.Iio nf from (fs i).2)), Measure.count_singleton]

end CTHyb
