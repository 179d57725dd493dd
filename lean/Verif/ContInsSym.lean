import Verif.ContInsDraws

/-!
Labelled operators: sums over permutations and over the subsets of labels.
-/

namespace CTHyb

open Rand MeasureTheory ENNReal

/-- The set of operators. -/
abbrev ms {n : ℕ} (y : Fin n → BOp ℝ) : Multiset (BOp ℝ) := (List.ofFn y : Multiset (BOp ℝ))

theorem coe_ofFn {A : Type} {n : ℕ} (y : Fin n → A) :
    ((List.ofFn y : List A) : Multiset A) = Finset.univ.val.map y := by
  rw [Fin.univ_val_map]

theorem ms_eq {n : ℕ} (y : Fin n → BOp ℝ) : ms y = Finset.univ.val.map y := coe_ofFn y

theorem ms_perm {n : ℕ} (y : Fin n → BOp ℝ) (π : Equiv.Perm (Fin n)) : ms (y ∘ π) = ms y := by
  rw [ms_eq, ms_eq, ← Multiset.map_map]
  congr 1
  have := congrArg Finset.val (Finset.map_univ_equiv π)
  simpa using this

/-- The operators `s` may be inserted when the blocks are `bl`: they are in the window, and block `b`
has as many of them as there are entries `b` in `bl`. -/
def Hit (E : PEnv) (cw : CWin) (bl : List ℕ) (s : Multiset (BOp ℝ)) : Prop :=
  (∀ o ∈ s, (cw.lo ≤ o.1 ∧ o.1 ≤ cw.hi) ∧ o.2 < E.nf) ∧
    ∀ b, (s.filter fun o => E.sector o.2 = b).card = bl.count b

theorem mem_region {E : PEnv} {cw : CWin} {b : ℕ} {o : BOp ℝ} :
    o ∈ region cw (blockFlavors E b) ↔ ((cw.lo ≤ o.1 ∧ o.1 ≤ cw.hi) ∧ o.2 < E.nf) ∧ E.sector o.2 = b := by
  simp only [region, Set.mem_prod, Set.mem_Icc, blockFlavors, Set.mem_ofPred_eq, List.mem_filter, List.mem_range,
    beq_iff_eq]
  tauto

theorem count_eq_card (bl : List ℕ) (b : ℕ) : bl.count b = Fintype.card {i : Fin bl.length // bl.get i = b} := by
  rw [Fintype.card_subtype, ← Multiset.coe_count]
  conv_lhs => rw [← List.ofFn_get bl]
  rw [coe_ofFn, Multiset.count_map]
  simp only [eq_comm]
  rfl

theorem filter_card_eq {n : ℕ} (E : PEnv) (p : Fin n → BOp ℝ) (b : ℕ) :
    ((ms p).filter fun o => E.sector o.2 = b).card = Fintype.card {i : Fin n // E.sector (p i).2 = b} := by
  rw [Fintype.card_subtype, ms_eq, Multiset.filter_map, Multiset.card_map]
  rfl

/-- Number of rearrangements of `f` which give `g`, if there is one. -/
theorem card_rearrange {n : ℕ} (f g : Fin n → ℕ)
    (h : ∀ b, Fintype.card {i // f i = b} = Fintype.card {i // g i = b}) (N : ℕ) (hN : ∀ i, g i < N) :
    (Finset.univ.filter fun π : Equiv.Perm (Fin n) => ∀ i, f (π i) = g i).card =
      ∏ b ∈ Finset.range N, (Fintype.card {i // g i = b}).factorial := by
  classical
  let τ : Fin n ≃ Fin n := Equiv.ofFiberEquiv (f := g) (g := f) fun b => Fintype.equivOfCardEq (h b).symm
  have hτ : ∀ i, f (τ i) = g i := fun i => Equiv.ofFiberEquiv_map _ i
  have h1 : (Finset.univ.filter fun π : Equiv.Perm (Fin n) => ∀ i, f (π i) = g i).card =
      Fintype.card {π : Equiv.Perm (Fin n) // g ∘ π = g} := by
    rw [← Fintype.card_subtype]
    refine Fintype.card_congr ((Equiv.mulLeft τ).symm.subtypeEquiv fun π => ?_)
    constructor
    · intro hπ
      funext i
      have := hτ (τ.symm (π i))
      rw [Equiv.apply_symm_apply] at this
      show g (τ.symm (π i)) = g i
      rw [← this, hπ]
    · intro hπ i
      have := congrFun hπ i
      rw [← this]
      show f (π i) = g (τ.symm (π i))
      rw [← hτ, Equiv.apply_symm_apply]
  rw [h1, DomMulAct.stabilizer_card']
  refine Finset.prod_subset (fun b hb => ?_) fun b _ hb => ?_
  · obtain ⟨i, _, rfl⟩ := Finset.mem_image.1 hb
    exact Finset.mem_range.2 (hN i)
  · rw [Fintype.card_eq_zero_iff.2 ⟨fun i => hb (Finset.mem_image.2 ⟨i.1, Finset.mem_univ _, i.2⟩)⟩]
    rfl

open Classical in
theorem card_draw_orders (E : PEnv) (cw : CWin) (bl : List ℕ) (hbl : ∀ b ∈ bl, b < E.ns)
    (p : Fin bl.length → BOp ℝ) :
    (Finset.univ.filter fun π : Equiv.Perm (Fin bl.length) =>
      ∀ i, p (π i) ∈ region cw (blockFlavors E (bl.get i))).card =
      if Hit E cw bl (ms p) then ∏ b ∈ Finset.range E.ns, (bl.count b).factorial else 0 := by
  have hiff : ∀ π : Equiv.Perm (Fin bl.length), (∀ i, p (π i) ∈ region cw (blockFlavors E (bl.get i))) ↔
      (∀ o ∈ ms p, (cw.lo ≤ o.1 ∧ o.1 ≤ cw.hi) ∧ o.2 < E.nf) ∧ ∀ i, E.sector (p (π i)).2 = bl.get i := by
    intro π
    simp only [mem_region]
    constructor
    · intro h
      refine ⟨fun o ho => ?_, fun i => (h i).2⟩
      rw [ms_eq] at ho
      obtain ⟨i, _, rfl⟩ := Multiset.mem_map.1 ho
      have := (h (π.symm i)).1
      rwa [Equiv.apply_symm_apply] at this
    · intro h i
      refine ⟨h.1 _ ?_, h.2 i⟩
      rw [ms_eq]
      exact Multiset.mem_map_of_mem _ (Finset.mem_univ_val _)
  simp only [hiff]
  split_ifs with hh
  · obtain ⟨h1, h2⟩ := hh
    simp only [count_eq_card]
    rw [← card_rearrange (fun i => E.sector (p i).2) bl.get (fun b => ?_) E.ns fun i => hbl _ (List.get_mem _ _)]
    · congr 1
      ext π
      simp only [Finset.mem_filter, Finset.mem_univ, true_and]
      exact ⟨fun h => h.2, fun h => ⟨h1, h⟩⟩
    · rw [← filter_card_eq, h2, count_eq_card]
  · rw [Finset.card_eq_zero, Finset.filter_eq_empty_iff]
    rintro π _ ⟨h1, h2⟩
    refine hh ⟨h1, fun b => ?_⟩
    rw [filter_card_eq, count_eq_card]
    refine Fintype.card_congr (π.symm.subtypeEquiv fun i => ?_)
    rw [← h2, Equiv.apply_symm_apply]

/-- Labelled operators. -/
noncomputable def opsMeasure (β : ℝ) (nf n : ℕ) : Measure (Fin n → BOp ℝ) := Measure.pi fun _ => opMeasure β nf

instance (β : ℝ) (nf : ℕ) : NullSingletonClass (opMeasure β nf) := by unfold opMeasure; infer_instance

instance (β : ℝ) (nf n : ℕ) : SigmaFinite (opsMeasure β nf n) := by unfold opsMeasure; infer_instance

theorem opsMeasure_perm (β : ℝ) (nf : ℕ) {n : ℕ} (π : Equiv.Perm (Fin n)) :
    MeasurePreserving (fun y : Fin n → BOp ℝ => y ∘ π) (opsMeasure β nf n) (opsMeasure β nf n) := by
  have h := (measurePreserving_piCongrLeft (fun _ : Fin n => opMeasure β nf) π).symm
  exact h

theorem measurable_comp_fin {m n : ℕ} (f : Fin m → Fin n) : Measurable fun y : Fin n → BOp ℝ => y ∘ f := by
  rw [measurable_pi_iff]
  exact fun i => measurable_pi_apply (f i)

/-- The set of lists of operators which can be drawn for the blocks `bl`. -/
def drawSet (E : PEnv) (cw : CWin) (bl : List ℕ) : Set (Fin bl.length → BOp ℝ) :=
  Set.univ.pi fun i => region cw (blockFlavors E (bl.get i))

theorem measurableSet_drawSet (E : PEnv) (cw : CWin) (bl : List ℕ) : MeasurableSet (drawSet E cw bl) :=
  MeasurableSet.univ_pi fun _ => measurableSet_region _ _

open Classical in
theorem sum_indicator_drawSet (E : PEnv) (cw : CWin) (bl : List ℕ) (hbl : ∀ b ∈ bl, b < E.ns)
    (p : Fin bl.length → BOp ℝ) :
    ∑ π : Equiv.Perm (Fin bl.length), (drawSet E cw bl).indicator (fun _ => (1 : ℝ≥0∞)) (p ∘ π) =
      ((∏ b ∈ Finset.range E.ns, (bl.count b).factorial : ℕ) : ℝ≥0∞) *
        if Hit E cw bl (ms p) then 1 else 0 := by
  have h := card_draw_orders E cw bl hbl p
  have e : ∀ π : Equiv.Perm (Fin bl.length), (drawSet E cw bl).indicator (fun _ => (1 : ℝ≥0∞)) (p ∘ π) =
      if ∀ i, p (π i) ∈ region cw (blockFlavors E (bl.get i)) then 1 else 0 := by
    intro π
    rw [Set.indicator_apply]
    refine if_congr ?_ rfl rfl
    simp [drawSet, Set.mem_pi]
  simp only [e]
  rw [Finset.sum_boole, h]
  split_ifs <;> simp

open Classical in
theorem measurable_hit (E : PEnv) (cw : CWin) (bl : List ℕ) (hbl : ∀ b ∈ bl, b < E.ns) :
    Measurable fun p : Fin bl.length → BOp ℝ => if Hit E cw bl (ms p) then (1 : ℝ≥0∞) else 0 := by
  have h0 : ((∏ b ∈ Finset.range E.ns, (bl.count b).factorial : ℕ) : ℝ≥0∞) ≠ 0 :=
    Nat.cast_ne_zero.2 (Finset.prod_ne_zero_iff.2 fun _ _ => Nat.factorial_ne_zero _)
  have h : (fun p : Fin bl.length → BOp ℝ => if Hit E cw bl (ms p) then (1 : ℝ≥0∞) else 0) = fun p =>
      ((∏ b ∈ Finset.range E.ns, (bl.count b).factorial : ℕ) : ℝ≥0∞)⁻¹ *
      ∑ π : Equiv.Perm (Fin bl.length), (drawSet E cw bl).indicator (fun _ => (1 : ℝ≥0∞)) (p ∘ π) := by
    funext p
    rw [sum_indicator_drawSet E cw bl hbl, ← mul_assoc, ENNReal.inv_mul_cancel h0 (ENNReal.natCast_ne_top _), one_mul]
  rw [h]
  refine Measurable.const_mul (Finset.measurable_sum _ fun π _ => ?_) _
  exact (measurable_const.indicator (measurableSet_drawSet E cw bl)).comp (measurable_comp_fin π)

open Classical in
/-- Drawing for the blocks `bl` in this order, or for the same blocks in any order. -/
theorem lintegral_listMeasure (β : ℝ) (E : PEnv) (cw : CWin) (bl : List ℕ) (hbl : ∀ b ∈ bl, b < E.ns)
    (h : Multiset (BOp ℝ) → ℝ≥0∞) (hm : Measurable fun p : Fin bl.length → BOp ℝ => h (ms p)) :
    (bl.length.factorial : ℝ≥0∞) * ∫⁻ p, h (ms p) ∂(listMeasure β E cw bl) =
      ((∏ b ∈ Finset.range E.ns, (bl.count b).factorial : ℕ) : ℝ≥0∞) *
        ∫⁻ p, (if Hit E cw bl (ms p) then 1 else 0) * h (ms p) ∂(opsMeasure β E.nf bl.length) := by
  have e0 : ∫⁻ p, h (ms p) ∂(listMeasure β E cw bl) =
      ∫⁻ p, (drawSet E cw bl).indicator (fun _ => (1 : ℝ≥0∞)) p * h (ms p) ∂(opsMeasure β E.nf bl.length) := by
    have : listMeasure β E cw bl = (opsMeasure β E.nf bl.length).restrict (drawSet E cw bl) := by
      unfold listMeasure blockMeasure opsMeasure drawSet
      rw [Measure.restrict_pi_pi]
    rw [this, ← lintegral_indicator (measurableSet_drawSet E cw bl)]
    refine lintegral_congr fun p => ?_
    by_cases hp : p ∈ drawSet E cw bl <;> simp [hp]
  have hi : Measurable fun p : Fin bl.length → BOp ℝ =>
      (drawSet E cw bl).indicator (fun _ => (1 : ℝ≥0∞)) p * h (ms p) :=
    (measurable_const.indicator (measurableSet_drawSet E cw bl)).mul hm
  have e1 : ∀ π : Equiv.Perm (Fin bl.length), ∫⁻ p, (drawSet E cw bl).indicator (fun _ => (1 : ℝ≥0∞)) p * h (ms p)
      ∂(opsMeasure β E.nf bl.length) = ∫⁻ p, (drawSet E cw bl).indicator (fun _ => (1 : ℝ≥0∞)) (p ∘ π) * h (ms p)
      ∂(opsMeasure β E.nf bl.length) := by
    intro π
    rw [← (opsMeasure_perm β E.nf π).lintegral_comp hi]
    refine lintegral_congr fun p => ?_
    rw [ms_perm]
  rw [e0]
  have e2 : (bl.length.factorial : ℝ≥0∞) * ∫⁻ p, (drawSet E cw bl).indicator (fun _ => (1 : ℝ≥0∞)) p * h (ms p)
      ∂(opsMeasure β E.nf bl.length) = ∑ π : Equiv.Perm (Fin bl.length),
      ∫⁻ p, (drawSet E cw bl).indicator (fun _ => (1 : ℝ≥0∞)) (p ∘ π) * h (ms p) ∂(opsMeasure β E.nf bl.length) := by
    rw [Finset.sum_congr rfl fun π _ => (e1 π).symm, Finset.sum_const, Finset.card_univ, Fintype.card_perm,
      Fintype.card_fin, nsmul_eq_mul]
  rw [e2, ← lintegral_finsetSum, ← lintegral_const_mul' _ _ (ENNReal.natCast_ne_top _)]
  · refine lintegral_congr fun p => ?_
    rw [← Finset.sum_mul, sum_indicator_drawSet E cw bl hbl, mul_assoc]
  · intro π _
    refine Measurable.mul ?_ hm
    exact (measurable_const.indicator (measurableSet_drawSet E cw bl)).comp (measurable_comp_fin π)

/-! ### Subsets of the labels -/

theorem map_orderEmb {n k : ℕ} (S : Finset (Fin n)) (h : S.card = k) (y : Fin n → BOp ℝ) :
    ms (fun i : Fin k => y (S.orderEmbOfFin h i)) = S.val.map y := by
  rw [ms_eq]
  have := congrArg Finset.val (Finset.map_orderEmbOfFin_univ S h)
  rw [Finset.map_val] at this
  rw [← this, Multiset.map_map]
  rfl

/-- The operators with labels outside `S` and in `S`. -/
def splitLab {m k : ℕ} (S : Finset (Fin (m + k))) (hS' : Sᶜ.card = m) (hSS : Sᶜᶜ.card = k)
    (y : Fin (m + k) → BOp ℝ) : (Fin m → BOp ℝ) × (Fin k → BOp ℝ) :=
  (fun i => y (Sᶜ.orderEmbOfFin hS' i), fun i => y (Sᶜᶜ.orderEmbOfFin hSS i))

theorem splitLab_fst {m k : ℕ} (S : Finset (Fin (m + k))) (hS' : Sᶜ.card = m) (hSS : Sᶜᶜ.card = k)
    (y : Fin (m + k) → BOp ℝ) : ms (splitLab S hS' hSS y).1 = Sᶜ.val.map y := map_orderEmb Sᶜ hS' y

theorem splitLab_snd {m k : ℕ} (S : Finset (Fin (m + k))) (hS' : Sᶜ.card = m) (hSS : Sᶜᶜ.card = k)
    (y : Fin (m + k) → BOp ℝ) : ms (splitLab S hS' hSS y).2 = S.val.map y := by
  have : S.val.map y = Sᶜᶜ.val.map y := by rw [compl_compl]
  rw [this]
  exact map_orderEmb Sᶜᶜ hSS y

/-- The labels in `S` and the others are independent. -/
theorem measurePreserving_splitLab (β : ℝ) (nf : ℕ) {m k : ℕ} (S : Finset (Fin (m + k))) (hS' : Sᶜ.card = m)
    (hSS : Sᶜᶜ.card = k) :
    MeasurePreserving (splitLab S hS' hSS) (opsMeasure β nf (m + k))
      ((opsMeasure β nf m).prod (opsMeasure β nf k)) := by
  let σ : Fin m ⊕ Fin k ≃ Fin (m + k) := finSumEquivOfFinset hS' hSS
  have h1 := (measurePreserving_piCongrLeft (fun _ : Fin (m + k) => opMeasure β nf) σ).symm
  exact (measurePreserving_sumPiEquivProdPi (fun _ : Fin m ⊕ Fin k => opMeasure β nf)).comp h1

/-- Almost surely no two operators coincide. -/
theorem ae_injective (β : ℝ) (nf n : ℕ) : ∀ᵐ y ∂(opsMeasure β nf n), Function.Injective y := by
  cases n with
  | zero => exact Filter.Eventually.of_forall fun y => Function.injective_of_subsingleton y
  | succ n =>
    have key : ∀ (i : Fin (n + 1)) (j : Fin n), ∀ᵐ y ∂(opsMeasure β nf (n + 1)), y i ≠ y (i.succAbove j) := by
      intro i j
      have hmp := measurePreserving_piFinSuccAbove (fun _ : Fin (n + 1) => opMeasure β nf) i
      have hs : MeasurableSet {z : BOp ℝ × (Fin n → BOp ℝ) | z.1 = z.2 j} :=
        measurableSet_eq_fun measurable_fst ((measurable_pi_apply j).comp measurable_snd)
      have h0 : ((opMeasure β nf).prod (Measure.pi fun _ : Fin n => opMeasure β nf))
          {z : BOp ℝ × (Fin n → BOp ℝ) | z.1 = z.2 j} = 0 := by
        rw [Measure.measure_prod_null hs]
        refine Filter.Eventually.of_forall fun a => ?_
        have := Measure.pi_hyperplane (fun _ : Fin n => opMeasure β nf) j a
        refine Eq.trans (congrArg _ ?_) this
        ext r
        exact eq_comm
      rw [← hmp.measure_preimage hs.nullMeasurableSet] at h0
      refine (measure_eq_zero_iff_ae_notMem.1 h0).mono fun y hy => ?_
      exact hy
    have := ae_all_iff.2 fun i => ae_all_iff.2 fun j => key i j
    refine this.mono fun y hy i i' hii => ?_
    by_contra hne
    obtain ⟨j, rfl⟩ := Fin.exists_succAbove_eq (Ne.symm hne)
    exact hy i j hii

end CTHyb
