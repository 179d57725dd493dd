import Verif.ContInsRem

/-!
Detailed balance of the insertion and removal of pairs with continuous times.

Specification: a configuration with `m` creation and `n` annihilation operators of the bath is a point
of the set of all labelled operators, with Lebesgue measure for every time and counting measure for
every flavor, divided by `m! n!` because the labels have no meaning.  The weight `w` is a density with
respect to this measure.  `orderFlow φ K` is the integral of `φ(x) w(x) K(x)` over the configurations
of the orders `m`, `n`.
-/

namespace CTHyb

open Rand MeasureTheory ENNReal

/-- Labelled creation operators and annihilation operators. -/
abbrev Lab (m n : ℕ) := (Fin m → BOp ℝ) × (Fin n → BOp ℝ)

/-- Lebesgue measure for the times in `[0, β]`, counting measure for the flavors below `nf`. -/
noncomputable def labMeasure (β : ℝ) (nf m n : ℕ) : Measure (Lab m n) :=
  (opsMeasure β nf m).prod (opsMeasure β nf n)

instance (β : ℝ) (nf m n : ℕ) : SigmaFinite (labMeasure β nf m n) := by unfold labMeasure; infer_instance

variable {W : Type}

/-- The configuration with these operators. -/
def Lab.cfg {m n : ℕ} (z : Lab m n) (ω : W) : PCfg ℝ W := ⟨List.ofFn z.1, List.ofFn z.2, ω⟩

/-- Measurable function of the configuration. -/
def CfgFun.Meas {A : Type} [MeasurableSpace A] (F : CfgFun W A) (ω : W) : Prop :=
  ∀ m n, Measurable fun z : Lab m n => F.at (z.cfg ω)

/-- **Specification.**  Integral of `φ w K` over the configurations with `m` creation and `n`
annihilation operators. -/
noncomputable def orderFlow (β : ℝ) (nf m n : ℕ) (ω : W) (φ : CfgFun W ℝ≥0∞) (w : CfgFun W ℝ)
    (K : PCfg ℝ W → ℝ≥0∞) : ℝ≥0∞ :=
  ((m.factorial * n.factorial : ℕ) : ℝ≥0∞)⁻¹ *
    ∫⁻ z, φ.at (z.cfg ω) * ENNReal.ofReal (w.at (z.cfg ω)) * K (z.cfg ω) ∂(labMeasure β nf m n)

/-! ### Terms for given blocks -/

open Classical in
/-- One if the operators fit to the blocks, else zero. -/
noncomputable def hitE (E : PEnv) (cw : CWin) (bl : List ℕ) (s : Multiset (BOp ℝ)) : ℝ≥0∞ :=
  if Hit E cw bl s then 1 else 0

/-- `insCorr` as a function of the sets of operators. -/
noncomputable def corrM (E : PEnv) (cw : CWin) (bl : List ℕ) (X X' : Multiset (BOp ℝ)) : ℝ :=
  (cw.hi - cw.lo) ^ (2 * bl.length) *
    (∏ b ∈ Finset.range E.ns, ((blockFlavors E b).length : ℝ) ^ (2 * bl.count b)) *
    (pickP E cw bl X * pickP E cw bl X')

theorem insCorr_corrM (E : PEnv) (cw : CWin) (bl : List ℕ) (x : PCfg ℝ W) :
    insCorr E cw.win bl.length x (bl.count ·) = corrM E cw bl x.cd x.c := by
  classical
  rw [insCorr_eq, corrM, pickP, pickP, mul_assoc, ← Finset.prod_mul_distrib, ← Finset.prod_mul_distrib]
  congr 1
  refine Finset.prod_congr rfl fun b _ => ?_
  rw [blockOps_length, blockOps_length, div_eq_mul_inv, mul_inv]

theorem remCorr_corrM (E : PEnv) (cw : CWin) (bl : List ℕ) (y : PCfg ℝ W) (X X' P Q : Multiset (BOp ℝ))
    (h : (y.cd : Multiset (BOp ℝ)) = X + P) (h' : (y.c : Multiset (BOp ℝ)) = X' + Q)
    (hP : Hit E cw bl P) (hQ : Hit E cw bl Q) :
    remCorr E cw.win bl.length y (bl.count ·) = (corrM E cw bl X X')⁻¹ := by
  classical
  rw [remCorr_eq, corrM, pickP, pickP, mul_assoc, mul_inv, ← Finset.prod_mul_distrib, ← Finset.prod_mul_distrib,
    ← Finset.prod_inv_distrib]
  congr 1
  refine Finset.prod_congr rfl fun b _ => ?_
  rw [blockOps_length, blockOps_length, h, h', bcount_add, bcount_add, hP.bcount, hQ.bcount, mul_inv, mul_inv,
    inv_inv, inv_inv, div_eq_mul_inv, mul_comm]

/-- Insertion of `P`, `Q` into `X`, `X'`. -/
noncomputable def insTerm (E : PEnv) (cw : CWin) (w : CfgFun W ℝ) (ψ : CfgFun W ℝ≥0∞) (ω : W) (bl : List ℕ)
    (X X' P Q : Multiset (BOp ℝ)) : ℝ≥0∞ :=
  ENNReal.ofReal (min 1 (w (X + P) (X' + Q) ω / w X X' ω * corrM E cw bl X X')) * ψ (X + P) (X' + Q) ω

/-- Removal of `P`, `Q` from `X + P`, `X' + Q`. -/
noncomputable def remTerm (E : PEnv) (cw : CWin) (w : CfgFun W ℝ) (φ : CfgFun W ℝ≥0∞) (ω : W) (bl : List ℕ)
    (X X' P Q : Multiset (BOp ℝ)) : ℝ≥0∞ :=
  hitE E cw bl P * hitE E cw bl Q *
    ENNReal.ofReal ((facs E bl : ℝ) ^ 2 * (pickP E cw bl X * pickP E cw bl X')) *
    (ENNReal.ofReal (min 1 (w X X' ω / w (X + P) (X' + Q) ω * (corrM E cw bl X X')⁻¹)) * φ X X' ω)

theorem insDrawsC_congr (E : PEnv) (cw : CWin) (k : ℕ) : ∀ G G' : List (ℕ × OpPair) → ℝ≥0∞,
    (∀ l, l.length = k → G l = G' l) → insDrawsC E cw k G = insDrawsC E cw k G' := by
  induction k with
  | zero => intro G G' h; exact h [] rfl
  | succ k ih =>
    intro G G' h
    have : ∀ b p q, insDrawsC E cw k (fun l => G ((b, p, q) :: l)) =
        insDrawsC E cw k (fun l => G' ((b, p, q) :: l)) := fun b p q =>
      ih _ _ fun l hl => h _ (by rw [List.length_cons, hl])
    simp only [insDrawsC, this]

theorem insE_eq {β : ℝ} {cw : CWin} (hcw : cw.OK β) (E : PEnv) (rank : ℕ) (w : CfgFun W ℝ) (ψ : CfgFun W ℝ≥0∞)
    (x : PCfg ℝ W)
    (hm : ∀ bl : List ℕ, Measurable fun z : Lab bl.length bl.length =>
      insTerm E cw w ψ x.worm bl x.cd x.c (ms z.1) (ms z.2)) :
    insE E cw rank w ψ x = meanE (blockDraws ℝ E.ns rank) fun bl => ENNReal.ofReal (listDens E cw bl ^ 2) *
      ∫⁻ z, insTerm E cw w ψ x.worm bl x.cd x.c (ms z.1) (ms z.2)
        ∂((listMeasure β E cw bl).prod (listMeasure β E cw bl)) := by
  have h1 : insE E cw rank w ψ x = insDrawsC E cw rank fun l =>
      insTerm E cw w ψ x.worm (l.map (·.1)) x.cd x.c (l.map (·.2.1) : List (BOp ℝ)) (l.map (·.2.2) : List (BOp ℝ)) := by
    refine insDrawsC_congr E cw rank _ _ fun l hl => ?_
    have hlen : (l.map (·.1)).length = rank := by rw [List.length_map, hl]
    rw [accE, insTerm, CfgFun.after, CfgFun.after, CfgFun.at, ← insCorr_corrM, hlen]
    simp only [Multiset.coe_nil, tsub_zero]
  rw [h1, insDrawsC_lintegral hcw E rank (fun bl p q => insTerm E cw w ψ x.worm bl x.cd x.c p q) hm]
  refine meanE_congr fun bl _ => ?_
  rw [lintegral_prod _ (hm bl.2).aemeasurable]

open Classical in
theorem remE_eq (E : PEnv) (cw : CWin) (hns : ∀ f, f < E.nf → E.sector f < E.ns) (rank : ℕ) (w : CfgFun W ℝ)
    (φ : CfgFun W ℝ≥0∞) (ω : W) {n n' : ℕ} (z : Lab n n') (hy : Function.Injective z.1)
    (hy' : Function.Injective z.2) (hf : ∀ i, (z.1 i).2 < E.nf) (hf' : ∀ i, (z.2 i).2 < E.nf) :
    remE E cw rank w φ (z.cfg ω) = meanE (blockDraws ℝ E.ns rank) fun bl =>
      ∑ S ∈ (Finset.univ : Finset (Fin n)).powersetCard rank,
        ∑ S' ∈ (Finset.univ : Finset (Fin n')).powersetCard rank,
          remTerm E cw w φ ω bl (Sᶜ.val.map z.1) (S'ᶜ.val.map z.2) (S.val.map z.1) (S'.val.map z.2) := by
  obtain ⟨y, y'⟩ := z
  simp only at hy hy' hf hf'
  unfold remE remPropose
  rw [meanE_bind (nonneg_blockDraws _ _)]
  refine meanE_congr fun blp hblp => ?_
  obtain ⟨hlen, hbl⟩ := mem_blockDraws hblp
  set bl := blp.2 with hbldef
  have hsum : ∀ g : Finset (Fin n) → Finset (Fin n') → ℝ≥0∞,
      (∑ S : Finset (Fin n), ∑ S' : Finset (Fin n'),
        hitE E cw bl (S.val.map y) * hitE E cw bl (S'.val.map y') * g S S') =
      ∑ S ∈ (Finset.univ : Finset (Fin n)).powersetCard rank,
        ∑ S' ∈ (Finset.univ : Finset (Fin n')).powersetCard rank,
        hitE E cw bl (S.val.map y) * hitE E cw bl (S'.val.map y') * g S S' := by
    intro g
    have hz : ∀ {n : ℕ} (y : Fin n → BOp ℝ) (S : Finset (Fin n)),
        S ∉ (Finset.univ : Finset (Fin n)).powersetCard rank → hitE E cw bl (S.val.map y) = 0 := by
      intro n y S hS
      refine if_neg fun hh => hS (Finset.mem_powersetCard.2 ⟨Finset.subset_univ _, ?_⟩)
      have := hh.card hns hbl
      rw [Multiset.card_map, hlen] at this
      exact this
    rw [← Finset.sum_subset (Finset.subset_univ _) fun S _ hS => ?_]
    · refine Finset.sum_congr rfl fun S _ => ?_
      exact (Finset.sum_subset (Finset.subset_univ _) fun S' _ hS' => by rw [hz y' S' hS']; simp).symm
    · refine Finset.sum_eq_zero fun S' _ => ?_
      rw [hz y S hS]; simp
  have hbc : ∀ {n : ℕ} (y : Fin n → BOp ℝ) (S : Finset (Fin n)) (b : ℕ), Hit E cw bl (S.val.map y) →
      (blockOps E cw.win (List.ofFn y) b).length = bcount E cw (Sᶜ.val.map y) b + bl.count b := by
    intro n y S b hh
    rw [blockOps_length, ← hh.bcount, ← bcount_add]
    congr 1
    exact map_compl_add S y
  split_ifs with hany
  · rw [meanE_ret]
    simp only [List.any_eq_true, Bool.or_eq_true, decide_eq_true_eq] at hany
    obtain ⟨b, _, hb⟩ := hany
    symm
    refine Finset.sum_eq_zero fun S _ => Finset.sum_eq_zero fun S' _ => ?_
    by_cases h1 : Hit E cw bl (S.val.map y)
    · by_cases h2 : Hit E cw bl (S'.val.map y')
      · exfalso
        have e1 := hbc y S b h1
        have e2 := hbc y' S' b h2
        rcases hb with hb | hb
        · have : (blockOps E cw.win (List.ofFn y) b).length < bl.count b := hb
          omega
        · have : (blockOps E cw.win (List.ofFn y') b).length < bl.count b := hb
          omega
      · simp [remTerm, hitE, h2]
    · simp [remTerm, hitE, h1]
  · have hen : ∀ b < E.ns, bl.count b ≤ (blockOps E cw.win (List.ofFn y) b).length ∧
        bl.count b ≤ (blockOps E cw.win (List.ofFn y') b).length := by
      simp only [List.any_eq_true, Bool.or_eq_true, decide_eq_true_eq, List.mem_range, not_exists,
        not_and, not_or, not_lt] at hany
      exact fun b hb => hany b hb
    rw [meanE_bind (nonneg_remDraws _ _ _ _ _)]
    simp only [meanE_ret]
    set x : PCfg ℝ W := Lab.cfg (y, y') ω with hx
    have hG := meanE_remDraws E cw hns bl hbl y y' ω hy hy' hf hf' hen fun P Q =>
      ENNReal.ofReal (min 1 (w (ms y - P) (ms y' - Q) ω / w (ms y) (ms y') ω *
        remCorr E cw.win rank x (bl.count ·))) * φ (ms y - P) (ms y' - Q) ω
    refine Eq.trans (meanE_congr fun r _ => ?_) (hG.trans ?_)
    · simp only [accE, CfgFun.after, CfgFun.at, Multiset.coe_nil, add_zero]
      rfl
    · have hcompl : ∀ {n : ℕ} (y : Fin n → BOp ℝ) (S : Finset (Fin n)), ms y - S.val.map y = Sᶜ.val.map y := by
        intro n y S
        rw [map_compl_add S y, add_tsub_cancel_right]
      refine Eq.trans ?_ ((hsum fun S S' => ENNReal.ofReal ((facs E bl : ℝ) ^ 2 *
        (pickP E cw bl (Sᶜ.val.map y) * pickP E cw bl (S'ᶜ.val.map y'))) *
          (ENNReal.ofReal (min 1 (w (Sᶜ.val.map y) (S'ᶜ.val.map y') ω / w (ms y) (ms y') ω *
            (corrM E cw bl (Sᶜ.val.map y) (S'ᶜ.val.map y'))⁻¹)) * φ (Sᶜ.val.map y) (S'ᶜ.val.map y') ω)).trans ?_)
      · refine Finset.sum_congr rfl fun S _ => Finset.sum_congr rfl fun S' _ => ?_
        by_cases h1 : Hit E cw bl (S.val.map y)
        · by_cases h2 : Hit E cw bl (S'.val.map y')
          · rw [if_pos h1, if_pos h2, hitE, hitE, if_pos h1, if_pos h2, hcompl, hcompl, ← hlen,
              remCorr_corrM E cw bl x _ _ _ _ (map_compl_add S y) (map_compl_add S' y') h1 h2,
              ← ENNReal.ofReal_mul (mul_nonneg (Nat.cast_nonneg _) (pickP_pos _ _ _ _).le), one_mul, one_mul]
            congr 2
            ring
          · simp [hitE, h2]
        · simp [hitE, h1]
      · refine Finset.sum_congr rfl fun S _ => Finset.sum_congr rfl fun S' _ => ?_
        rw [remTerm, mul_assoc (hitE E cw bl (S.val.map y) * hitE E cw bl (S'.val.map y')), ← map_compl_add, ← map_compl_add]

/-! ### Integrals over all new operators -/

theorem lintegral_draws (β : ℝ) (E : PEnv) (cw : CWin) (bl : List ℕ) (hbl : ∀ b ∈ bl, b < E.ns)
    (g : Multiset (BOp ℝ) → Multiset (BOp ℝ) → ℝ≥0∞)
    (hg : Measurable fun z : Lab bl.length bl.length => g (ms z.1) (ms z.2)) :
    (bl.length.factorial : ℝ≥0∞) ^ 2 *
        ∫⁻ z, g (ms z.1) (ms z.2) ∂((listMeasure β E cw bl).prod (listMeasure β E cw bl)) =
      (facs E bl : ℝ≥0∞) ^ 2 * ∫⁻ z : Lab bl.length bl.length,
        hitE E cw bl (ms z.1) * hitE E cw bl (ms z.2) * g (ms z.1) (ms z.2)
          ∂(labMeasure β E.nf bl.length bl.length) := by
  have hq : ∀ p : Fin bl.length → BOp ℝ, Measurable fun q : Fin bl.length → BOp ℝ => g (ms p) (ms q) := fun p =>
    hg.comp (measurable_const.prodMk measurable_id)
  have hh : Measurable fun p : Fin bl.length → BOp ℝ => hitE E cw bl (ms p) := measurable_hit E cw bl hbl
  have hI : Measurable fun p : Fin bl.length → BOp ℝ =>
      ∫⁻ q, hitE E cw bl (ms q) * g (ms p) (ms q) ∂(opsMeasure β E.nf bl.length) := by
    refine Measurable.lintegral_prod_right' (f := fun z : Lab bl.length bl.length =>
      hitE E cw bl (ms z.2) * g (ms z.1) (ms z.2)) ?_
    exact (hh.comp measurable_snd).mul hg
  have h1 : ∀ p : Fin bl.length → BOp ℝ, (bl.length.factorial : ℝ≥0∞) * ∫⁻ q, g (ms p) (ms q)
      ∂(listMeasure β E cw bl) = (facs E bl : ℝ≥0∞) * ∫⁻ q, hitE E cw bl (ms q) * g (ms p) (ms q)
        ∂(opsMeasure β E.nf bl.length) := fun p => lintegral_listMeasure β E cw bl hbl (g (ms p)) (hq p)
  have h2 := lintegral_listMeasure β E cw bl hbl (fun P => ∫⁻ q : Fin bl.length → BOp ℝ,
    hitE E cw bl (ms q) * g P (ms q) ∂(opsMeasure β E.nf bl.length)) hI
  rw [lintegral_prod _ hg.aemeasurable, pow_two, mul_assoc, ← lintegral_const_mul' _ _ (ENNReal.natCast_ne_top _)]
  simp only [h1]
  rw [lintegral_const_mul' _ _ (ENNReal.natCast_ne_top _), ← mul_assoc, mul_comm (bl.length.factorial : ℝ≥0∞),
    mul_assoc, h2, ← mul_assoc, pow_two]
  congr 1
  unfold labMeasure
  have hprod : Measurable fun z : Lab bl.length bl.length =>
      hitE E cw bl (ms z.1) * hitE E cw bl (ms z.2) * g (ms z.1) (ms z.2) :=
    ((hh.comp measurable_fst).mul (hh.comp measurable_snd)).mul hg
  rw [lintegral_prod _ hprod.aemeasurable]
  refine lintegral_congr fun p => ?_
  have hm : Measurable fun q : Fin bl.length → BOp ℝ => hitE E cw bl (ms q) * g (ms p) (ms q) := hh.mul (hq p)
  rw [← lintegral_const_mul _ hm]
  refine lintegral_congr fun q => ?_
  rw [mul_assoc]
  rfl

theorem lintegral_labels (β : ℝ) (nf m n k : ℕ)
    (f : Multiset (BOp ℝ) → Multiset (BOp ℝ) → Multiset (BOp ℝ) → Multiset (BOp ℝ) → ℝ≥0∞)
    (hf : Measurable fun z : Lab m n × Lab k k => f (ms z.1.1) (ms z.1.2) (ms z.2.1) (ms z.2.2)) :
    ∫⁻ z : Lab (m + k) (n + k), ∑ S ∈ (Finset.univ : Finset (Fin (m + k))).powersetCard k,
        ∑ S' ∈ (Finset.univ : Finset (Fin (n + k))).powersetCard k,
          f (Sᶜ.val.map z.1) (S'ᶜ.val.map z.2) (S.val.map z.1) (S'.val.map z.2) ∂(labMeasure β nf (m + k) (n + k)) =
      ((m + k).choose k : ℝ≥0∞) * ((n + k).choose k : ℝ≥0∞) *
        ∫⁻ z : Lab m n, ∫⁻ v : Lab k k, f (ms z.1) (ms z.2) (ms v.1) (ms v.2) ∂(labMeasure β nf k k)
          ∂(labMeasure β nf m n) := by
  have hcard : ∀ {a : ℕ} (S : Finset (Fin (a + k))), S ∈ (Finset.univ : Finset (Fin (a + k))).powersetCard k →
      Sᶜ.card = a ∧ Sᶜᶜ.card = k := by
    intro a S hS
    have := (Finset.mem_powersetCard.1 hS).2
    rw [compl_compl, Finset.card_compl, Fintype.card_fin, this]
    exact ⟨by omega, rfl⟩
  -- one pair of sets of labels
  have hF : Measurable fun v : ((Fin m → BOp ℝ) × (Fin k → BOp ℝ)) × ((Fin n → BOp ℝ) × (Fin k → BOp ℝ)) =>
      f (ms v.1.1) (ms v.2.1) (ms v.1.2) (ms v.2.2) :=
    hf.comp (((measurable_fst.comp measurable_fst).prodMk (measurable_fst.comp measurable_snd)).prodMk
      ((measurable_snd.comp measurable_fst).prodMk (measurable_snd.comp measurable_snd)))
  have hmp : ∀ (S : Finset (Fin (m + k))) (S' : Finset (Fin (n + k))) (h : Sᶜ.card = m ∧ Sᶜᶜ.card = k)
      (h' : S'ᶜ.card = n ∧ S'ᶜᶜ.card = k),
      MeasurePreserving (fun z : Lab (m + k) (n + k) => (splitLab S h.1 h.2 z.1, splitLab S' h'.1 h'.2 z.2))
        (labMeasure β nf (m + k) (n + k))
        (((opsMeasure β nf m).prod (opsMeasure β nf k)).prod ((opsMeasure β nf n).prod (opsMeasure β nf k))) :=
    fun S S' h h' => (measurePreserving_splitLab β nf S h.1 h.2).prod (measurePreserving_splitLab β nf S' h'.1 h'.2)
  have heq : ∀ (S : Finset (Fin (m + k))) (S' : Finset (Fin (n + k))) (h : Sᶜ.card = m ∧ Sᶜᶜ.card = k)
      (h' : S'ᶜ.card = n ∧ S'ᶜᶜ.card = k) (z : Lab (m + k) (n + k)),
      f (Sᶜ.val.map z.1) (S'ᶜ.val.map z.2) (S.val.map z.1) (S'.val.map z.2) =
        f (ms (splitLab S h.1 h.2 z.1).1) (ms (splitLab S' h'.1 h'.2 z.2).1) (ms (splitLab S h.1 h.2 z.1).2)
          (ms (splitLab S' h'.1 h'.2 z.2).2) := by
    intro S S' h h' z
    rw [splitLab_fst, splitLab_fst, splitLab_snd, splitLab_snd]
  have hmeas : ∀ S ∈ (Finset.univ : Finset (Fin (m + k))).powersetCard k,
      ∀ S' ∈ (Finset.univ : Finset (Fin (n + k))).powersetCard k, Measurable fun z : Lab (m + k) (n + k) =>
        f (Sᶜ.val.map z.1) (S'ᶜ.val.map z.2) (S.val.map z.1) (S'.val.map z.2) := by
    intro S hS S' hS'
    simp only [heq S S' (hcard S hS) (hcard S' hS')]
    exact hF.comp (hmp S S' (hcard S hS) (hcard S' hS')).measurable
  rw [lintegral_finsetSum _ fun S hS => Finset.measurable_sum _ fun S' hS' => hmeas S hS S' hS']
  have hone : ∀ S ∈ (Finset.univ : Finset (Fin (m + k))).powersetCard k,
      ∀ S' ∈ (Finset.univ : Finset (Fin (n + k))).powersetCard k, ∫⁻ z : Lab (m + k) (n + k),
        f (Sᶜ.val.map z.1) (S'ᶜ.val.map z.2) (S.val.map z.1) (S'.val.map z.2) ∂(labMeasure β nf (m + k) (n + k)) =
        ∫⁻ z : Lab m n, ∫⁻ v : Lab k k, f (ms z.1) (ms z.2) (ms v.1) (ms v.2) ∂(labMeasure β nf k k)
          ∂(labMeasure β nf m n) := by
    intro S hS S' hS'
    simp only [heq S S' (hcard S hS) (hcard S' hS')]
    have := (hmp S S' (hcard S hS) (hcard S' hS')).lintegral_comp hF
    rw [this]
    rw [lintegral_prod _ hF.aemeasurable, lintegral_prod _ hF.lintegral_prod_right'.aemeasurable]
    unfold labMeasure
    rw [lintegral_prod _ hf.lintegral_prod_right'.aemeasurable]
    refine lintegral_congr fun x => ?_
    have hsw : Measurable fun v : (Fin k → BOp ℝ) × ((Fin n → BOp ℝ) × (Fin k → BOp ℝ)) =>
        f (ms x) (ms v.2.1) (ms v.1) (ms v.2.2) :=
      hF.comp ((measurable_const.prodMk measurable_fst).prodMk measurable_snd)
    have hsw2 : Measurable fun v : (Fin n → BOp ℝ) × ((Fin k → BOp ℝ) × (Fin k → BOp ℝ)) =>
        f (ms x) (ms v.1) (ms v.2.1) (ms v.2.2) :=
      hf.comp ((measurable_const.prodMk measurable_fst).prodMk measurable_snd)
    have e1 : ∀ p : Fin k → BOp ℝ, ∫⁻ v : (Fin n → BOp ℝ) × (Fin k → BOp ℝ), f (ms x) (ms v.1) (ms p) (ms v.2)
        ∂((opsMeasure β nf n).prod (opsMeasure β nf k)) = ∫⁻ x' : Fin n → BOp ℝ, ∫⁻ q : Fin k → BOp ℝ,
          f (ms x) (ms x') (ms p) (ms q) ∂(opsMeasure β nf k) ∂(opsMeasure β nf n) := fun p =>
      lintegral_prod _ (hsw.comp (measurable_const.prodMk measurable_id)).aemeasurable
    have e2 : ∀ x' : Fin n → BOp ℝ, ∫⁻ v : (Fin k → BOp ℝ) × (Fin k → BOp ℝ), f (ms x) (ms x') (ms v.1) (ms v.2)
        ∂((opsMeasure β nf k).prod (opsMeasure β nf k)) = ∫⁻ p : Fin k → BOp ℝ, ∫⁻ q : Fin k → BOp ℝ,
          f (ms x) (ms x') (ms p) (ms q) ∂(opsMeasure β nf k) ∂(opsMeasure β nf k) := fun x' =>
      lintegral_prod _ (hsw2.comp (measurable_const.prodMk measurable_id)).aemeasurable
    simp only [e1, e2]
    refine lintegral_lintegral_swap ?_
    have : Measurable fun v : ((Fin k → BOp ℝ) × (Fin n → BOp ℝ)) × (Fin k → BOp ℝ) =>
        f (ms x) (ms v.1.2) (ms v.1.1) (ms v.2) :=
      hsw.comp ((measurable_fst.comp measurable_fst).prodMk
        ((measurable_snd.comp measurable_fst).prodMk measurable_snd))
    exact this.lintegral_prod_right'.aemeasurable
  have : ∀ S ∈ (Finset.univ : Finset (Fin (m + k))).powersetCard k,
      ∫⁻ z : Lab (m + k) (n + k), ∑ S' ∈ (Finset.univ : Finset (Fin (n + k))).powersetCard k,
        f (Sᶜ.val.map z.1) (S'ᶜ.val.map z.2) (S.val.map z.1) (S'.val.map z.2) ∂(labMeasure β nf (m + k) (n + k)) =
      ((n + k).choose k : ℝ≥0∞) * ∫⁻ z : Lab m n, ∫⁻ v : Lab k k, f (ms z.1) (ms z.2) (ms v.1) (ms v.2)
        ∂(labMeasure β nf k k) ∂(labMeasure β nf m n) := by
    intro S hS
    rw [lintegral_finsetSum _ fun S' hS' => hmeas S hS S' hS', Finset.sum_congr rfl (hone S hS), Finset.sum_const,
      Finset.card_powersetCard, Finset.card_univ, Fintype.card_fin, nsmul_eq_mul]
  rw [Finset.sum_congr rfl this, Finset.sum_const, Finset.card_powersetCard, Finset.card_univ, Fintype.card_fin,
    nsmul_eq_mul, mul_assoc]

/-! ### Measurability -/

theorem ms_append {m k : ℕ} (x : Fin m → BOp ℝ) (p : Fin k → BOp ℝ) : ms (Fin.append x p) = ms x + ms p := by
  rw [ms, List.ofFn_fin_append, ← Multiset.coe_add]

theorem measurable_append (m k : ℕ) :
    Measurable fun z : (Fin m → BOp ℝ) × (Fin k → BOp ℝ) => Fin.append z.1 z.2 := by
  rw [measurable_pi_iff]
  intro i
  refine Fin.addCases (fun j => ?_) (fun j => ?_) i
  · simp only [Fin.append_left]
    exact (measurable_pi_apply j).comp measurable_fst
  · simp only [Fin.append_right]
    exact (measurable_pi_apply j).comp measurable_snd

theorem CfgFun.Meas.add {A : Type} [MeasurableSpace A] {F : CfgFun W A} {ω : W} (hF : F.Meas ω) (m n k : ℕ) :
    Measurable fun z : Lab m n × Lab k k => F (ms z.1.1 + ms z.2.1) (ms z.1.2 + ms z.2.2) ω := by
  have h := (hF (m + k) (n + k)).comp
    (((measurable_append m k).comp ((measurable_fst.comp measurable_fst).prodMk (measurable_fst.comp measurable_snd))).prodMk
      ((measurable_append n k).comp ((measurable_snd.comp measurable_fst).prodMk (measurable_snd.comp measurable_snd))) :
      Measurable fun z : Lab m n × Lab k k => ((Fin.append z.1.1 z.2.1, Fin.append z.1.2 z.2.2) : Lab (m + k) (n + k)))
  refine (funext fun z => ?_ : (fun z : Lab m n × Lab k k =>
    F (ms z.1.1 + ms z.2.1) (ms z.1.2 + ms z.2.2) ω) = _) ▸ h
  simp only [Function.comp_apply, CfgFun.at, Lab.cfg]
  rw [← ms_append, ← ms_append]

theorem CfgFun.Meas.base {A : Type} [MeasurableSpace A] {F : CfgFun W A} {ω : W} (hF : F.Meas ω) (m n : ℕ) :
    Measurable fun z : Lab m n => F (ms z.1) (ms z.2) ω := hF m n

theorem measurable_bcount (E : PEnv) (cw : CWin) (m b : ℕ) :
    Measurable fun x : Fin m → BOp ℝ => bcount E cw (ms x) b := by
  have h : (fun x : Fin m → BOp ℝ => bcount E cw (ms x) b) = fun x =>
      ∑ i : Fin m, ({o : BOp ℝ | (cw.win.inWin o.1 && E.sector o.2 == b) = true}.indicator (fun _ => 1) (x i) : ℕ) := by
    funext x
    rw [bcount, ms_eq, Multiset.filter_map, Multiset.card_map]
    have : ∀ i : Fin m, ({o : BOp ℝ | (cw.win.inWin o.1 && E.sector o.2 == b) = true}.indicator
        (fun _ => 1) (x i) : ℕ) = if (cw.win.inWin (x i).1 && E.sector (x i).2 == b) = true then 1 else 0 := by
      intro i
      simp [Set.indicator_apply]
    rw [Finset.sum_congr rfl fun i _ => this i, Finset.sum_boole]
    rfl
  rw [h]
  have hs : MeasurableSet {o : BOp ℝ | (cw.win.inWin o.1 && E.sector o.2 == b) = true} := by
    have : {o : BOp ℝ | (cw.win.inWin o.1 && E.sector o.2 == b) = true} =
        Set.Icc cw.lo cw.hi ×ˢ {f | E.sector f = b} := by
      ext o
      simp [CWin.win, Set.mem_prod, and_assoc]
    rw [this]
    exact measurableSet_Icc.prod ((Set.to_countable _).measurableSet)
  exact Finset.measurable_sum _ fun i _ => (measurable_const.indicator hs).comp (measurable_pi_apply i)

theorem measurable_pickP (E : PEnv) (cw : CWin) (bl : List ℕ) (m : ℕ) :
    Measurable fun x : Fin m → BOp ℝ => pickP E cw bl (ms x) := by
  unfold pickP
  refine Finset.measurable_prod _ fun b _ => ?_
  exact (Measurable.of_discrete (f := fun c : ℕ =>
    (fallingFac ((c + bl.count b : ℕ) : ℝ) (bl.count b))⁻¹)).comp (measurable_bcount E cw m b)

theorem measurable_pickP2 (E : PEnv) (cw : CWin) (bl : List ℕ) (m n : ℕ) :
    Measurable fun z : Lab m n => pickP E cw bl (ms z.1) * pickP E cw bl (ms z.2) :=
  ((measurable_pickP E cw bl m).comp measurable_fst).mul ((measurable_pickP E cw bl n).comp measurable_snd)

theorem measurable_corrM (E : PEnv) (cw : CWin) (bl : List ℕ) (m n : ℕ) :
    Measurable fun z : Lab m n => corrM E cw bl (ms z.1) (ms z.2) := by
  unfold corrM
  exact (measurable_pickP2 E cw bl m n).const_mul _

theorem measurable_insTerm (E : PEnv) (cw : CWin) {w : CfgFun W ℝ} {ψ : CfgFun W ℝ≥0∞} {ω : W} (hw : w.Meas ω)
    (hψ : ψ.Meas ω) (bl : List ℕ) (m n k : ℕ) :
    Measurable fun z : Lab m n × Lab k k => insTerm E cw w ψ ω bl (ms z.1.1) (ms z.1.2) (ms z.2.1) (ms z.2.2) := by
  unfold insTerm
  refine Measurable.mul (ENNReal.measurable_ofReal.comp (measurable_const.min ?_)) (hψ.add m n k)
  exact ((hw.add m n k).div ((hw.base m n).comp measurable_fst)).mul
    ((measurable_corrM E cw bl m n).comp measurable_fst)

theorem measurable_remTerm (E : PEnv) (cw : CWin) {w : CfgFun W ℝ} {φ : CfgFun W ℝ≥0∞} {ω : W} (hw : w.Meas ω)
    (hφ : φ.Meas ω) (bl : List ℕ) (hbl : ∀ b ∈ bl, b < E.ns) (m n : ℕ) :
    Measurable fun z : Lab m n × Lab bl.length bl.length =>
      remTerm E cw w φ ω bl (ms z.1.1) (ms z.1.2) (ms z.2.1) (ms z.2.2) := by
  have hh : Measurable fun p : Fin bl.length → BOp ℝ => hitE E cw bl (ms p) := measurable_hit E cw bl hbl
  unfold remTerm
  refine Measurable.mul (Measurable.mul (Measurable.mul ?_ ?_) ?_) (Measurable.mul ?_ ?_)
  · exact hh.comp (measurable_fst.comp measurable_snd)
  · exact hh.comp (measurable_snd.comp measurable_snd)
  · exact ENNReal.measurable_ofReal.comp (((measurable_pickP2 E cw bl m n).comp measurable_fst).const_mul _)
  · refine ENNReal.measurable_ofReal.comp (measurable_const.min ?_)
    exact (((hw.base m n).comp measurable_fst).div (hw.add m n bl.length)).mul
      ((measurable_corrM E cw bl m n).comp measurable_fst).inv
  · exact (hφ.base m n).comp measurable_fst

/-! ### The balance for given operators -/

/-- The factor `insCorr` is the ratio of the probability densities. -/
theorem dens_corrM {β : ℝ} {cw : CWin} (hcw : cw.OK β) (E : PEnv) (bl : List ℕ) (hbl : ∀ b ∈ bl, b < E.ns)
    (X X' P : Multiset (BOp ℝ)) (hP : Hit E cw bl P) :
    0 < corrM E cw bl X X' ∧
      listDens E cw bl ^ 2 * corrM E cw bl X X' = pickP E cw bl X * pickP E cw bl X' := by
  have hlen : 0 < cw.hi - cw.lo := sub_pos.2 hcw.lt
  have hfl : ∀ b, bl.count b ≠ 0 → (0 : ℝ) < ((blockFlavors E b).length : ℝ) := by
    intro b hb
    rw [← hP.2 b] at hb
    obtain ⟨o, ho⟩ := Multiset.card_pos_iff_exists_mem.1 (Nat.pos_of_ne_zero hb)
    rw [Multiset.mem_filter] at ho
    have : o.2 ∈ blockFlavors E b := by
      rw [blockFlavors, List.mem_filter]
      exact ⟨List.mem_range.2 (hP.1 o ho.1).2, by simpa using ho.2⟩
    exact_mod_cast List.length_pos_of_mem this
  have hpow : ∀ b, (0 : ℝ) < ((blockFlavors E b).length : ℝ) ^ bl.count b := by
    intro b
    by_cases h0 : bl.count b = 0
    · rw [h0]; simp
    · exact pow_pos (hfl b h0) _
  have hsub : bl.toFinset ⊆ Finset.range E.ns := fun b hb =>
    Finset.mem_range.2 (hbl b (List.mem_toFinset.1 hb))
  have hld : listDens E cw bl = ((cw.hi - cw.lo) ^ bl.length)⁻¹ *
      ∏ b ∈ Finset.range E.ns, (((blockFlavors E b).length : ℝ) ^ bl.count b)⁻¹ := by
    have e1 : bl.map (blockDens E cw) = bl.map fun b => (cw.hi - cw.lo)⁻¹ * ((blockFlavors E b).length : ℝ)⁻¹ :=
      List.map_congr_left fun b _ => by rw [blockDens, one_div, mul_inv]
    rw [listDens, e1, List.prod_map_mul, List.map_const', List.prod_replicate, inv_pow]
    congr 1
    rw [Finset.prod_list_map_count]
    refine (Finset.prod_congr rfl fun b _ => by rw [inv_pow]).trans (Finset.prod_subset hsub fun b _ hb => ?_)
    rw [List.count_eq_zero.2 (fun h => hb (List.mem_toFinset.2 h)), pow_zero, inv_one]
  have hprod : 0 < ∏ b ∈ Finset.range E.ns, ((blockFlavors E b).length : ℝ) ^ bl.count b :=
    Finset.prod_pos fun b _ => hpow b
  have hsq : ∏ b ∈ Finset.range E.ns, ((blockFlavors E b).length : ℝ) ^ (2 * bl.count b) =
      (∏ b ∈ Finset.range E.ns, ((blockFlavors E b).length : ℝ) ^ bl.count b) ^ 2 := by
    rw [← Finset.prod_pow]
    exact Finset.prod_congr rfl fun b _ => by rw [mul_comm, pow_mul]
  constructor
  · rw [corrM, hsq]
    exact mul_pos (mul_pos (pow_pos hlen _) (pow_pos hprod _)) (mul_pos (pickP_pos _ _ _ _) (pickP_pos _ _ _ _))
  · rw [corrM, hsq, hld, Finset.prod_inv_distrib, mul_comm 2 bl.length, pow_mul]
    have h1 : (cw.hi - cw.lo) ^ bl.length ≠ 0 := (pow_pos hlen _).ne'
    have h2 := hprod.ne'
    field_simp

theorem metropolis_real {w0 w1 d C pp : ℝ} (h0 : 0 ≤ w0) (h1 : 0 ≤ w1) (hC : 0 < C)
    (hd : d * C = pp) (hpp : 0 < pp) : w0 * d * min 1 (w1 / w0 * C) = w1 * pp * min 1 (w0 / w1 * C⁻¹) := by
  rcases h0.eq_or_lt with h0 | h0
  · subst h0; simp
  rcases h1.eq_or_lt with h1 | h1
  · subst h1; simp
  have hd0 : 0 < d := by
    by_contra h
    push Not at h
    nlinarith
  rw [mul_min_of_nonneg _ _ (mul_pos h0 hd0).le, mul_min_of_nonneg _ _ (mul_pos h1 hpp).le, min_comm, mul_one, mul_one]
  subst hd
  congr 1
  · field_simp
  · field_simp

/-- Both flows between `X`, `X'` and `X + P`, `X' + Q`. -/
theorem term_balance {β : ℝ} {cw : CWin} (hcw : cw.OK β) (E : PEnv) (bl : List ℕ) (hbl : ∀ b ∈ bl, b < E.ns)
    (w : CfgFun W ℝ) (φ ψ : CfgFun W ℝ≥0∞) (ω : W) (h0 : ∀ X X', 0 ≤ w X X' ω) (X X' P Q : Multiset (BOp ℝ)) :
    (facs E bl : ℝ≥0∞) ^ 2 * (hitE E cw bl P * hitE E cw bl Q * (φ X X' ω * ENNReal.ofReal (w X X' ω) *
        (ENNReal.ofReal (listDens E cw bl ^ 2) * insTerm E cw w ψ ω bl X X' P Q))) =
      ψ (X + P) (X' + Q) ω * ENNReal.ofReal (w (X + P) (X' + Q) ω) * remTerm E cw w φ ω bl X X' P Q := by
  by_cases hP : Hit E cw bl P
  swap
  · simp [hitE, remTerm, hP]
  by_cases hQ : Hit E cw bl Q
  swap
  · simp [hitE, remTerm, hQ]
  obtain ⟨hC, hd⟩ := dens_corrM hcw E bl hbl X X' P hP
  have key := metropolis_real (h0 X X') (h0 (X + P) (X' + Q)) hC hd (mul_pos (pickP_pos _ _ _ _) (pickP_pos _ _ _ _))
  have key' : ENNReal.ofReal (w X X' ω) * ENNReal.ofReal (listDens E cw bl ^ 2) *
      ENNReal.ofReal (min 1 (w (X + P) (X' + Q) ω / w X X' ω * corrM E cw bl X X')) =
      ENNReal.ofReal (w (X + P) (X' + Q) ω) * ENNReal.ofReal (pickP E cw bl X * pickP E cw bl X') *
        ENNReal.ofReal (min 1 (w X X' ω / w (X + P) (X' + Q) ω * (corrM E cw bl X X')⁻¹)) := by
    rw [← ENNReal.ofReal_mul (h0 _ _), ← ENNReal.ofReal_mul (mul_nonneg (h0 _ _) (sq_nonneg _)), key,
      ENNReal.ofReal_mul (mul_nonneg (h0 _ _) (mul_pos (pickP_pos _ _ _ _) (pickP_pos _ _ _ _)).le),
      ENNReal.ofReal_mul (h0 _ _)]
  have hfac : ENNReal.ofReal ((facs E bl : ℝ) ^ 2 * (pickP E cw bl X * pickP E cw bl X')) =
      (facs E bl : ℝ≥0∞) ^ 2 * ENNReal.ofReal (pickP E cw bl X * pickP E cw bl X') := by
    rw [ENNReal.ofReal_mul (sq_nonneg _), ENNReal.ofReal_pow (Nat.cast_nonneg _), ENNReal.ofReal_natCast]
  rw [remTerm, insTerm, hfac, hitE, hitE, if_pos hP, if_pos hQ, one_mul, one_mul, one_mul]
  calc _ = (facs E bl : ℝ≥0∞) ^ 2 * φ X X' ω * ψ (X + P) (X' + Q) ω * (ENNReal.ofReal (w X X' ω) *
        ENNReal.ofReal (listDens E cw bl ^ 2) *
        ENNReal.ofReal (min 1 (w (X + P) (X' + Q) ω / w X X' ω * corrM E cw bl X X'))) := by ring
    _ = _ := by rw [key']; ring

end CTHyb
