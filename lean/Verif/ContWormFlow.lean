import Verif.ContInsProps
import Verif.ContWorm
import Verif.WormMoveLemmas

/-!
Lemmas for `Verif.ContWormProps`: picking operators out of the bath and drawing new ones, with different
lists of flavors for creation and annihilation operators.
-/

namespace CTHyb

open Rand MeasureTheory ENNReal

theorem lintegral_draws₂ (β : ℝ) (E : PEnv) (cw : CWin) (bl bl' : List ℕ)
    (hbl : ∀ b ∈ bl, b < E.ns) (hbl' : ∀ b ∈ bl', b < E.ns) (g : Multiset (BOp ℝ) → Multiset (BOp ℝ) → ℝ≥0∞)
    (hg : Measurable fun z : Lab bl.length bl'.length => g (ms z.1) (ms z.2)) :
    (bl.length.factorial : ℝ≥0∞) * (bl'.length.factorial : ℝ≥0∞) *
        ∫⁻ z, g (ms z.1) (ms z.2) ∂((listMeasure β E cw bl).prod (listMeasure β E cw bl')) =
      (facs E bl : ℝ≥0∞) * (facs E bl' : ℝ≥0∞) * ∫⁻ z : Lab bl.length bl'.length,
        hitE E cw bl (ms z.1) * hitE E cw bl' (ms z.2) * g (ms z.1) (ms z.2)
          ∂(labMeasure β E.nf bl.length bl'.length) := by
  have hq : ∀ p : Fin bl.length → BOp ℝ, Measurable fun q : Fin bl'.length → BOp ℝ => g (ms p) (ms q) := fun p =>
    hg.comp (measurable_const.prodMk measurable_id)
  have hh : Measurable fun p : Fin bl.length → BOp ℝ => hitE E cw bl (ms p) := measurable_hit E cw bl hbl
  have hh' : Measurable fun p : Fin bl'.length → BOp ℝ => hitE E cw bl' (ms p) := measurable_hit E cw bl' hbl'
  have hI : Measurable fun p : Fin bl.length → BOp ℝ =>
      ∫⁻ q, hitE E cw bl' (ms q) * g (ms p) (ms q) ∂(opsMeasure β E.nf bl'.length) := by
    refine Measurable.lintegral_prod_right' (f := fun z : Lab bl.length bl'.length =>
      hitE E cw bl' (ms z.2) * g (ms z.1) (ms z.2)) ?_
    exact (hh'.comp measurable_snd).mul hg
  have h1 : ∀ p : Fin bl.length → BOp ℝ, (bl'.length.factorial : ℝ≥0∞) * ∫⁻ q, g (ms p) (ms q)
      ∂(listMeasure β E cw bl') = (facs E bl' : ℝ≥0∞) * ∫⁻ q, hitE E cw bl' (ms q) * g (ms p) (ms q)
        ∂(opsMeasure β E.nf bl'.length) := fun p => lintegral_listMeasure β E cw bl' hbl' (g (ms p)) (hq p)
  have h2 := lintegral_listMeasure β E cw bl hbl (fun P => ∫⁻ q : Fin bl'.length → BOp ℝ,
    hitE E cw bl' (ms q) * g P (ms q) ∂(opsMeasure β E.nf bl'.length)) hI
  rw [lintegral_prod _ hg.aemeasurable, mul_assoc, ← lintegral_const_mul' _ _ (ENNReal.natCast_ne_top _)]
  simp only [h1]
  rw [lintegral_const_mul' _ _ (ENNReal.natCast_ne_top _), ← mul_assoc, mul_comm (bl.length.factorial : ℝ≥0∞),
    mul_assoc, h2, ← mul_assoc, mul_comm (facs E bl' : ℝ≥0∞)]
  congr 1
  unfold labMeasure
  have hprod : Measurable fun z : Lab bl.length bl'.length =>
      hitE E cw bl (ms z.1) * hitE E cw bl' (ms z.2) * g (ms z.1) (ms z.2) :=
    ((hh.comp measurable_fst).mul (hh'.comp measurable_snd)).mul hg
  rw [lintegral_prod _ hprod.aemeasurable]
  refine lintegral_congr fun p => ?_
  have hm : Measurable fun q : Fin bl'.length → BOp ℝ => hitE E cw bl' (ms q) * g (ms p) (ms q) := hh'.mul (hq p)
  rw [← lintegral_const_mul _ hm]
  refine lintegral_congr fun q => ?_
  rw [mul_assoc]
  rfl

theorem lintegral_labels₂ (β : ℝ) (nf m n k j : ℕ)
    (f : Multiset (BOp ℝ) → Multiset (BOp ℝ) → Multiset (BOp ℝ) → Multiset (BOp ℝ) → ℝ≥0∞)
    (hf : Measurable fun z : Lab m n × Lab k j => f (ms z.1.1) (ms z.1.2) (ms z.2.1) (ms z.2.2)) :
    ∫⁻ z : Lab (m + k) (n + j), ∑ S ∈ (Finset.univ : Finset (Fin (m + k))).powersetCard k,
        ∑ S' ∈ (Finset.univ : Finset (Fin (n + j))).powersetCard j,
          f (Sᶜ.val.map z.1) (S'ᶜ.val.map z.2) (S.val.map z.1) (S'.val.map z.2) ∂(labMeasure β nf (m + k) (n + j)) =
      ((m + k).choose k : ℝ≥0∞) * ((n + j).choose j : ℝ≥0∞) *
        ∫⁻ z : Lab m n, ∫⁻ v : Lab k j, f (ms z.1) (ms z.2) (ms v.1) (ms v.2) ∂(labMeasure β nf k j)
          ∂(labMeasure β nf m n) := by
  have hcard : ∀ {a k : ℕ} (S : Finset (Fin (a + k))), S ∈ (Finset.univ : Finset (Fin (a + k))).powersetCard k →
      Sᶜ.card = a ∧ Sᶜᶜ.card = k := by
    intro a k S hS
    have := (Finset.mem_powersetCard.1 hS).2
    rw [compl_compl, Finset.card_compl, Fintype.card_fin, this]
    exact ⟨by omega, rfl⟩
  -- one pair of sets of labels
  have hF : Measurable fun v : ((Fin m → BOp ℝ) × (Fin k → BOp ℝ)) × ((Fin n → BOp ℝ) × (Fin j → BOp ℝ)) =>
      f (ms v.1.1) (ms v.2.1) (ms v.1.2) (ms v.2.2) :=
    hf.comp (((measurable_fst.comp measurable_fst).prodMk (measurable_fst.comp measurable_snd)).prodMk
      ((measurable_snd.comp measurable_fst).prodMk (measurable_snd.comp measurable_snd)))
  have hmp : ∀ (S : Finset (Fin (m + k))) (S' : Finset (Fin (n + j))) (h : Sᶜ.card = m ∧ Sᶜᶜ.card = k)
      (h' : S'ᶜ.card = n ∧ S'ᶜᶜ.card = j),
      MeasurePreserving (fun z : Lab (m + k) (n + j) => (splitLab S h.1 h.2 z.1, splitLab S' h'.1 h'.2 z.2))
        (labMeasure β nf (m + k) (n + j))
        (((opsMeasure β nf m).prod (opsMeasure β nf k)).prod ((opsMeasure β nf n).prod (opsMeasure β nf j))) :=
    fun S S' h h' => (measurePreserving_splitLab β nf S h.1 h.2).prod (measurePreserving_splitLab β nf S' h'.1 h'.2)
  have heq : ∀ (S : Finset (Fin (m + k))) (S' : Finset (Fin (n + j))) (h : Sᶜ.card = m ∧ Sᶜᶜ.card = k)
      (h' : S'ᶜ.card = n ∧ S'ᶜᶜ.card = j) (z : Lab (m + k) (n + j)),
      f (Sᶜ.val.map z.1) (S'ᶜ.val.map z.2) (S.val.map z.1) (S'.val.map z.2) =
        f (ms (splitLab S h.1 h.2 z.1).1) (ms (splitLab S' h'.1 h'.2 z.2).1) (ms (splitLab S h.1 h.2 z.1).2)
          (ms (splitLab S' h'.1 h'.2 z.2).2) := by
    intro S S' h h' z
    rw [splitLab_fst, splitLab_fst, splitLab_snd, splitLab_snd]
  have hmeas : ∀ S ∈ (Finset.univ : Finset (Fin (m + k))).powersetCard k,
      ∀ S' ∈ (Finset.univ : Finset (Fin (n + j))).powersetCard j, Measurable fun z : Lab (m + k) (n + j) =>
        f (Sᶜ.val.map z.1) (S'ᶜ.val.map z.2) (S.val.map z.1) (S'.val.map z.2) := by
    intro S hS S' hS'
    simp only [heq S S' (hcard S hS) (hcard S' hS')]
    exact hF.comp (hmp S S' (hcard S hS) (hcard S' hS')).measurable
  rw [lintegral_finsetSum _ fun S hS => Finset.measurable_sum _ fun S' hS' => hmeas S hS S' hS']
  have hone : ∀ S ∈ (Finset.univ : Finset (Fin (m + k))).powersetCard k,
      ∀ S' ∈ (Finset.univ : Finset (Fin (n + j))).powersetCard j, ∫⁻ z : Lab (m + k) (n + j),
        f (Sᶜ.val.map z.1) (S'ᶜ.val.map z.2) (S.val.map z.1) (S'.val.map z.2) ∂(labMeasure β nf (m + k) (n + j)) =
        ∫⁻ z : Lab m n, ∫⁻ v : Lab k j, f (ms z.1) (ms z.2) (ms v.1) (ms v.2) ∂(labMeasure β nf k j)
          ∂(labMeasure β nf m n) := by
    intro S hS S' hS'
    simp only [heq S S' (hcard S hS) (hcard S' hS')]
    have := (hmp S S' (hcard S hS) (hcard S' hS')).lintegral_comp hF
    rw [this]
    rw [lintegral_prod _ hF.aemeasurable, lintegral_prod _ hF.lintegral_prod_right'.aemeasurable]
    unfold labMeasure
    rw [lintegral_prod _ hf.lintegral_prod_right'.aemeasurable]
    refine lintegral_congr fun x => ?_
    have hsw : Measurable fun v : (Fin k → BOp ℝ) × ((Fin n → BOp ℝ) × (Fin j → BOp ℝ)) =>
        f (ms x) (ms v.2.1) (ms v.1) (ms v.2.2) :=
      hF.comp ((measurable_const.prodMk measurable_fst).prodMk measurable_snd)
    have hsw2 : Measurable fun v : (Fin n → BOp ℝ) × ((Fin k → BOp ℝ) × (Fin j → BOp ℝ)) =>
        f (ms x) (ms v.1) (ms v.2.1) (ms v.2.2) :=
      hf.comp ((measurable_const.prodMk measurable_fst).prodMk measurable_snd)
    have e1 : ∀ p : Fin k → BOp ℝ, ∫⁻ v : (Fin n → BOp ℝ) × (Fin j → BOp ℝ), f (ms x) (ms v.1) (ms p) (ms v.2)
        ∂((opsMeasure β nf n).prod (opsMeasure β nf j)) = ∫⁻ x' : Fin n → BOp ℝ, ∫⁻ q : Fin j → BOp ℝ,
          f (ms x) (ms x') (ms p) (ms q) ∂(opsMeasure β nf j) ∂(opsMeasure β nf n) := fun p =>
      lintegral_prod _ (hsw.comp (measurable_const.prodMk measurable_id)).aemeasurable
    have e2 : ∀ x' : Fin n → BOp ℝ, ∫⁻ v : (Fin k → BOp ℝ) × (Fin j → BOp ℝ), f (ms x) (ms x') (ms v.1) (ms v.2)
        ∂((opsMeasure β nf k).prod (opsMeasure β nf j)) = ∫⁻ p : Fin k → BOp ℝ, ∫⁻ q : Fin j → BOp ℝ,
          f (ms x) (ms x') (ms p) (ms q) ∂(opsMeasure β nf j) ∂(opsMeasure β nf k) := fun x' =>
      lintegral_prod _ (hsw2.comp (measurable_const.prodMk measurable_id)).aemeasurable
    simp only [e1, e2]
    refine lintegral_lintegral_swap ?_
    have : Measurable fun v : ((Fin k → BOp ℝ) × (Fin n → BOp ℝ)) × (Fin j → BOp ℝ) =>
        f (ms x) (ms v.1.2) (ms v.1.1) (ms v.2) :=
      hsw.comp ((measurable_fst.comp measurable_fst).prodMk
        ((measurable_snd.comp measurable_fst).prodMk measurable_snd))
    exact this.lintegral_prod_right'.aemeasurable
  have : ∀ S ∈ (Finset.univ : Finset (Fin (m + k))).powersetCard k,
      ∫⁻ z : Lab (m + k) (n + j), ∑ S' ∈ (Finset.univ : Finset (Fin (n + j))).powersetCard j,
        f (Sᶜ.val.map z.1) (S'ᶜ.val.map z.2) (S.val.map z.1) (S'.val.map z.2) ∂(labMeasure β nf (m + k) (n + j)) =
      ((n + j).choose j : ℝ≥0∞) * ∫⁻ z : Lab m n, ∫⁻ v : Lab k j, f (ms z.1) (ms z.2) (ms v.1) (ms v.2)
        ∂(labMeasure β nf k j) ∂(labMeasure β nf m n) := by
    intro S hS
    rw [lintegral_finsetSum _ fun S' hS' => hmeas S hS S' hS', Finset.sum_congr rfl (hone S hS), Finset.sum_const,
      Finset.card_powersetCard, Finset.card_univ, Fintype.card_fin, nsmul_eq_mul]
  rw [Finset.sum_congr rfl this, Finset.sum_const, Finset.card_powersetCard, Finset.card_univ, Fintype.card_fin,
    nsmul_eq_mul, mul_assoc]


theorem fac_arith₂ (m n k j : ℕ) (A : ℝ≥0∞) : ((m.factorial * n.factorial : ℕ) : ℝ≥0∞)⁻¹ * A =
    (((m + k).factorial * (n + j).factorial : ℕ) : ℝ≥0∞)⁻¹ *
      (((m + k).choose k : ℝ≥0∞) * ((n + j).choose j : ℝ≥0∞) *
        ((k.factorial : ℝ≥0∞) * (j.factorial : ℝ≥0∞) * A)) := by
  have hfac : (m + k).factorial * (n + j).factorial =
      ((m + k).choose k * (n + j).choose j * (k.factorial * j.factorial)) * (m.factorial * n.factorial) := by
    have e1 := Nat.choose_mul_factorial_mul_factorial (Nat.le_add_left k m)
    have e2 := Nat.choose_mul_factorial_mul_factorial (Nat.le_add_left j n)
    rw [Nat.add_sub_cancel] at e1 e2
    rw [← e1, ← e2]; ring
  have hne : (m + k).choose k * (n + j).choose j * (k.factorial * j.factorial) ≠ 0 :=
    mul_ne_zero (mul_ne_zero (Nat.choose_pos (Nat.le_add_left k m)).ne' (Nat.choose_pos (Nat.le_add_left j n)).ne')
      (mul_ne_zero (Nat.factorial_ne_zero _) (Nat.factorial_ne_zero _))
  rw [hfac, Nat.cast_mul (_ * _) (_ * _), ENNReal.mul_inv (Or.inl (Nat.cast_ne_zero.2 hne)) (Or.inl (ENNReal.natCast_ne_top _))]
  have h2 : ((m + k).choose k : ℝ≥0∞) * ((n + j).choose j : ℝ≥0∞) * ((k.factorial : ℝ≥0∞) * (j.factorial : ℝ≥0∞) * A) =
      (((m + k).choose k * (n + j).choose j * (k.factorial * j.factorial) : ℕ) : ℝ≥0∞) * A := by
    push_cast; ring
  rw [h2]
  generalize (m + k).choose k * (n + j).choose j * (k.factorial * j.factorial) = a at hne
  generalize ((m.factorial * n.factorial : ℕ) : ℝ≥0∞)⁻¹ = c
  calc c * A = (((a : ℝ≥0∞))⁻¹ * a) * (c * A) := by
        rw [ENNReal.inv_mul_cancel (Nat.cast_ne_zero.2 hne) (ENNReal.natCast_ne_top _), one_mul]
    _ = _ := by ring

/-- The operators `S`, `S'` among the labels, with the flavors `bl`, `bl'`. -/
noncomputable def pickSum (E : PEnv) (cw : CWin) (bl bl' : List ℕ)
    (A : Multiset (BOp ℝ) → Multiset (BOp ℝ) → Multiset (BOp ℝ) → Multiset (BOp ℝ) → ℝ≥0∞) {m n : ℕ} (z : Lab m n) : ℝ≥0∞ :=
  ∑ S ∈ (Finset.univ : Finset (Fin m)).powersetCard bl.length,
    ∑ S' ∈ (Finset.univ : Finset (Fin n)).powersetCard bl'.length,
      (facs E bl : ℝ≥0∞) * (facs E bl' : ℝ≥0∞) * (hitE E cw bl (S.val.map z.1) * hitE E cw bl' (S'.val.map z.2) *
        A (Sᶜ.val.map z.1) (S'ᶜ.val.map z.2) (S.val.map z.1) (S'.val.map z.2))

/-- Drawing new operators, and picking them again. -/
theorem pick_draw_flow (β : ℝ) (E : PEnv) (cw : CWin) (bl bl' : List ℕ)
    (hbl : ∀ b ∈ bl, b < E.ns) (hbl' : ∀ b ∈ bl', b < E.ns) (m n : ℕ)
    (A : Multiset (BOp ℝ) → Multiset (BOp ℝ) → Multiset (BOp ℝ) → Multiset (BOp ℝ) → ℝ≥0∞)
    (hA : Measurable fun z : Lab m n × Lab bl.length bl'.length => A (ms z.1.1) (ms z.1.2) (ms z.2.1) (ms z.2.2)) :
    ((m.factorial * n.factorial : ℕ) : ℝ≥0∞)⁻¹ * ∫⁻ z : Lab m n,
        ∫⁻ v, A (ms z.1) (ms z.2) (ms v.1) (ms v.2) ∂((listMeasure β E cw bl).prod (listMeasure β E cw bl'))
          ∂(labMeasure β E.nf m n) =
      (((m + bl.length).factorial * (n + bl'.length).factorial : ℕ) : ℝ≥0∞)⁻¹ *
        ∫⁻ z, pickSum E cw bl bl' A z ∂(labMeasure β E.nf (m + bl.length) (n + bl'.length)) := by
  have hh : Measurable fun p : Fin bl.length → BOp ℝ => hitE E cw bl (ms p) := measurable_hit E cw bl hbl
  have hh' : Measurable fun p : Fin bl'.length → BOp ℝ => hitE E cw bl' (ms p) := measurable_hit E cw bl' hbl'
  have hm : Measurable fun z : Lab m n × Lab bl.length bl'.length =>
      hitE E cw bl (ms z.2.1) * hitE E cw bl' (ms z.2.2) * A (ms z.1.1) (ms z.1.2) (ms z.2.1) (ms z.2.2) :=
    ((hh.comp (measurable_fst.comp measurable_snd)).mul (hh'.comp (measurable_snd.comp measurable_snd))).mul hA
  have hl := lintegral_labels₂ β E.nf m n bl.length bl'.length (fun X X' P Q =>
    (facs E bl : ℝ≥0∞) * (facs E bl' : ℝ≥0∞) * (hitE E cw bl P * hitE E cw bl' Q * A X X' P Q)) (hm.const_mul _)
  unfold pickSum
  rw [hl, fac_arith₂ m n bl.length bl'.length]
  congr 2
  have hne : (bl.length.factorial : ℝ≥0∞) * (bl'.length.factorial : ℝ≥0∞) ≠ ∞ :=
    ENNReal.mul_ne_top (ENNReal.natCast_ne_top _) (ENNReal.natCast_ne_top _)
  rw [← lintegral_const_mul' _ _ hne]
  refine lintegral_congr fun z => ?_
  rw [lintegral_draws₂ β E cw bl bl' hbl hbl' (A (ms z.1) (ms z.2)) (measurable_right hA z),
    ← lintegral_const_mul _ (measurable_right hm z)]

theorem CfgFun.Meas.add₂ {W A : Type} [MeasurableSpace A] {F : CfgFun W A} {ω : W} (hF : F.Meas ω) (m n k j : ℕ) :
    Measurable fun z : Lab m n × Lab k j => F (ms z.1.1 + ms z.2.1) (ms z.1.2 + ms z.2.2) ω := by
  have h := (hF (m + k) (n + j)).comp
    (((measurable_append m k).comp ((measurable_fst.comp measurable_fst).prodMk (measurable_fst.comp measurable_snd))).prodMk
      ((measurable_append n j).comp ((measurable_snd.comp measurable_fst).prodMk (measurable_snd.comp measurable_snd))) :
      Measurable fun z : Lab m n × Lab k j => ((Fin.append z.1.1 z.2.1, Fin.append z.1.2 z.2.2) : Lab (m + k) (n + j)))
  refine (funext fun z => ?_ : (fun z : Lab m n × Lab k j =>
    F (ms z.1.1 + ms z.2.1) (ms z.1.2 + ms z.2.2) ω) = _) ▸ h
  show F (ms z.1.1 + ms z.2.1) (ms z.1.2 + ms z.2.2) ω =
    F (ms (Fin.append z.1.1 z.2.1)) (ms (Fin.append z.1.2 z.2.2)) ω
  rw [ms_append, ms_append]

end CTHyb
