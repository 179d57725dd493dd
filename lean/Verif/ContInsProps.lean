import Verif.ContInsFlow
import Mathlib.Topology.Algebra.InfiniteSum.ENNReal

/-!
# Detailed balance of the pair insertion and removal in continuous time

Specification: `Lab`, `labMeasure`, `orderFlow` in `Verif/ContInsFlow.lean`.
-/

namespace CTHyb

open Rand MeasureTheory ENNReal

variable {W : Type}

/-! ### Almost all configurations -/

theorem ae_flavors (β : ℝ) (nf n : ℕ) : ∀ᵐ y ∂opsMeasure β nf n, ∀ i, (y i).2 < nf := by
  rw [ae_all_iff]
  intro i
  have h1 : ∀ᵐ o ∂opMeasure β nf, o.2 < nf := by
    have h : ∀ᵐ f ∂((Measure.count : Measure ℕ).restrict (Set.Iio nf)), f < nf :=
      ae_restrict_mem measurableSet_Iio
    exact Measure.quasiMeasurePreserving_snd.ae h
  exact (Measure.quasiMeasurePreserving_eval (fun _ : Fin n => opMeasure β nf) i).ae h1

theorem ae_labels (β : ℝ) (nf m n : ℕ) : ∀ᵐ z ∂labMeasure β nf m n,
    (Function.Injective z.1 ∧ ∀ i, (z.1 i).2 < nf) ∧ (Function.Injective z.2 ∧ ∀ i, (z.2 i).2 < nf) := by
  have h : ∀ k, ∀ᵐ y ∂opsMeasure β nf k, Function.Injective y ∧ ∀ i, (y i).2 < nf := fun k =>
    (ae_injective β nf k).and (ae_flavors β nf k)
  exact (Measure.quasiMeasurePreserving_fst.ae (h m)).and (Measure.quasiMeasurePreserving_snd.ae (h n))

/-! ### The two flows for given blocks -/

theorem measurable_right {X Y : Type} [MeasurableSpace X] [MeasurableSpace Y] {f : X × Y → ℝ≥0∞}
    (hf : Measurable f) (x : X) : Measurable fun y => f (x, y) := hf.comp measurable_prodMk_left

theorem measurable_insTerm_right (E : PEnv) (cw : CWin) {w : CfgFun W ℝ} {ψ : CfgFun W ℝ≥0∞} {ω : W} (hw : w.Meas ω)
    (hψ : ψ.Meas ω) (bl : List ℕ) {m n : ℕ} (z : Lab m n) (k : ℕ) :
    Measurable fun v : Lab k k => insTerm E cw w ψ ω bl (ms z.1) (ms z.2) (ms v.1) (ms v.2) :=
  measurable_right (f := fun a : Lab m n × Lab k k =>
    insTerm E cw w ψ ω bl (ms a.1.1) (ms a.1.2) (ms a.2.1) (ms a.2.2)) (measurable_insTerm E cw hw hψ bl m n k) z

/-- Both ends of a removal. -/
noncomputable def bothTerm (E : PEnv) (cw : CWin) (w : CfgFun W ℝ) (φ ψ : CfgFun W ℝ≥0∞) (ω : W) (bl : List ℕ)
    (X X' P Q : Multiset (BOp ℝ)) : ℝ≥0∞ :=
  ψ (X + P) (X' + Q) ω * ENNReal.ofReal (w (X + P) (X' + Q) ω) * remTerm E cw w φ ω bl X X' P Q

theorem measurable_bothTerm (E : PEnv) (cw : CWin) {w : CfgFun W ℝ} {φ ψ : CfgFun W ℝ≥0∞} {ω : W} (hw : w.Meas ω)
    (hφ : φ.Meas ω) (hψ : ψ.Meas ω) (bl : List ℕ) (hbl : ∀ b ∈ bl, b < E.ns) (m n : ℕ) :
    Measurable fun z : Lab m n × Lab bl.length bl.length =>
      bothTerm E cw w φ ψ ω bl (ms z.1.1) (ms z.1.2) (ms z.2.1) (ms z.2.2) :=
  ((hψ.add m n bl.length).mul (ENNReal.measurable_ofReal.comp (hw.add m n bl.length))).mul
      (measurable_remTerm E cw hw hφ bl hbl m n)

/-- Integral of `bothTerm`. -/
noncomputable def bothFlow (β : ℝ) (E : PEnv) (cw : CWin) (w : CfgFun W ℝ) (φ ψ : CfgFun W ℝ≥0∞) (ω : W)
    (bl : List ℕ) (m n : ℕ) : ℝ≥0∞ :=
  ∫⁻ z : Lab m n, ∫⁻ v : Lab bl.length bl.length, bothTerm E cw w φ ψ ω bl (ms z.1) (ms z.2) (ms v.1) (ms v.2)
    ∂(labMeasure β E.nf bl.length bl.length) ∂(labMeasure β E.nf m n)

theorem ins_point {β : ℝ} {cw : CWin} (hcw : cw.OK β) (E : PEnv) (bl : List ℕ) (hbl : ∀ b ∈ bl, b < E.ns)
    (w : CfgFun W ℝ) (φ ψ : CfgFun W ℝ≥0∞) (ω : W) (h0 : ∀ X X', 0 ≤ w X X' ω) (X X' : Multiset (BOp ℝ))
    (hz : Measurable fun v : Lab bl.length bl.length => insTerm E cw w ψ ω bl X X' (ms v.1) (ms v.2)) :
    (bl.length.factorial : ℝ≥0∞) ^ 2 * (φ X X' ω * ENNReal.ofReal (w X X' ω) *
        (ENNReal.ofReal (listDens E cw bl ^ 2) *
          ∫⁻ v, insTerm E cw w ψ ω bl X X' (ms v.1) (ms v.2)
            ∂((listMeasure β E cw bl).prod (listMeasure β E cw bl)))) =
      ∫⁻ v : Lab bl.length bl.length, bothTerm E cw w φ ψ ω bl X X' (ms v.1) (ms v.2)
        ∂(labMeasure β E.nf bl.length bl.length) := by
  have hh : Measurable fun p : Fin bl.length → BOp ℝ => hitE E cw bl (ms p) := measurable_hit E cw bl hbl
  have hz' : Measurable fun v : Lab bl.length bl.length => hitE E cw bl (ms v.1) * hitE E cw bl (ms v.2) *
      insTerm E cw w ψ ω bl X X' (ms v.1) (ms v.2) :=
    ((hh.comp measurable_fst).mul (hh.comp measurable_snd)).mul hz
  have hd := lintegral_draws β E cw bl hbl (insTerm E cw w ψ ω bl X X') hz
  have hc := lintegral_const_mul (μ := labMeasure β E.nf bl.length bl.length)
    (φ X X' ω * ENNReal.ofReal (w X X' ω) * ENNReal.ofReal (listDens E cw bl ^ 2) * (facs E bl : ℝ≥0∞) ^ 2) hz'
  have hb : ∀ v : Lab bl.length bl.length, bothTerm E cw w φ ψ ω bl X X' (ms v.1) (ms v.2) =
      φ X X' ω * ENNReal.ofReal (w X X' ω) * ENNReal.ofReal (listDens E cw bl ^ 2) * (facs E bl : ℝ≥0∞) ^ 2 *
        (hitE E cw bl (ms v.1) * hitE E cw bl (ms v.2) * insTerm E cw w ψ ω bl X X' (ms v.1) (ms v.2)) := by
    intro v
    rw [bothTerm, ← term_balance hcw E bl hbl w φ ψ ω h0]
    generalize insTerm E cw w ψ ω bl X X' (ms v.1) (ms v.2) = a
    generalize hitE E cw bl (ms v.1) = b
    generalize hitE E cw bl (ms v.2) = c
    ring
  rw [lintegral_congr hb, hc]
  generalize ∫⁻ v, insTerm E cw w ψ ω bl X X' (ms v.1) (ms v.2)
            ∂((listMeasure β E cw bl).prod (listMeasure β E cw bl)) = I at hd ⊢
  rw [mul_assoc (φ X X' ω * ENNReal.ofReal (w X X' ω) * ENNReal.ofReal (listDens E cw bl ^ 2)), ← hd]
  ring

theorem ins_flow {β : ℝ} {cw : CWin} (hcw : cw.OK β) (E : PEnv) (bl : List ℕ) (hbl : ∀ b ∈ bl, b < E.ns)
    (w : CfgFun W ℝ) (φ ψ : CfgFun W ℝ≥0∞) (ω : W) (hw : w.Meas ω) (hψ : ψ.Meas ω)
    (h0 : ∀ X X', 0 ≤ w X X' ω) (m n : ℕ) :
    (bl.length.factorial : ℝ≥0∞) ^ 2 * (∫⁻ z : Lab m n, φ.at (z.cfg ω) * ENNReal.ofReal (w.at (z.cfg ω)) *
        (ENNReal.ofReal (listDens E cw bl ^ 2) *
          ∫⁻ v, insTerm E cw w ψ ω bl (ms z.1) (ms z.2) (ms v.1) (ms v.2)
            ∂((listMeasure β E cw bl).prod (listMeasure β E cw bl))) ∂(labMeasure β E.nf m n)) =
      bothFlow β E cw w φ ψ ω bl m n := by
  rw [bothFlow, ← lintegral_const_mul' _ _ (ENNReal.pow_ne_top (ENNReal.natCast_ne_top _))]
  exact lintegral_congr fun z => ins_point hcw E bl hbl w φ ψ ω h0 (ms z.1) (ms z.2)
    (measurable_insTerm_right E cw hw hψ bl z bl.length)

theorem rem_flow {β : ℝ} {cw : CWin} (E : PEnv) (bl : List ℕ) (hbl : ∀ b ∈ bl, b < E.ns)
    (w : CfgFun W ℝ) (φ ψ : CfgFun W ℝ≥0∞) (ω : W) (hw : w.Meas ω) (hφ : φ.Meas ω) (hψ : ψ.Meas ω) (m n : ℕ) :
    ∫⁻ z, ψ.at (z.cfg ω) * ENNReal.ofReal (w.at (z.cfg ω)) *
          ∑ S ∈ (Finset.univ : Finset (Fin (m + bl.length))).powersetCard bl.length,
            ∑ S' ∈ (Finset.univ : Finset (Fin (n + bl.length))).powersetCard bl.length,
              remTerm E cw w φ ω bl (Sᶜ.val.map z.1) (S'ᶜ.val.map z.2) (S.val.map z.1) (S'.val.map z.2)
          ∂(labMeasure β E.nf (m + bl.length) (n + bl.length)) =
        ((m + bl.length).choose bl.length : ℝ≥0∞) * ((n + bl.length).choose bl.length : ℝ≥0∞) *
          bothFlow β E cw w φ ψ ω bl m n := by
  rw [bothFlow, ← lintegral_labels β E.nf m n bl.length (bothTerm E cw w φ ψ ω bl)
    (measurable_bothTerm E cw hw hφ hψ bl hbl m n)]
  refine lintegral_congr fun z => ?_
  rw [Finset.mul_sum]
  refine Finset.sum_congr rfl fun S _ => ?_
  rw [Finset.mul_sum]
  refine Finset.sum_congr rfl fun S' _ => ?_
  rw [bothTerm, ← map_compl_add S z.1, ← map_compl_add S' z.2]
  rfl

theorem fac_arith (m n k : ℕ) (A : ℝ≥0∞) : ((m.factorial * n.factorial : ℕ) : ℝ≥0∞)⁻¹ * A =
    (((m + k).factorial * (n + k).factorial : ℕ) : ℝ≥0∞)⁻¹ *
      (((m + k).choose k : ℝ≥0∞) * ((n + k).choose k : ℝ≥0∞) * ((k.factorial : ℝ≥0∞) ^ 2 * A)) := by
  have hfac : (m + k).factorial * (n + k).factorial =
      ((m + k).choose k * (n + k).choose k * k.factorial ^ 2) * (m.factorial * n.factorial) := by
    have e1 := Nat.choose_mul_factorial_mul_factorial (Nat.le_add_left k m)
    have e2 := Nat.choose_mul_factorial_mul_factorial (Nat.le_add_left k n)
    rw [Nat.add_sub_cancel] at e1 e2
    rw [← e1, ← e2]; ring
  have hne : (m + k).choose k * (n + k).choose k * k.factorial ^ 2 ≠ 0 :=
    mul_ne_zero (mul_ne_zero (Nat.choose_pos (Nat.le_add_left k m)).ne' (Nat.choose_pos (Nat.le_add_left k n)).ne')
      (pow_ne_zero _ (Nat.factorial_ne_zero _))
  rw [hfac, Nat.cast_mul (_ * _) (_ * _), ENNReal.mul_inv (Or.inl (Nat.cast_ne_zero.2 hne)) (Or.inl (ENNReal.natCast_ne_top _))]
  have h2 : ((m + k).choose k : ℝ≥0∞) * ((n + k).choose k : ℝ≥0∞) * ((k.factorial : ℝ≥0∞) ^ 2 * A) =
      (((m + k).choose k * (n + k).choose k * k.factorial ^ 2 : ℕ) : ℝ≥0∞) * A := by
    push_cast; ring
  rw [h2]
  generalize (m + k).choose k * (n + k).choose k * k.factorial ^ 2 = a at hne
  generalize ((m.factorial * n.factorial : ℕ) : ℝ≥0∞)⁻¹ = c
  calc c * A = (((a : ℝ≥0∞))⁻¹ * a) * (c * A) := by
        rw [ENNReal.inv_mul_cancel (Nat.cast_ne_zero.2 hne) (ENNReal.natCast_ne_top _), one_mul]
    _ = _ := by ring

/-- Both flows between `m`, `n` and `m + bl.length`, `n + bl.length` operators for the blocks `bl`. -/
theorem flow_blocks {β : ℝ} {cw : CWin} (hcw : cw.OK β) (E : PEnv) (bl : List ℕ) (hbl : ∀ b ∈ bl, b < E.ns)
    (w : CfgFun W ℝ) (φ ψ : CfgFun W ℝ≥0∞) (ω : W) (hw : w.Meas ω) (hφ : φ.Meas ω) (hψ : ψ.Meas ω)
    (h0 : ∀ X X', 0 ≤ w X X' ω) (m n : ℕ) :
    ((m.factorial * n.factorial : ℕ) : ℝ≥0∞)⁻¹ * ∫⁻ z, φ.at (z.cfg ω) * ENNReal.ofReal (w.at (z.cfg ω)) *
        (ENNReal.ofReal (listDens E cw bl ^ 2) *
          ∫⁻ v, insTerm E cw w ψ ω bl (ms z.1) (ms z.2) (ms v.1) (ms v.2)
            ∂((listMeasure β E cw bl).prod (listMeasure β E cw bl))) ∂(labMeasure β E.nf m n) =
      (((m + bl.length).factorial * (n + bl.length).factorial : ℕ) : ℝ≥0∞)⁻¹ *
        ∫⁻ z, ψ.at (z.cfg ω) * ENNReal.ofReal (w.at (z.cfg ω)) *
          ∑ S ∈ (Finset.univ : Finset (Fin (m + bl.length))).powersetCard bl.length,
            ∑ S' ∈ (Finset.univ : Finset (Fin (n + bl.length))).powersetCard bl.length,
              remTerm E cw w φ ω bl (Sᶜ.val.map z.1) (S'ᶜ.val.map z.2) (S.val.map z.1) (S'.val.map z.2)
          ∂(labMeasure β E.nf (m + bl.length) (n + bl.length)) := by
  rw [rem_flow E bl hbl w φ ψ ω hw hφ hψ m n, ← ins_flow hcw E bl hbl w φ ψ ω hw hψ h0 m n]
  exact fac_arith m n bl.length _

theorem measurable_sub {m k : ℕ} (S : Finset (Fin m)) (h : S.card = k) :
    Measurable fun y : Fin m → BOp ℝ => (fun i : Fin k => y (S.orderEmbOfFin h i)) :=
  measurable_pi_iff.2 fun _ => measurable_pi_apply _

/-- The labels in `S`, `S'` and the other labels. -/
theorem measurable_labels {m n k : ℕ} (f : Multiset (BOp ℝ) → Multiset (BOp ℝ) → Multiset (BOp ℝ) → Multiset (BOp ℝ) → ℝ≥0∞)
    (hf : Measurable fun z : Lab m n × Lab k k => f (ms z.1.1) (ms z.1.2) (ms z.2.1) (ms z.2.2))
    (S : Finset (Fin (m + k))) (S' : Finset (Fin (n + k))) (hS : S.card = k) (hS' : S'.card = k) :
    Measurable fun z : Lab (m + k) (n + k) => f (Sᶜ.val.map z.1) (S'ᶜ.val.map z.2) (S.val.map z.1) (S'.val.map z.2) := by
  have hc : Sᶜ.card = m := by rw [Finset.card_compl, Fintype.card_fin, hS, Nat.add_sub_cancel]
  have hc' : S'ᶜ.card = n := by rw [Finset.card_compl, Fintype.card_fin, hS', Nat.add_sub_cancel]
  have hm : Measurable fun z : Lab (m + k) (n + k) =>
      ((((fun i => z.1 (Sᶜ.orderEmbOfFin hc i)), (fun i => z.2 (S'ᶜ.orderEmbOfFin hc' i))),
        ((fun i => z.1 (S.orderEmbOfFin hS i)), (fun i => z.2 (S'.orderEmbOfFin hS' i)))) : Lab m n × Lab k k) :=
    ((((measurable_sub Sᶜ hc).comp measurable_fst).prodMk ((measurable_sub S'ᶜ hc').comp measurable_snd)).prodMk
      (((measurable_sub S hS).comp measurable_fst).prodMk ((measurable_sub S' hS').comp measurable_snd)))
  have h2 := hf.comp hm
  simp only [Function.comp_def, map_orderEmb] at h2
  exact h2

/-! ### Theorems -/

/-- **C77.**  Detailed balance in continuous time between `m`, `n` operators and `m + rank`,
`n + rank` operators: for all measurable `φ`, `ψ` the insertions carry as much from `φ` to `ψ` as the
removals from `ψ` to `φ`. -/
theorem C77_insertion_removal_balance_partial {β : ℝ} {cw : CWin} (hcw : cw.OK β) (E : PEnv)
    (hns : ∀ f, f < E.nf → E.sector f < E.ns) (rank : ℕ)
    (w : CfgFun W ℝ) (φ ψ : CfgFun W ℝ≥0∞) (ω : W) (hw : w.Meas ω) (hφ : φ.Meas ω) (hψ : ψ.Meas ω)
    (h0 : ∀ X X', 0 ≤ w X X' ω) (m n : ℕ) :
    orderFlow β E.nf m n ω φ w (insE E cw rank w ψ) =
      orderFlow β E.nf (m + rank) (n + rank) ω ψ w (remE E cw rank w φ) := by
  have hL : orderFlow β E.nf m n ω φ w (insE E cw rank w ψ) = meanE (blockDraws ℝ E.ns rank) fun bl =>
      ((m.factorial * n.factorial : ℕ) : ℝ≥0∞)⁻¹ * ∫⁻ z, φ.at (z.cfg ω) * ENNReal.ofReal (w.at (z.cfg ω)) *
        (ENNReal.ofReal (listDens E cw bl ^ 2) *
          ∫⁻ v, insTerm E cw w ψ ω bl (ms z.1) (ms z.2) (ms v.1) (ms v.2)
            ∂((listMeasure β E cw bl).prod (listMeasure β E cw bl))) ∂(labMeasure β E.nf m n) := by
    rw [meanE_mul_left, orderFlow]
    congr 1
    rw [← lintegral_meanE]
    · refine lintegral_congr fun z => ?_
      rw [meanE_mul_left, insE_eq hcw E rank w ψ]
      · rfl
      · intro bl
        exact measurable_insTerm_right E cw hw hψ bl z bl.length
    · intro p _
      refine ((hφ m n).mul (ENNReal.measurable_ofReal.comp (hw m n))).mul (Measurable.const_mul ?_ _)
      exact Measurable.lintegral_prod_right' (f := fun z : Lab m n × Lab p.2.length p.2.length =>
        insTerm E cw w ψ ω p.2 (ms z.1.1) (ms z.1.2) (ms z.2.1) (ms z.2.2))
        (measurable_insTerm E cw hw hψ p.2 m n p.2.length)
  have hR : orderFlow β E.nf (m + rank) (n + rank) ω ψ w (remE E cw rank w φ) =
      meanE (blockDraws ℝ E.ns rank) fun bl =>
      (((m + rank).factorial * (n + rank).factorial : ℕ) : ℝ≥0∞)⁻¹ *
        ∫⁻ z, ψ.at (z.cfg ω) * ENNReal.ofReal (w.at (z.cfg ω)) *
          ∑ S ∈ (Finset.univ : Finset (Fin (m + rank))).powersetCard rank,
            ∑ S' ∈ (Finset.univ : Finset (Fin (n + rank))).powersetCard rank,
              remTerm E cw w φ ω bl (Sᶜ.val.map z.1) (S'ᶜ.val.map z.2) (S.val.map z.1) (S'.val.map z.2)
          ∂(labMeasure β E.nf (m + rank) (n + rank)) := by
    rw [meanE_mul_left, orderFlow]
    congr 1
    rw [← lintegral_meanE]
    · refine lintegral_congr_ae ?_
      filter_upwards [ae_labels β E.nf (m + rank) (n + rank)] with z hz
      rw [meanE_mul_left, remE_eq E cw hns rank w φ ω z hz.1.1 hz.2.1 hz.1.2 hz.2.2]
    · intro p hp
      obtain ⟨hlen, hbl⟩ := mem_blockDraws hp
      subst hlen
      refine ((hψ _ _).mul (ENNReal.measurable_ofReal.comp (hw _ _))).mul ?_
      exact Finset.measurable_sum _ fun S hS => Finset.measurable_sum _ fun S' hS' =>
        measurable_labels _ (measurable_remTerm E cw hw hφ p.2 hbl m n) S S' (Finset.mem_powersetCard.1 hS).2
          (Finset.mem_powersetCard.1 hS').2
  rw [hL, hR]
  refine meanE_congr fun p hp => ?_
  obtain ⟨hlen, hbl⟩ := mem_blockDraws hp
  subst hlen
  exact flow_blocks hcw E p.2 hbl w φ ψ ω hw hφ hψ h0 m n

/-- The removal is impossible if there are too few operators. -/
theorem rem_few {β : ℝ} {cw : CWin} (E : PEnv) (hns : ∀ f, f < E.nf → E.sector f < E.ns) (rank : ℕ)
    (w : CfgFun W ℝ) (φ ψ : CfgFun W ℝ≥0∞) (ω : W) (m n : ℕ) (h : m < rank ∨ n < rank) :
    orderFlow β E.nf m n ω ψ w (remE E cw rank w φ) = 0 := by
  have : ∫⁻ z, ψ.at (z.cfg ω) * ENNReal.ofReal (w.at (z.cfg ω)) * remE E cw rank w φ (z.cfg ω)
      ∂(labMeasure β E.nf m n) = ∫⁻ _z : Lab m n, 0 ∂(labMeasure β E.nf m n) := by
    refine lintegral_congr_ae ?_
    filter_upwards [ae_labels β E.nf m n] with z hz
    rw [remE_eq E cw hns rank w φ ω z hz.1.1 hz.2.1 hz.1.2 hz.2.2]
    have h0 : ∀ k, k < rank → (Finset.univ : Finset (Fin k)).powersetCard rank = ∅ := fun k hk =>
      Finset.powersetCard_eq_empty.2 (by simpa using hk)
    rcases h with h | h
    · simp only [h0 m h, Finset.sum_empty, meanE_zero, mul_zero]
    · simp only [h0 n h, Finset.sum_empty, Finset.sum_const_zero, meanE_zero, mul_zero]
  rw [orderFlow, this, lintegral_zero, mul_zero]

/-- **Specification.**  Integral of `φ w K` over all configurations. -/
noncomputable def allFlow (β : ℝ) (nf : ℕ) (ω : W) (φ : CfgFun W ℝ≥0∞) (w : CfgFun W ℝ) (K : PCfg ℝ W → ℝ≥0∞) : ℝ≥0∞ :=
  ∑' p : ℕ × ℕ, orderFlow β nf p.1 p.2 ω φ w K

theorem allFlow_ins {β : ℝ} {cw : CWin} (hcw : cw.OK β) (E : PEnv)
    (hns : ∀ f, f < E.nf → E.sector f < E.ns) (rank : ℕ)
    (w : CfgFun W ℝ) (φ ψ : CfgFun W ℝ≥0∞) (ω : W) (hw : w.Meas ω) (hφ : φ.Meas ω) (hψ : ψ.Meas ω)
    (h0 : ∀ X X', 0 ≤ w X X' ω) :
    allFlow β E.nf ω φ w (insE E cw rank w ψ) = allFlow β E.nf ω ψ w (remE E cw rank w φ) := by
  unfold allFlow
  have hi : Function.Injective fun p : ℕ × ℕ => (p.1 + rank, p.2 + rank) := by
    intro p q hpq
    simp only [Prod.mk.injEq, Nat.add_right_cancel_iff] at hpq
    exact Prod.ext hpq.1 hpq.2
  rw [← hi.tsum_eq (f := fun p : ℕ × ℕ => orderFlow β E.nf p.1 p.2 ω ψ w (remE E cw rank w φ))]
  · exact tsum_congr fun p => C77_insertion_removal_balance_partial hcw E hns rank w φ ψ ω hw hφ hψ h0 p.1 p.2
  · intro p hp
    by_contra hr
    refine hp (rem_few E hns rank w φ ψ ω p.1 p.2 ?_)
    by_contra hlt
    push Not at hlt
    exact hr ⟨(p.1 - rank, p.2 - rank), Prod.ext (Nat.sub_add_cancel hlt.1) (Nat.sub_add_cancel hlt.2)⟩

theorem meanE_coin_half (f : Bool → ℝ≥0∞) :
    meanE (coin (1 / 2)) f = ENNReal.ofReal (1 / 2) * f true + ENNReal.ofReal (1 / 2) * f false := by
  unfold meanE coin
  simp only [Multiset.insert_eq_cons, Multiset.map_cons, Multiset.map_singleton, Multiset.sum_cons, Multiset.sum_singleton]
  norm_num

theorem measurable_insE {β : ℝ} {cw : CWin} (hcw : cw.OK β) (E : PEnv) (rank : ℕ)
    (w : CfgFun W ℝ) (ψ : CfgFun W ℝ≥0∞) (ω : W) (hw : w.Meas ω) (hψ : ψ.Meas ω) (m n : ℕ) :
    Measurable fun z : Lab m n => insE E cw rank w ψ (z.cfg ω) := by
  have : (fun z : Lab m n => insE E cw rank w ψ (z.cfg ω)) = fun z =>
      meanE (blockDraws ℝ E.ns rank) fun bl => ENNReal.ofReal (listDens E cw bl ^ 2) *
        ∫⁻ v, insTerm E cw w ψ ω bl (ms z.1) (ms z.2) (ms v.1) (ms v.2)
          ∂((listMeasure β E cw bl).prod (listMeasure β E cw bl)) := by
    funext z
    rw [insE_eq hcw E rank w ψ]
    · rfl
    · intro bl
      exact measurable_insTerm_right E cw hw hψ bl z bl.length
  rw [this]
  refine measurable_meanE _ _ fun p _ => Measurable.const_mul ?_ _
  exact Measurable.lintegral_prod_right' (f := fun z : Lab m n × Lab p.2.length p.2.length =>
    insTerm E cw w ψ ω p.2 (ms z.1.1) (ms z.1.2) (ms z.2.1) (ms z.2.2))
    (measurable_insTerm E cw hw hψ p.2 m n p.2.length)

theorem orderFlow_add (β : ℝ) (nf m n : ℕ) (ω : W) (φ : CfgFun W ℝ≥0∞) (w : CfgFun W ℝ) (hφ : φ.Meas ω) (hw : w.Meas ω)
    (K L : PCfg ℝ W → ℝ≥0∞) (hK : AEMeasurable (fun z : Lab m n => K (z.cfg ω)) (labMeasure β nf m n)) :
    orderFlow β nf m n ω φ w (fun x => K x + L x) = orderFlow β nf m n ω φ w K + orderFlow β nf m n ω φ w L := by
  have hm : AEMeasurable (fun z : Lab m n => φ.at (z.cfg ω) * ENNReal.ofReal (w.at (z.cfg ω)) * K (z.cfg ω))
      (labMeasure β nf m n) := ((hφ m n).mul (ENNReal.measurable_ofReal.comp (hw m n))).aemeasurable.mul hK
  unfold orderFlow
  rw [← mul_add, ← lintegral_add_left' hm]
  congr 1
  exact lintegral_congr fun z => mul_add _ _ _

theorem orderFlow_smul (β : ℝ) (nf m n : ℕ) (ω : W) (φ : CfgFun W ℝ≥0∞) (w : CfgFun W ℝ)
    (K : PCfg ℝ W → ℝ≥0∞) (r : ℝ≥0∞) (hr : r ≠ ∞) :
    orderFlow β nf m n ω φ w (fun x => r * K x) = r * orderFlow β nf m n ω φ w K := by
  unfold orderFlow
  rw [mul_left_comm, ← lintegral_const_mul' _ _ hr]
  congr 1
  exact lintegral_congr fun z => mul_left_comm _ _ _

theorem allFlow_irE {β : ℝ} {cw : CWin} (hcw : cw.OK β) (E : PEnv) (rank : ℕ)
    (w : CfgFun W ℝ) (φ ψ : CfgFun W ℝ≥0∞) (ω : W) (hw : w.Meas ω) (hφ : φ.Meas ω) (hψ : ψ.Meas ω) :
    allFlow β E.nf ω φ w (irE E cw rank w ψ) = ENNReal.ofReal (1 / 2) * allFlow β E.nf ω φ w (insE E cw rank w ψ) +
      ENNReal.ofReal (1 / 2) * allFlow β E.nf ω φ w (remE E cw rank w ψ) := by
  unfold allFlow
  rw [← ENNReal.tsum_mul_left, ← ENNReal.tsum_mul_left, ← ENNReal.tsum_add]
  refine tsum_congr fun p => ?_
  rw [← orderFlow_smul _ _ _ _ _ _ _ _ _ ENNReal.ofReal_ne_top, ← orderFlow_smul _ _ _ _ _ _ _ _ _ ENNReal.ofReal_ne_top,
    ← orderFlow_add _ _ _ _ _ _ _ hφ hw _ _ ((measurable_insE hcw E rank w ψ ω hw hψ p.1 p.2).const_mul _).aemeasurable]
  congr 1
  funext x
  rw [irE, meanE_coin_half]
  simp

/-- **C77.**  The pair update is reversible with respect to the weight: over all configurations the
accepted moves carry as much from `φ` to `ψ` as from `ψ` to `φ`. -/
theorem C77_reversible_partial {β : ℝ} {cw : CWin} (hcw : cw.OK β) (E : PEnv)
    (hns : ∀ f, f < E.nf → E.sector f < E.ns) (rank : ℕ)
    (w : CfgFun W ℝ) (φ ψ : CfgFun W ℝ≥0∞) (ω : W) (hw : w.Meas ω) (hφ : φ.Meas ω) (hψ : ψ.Meas ω)
    (h0 : ∀ X X', 0 ≤ w X X' ω) :
    allFlow β E.nf ω φ w (irE E cw rank w ψ) = allFlow β E.nf ω ψ w (irE E cw rank w φ) := by
  rw [allFlow_irE hcw E rank w φ ψ ω hw hφ hψ, allFlow_irE hcw E rank w ψ φ ω hw hψ hφ,
    allFlow_ins hcw E hns rank w φ ψ ω hw hφ hψ h0, allFlow_ins hcw E hns rank w ψ φ ω hw hψ hφ h0, add_comm]

/-! ### The whole step -/

theorem meanE_mono {α : Type} {m : Rand ℝ α} {f g : α → ℝ≥0∞} (h : ∀ p ∈ m, f p.2 ≤ g p.2) : meanE m f ≤ meanE m g := by
  unfold meanE
  exact Multiset.sum_map_le_sum_map _ _ fun p hp => by gcongr; exact h p hp

/-- At most one in all. -/
def SubProb {α : Type} (m : Rand ℝ α) : Prop := meanE m (fun _ => 1) ≤ 1

theorem SubProb.le {α : Type} {m : Rand ℝ α} (hm : SubProb m) {f : α → ℝ≥0∞} (hf : ∀ p ∈ m, f p.2 ≤ 1) : meanE m f ≤ 1 :=
  (meanE_mono hf).trans hm

theorem SubProb.ret {α : Type} (a : α) : SubProb (Rand.ret a) := by rw [SubProb, meanE_ret]

theorem SubProb.bind {α γ : Type} {m : Rand ℝ α} {k : α → Rand ℝ γ} (h0 : NonnegR m) (hm : SubProb m)
    (hk : ∀ a, SubProb (k a)) : SubProb (Rand.bind m k) := by
  rw [SubProb, meanE_bind h0]
  exact hm.le fun p _ => hk p.2

theorem SubProb.unif {α : Type} (l : List α) : SubProb (Rand.unif l) := by
  rw [SubProb, meanE_unif]
  rcases Nat.eq_zero_or_pos l.length with h | h
  · simp [h]
  · have hl : (l.map fun _ => (1 : ℝ≥0∞)).sum = ENNReal.ofReal (l.length : ℝ) := by simp
    have h' : (0 : ℝ) < l.length := by exact_mod_cast h
    rw [hl, ← ENNReal.ofReal_mul (by positivity), one_div, inv_mul_cancel₀ h'.ne', ENNReal.ofReal_one]

theorem SubProb.ofMean {α : Type} {m : Rand ℝ α} (h0 : NonnegR m) (h : mean m (fun _ => 1) = 1) : SubProb m := by
  have := meanE_ofReal h0 (fun _ => 1) fun _ => zero_le_one
  rw [h, ENNReal.ofReal_one] at this
  rw [SubProb, this]

theorem subProb_blockDraws (ns k : ℕ) : SubProb (blockDraws ℝ ns k) := by
  induction k with
  | zero => exact SubProb.ret _
  | succ k ih => exact SubProb.bind (nnr_unif _) (SubProb.unif _) fun _ =>
      SubProb.bind (nonneg_blockDraws _ _) ih fun _ => SubProb.ret _

theorem subProb_remDraws (E : PEnv) (win : Win ℝ ℝ) (x : PCfg ℝ W) (m : ℕ → ℕ) (bs : List ℕ) :
    SubProb (remDraws E win x m bs) := by
  induction bs with
  | nil => exact SubProb.ret _
  | cons b bs ih =>
    exact SubProb.bind (nonneg_pickOps _ _) (SubProb.ofMean (nonneg_pickOps _ _) (prob_pickOps _ _)) fun _ =>
      SubProb.bind (nonneg_pickOps _ _) (SubProb.ofMean (nonneg_pickOps _ _) (prob_pickOps _ _)) fun _ =>
      SubProb.bind (nonneg_remDraws _ _ _ _ _) ih fun _ => SubProb.ret _

theorem subProb_remPropose (E : PEnv) (win : Win ℝ ℝ) (rank : ℕ) (x : PCfg ℝ W) : SubProb (remPropose E win rank x) := by
  refine SubProb.bind (nonneg_blockDraws _ _) (subProb_blockDraws _ _) fun bl => ?_
  split_ifs
  · exact SubProb.ret _
  · exact SubProb.bind (nonneg_remDraws _ _ _ _ _) (subProb_remDraws _ _ _ _ _) fun _ => SubProb.ret _

theorem accE_one_le (w : CfgFun W ℝ) (x : PCfg ℝ W) (m : Mv ℝ W) (corr : ℝ) :
    accE w (fun _ _ _ => 1) x m corr ≤ 1 := by
  show ENNReal.ofReal _ * 1 ≤ 1
  rw [mul_one]
  exact (ENNReal.ofReal_le_ofReal (min_le_left _ _)).trans_eq ENNReal.ofReal_one

theorem randOpC_le (cw : CWin) (fl : List ℕ) {G : BOp ℝ → ℝ≥0∞} (hG : ∀ o, G o ≤ 1) : randOpC cw fl G ≤ 1 := by
  unfold randOpC
  refine (lintegral_mono fun u => (SubProb.unif fl).le fun p _ => hG _).trans ?_
  simp

theorem insDrawsC_le (E : PEnv) (cw : CWin) (k : ℕ) : ∀ G : List (ℕ × BOp ℝ × BOp ℝ) → ℝ≥0∞, (∀ l, G l ≤ 1) →
    insDrawsC E cw k G ≤ 1 := by
  induction k with
  | zero => exact fun G h => h []
  | succ k ih =>
    intro G h
    exact (SubProb.unif _).le fun b _ => randOpC_le _ _ fun p => randOpC_le _ _ fun q => ih _ fun l => h _

theorem irE_le (E : PEnv) (cw : CWin) (rank : ℕ) (w : CfgFun W ℝ) (x : PCfg ℝ W) :
    irE E cw rank w (fun _ _ _ => 1) x ≤ 1 := by
  rw [irE]
  refine SubProb.le (m := coin (1 / 2)) ?_ fun p _ => ?_
  · rw [SubProb, meanE_coin_half, mul_one, ← ENNReal.ofReal_add (by norm_num) (by norm_num)]
    norm_num
  · split_ifs
    · exact insDrawsC_le _ _ _ _ fun l => accE_one_le _ _ _ _
    · refine (subProb_remPropose _ _ _ _).le fun p _ => ?_
      rcases p.2 with _ | ⟨m, c⟩
      · exact zero_le
      · exact accE_one_le _ _ _ _

/-- The whole step: the accepted moves, and otherwise the configuration stays. -/
noncomputable def stepE (E : PEnv) (cw : CWin) (rank : ℕ) (w : CfgFun W ℝ) (ψ : CfgFun W ℝ≥0∞) (x : PCfg ℝ W) : ℝ≥0∞ :=
  irE E cw rank w ψ x + (1 - irE E cw rank w (fun _ _ _ => 1) x) * ψ.at x

theorem aemeasurable_remE {β : ℝ} {cw : CWin} (E : PEnv) (hns : ∀ f, f < E.nf → E.sector f < E.ns) (rank : ℕ)
    (w : CfgFun W ℝ) (φ : CfgFun W ℝ≥0∞) (ω : W) (hw : w.Meas ω) (hφ : φ.Meas ω) (m n : ℕ) :
    AEMeasurable (fun z : Lab m n => remE E cw rank w φ (z.cfg ω)) (labMeasure β E.nf m n) := by
  have hae : (fun z : Lab m n => remE E cw rank w φ (z.cfg ω)) =ᵐ[labMeasure β E.nf m n] fun z =>
      meanE (blockDraws ℝ E.ns rank) fun bl =>
      ∑ S ∈ (Finset.univ : Finset (Fin m)).powersetCard rank,
        ∑ S' ∈ (Finset.univ : Finset (Fin n)).powersetCard rank,
          remTerm E cw w φ ω bl (Sᶜ.val.map z.1) (S'ᶜ.val.map z.2) (S.val.map z.1) (S'.val.map z.2) := by
    filter_upwards [ae_labels β E.nf m n] with z hz
    exact remE_eq E cw hns rank w φ ω z hz.1.1 hz.2.1 hz.1.2 hz.2.2
  refine AEMeasurable.congr (Measurable.aemeasurable ?_) hae.symm
  refine measurable_meanE _ _ fun p hp => ?_
  obtain ⟨hlen, hbl⟩ := mem_blockDraws hp
  refine Finset.measurable_sum _ fun S hS => Finset.measurable_sum _ fun S' hS' => ?_
  have hS := (Finset.mem_powersetCard.1 hS).2
  have hS' := (Finset.mem_powersetCard.1 hS').2
  have hm : rank ≤ m := by rw [← hS]; simpa using Finset.card_le_univ S
  have hn : rank ≤ n := by rw [← hS']; simpa using Finset.card_le_univ S'
  obtain ⟨m, rfl⟩ := Nat.exists_eq_add_of_le' hm
  obtain ⟨n, rfl⟩ := Nat.exists_eq_add_of_le' hn
  subst hlen
  exact measurable_labels _ (measurable_remTerm E cw hw hφ p.2 hbl m n) S S' hS hS'

theorem aemeasurable_irE {β : ℝ} {cw : CWin} (hcw : cw.OK β) (E : PEnv) (hns : ∀ f, f < E.nf → E.sector f < E.ns)
    (rank : ℕ) (w : CfgFun W ℝ) (φ : CfgFun W ℝ≥0∞) (ω : W) (hw : w.Meas ω) (hφ : φ.Meas ω) (m n : ℕ) :
    AEMeasurable (fun z : Lab m n => irE E cw rank w φ (z.cfg ω)) (labMeasure β E.nf m n) := by
  simp only [irE, meanE_coin_half, if_true, Bool.false_eq_true, if_false]
  exact ((measurable_insE hcw E rank w φ ω hw hφ m n).const_mul _).aemeasurable.add
    ((aemeasurable_remE E hns rank w φ ω hw hφ m n).const_mul _)

theorem allFlow_stepE {β : ℝ} {cw : CWin} (hcw : cw.OK β) (E : PEnv) (hns : ∀ f, f < E.nf → E.sector f < E.ns)
    (rank : ℕ) (w : CfgFun W ℝ) (φ ψ : CfgFun W ℝ≥0∞) (ω : W) (hw : w.Meas ω) (hφ : φ.Meas ω) (hψ : ψ.Meas ω) :
    allFlow β E.nf ω φ w (stepE E cw rank w ψ) = allFlow β E.nf ω φ w (irE E cw rank w ψ) +
      allFlow β E.nf ω (fun X X' ω => φ X X' ω * ψ X X' ω) w
        (fun x => 1 - irE E cw rank w (fun _ _ _ => 1) x) := by
  unfold allFlow stepE
  rw [← ENNReal.tsum_add]
  refine tsum_congr fun p => ?_
  rw [orderFlow_add _ _ _ _ _ _ _ hφ hw _ _ (aemeasurable_irE hcw E hns rank w ψ ω hw hψ p.1 p.2)]
  congr 1
  unfold orderFlow
  congr 1
  refine lintegral_congr fun z => ?_
  show _ * _ * (_ * ψ.at (z.cfg ω)) = φ.at (z.cfg ω) * ψ.at (z.cfg ω) * _ * _
  ring

/-- **C77.**  The whole step of the Markov chain, with the rejected moves, is reversible. -/
theorem C77_step_reversible_partial {β : ℝ} {cw : CWin} (hcw : cw.OK β) (E : PEnv)
    (hns : ∀ f, f < E.nf → E.sector f < E.ns) (rank : ℕ)
    (w : CfgFun W ℝ) (φ ψ : CfgFun W ℝ≥0∞) (ω : W) (hw : w.Meas ω) (hφ : φ.Meas ω) (hψ : ψ.Meas ω)
    (h0 : ∀ X X', 0 ≤ w X X' ω) :
    allFlow β E.nf ω φ w (stepE E cw rank w ψ) = allFlow β E.nf ω ψ w (stepE E cw rank w φ) := by
  rw [allFlow_stepE hcw E hns rank w φ ψ ω hw hφ hψ, allFlow_stepE hcw E hns rank w ψ φ ω hw hψ hφ,
    C77_reversible_partial hcw E hns rank w φ ψ ω hw hφ hψ h0]
  congr 2
  funext X X' ω
  exact mul_comm _ _

/-- **C77.**  The weight is stationary: a step does not change the average of `ψ`. -/
theorem C77_stationary_partial {β : ℝ} {cw : CWin} (hcw : cw.OK β) (E : PEnv)
    (hns : ∀ f, f < E.nf → E.sector f < E.ns) (rank : ℕ)
    (w : CfgFun W ℝ) (ψ : CfgFun W ℝ≥0∞) (ω : W) (hw : w.Meas ω) (hψ : ψ.Meas ω) (h0 : ∀ X X', 0 ≤ w X X' ω) :
    allFlow β E.nf ω (fun _ _ _ => 1) w (stepE E cw rank w ψ) = allFlow β E.nf ω (fun _ _ _ => 1) w ψ.at := by
  rw [C77_step_reversible_partial hcw E hns rank w _ ψ ω hw (fun _ _ => measurable_const) hψ h0]
  unfold allFlow
  refine tsum_congr fun p => ?_
  unfold orderFlow
  congr 1
  refine lintegral_congr fun z => ?_
  have : stepE E cw rank w (fun _ _ _ => 1) (z.cfg ω) = 1 := by
    rw [stepE]
    show _ + _ * 1 = (1 : ℝ≥0∞)
    rw [mul_one]
    exact add_tsub_cancel_of_le (irE_le _ _ _ _ _)
  rw [this, mul_one]
  show ψ.at (z.cfg ω) * _ = 1 * _ * ψ.at (z.cfg ω)
  rw [one_mul, mul_comm]

/-! ### An example -/

/-- Three flavors in two blocks. -/
def contEnv : PEnv := ⟨3, 2, fun f => if f < 2 then 0 else 1⟩

/-- A weight which depends on the times. -/
def exW : CfgFun Unit ℝ := fun X X' _ => ((X.map (·.1)).sum - (X'.map (·.1)).sum) ^ 2

theorem measurable_exW : exW.Meas () := by
  intro m n
  have h : (fun z : Lab m n => exW.at (z.cfg ())) = fun z => (∑ i, (z.1 i).1 - ∑ i, (z.2 i).1) ^ 2 := by
    funext z
    show (((ms z.1).map (·.1)).sum - ((ms z.2).map (·.1)).sum) ^ 2 = _
    rw [ms_eq, ms_eq, Multiset.map_map, Multiset.map_map]
    rfl
  rw [h]
  have h1 : Measurable fun z : Lab m n => ∑ i, (z.1 i).1 := Finset.measurable_sum _ fun i _ =>
    measurable_fst.comp ((measurable_pi_apply i).comp measurable_fst)
  have h2 : Measurable fun z : Lab m n => ∑ i, (z.2 i).1 := Finset.measurable_sum _ fun i _ =>
    measurable_fst.comp ((measurable_pi_apply i).comp measurable_snd)
  exact (h1.sub h2).pow_const 2

/-- Two pairs at once in the window `[1/2, 3/2]` for `β = 2`. -/
example (ψ : CfgFun Unit ℝ≥0∞) (hψ : ψ.Meas ()) :
    allFlow 2 3 () (fun _ _ _ => 1) exW (stepE contEnv ⟨1 / 2, 3 / 2, 0⟩ 2 exW ψ) =
      allFlow 2 3 () (fun _ _ _ => 1) exW ψ.at :=
  C77_stationary_partial (β := 2) (cw := ⟨1 / 2, 3 / 2, 0⟩) ⟨by norm_num, by norm_num, by norm_num, rfl⟩ contEnv
    (fun f _ => by simp only [contEnv]; split_ifs <;> norm_num) 2 exW ψ () measurable_exW hψ fun _ _ => sq_nonneg _

/-! ### The margin of `open_random` -/

/-- One flavor, one block. -/
def oneEnv : PEnv := ⟨1, 1, fun _ => 0⟩

/-- `open_random` stays away from the ends of the window. -/
theorem openRandom_margin {lo hi eps u : ℝ} (h : lo < hi) (h1 : eps < 1) (hu : u ∈ Set.Ico (0 : ℝ) 1) :
    lo + (hi - lo) * (eps / 2) < openRandomU lo hi eps u := by
  have h2 : 0 < (hi - lo) * ((1 - eps) * (1 - u)) :=
    mul_pos (sub_pos.2 h) (mul_pos (sub_pos.2 h1) (sub_pos.2 hu.2))
  unfold openRandomU openRandom
  nlinarith

open Classical in
/-- Indicator of the configurations with a creation operator near the lower end of the window. -/
noncomputable def inMargin (cw : CWin) : CfgFun Unit ℝ≥0∞ := fun X _ _ =>
  if ∃ o ∈ X, o.1 ≤ cw.lo + (cw.hi - cw.lo) * (cw.eps / 2) then 1 else 0

theorem measurable_inMargin (cw : CWin) : (inMargin cw).Meas () := by
  intro m n
  have h : (fun z : Lab m n => (inMargin cw).at (z.cfg ())) =
      (⋃ i : Fin m, {z : Lab m n | (z.1 i).1 ≤ cw.lo + (cw.hi - cw.lo) * (cw.eps / 2)}).indicator fun _ => 1 := by
    funext z
    by_cases hz : ∃ i : Fin m, (z.1 i).1 ≤ cw.lo + (cw.hi - cw.lo) * (cw.eps / 2)
    · have hmem : z ∈ ⋃ i : Fin m, {z : Lab m n | (z.1 i).1 ≤ cw.lo + (cw.hi - cw.lo) * (cw.eps / 2)} :=
        Set.mem_iUnion.2 hz
      rw [Set.indicator_of_mem hmem, CfgFun.at, inMargin, if_pos]
      obtain ⟨i, hi⟩ := hz
      exact ⟨z.1 i, Multiset.mem_coe.2 (List.mem_ofFn.2 ⟨i, rfl⟩), hi⟩
    · have hmem : z ∉ ⋃ i : Fin m, {z : Lab m n | (z.1 i).1 ≤ cw.lo + (cw.hi - cw.lo) * (cw.eps / 2)} := by
        intro h
        obtain ⟨i, hi⟩ := Set.mem_iUnion.1 h
        exact hz ⟨i, hi⟩
      rw [Set.indicator_of_notMem hmem, CfgFun.at, inMargin, if_neg]
      rintro ⟨o, ho, hi⟩
      obtain ⟨i, rfl⟩ := List.mem_ofFn.1 (Multiset.mem_coe.1 ho)
      exact hz ⟨i, hi⟩
  rw [h]
  refine measurable_const.indicator (MeasurableSet.iUnion fun i => ?_)
  exact measurableSet_le (measurable_fst.comp ((measurable_pi_apply i).comp measurable_fst)) measurable_const

theorem lintegral_pos_of_le {X : Type} [MeasurableSpace X] (μ : Measure X) {A : Set X}
    (hμ : 0 < μ A) {c : ℝ≥0∞} (hc : 0 < c) {f : X → ℝ≥0∞} (hA : MeasurableSet A) (h : ∀ᵐ x ∂μ, x ∈ A → c ≤ f x) :
    0 < ∫⁻ x, f x ∂μ := by
  have h1 : ∫⁻ x, A.indicator (fun _ => c) x ∂μ ≤ ∫⁻ x, f x ∂μ := by
    refine lintegral_mono_ae ?_
    filter_upwards [h] with x hx
    by_cases hxA : x ∈ A
    · rw [Set.indicator_of_mem hxA]; exact hx hxA
    · rw [Set.indicator_of_notMem hxA]; exact zero_le
  refine lt_of_lt_of_le ?_ h1
  rw [lintegral_indicator hA, setLIntegral_const]
  exact ENNReal.mul_pos hc.ne' hμ.ne'

/-- **C77, violated by the margin.**  With the margin `eps` of `open_random` detailed balance fails,
whatever the window: the removal takes away operators near the end of the window, but the insertion
never puts them there. -/
theorem C77_margin_violated {β : ℝ} {cw : CWin} (hlo : 0 ≤ cw.lo) (hlt : cw.lo < cw.hi) (hhi : cw.hi ≤ β)
    (he : 0 < cw.eps) (he1 : cw.eps < 1) :
    ∃ ψ : CfgFun Unit ℝ≥0∞, ψ.Meas () ∧
      orderFlow β 1 0 0 () (fun _ _ _ => 1) (fun _ _ _ => 1) (insE oneEnv cw 1 (fun _ _ _ => 1) ψ) = 0 ∧
      0 < orderFlow β 1 1 1 () ψ (fun _ _ _ => 1) (remE oneEnv cw 1 (fun _ _ _ => 1) (fun _ _ _ => 1)) := by
  refine ⟨inMargin cw, measurable_inMargin cw, ?_, ?_⟩
  · have hz : ∀ z : Lab 0 0, insE oneEnv cw 1 (fun _ _ _ => 1) (inMargin cw) (z.cfg ()) = 0 := by
      intro z
      unfold insE
      simp only [insDrawsC]
      rw [← meanE_zero (unif (List.range oneEnv.ns))]
      refine meanE_congr fun b _ => ?_
      unfold randOpC
      rw [← lintegral_zero (μ := volume.restrict (Set.Ico (0 : ℝ) 1))]
      refine setLIntegral_congr_fun measurableSet_Ico fun u hu => ?_
      rw [← meanE_zero (unif (blockFlavors oneEnv b.2))]
      refine meanE_congr fun f _ => ?_
      rw [← lintegral_zero (μ := volume.restrict (Set.Ico (0 : ℝ) 1))]
      refine lintegral_congr fun v => ?_
      rw [← meanE_zero (unif (blockFlavors oneEnv b.2))]
      refine meanE_congr fun g _ => ?_
      refine mul_eq_zero_of_right _ ?_
      rw [CfgFun.after, inMargin, if_neg]
      rintro ⟨o, ho, hle⟩
      have hcd : (z.cfg ()).cd = [] := rfl
      simp only [hcd, List.map_cons, List.map_nil, Multiset.coe_nil, tsub_zero, zero_add, Multiset.mem_coe,
        List.mem_singleton] at ho
      subst ho
      exact absurd (openRandom_margin hlt he1 hu) (not_lt.2 hle)
    unfold orderFlow
    simp only [hz, mul_zero, lintegral_zero]
  · unfold orderFlow
    refine ENNReal.mul_pos (ENNReal.inv_ne_zero.2 (ENNReal.natCast_ne_top _)) (ne_of_gt ?_)
    have hbl : ∀ b ∈ [0], b < oneEnv.ns := by simp [oneEnv]
    set M : Set (BOp ℝ) := Set.Icc cw.lo (cw.lo + (cw.hi - cw.lo) * (cw.eps / 2)) ×ˢ {0} with hM
    set V : Set (BOp ℝ) := Set.Icc cw.lo cw.hi ×ˢ {0} with hV
    set C := corrM oneEnv cw [0] 0 0 with hC
    have hMV : M ⊆ V := by
      refine Set.prod_mono (Set.Icc_subset_Icc_right ?_) le_rfl
      nlinarith [sub_pos.2 hlt]
    have hhit : ∀ y : Fin 1 → BOp ℝ, y 0 ∈ V → Hit oneEnv cw [0] (ms y) := by
      intro y hy
      have hms : ms y = {y 0} := by simp [ms]
      rw [hms]
      refine ⟨fun o ho => ?_, fun b => ?_⟩
      · rw [Multiset.mem_singleton] at ho
        subst ho
        refine ⟨hy.1, ?_⟩
        have : (y 0).2 = 0 := hy.2
        rw [this]; exact Nat.one_pos
      · rw [Multiset.filter_singleton]
        by_cases hb : b = 0
        · subst hb; simp [oneEnv]
        · simp [oneEnv, Ne.symm hb]
    have hCpos : 0 < C := by
      have hp : 0 < pickP oneEnv cw [0] 0 := pickP_pos _ _ _ _
      rw [hC, corrM]
      refine mul_pos (mul_pos (pow_pos (sub_pos.2 hlt) _) (Finset.prod_pos fun b hb => pow_pos ?_ _)) (mul_pos hp hp)
      have : b = 0 := by have := Finset.mem_range.1 hb; simp [oneEnv] at this; exact this
      subst this
      norm_num [blockFlavors, oneEnv]
    set c : ℝ≥0∞ := ENNReal.ofReal ((facs oneEnv [0] : ℝ) ^ 2 * (pickP oneEnv cw [0] 0 * pickP oneEnv cw [0] 0)) *
      ENNReal.ofReal (min 1 C⁻¹) with hc
    refine lintegral_pos_of_le (labMeasure β 1 1 1) (A := {z | z.1 0 ∈ M ∧ z.2 0 ∈ V}) (c := c) ?_ ?_ ?_ ?_
    · have hset : {z : Lab 1 1 | z.1 0 ∈ M ∧ z.2 0 ∈ V} =
          (Set.univ.pi fun _ : Fin 1 => M) ×ˢ (Set.univ.pi fun _ : Fin 1 => V) := by
        ext z
        simp [Set.mem_pi, Set.mem_prod]
      have hop : ∀ a b : ℝ, a < b → 0 ≤ a → b ≤ β → 0 < opMeasure β 1 (Set.Icc a b ×ˢ {0}) := by
        intro a b hab ha hb
        rw [opMeasure, Measure.prod_prod, Measure.restrict_apply measurableSet_Icc,
          Measure.restrict_apply (measurableSet_singleton _),
          Set.inter_eq_left.2 (Set.Icc_subset_Icc ha hb), Real.volume_Icc]
        have h0 : ({0} : Set ℕ) ∩ Set.Iio 1 = {0} := by ext; simp
        rw [h0, Measure.count_singleton, mul_one]
        exact ENNReal.ofReal_pos.2 (sub_pos.2 hab)
      rw [hset, labMeasure, Measure.prod_prod, opsMeasure, Measure.pi_pi, Measure.pi_pi]
      simp only [Finset.univ_unique, Finset.prod_singleton]
      have hm : 0 < (cw.hi - cw.lo) * (cw.eps / 2) := mul_pos (sub_pos.2 hlt) (half_pos he)
      exact ENNReal.mul_pos (hop _ _ (by linarith) hlo (by nlinarith [sub_pos.2 hlt])).ne' (hop _ _ hlt hlo hhi).ne'
    · rw [hc]
      refine ENNReal.mul_pos (ENNReal.ofReal_pos.2 ?_).ne' (ENNReal.ofReal_pos.2 (lt_min one_pos (inv_pos.2 hCpos))).ne'
      have hp : 0 < pickP oneEnv cw [0] 0 := pickP_pos _ _ _ _
      have hf : (0 : ℝ) < facs oneEnv [0] := by norm_num [facs, oneEnv]
      positivity
    · exact (((measurableSet_Icc.prod (measurableSet_singleton 0)).preimage
        ((measurable_pi_apply 0).comp measurable_fst))).inter
        ((measurableSet_Icc.prod (measurableSet_singleton 0)).preimage ((measurable_pi_apply 0).comp measurable_snd))
    · filter_upwards [ae_labels β 1 1 1] with z hz hzA
      rw [remE_eq oneEnv cw (fun f _ => Nat.one_pos) 1 _ _ () z hz.1.1 hz.2.1 hz.1.2 hz.2.2]
      have hb : ∀ G : List ℕ → ℝ≥0∞, meanE (blockDraws ℝ oneEnv.ns 1) G = G [0] := by
        intro G
        simp only [blockDraws]
        rw [meanE_bind (nnr_unif _), meanE_unif]
        simp [oneEnv, List.range_succ, meanE_bind (nnr_ret _), meanE_ret]
      have hps : (Finset.univ : Finset (Fin 1)).powersetCard 1 = {Finset.univ} := by decide
      rw [hb, hps, Finset.sum_singleton, Finset.sum_singleton, Finset.compl_univ]
      simp only [Finset.empty_val, Multiset.map_zero]
      have hψ : (inMargin cw).at (z.cfg ()) = 1 := by
        rw [CfgFun.at, inMargin, if_pos]
        exact ⟨z.1 0, Multiset.mem_coe.2 (List.mem_ofFn.2 ⟨0, rfl⟩), hzA.1.1.2⟩
      have h1 := hhit z.1 (hMV hzA.1)
      have h2 := hhit z.2 hzA.2
      rw [ms_eq] at h1 h2
      rw [hψ, remTerm, hitE, hitE, if_pos h1, if_pos h2, hc]
      simp [CfgFun.at, hC]

/-- The margin of the code in the window `[0, 1]` for `β = 1`. -/
example : ∃ ψ : CfgFun Unit ℝ≥0∞, ψ.Meas () ∧
    orderFlow 1 1 0 0 () (fun _ _ _ => 1) (fun _ _ _ => 1) (insE oneEnv ⟨0, 1, 1 / 10 ^ 10⟩ 1 (fun _ _ _ => 1) ψ) = 0 ∧
    0 < orderFlow 1 1 1 1 () ψ (fun _ _ _ => 1) (remE oneEnv ⟨0, 1, 1 / 10 ^ 10⟩ 1 (fun _ _ _ => 1) (fun _ _ _ => 1)) :=
  C77_margin_violated (cw := ⟨0, 1, 1 / 10 ^ 10⟩) le_rfl one_pos le_rfl (by norm_num) (by norm_num)

end CTHyb
