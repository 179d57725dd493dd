import Verif.ContCodeRun
import Verif.TransInv
import Mathlib.MeasureTheory.Function.Floor

/-!
# The interpolated hybridization function in continuous time

What the theorems about the weight of the code in continuous time demand of the hybridization function holds for every table.
-/

namespace CTHyb

open MeasureTheory ENNReal

variable {𝕜 : Type} [RCLike 𝕜]

/-- The value as a function of the index, the offset and the sign. -/
theorem hybG_eq (beta : ℝ) (ntau : ℕ) (F : ℕ → ℕ → ℕ → 𝕜) (c cd : TPsi ℝ) :
    hybG beta ntau F c cd =
      (let t0 := c.time.time - cd.time.time
       let n := (if t0 < 0 then t0 + beta else t0) / beta * ntau
       if (0 ≤ truncInt n ∧ truncInt n < (ntau + 1 : ℕ)) ∧ 0 ≤ truncInt n + 1 ∧ truncInt n + 1 < (ntau + 1 : ℕ) then
         (if t0 < 0 then (-1 : ℝ) else 1) • (F c.flavor cd.flavor (truncInt n).toNat +
           (n - (truncInt n : ℝ)) • (F c.flavor cd.flavor (truncInt n + 1).toNat - F c.flavor cd.flavor (truncInt n).toNat))
       else 0) := by
  unfold hybG hybEval readAt
  simp only
  generalize F c.flavor cd.flavor = G
  generalize (if c.time.time - cd.time.time < 0 then c.time.time - cd.time.time + beta else c.time.time - cd.time.time) / beta * (ntau : ℝ) = n
  generalize (if c.time.time - cd.time.time < 0 then (-1 : ℝ) else 1) = s
  generalize hi : truncInt n = i
  by_cases h1 : 0 ≤ i ∧ i < (ntau + 1 : ℕ)
  · by_cases h2 : 0 ≤ i + 1 ∧ i + 1 < (ntau + 1 : ℕ)
    · rw [if_pos h1, if_pos h2, if_pos ⟨h1, h2⟩]
      rfl
    · rw [if_pos h1, if_neg h2, if_neg fun h : (0 ≤ i ∧ i < (ntau + 1 : ℕ)) ∧ 0 ≤ i + 1 ∧ i + 1 < (ntau + 1 : ℕ) => h2 h.2]
      rfl
  · have h3 : ¬((0 ≤ i ∧ i < (ntau + 1 : ℕ)) ∧ 0 ≤ i + 1 ∧ i + 1 < (ntau + 1 : ℕ)) := fun h => h1 h.1
    rw [if_neg h1, if_neg h3]
    rfl

theorem measurable_truncInt : Measurable (truncInt : ℝ → ℤ) :=
  Measurable.ite measurableSet_Ici Int.measurable_floor Int.measurable_ceil

theorem measurable_hybG (beta : ℝ) (ntau : ℕ) (F : ℕ → ℕ → ℕ → 𝕜) :
    Measurable fun q : TPsi ℝ × TPsi ℝ => hybG beta ntau F q.1 q.2 := by
  simp only [hybG_eq]
  have h1 := measurable_time (o := fun q : TPsi ℝ × TPsi ℝ => q.1) measurable_fst
  have h2 := measurable_time (o := fun q : TPsi ℝ × TPsi ℝ => q.2) measurable_snd
  have f1 := measurable_flavor (o := fun q : TPsi ℝ × TPsi ℝ => q.1) measurable_fst
  have f2 := measurable_flavor (o := fun q : TPsi ℝ × TPsi ℝ => q.2) measurable_snd
  have ht : Measurable fun q : TPsi ℝ × TPsi ℝ => q.1.time.time - q.2.time.time := h1.sub h2
  have hs : MeasurableSet {q : TPsi ℝ × TPsi ℝ | q.1.time.time - q.2.time.time < 0} := measurableSet_lt ht measurable_const
  have hn : Measurable fun q : TPsi ℝ × TPsi ℝ =>
      (if q.1.time.time - q.2.time.time < 0 then q.1.time.time - q.2.time.time + beta else q.1.time.time - q.2.time.time) / beta * (ntau : ℝ) := ((Measurable.ite hs (ht.add_const beta) ht).div_const beta).mul_const (ntau : ℝ)
  have hi := measurable_truncInt.comp hn
  have hF : ∀ g : ℤ → ℕ, Measurable fun q : TPsi ℝ × TPsi ℝ => F q.1.flavor q.2.flavor
      (g (truncInt ((if q.1.time.time - q.2.time.time < 0 then q.1.time.time - q.2.time.time + beta else q.1.time.time - q.2.time.time) / beta * ntau))) :=
    fun g => (Measurable.of_discrete (f := fun p : ℕ × ℕ × ℤ => F p.1 p.2.1 (g p.2.2))).comp (f1.prodMk (f2.prodMk hi))
  refine Measurable.ite ?_ ?_ measurable_const
  · exact hi (MeasurableSet.of_discrete (s := {i : ℤ | (0 ≤ i ∧ i < (ntau + 1 : ℕ)) ∧ 0 ≤ i + 1 ∧ i + 1 < (ntau + 1 : ℕ)}))
  · refine Measurable.smul (Measurable.ite hs measurable_const measurable_const) ((hF Int.toNat).add (Measurable.smul ?_ ((hF fun i => (i + 1).toNat).sub (hF Int.toNat))))
    exact hn.sub ((Measurable.of_discrete (f := fun i : ℤ => (i : ℝ))).comp hi)

theorem norm_hybG_le (beta : ℝ) (ntau : ℕ) (F : ℕ → ℕ → ℕ → 𝕜) {C : ℝ} (hC : ∀ f f' i, i ≤ ntau → ‖F f f' i‖ ≤ C) (c cd : TPsi ℝ) :
    ‖hybG beta ntau F c cd‖ ≤ 3 * C := by
  have hC0 : 0 ≤ C := (norm_nonneg _).trans (hC 0 0 0 (Nat.zero_le _))
  rw [hybG_eq]
  simp only
  generalize (if c.time.time - cd.time.time < 0 then c.time.time - cd.time.time + beta else c.time.time - cd.time.time) / beta * (ntau : ℝ) = n
  have hs : ‖(if c.time.time - cd.time.time < 0 then (-1 : ℝ) else 1)‖ = 1 := by split_ifs <;> simp
  generalize (if c.time.time - cd.time.time < 0 then (-1 : ℝ) else 1) = s at hs
  have hx : ‖n - (truncInt n : ℝ)‖ ≤ 1 := by
    rw [Real.norm_eq_abs, abs_le]
    unfold truncInt
    split_ifs
    · constructor <;> linarith [Int.floor_le n, Int.lt_floor_add_one n]
    · constructor <;> linarith [Int.le_ceil n, Int.ceil_lt_add_one n]
  split_ifs with h
  · have h1 := hC c.flavor cd.flavor (truncInt n).toNat (by omega)
    have h2 := hC c.flavor cd.flavor (truncInt n + 1).toNat (by omega)
    rw [norm_smul, hs, one_mul]
    refine (norm_add_le _ _).trans ?_
    rw [norm_smul]
    have h3 := (norm_sub_le (F c.flavor cd.flavor (truncInt n + 1).toNat) (F c.flavor cd.flavor (truncInt n).toNat))
    have h4 := mul_le_mul hx (h3.trans (add_le_add h2 h1)) (norm_nonneg _) zero_le_one
    linarith
  · rw [norm_zero]
    positivity

/-- **C83** (table).  Whatever the table of the hybridization function, of any number of points and with any values: the interpolated
function is measurable in the times of the two operators, and the integral of the weight over all configuration spaces is finite. -/
theorem C83_table {N : ℕ} {A : CodeArgs 𝕜 N} (hA : A.OK) {ntau : ℕ} {F : ℕ → ℕ → ℕ → 𝕜} (hG : A.G = hybG A.beta ntau F)
    (hF : ∀ f f', A.P.nf ≤ f ∨ A.P.nf ≤ f' → ∀ i, F f f' i = 0) :
    (Measurable fun q : TPsi ℝ × TPsi ℝ => A.G q.1 q.2) ∧
      ∀ (kinds : List WormKind) (sw : WormKind → ℝ),
        wFlow A.beta A.P.nf kinds sw (fun _ _ _ => 1) (codeW A) (fun _ => 1) < ∞ := by
  refine ⟨by rw [hG]; exact measurable_hybG _ _ _, fun kinds sw => ?_⟩
  obtain ⟨C, hC⟩ : ∃ C : ℝ, ∀ f f' i, i ≤ ntau → ‖F f f' i‖ ≤ C := by
    refine ⟨∑ f ∈ Finset.range A.P.nf, ∑ f' ∈ Finset.range A.P.nf, ∑ i ∈ Finset.range (ntau + 1), ‖F f f' i‖, fun f f' i hi => ?_⟩
    by_cases h : A.P.nf ≤ f ∨ A.P.nf ≤ f'
    · rw [hF f f' h, norm_zero]
      positivity
    · rw [not_or, not_le, not_le] at h
      refine le_trans ?_ (Finset.single_le_sum (f := fun f => ∑ f' ∈ Finset.range A.P.nf, ∑ i ∈ Finset.range (ntau + 1), ‖F f f' i‖)
        (fun _ _ => by positivity) (Finset.mem_range.2 h.1))
      refine le_trans ?_ (Finset.single_le_sum (f := fun f' => ∑ i ∈ Finset.range (ntau + 1), ‖F f f' i‖)
        (fun _ _ => by positivity) (Finset.mem_range.2 h.2))
      exact Finset.single_le_sum (f := fun i => ‖F f f' i‖) (fun _ _ => norm_nonneg _) (Finset.mem_range.2 (Nat.lt_succ_of_le hi))
  exact (C83_finite hA (C := 3 * C) (fun a b _ _ => by rw [hG]; exact norm_hybG_le _ _ _ hC a b) kinds sw).1

/-- One level whose bath is given by a table of three points. -/
noncomputable def exTable : CodeArgs ℝ (2 ^ 1) :=
  { exCode with G := hybG 4 2 fun f f' i => if f = 0 ∧ f' = 0 then 1 / 2 + i else 0 }

theorem exTable_ok : exTable.OK :=
  ⟨exCode_ok.base, exCode_ok.solver, exCode_ok.norm, exCode_ok.dim, exCode_ok.inner, exCode_ok.outer, exCode_ok.beta, exCode_ok.lim,
    exCode_ok.sort, fun _ _ _ _ h => absurd rfl h, exCode_ok.sectors, exCode_ok.lu_prod, exCode_ok.lu_len⟩

/-- The weight of the level with the table can be normalized in three configuration spaces. -/
example : wFlow 4 1 [.equalTime 1, .green 2] (fun _ => 1) (fun _ _ _ => 1) (codeW exTable) (fun _ => 1) < ∞ :=
  (C83_table exTable_ok (F := fun f f' i => if f = 0 ∧ f' = 0 then 1 / 2 + i else 0) rfl (fun f f' h i => by
    rw [if_neg]
    rintro ⟨rfl, rfl⟩
    simp [exTable, exCode] at h)).2 _ _

/-- The function of this table is no constant. -/
example : hybG (4 : ℝ) 2 (fun f f' i => if f = 0 ∧ f' = 0 then (1 / 2 + i : ℝ) else 0) ⟨⟨3, 0⟩, .annihilation, 0⟩ ⟨⟨1, 0⟩, .creation, 0⟩ = 3 / 2 := by
  rw [hybG_eq]
  norm_num [truncInt]

end CTHyb
