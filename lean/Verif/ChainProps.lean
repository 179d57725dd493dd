import Verif.Chain
import Verif.Worm
import Mathlib.MeasureTheory.Measure.Lebesgue.Basic
import Mathlib.Data.Rat.Cast.Order
import Mathlib.Algebra.Order.Ring.Rat
import Mathlib.Data.List.GetD
import Mathlib.Tactic.Linarith
import Mathlib.Tactic.Ring
import Mathlib.Tactic.NormNum
import Mathlib.Tactic.FinCases
import Mathlib.Algebra.BigOperators.Fin

/-!
Properties C12 (Metropolis steps leave the absolute weight invariant) and C50 (flavor
permutations of the global updates).
-/

namespace CTHyb

open Finset

variable {X K R : Type}

/-! ### Specification -/

section Spec
variable [Fintype X] [Field R] [LinearOrder R] [IsStrictOrderedRing R]

/-- `W` is an invariant distribution (up to normalization) of the transition matrix `P`. -/
def Stationary (W : X → R) (P : X → X → R) : Prop := ∀ y, ∑ x, W x * P x y = W y

/-- Detailed balance. -/
def DetBal (W : X → R) (P : X → X → R) : Prop := ∀ x y, W x * P x y = W y * P y x

/-- `P` is a matrix of transition probabilities. -/
def Stochastic (P : X → X → R) : Prop := (∀ x y, 0 ≤ P x y) ∧ ∀ x, ∑ y, P x y = 1

/-- Every sequence of random choices and steps built from local updates whose correction is the
ratio of the proposal probabilities. -/
inductive Built [DecidableEq X] [Field K] (abv : AbsoluteValue K R) (ι : R →+* K) (w : X → K) :
    (X → X → R) → Prop
  | step (q corr : X → X → R) (hq : ∀ x y, 0 ≤ q x y) (hq1 : ∀ x, ∑ y, q x y ≤ 1)
      (hc : ∀ x y, 0 ≤ corr x y) (h : ∀ x y, q x y * corr x y = q y x) :
      Built abv ι w (localKernel abv ι w q corr)
  | seq (P Q : X → X → R) (hP : Built abv ι w P) (hQ : Built abv ι w Q) :
      Built abv ι w (thenKernel P Q)
  | mix (n : ℕ) (c : Fin n → R) (P : Fin n → X → X → R) (hc : ∀ i, 0 ≤ c i) (h1 : ∑ i, c i = 1)
      (hP : ∀ i, Built abv ι w (P i)) : Built abv ι w (mixKernel c P)

end Spec

/-! ### C12 -/

/-- **C12.**  The random numbers in `[0,1)` that lead to acceptance have measure `min(1, |p|)`. -/
theorem C12_accept_probability [Field K] (abv : AbsoluteValue K ℝ) (p : K) :
    MeasureTheory.volume {r : ℝ | 0 ≤ r ∧ r < 1 ∧ r < abv p} =
      ENNReal.ofReal (acceptProb abv p) := by
  have : {r : ℝ | 0 ≤ r ∧ r < 1 ∧ r < abv p} = Set.Ico 0 (min 1 (abv p)) := by
    ext r; simp [Set.mem_Ico, lt_min_iff]
  rw [this, Real.volume_Ico, sub_zero, acceptProb]

section Main
variable [Fintype X] [DecidableEq X] [Field K]
  [Field R] [LinearOrder R] [IsStrictOrderedRing R]

theorem stationary_of_detBal {W : X → R} {P : X → X → R} (h : DetBal W P) (hs : Stochastic P) :
    Stationary W P := by
  intro y
  rw [Finset.sum_congr rfl (fun x _ => h x y), ← Finset.mul_sum, hs.2 y, mul_one]

theorem stepKernel_stochastic (q a : X → X → R) (hq : ∀ x y, 0 ≤ q x y)
    (hq1 : ∀ x, ∑ y, q x y ≤ 1) (ha : ∀ x y, 0 ≤ a x y ∧ a x y ≤ 1) :
    Stochastic (stepKernel q a) := by
  constructor
  · intro x y
    refine add_nonneg (mul_nonneg (hq x y) (ha x y).1) ?_
    split_ifs
    · rw [sub_nonneg]
      refine le_trans (Finset.sum_le_sum (fun z _ => ?_)) (hq1 x)
      exact mul_le_of_le_one_right (hq x z) (ha x z).2
    · exact le_rfl
  · intro x
    simp only [stepKernel, Finset.sum_add_distrib, Finset.sum_ite_eq, Finset.mem_univ, if_true]
    ring

theorem acceptProb_bounds (abv : AbsoluteValue K R) (p : K) :
    0 ≤ acceptProb abv p ∧ acceptProb abv p ≤ 1 :=
  ⟨le_min zero_le_one (abv.nonneg p), min_le_left _ _⟩

/-- A step is in detailed balance if weight times proposal times acceptance is symmetric. -/
theorem stepKernel_detBal (W : X → R) (q a : X → X → R)
    (h : ∀ x y, W x * (q x y * a x y) = W y * (q y x * a y x)) : DetBal W (stepKernel q a) := by
  intro x y
  unfold stepKernel
  by_cases hxy : x = y
  · rw [hxy]
  · rw [if_neg hxy, if_neg (Ne.symm hxy), add_zero, add_zero, h]

/-- **C12.**  Weight times proposal times acceptance is symmetric between any two
configurations, whenever the correction is the ratio of the proposal probabilities; weights may
be complex and may vanish. -/
theorem C12_detailed_balance (abv : AbsoluteValue K R) (ι : R →+* K) (hι : ∀ r, abv (ι r) = |r|)
    (w : X → K) (q corr : X → X → R) (hq : ∀ x y, 0 ≤ q x y) (hc : ∀ x y, 0 ≤ corr x y)
    (h : ∀ x y, q x y * corr x y = q y x) (x y : X) :
    abv (w x) * (q x y * acceptProb abv (w y / w x * ι (corr x y))) =
      abv (w y) * (q y x * acceptProb abv (w x / w y * ι (corr y x))) := by
  classical
  have key : ∀ x y, abv (w x) * (q x y * acceptProb abv (w y / w x * ι (corr x y))) =
      if w x = 0 then 0 else min (abv (w x) * q x y) (abv (w y) * q y x) := by
    intro x y
    by_cases hx : w x = 0
    · rw [if_pos hx, hx, map_zero, zero_mul]
    · have hx' : 0 < abv (w x) := abv.pos hx
      have e : abv (w y / w x * ι (corr x y)) = abv (w y) / abv (w x) * corr x y := by
        rw [map_mul, map_div₀, hι, abs_of_nonneg (hc x y)]
      rw [if_neg hx, acceptProb, e, ← mul_assoc, mul_min_of_nonneg _ _
        (mul_nonneg hx'.le (hq x y)), mul_one]
      congr 1
      rw [← h x y]
      field_simp
  rw [key, key]
  by_cases hx : w x = 0 <;> by_cases hy : w y = 0
  · rw [if_pos hx, if_pos hy]
  · rw [if_pos hx, if_neg hy, hx, map_zero, zero_mul, min_eq_right]
    exact mul_nonneg (abv.nonneg _) (hq y x)
  · rw [if_neg hx, if_pos hy, hy, map_zero, zero_mul, min_eq_right]
    exact mul_nonneg (abv.nonneg _) (hq x y)
  · rw [if_neg hx, if_neg hy, min_comm]

theorem thenKernel_stochastic {P Q : X → X → R} (hP : Stochastic P) (hQ : Stochastic Q) :
    Stochastic (thenKernel P Q) := by
  constructor
  · intro x y
    exact Finset.sum_nonneg (fun z _ => mul_nonneg (hP.1 x z) (hQ.1 z y))
  · intro x
    unfold thenKernel
    rw [Finset.sum_comm, ← hP.2 x]
    refine Finset.sum_congr rfl (fun z _ => ?_)
    rw [← Finset.mul_sum, hQ.2 z, mul_one]

theorem thenKernel_stationary {W : X → R} {P Q : X → X → R} (hP : Stationary W P)
    (hQ : Stationary W Q) : Stationary W (thenKernel P Q) := by
  intro y
  unfold thenKernel
  simp only [Finset.mul_sum]
  rw [Finset.sum_comm, ← hQ y]
  refine Finset.sum_congr rfl (fun z _ => ?_)
  rw [← hP z, Finset.sum_mul]
  refine Finset.sum_congr rfl (fun x _ => ?_)
  rw [mul_assoc]

theorem mixKernel_stochastic {n : ℕ} {c : Fin n → R} {P : Fin n → X → X → R}
    (hc : ∀ i, 0 ≤ c i) (h1 : ∑ i, c i = 1) (hP : ∀ i, Stochastic (P i)) :
    Stochastic (mixKernel c P) := by
  constructor
  · intro x y
    exact Finset.sum_nonneg (fun i _ => mul_nonneg (hc i) ((hP i).1 x y))
  · intro x
    unfold mixKernel
    rw [Finset.sum_comm, ← h1]
    refine Finset.sum_congr rfl (fun i _ => ?_)
    rw [← Finset.mul_sum, (hP i).2 x, mul_one]

theorem mixKernel_stationary {W : X → R} {n : ℕ} {c : Fin n → R} {P : Fin n → X → X → R}
    (h1 : ∑ i, c i = 1) (hP : ∀ i, Stationary W (P i)) : Stationary W (mixKernel c P) := by
  intro y
  unfold mixKernel
  simp only [Finset.mul_sum]
  rw [Finset.sum_comm]
  have : ∀ i, ∑ x, W x * (c i * P i x y) = c i * W y := by
    intro i
    rw [← hP i y, Finset.mul_sum]
    exact Finset.sum_congr rfl (fun x _ => by ring)
  rw [Finset.sum_congr rfl (fun i _ => this i), ← Finset.sum_mul, h1, one_mul]

/-- **C12.**  Every chain built from local updates by random choices and sequences leaves the
absolute weight invariant (and its entries are transition probabilities). -/
theorem C12_stationary (abv : AbsoluteValue K R) (ι : R →+* K) (hι : ∀ r, abv (ι r) = |r|)
    (w : X → K) (P : X → X → R) (h : Built abv ι w P) :
    Stationary (fun x => abv (w x)) P ∧ Stochastic P := by
  induction h with
  | step q corr hq hq1 hc h =>
    have hs : Stochastic (localKernel abv ι w q corr) :=
      stepKernel_stochastic _ _ hq hq1 (fun x y => acceptProb_bounds abv _)
    exact ⟨stationary_of_detBal (stepKernel_detBal _ _ _
      (C12_detailed_balance abv ι hι w q corr hq hc h)) hs, hs⟩
  | seq P Q _ _ ihP ihQ =>
    exact ⟨thenKernel_stationary ihP.1 ihQ.1, thenKernel_stochastic ihP.2 ihQ.2⟩
  | mix n c P hc h1 _ ih =>
    exact ⟨mixKernel_stationary h1 (fun i => (ih i).1),
      mixKernel_stochastic hc h1 (fun i => (ih i).2)⟩

/-- **C12.**  Without the correction the conclusion fails: two configurations of equal weight,
proposals `0 → 1` certain and `1 → 0` with probability one half. -/
theorem C12_correction_needed :
    ¬ Stationary (fun _ : Bool => (1 : ℚ)) (localKernel (AbsoluteValue.abs : AbsoluteValue ℚ ℚ)
      (RingHom.id ℚ) (fun _ => 1)
      (fun x y => if x = false ∧ y = true then 1 else if x = true ∧ y = false then 1 / 2 else 0)
      (fun _ _ => 1)) := by
  intro h
  have := h true
  simp [localKernel, stepKernel, acceptProb, AbsoluteValue.abs] at this
  norm_num at this

/-- The hypotheses are met by a non-symmetric proposal with its correction. -/
example : Built (AbsoluteValue.abs : AbsoluteValue ℚ ℚ) (RingHom.id ℚ)
    (fun b : Bool => if b then (-3 : ℚ) else 2)
    (localKernel AbsoluteValue.abs (RingHom.id ℚ) (fun b => if b then (-3 : ℚ) else 2)
      (fun x y => if x = false ∧ y = true then 1 else if x = true ∧ y = false then 1 / 2 else 0)
      (fun x y => if x = false ∧ y = true then 1 / 2 else if x = true ∧ y = false then 2 else 0)) := by
  refine Built.step _ _ ?_ ?_ ?_ ?_ <;> intro x <;> try intro y
  all_goals cases x <;> try cases y
  all_goals norm_num

end Main

/-! ### C50: stationarity of the global updates -/

section Global
variable [Fintype X] [DecidableEq X] [Field K]
  [Field R] [LinearOrder R] [IsStrictOrderedRing R]

theorem globalKernel_stochastic (abv : AbsoluteValue K R) (w : X → K) (σ : X → X) :
    Stochastic (globalKernel abv w σ) := by
  refine stepKernel_stochastic _ _ ?_ ?_ (fun x y => acceptProb_bounds abv _)
  · intro x y; split_ifs <;> simp
  · intro x; simp

open Classical in
theorem ratio_min (abv : AbsoluteValue K R) (w : X → K) (x y : X) :
    abv (w x) * acceptProb abv (w y / w x) =
      if w x = 0 then 0 else min (abv (w x)) (abv (w y)) := by
  by_cases hx : w x = 0
  · rw [if_pos hx, hx, map_zero, zero_mul]
  · have hx' : 0 < abv (w x) := abv.pos hx
    rw [if_neg hx, acceptProb, mul_min_of_nonneg _ _ hx'.le, mul_one, map_div₀]
    congr 1
    field_simp

theorem ratio_symm (abv : AbsoluteValue K R) (w : X → K) (x y : X) :
    abv (w x) * acceptProb abv (w y / w x) = abv (w y) * acceptProb abv (w x / w y) := by
  rw [ratio_min, ratio_min]
  by_cases hx : w x = 0 <;> by_cases hy : w y = 0
  · rw [if_pos hx, if_pos hy]
  · rw [if_pos hx, if_neg hy, hx, map_zero, min_eq_right (abv.nonneg _)]
  · rw [if_neg hx, if_pos hy, hy, map_zero, min_eq_right (abv.nonneg _)]
  · rw [if_neg hx, if_neg hy, min_comm]

/-- **C50.**  A global update with an involutive transformation is in detailed balance. -/
theorem C50_involution (abv : AbsoluteValue K R) (w : X → K) (σ : X → X)
    (hσ : ∀ x, σ (σ x) = x) : DetBal (fun x => abv (w x)) (globalKernel abv w σ) := by
  refine stepKernel_detBal _ _ _ ?_
  intro x y
  have hiff : (y = σ x) ↔ (x = σ y) := by
    constructor
    · rintro rfl; exact (hσ x).symm
    · rintro rfl; exact (hσ y).symm
  by_cases h : y = σ x
  · rw [if_pos h, if_pos (hiff.1 h), one_mul, one_mul, ratio_symm]
  · rw [if_neg h, if_neg (fun h' => h (hiff.2 h')), zero_mul, zero_mul, mul_zero, mul_zero]

theorem idKernel_stationary (W : X → R) : Stationary W (idKernel : X → X → R) := by
  intro y; simp [idKernel]

theorem seqKernel_stationary (W : X → R) (l : List (X → X → R)) (h : ∀ P ∈ l, Stationary W P) :
    Stationary W (seqKernel l) := by
  induction l with
  | nil => exact idKernel_stationary W
  | cons P l ih =>
    exact thenKernel_stationary (h P (by simp)) (ih (fun Q hQ => h Q (by simp [hQ])))

theorem sum_list_swap (W : X → R) {α : Type} (l : List α) (f : α → X → R) :
    ∑ x, W x * (l.map (fun o => f o x)).sum = (l.map (fun o => ∑ x, W x * f o x)).sum := by
  induction l with
  | nil => simp
  | cons a l ih => simp [mul_add, Finset.sum_add_distrib, ih]

/-- **C50.**  If all transformations are involutions (as the predefined spin flip is), trying
each of them once in a random order leaves the absolute weight invariant. -/
theorem C50_sweep_involutions (abv : AbsoluteValue K R) (w : X → K) (l : List (X → X))
    (hl : ∀ σ ∈ l, ∀ x, σ (σ x) = x) :
    Stationary (fun x => abv (w x)) (sweepKernel abv w l) := by
  intro y
  have hlen : (l.permutations.length : R) ≠ 0 := by
    rw [List.length_permutations]
    exact_mod_cast Nat.factorial_ne_zero _
  have key : ∀ o ∈ l.permutations,
      ∑ x, abv (w x) * seqKernel (o.map (globalKernel abv w)) x y = abv (w y) := by
    intro o ho
    refine seqKernel_stationary _ _ ?_ y
    intro P hP
    rw [List.mem_map] at hP
    obtain ⟨σ, hσ, rfl⟩ := hP
    have hm : σ ∈ l := (List.mem_permutations.1 ho).mem_iff.1 hσ
    exact stationary_of_detBal (C50_involution abv w σ (hl σ hm)) (globalKernel_stochastic _ _ _)
  unfold sweepKernel
  have e : ∀ x, abv (w x) * ((l.permutations.map
      (fun o => seqKernel (o.map (globalKernel abv w)) x y)).sum / (l.permutations.length : R)) =
      (abv (w x) * (l.permutations.map
      (fun o => seqKernel (o.map (globalKernel abv w)) x y)).sum) / (l.permutations.length : R) := by
    intro x; rw [mul_div_assoc]
  rw [Finset.sum_congr rfl (fun x _ => e x), ← Finset.sum_div, sum_list_swap,
    List.map_congr_left key, List.map_const', List.sum_replicate, nsmul_eq_mul]
  field_simp

/-- **C50.**  If instead one transformation were drawn at random from a list that contains every
transformation as often as its inverse, the absolute weight would be invariant. -/
theorem C50_random_choice (abv : AbsoluteValue K R) (w : X → K) (n : ℕ) (hn : 0 < n)
    (σ : Fin n → Equiv.Perm X) (inv : Equiv.Perm (Fin n)) (hinv : ∀ i, σ (inv i) = (σ i).symm) :
    Stationary (fun x => abv (w x))
      (mixKernel (fun _ => 1 / (n : R)) (fun i => globalKernel abv w (σ i))) := by
  have hn' : (n : R) ≠ 0 := by exact_mod_cast hn.ne'
  refine stationary_of_detBal ?_ (mixKernel_stochastic ?_ ?_ (fun i => globalKernel_stochastic _ _ _))
  · intro x y
    by_cases hxy : x = y
    · rw [hxy]
    unfold mixKernel
    rw [Finset.mul_sum, Finset.mul_sum, ← Equiv.sum_comp inv]
    refine Finset.sum_congr rfl (fun i _ => ?_)
    have e1 : globalKernel abv w (σ (inv i)) x y =
        if x = σ i y then acceptProb abv (w y / w x) else 0 := by
      have hiff : (y = (σ i).symm x) ↔ (x = σ i y) := by
        rw [Equiv.eq_symm_apply]; exact eq_comm
      simp [globalKernel, stepKernel, hinv, hxy, hiff]
    have e2 : globalKernel abv w (σ i) y x =
        if x = σ i y then acceptProb abv (w x / w y) else 0 := by
      simp [globalKernel, stepKernel, Ne.symm hxy]
    change abv (w x) * (1 / (n : R) * globalKernel abv w (σ (inv i)) x y) =
      abv (w y) * (1 / (n : R) * globalKernel abv w (σ i) y x)
    rw [e1, e2]
    by_cases h : x = σ i y
    · rw [if_pos h, if_pos h]
      have := ratio_symm abv w x y
      linear_combination (1 / (n : R)) * this
    · rw [if_neg h, if_neg h]; ring
  · intro i; positivity
  · simp [hn']

end Global

/-! ### C50: the list of permutations -/

/-- A list describes a permutation of `0, …, F-1`. -/
def IsFlavorPerm (F : ℕ) (v : List ℕ) : Prop := v.length = F ∧ v.Nodup ∧ ∀ x ∈ v, x < F

/-- `v'` undoes `v`. -/
def Undoes (F : ℕ) (v v' : List ℕ) : Prop := ∀ f, f < F → v'.getD (v.getD f 0) 0 = f

theorem getD_lt {F : ℕ} {v : List ℕ} (hv : IsFlavorPerm F v) {f : ℕ} (hf : f < F) :
    v.getD f 0 < F := by
  have h : f < v.length := by rw [hv.1]; exact hf
  rw [List.getD_eq_getElem _ _ h]
  exact hv.2.2 _ (List.getElem_mem h)

theorem getD_inj {F : ℕ} {v : List ℕ} (hv : IsFlavorPerm F v) {f g : ℕ} (hf : f < F) (hg : g < F)
    (h : v.getD f 0 = v.getD g 0) : f = g := by
  have hf' : f < v.length := by rw [hv.1]; exact hf
  have hg' : g < v.length := by rw [hv.1]; exact hg
  rw [List.getD_eq_getElem _ _ hf', List.getD_eq_getElem _ _ hg'] at h
  exact (List.Nodup.getElem_inj_iff hv.2.1).1 h

theorem perm_surj {F : ℕ} {v : List ℕ} (hv : IsFlavorPerm F v) {g : ℕ} (hg : g < F) :
    ∃ f, f < F ∧ v.getD f 0 = g := by
  have hsub : v ⊆ List.range F := fun x hx => List.mem_range.2 (hv.2.2 x hx)
  have hperm : v.Perm (List.range F) :=
    (List.subperm_of_subset hv.2.1 hsub).perm_of_length_le (by simp [hv.1])
  have hm : g ∈ v := hperm.mem_iff.2 (List.mem_range.2 hg)
  obtain ⟨i, hi, rfl⟩ := List.getElem_of_mem hm
  exact ⟨i, hv.1 ▸ hi, by rw [List.getD_eq_getElem _ _ hi]⟩

theorem invTemplate_aux {F : ℕ} {v : List ℕ} (hv : IsFlavorPerm F v) (k : ℕ) (hk : k ≤ F) :
    let acc := (List.range k).foldl (fun acc f => acc.set (v.getD f 0) f) (List.replicate F 0)
    acc.length = F ∧ ∀ f, f < k → acc.getD (v.getD f 0) 0 = f := by
  induction k with
  | zero => simp
  | succ k ih =>
    obtain ⟨h1, h2⟩ := ih (by omega)
    rw [List.range_succ, List.foldl_append, List.foldl_cons, List.foldl_nil]
    refine ⟨by rw [List.length_set]; exact h1, ?_⟩
    intro f hf
    have hlt : v.getD f 0 < F := getD_lt hv (by omega)
    rw [List.getD_eq_getElem _ _ (by rw [List.length_set, h1]; exact hlt), List.getElem_set]
    by_cases hfk : f = k
    · rw [if_pos (by rw [hfk])]; exact hfk.symm
    · rw [if_neg (fun h => hfk (getD_inj hv (by omega) (by omega) h.symm)),
        ← List.getD_eq_getElem _ 0]
      exact h2 f (by omega)

theorem undoes_perm {F : ℕ} {v v' : List ℕ} (hv : IsFlavorPerm F v) (hlen : v'.length = F)
    (h : Undoes F v v') : IsFlavorPerm F v' ∧ Undoes F v' v := by
  have hval : ∀ g, g < F → v'.getD g 0 < F ∧ v.getD (v'.getD g 0) 0 = g := by
    intro g hg
    obtain ⟨f, hf, rfl⟩ := perm_surj hv hg
    rw [h f hf]
    exact ⟨hf, rfl⟩
  refine ⟨⟨hlen, ?_, ?_⟩, fun g hg => (hval g hg).2⟩
  · rw [List.Nodup, List.pairwise_iff_getElem]
    intro i j hi hj hij he
    have h1 := (hval i (by omega)).2
    have h2 := (hval j (by omega)).2
    rw [List.getD_eq_getElem v' 0 hi] at h1
    rw [List.getD_eq_getElem v' 0 hj, ← he, h1] at h2
    omega
  · intro x hx
    obtain ⟨i, hi, rfl⟩ := List.getElem_of_mem hx
    have := (hval i (by omega)).1
    rwa [List.getD_eq_getElem v' 0 hi] at this

theorem undoes_unique {F : ℕ} {v a b : List ℕ} (hv : IsFlavorPerm F v) (ha : a.length = F)
    (hb : b.length = F) (h1 : Undoes F v a) (h2 : Undoes F v b) : a = b := by
  refine List.ext_getElem (by rw [ha, hb]) ?_
  intro i hi hi'
  obtain ⟨f, hf, rfl⟩ := perm_surj hv (show i < F by omega)
  have e1 := h1 f hf
  have e2 := h2 f hf
  rw [List.getD_eq_getElem a 0 hi] at e1
  rw [List.getD_eq_getElem b 0 hi'] at e2
  rw [e1, e2]

theorem invTemplate_undoes {F : ℕ} {v : List ℕ} (hv : IsFlavorPerm F v) :
    IsFlavorPerm F (invTemplate F v) ∧ Undoes F v (invTemplate F v) ∧
      Undoes F (invTemplate F v) v := by
  obtain ⟨h1, h2⟩ := invTemplate_aux hv F le_rfl
  obtain ⟨h3, h4⟩ := undoes_perm (v' := invTemplate F v) hv h1 h2
  exact ⟨h3, h2, h4⟩

theorem mem_updInsert (s : List (List ℕ)) (v x : List ℕ) : x ∈ updInsert s v ↔ x ∈ s ∨ x = v := by
  unfold updInsert
  split_ifs with h
  · constructor
    · exact Or.inl
    · rintro (h' | rfl)
      · exact h'
      · exact h
  · simp

theorem nodup_updInsert (s : List (List ℕ)) (v : List ℕ) (hs : s.Nodup) :
    (updInsert s v).Nodup := by
  unfold updInsert
  split_ifs with h
  · exact hs
  · rw [List.nodup_append]
    refine ⟨hs, by simp, ?_⟩
    intro a ha b hb
    rw [List.mem_singleton] at hb
    rintro rfl
    exact h (hb ▸ ha)

theorem templateLoop_spec (F : ℕ) (ts : List (List ℕ)) (s s' : List (List ℕ))
    (hts : ∀ t ∈ ts, t.length = F ∧ ∀ x ∈ t, x < F) (hs : s.Nodup)
    (hloop : templateLoop F ts s = some s') :
    s'.Nodup ∧ (∀ t ∈ ts, IsFlavorPerm F t) ∧
      ∀ x, x ∈ s' ↔ x ∈ s ∨ ∃ t ∈ ts, x = t ∨ x = invTemplate F t := by
  induction ts generalizing s with
  | nil =>
    simp only [templateLoop, Option.some.injEq] at hloop
    subst hloop
    exact ⟨hs, by simp, by simp⟩
  | cons t rest ih =>
    unfold templateLoop at hloop
    split_ifs at hloop with hd
    obtain ⟨h1, h2, h3⟩ := ih _ (fun t ht => hts t (by simp [ht]))
      (nodup_updInsert _ _ (nodup_updInsert _ _ hs)) hloop
    have ht := hts t (by simp)
    have hp : IsFlavorPerm F t := by
      refine ⟨ht.1, ?_, ht.2⟩
      have hl : t.dedup.length = t.length :=
        le_antisymm (List.Sublist.length_le (List.dedup_sublist t)) (by omega)
      rw [← (List.dedup_sublist t).eq_of_length hl]
      exact List.nodup_dedup t
    refine ⟨h1, ?_, ?_⟩
    · intro t' ht'
      rcases List.mem_cons.1 ht' with rfl | h'
      · exact hp
      · exact h2 t' h'
    · intro x
      rw [h3, mem_updInsert, mem_updInsert]
      constructor
      · rintro (((h | h) | h) | ⟨t', ht', h⟩)
        · exact Or.inl h
        · exact Or.inr ⟨t, by simp, Or.inl h⟩
        · exact Or.inr ⟨t, by simp, Or.inr h⟩
        · exact Or.inr ⟨t', by simp [ht'], h⟩
      · rintro (h | ⟨t', ht', h⟩)
        · exact Or.inl (Or.inl (Or.inl h))
        · rcases List.mem_cons.1 ht' with rfl | h'
          · rcases h with h | h
            · exact Or.inl (Or.inl (Or.inr h))
            · exact Or.inl (Or.inr h)
          · exact Or.inr ⟨t', h', h⟩

theorem templates_spec (F k : ℕ) (l : List ℕ) (hl : k * F ≤ l.length) :
    (∀ t ∈ templates F k l, t.length = F ∧ ∀ x ∈ t, x ∈ l) ∧
      (templates F k l).flatten = l.take (k * F) := by
  induction k generalizing l with
  | zero => simp [templates]
  | succ k ih =>
    have hF : F ≤ l.length := by rw [Nat.succ_mul] at hl; omega
    obtain ⟨h1, h2⟩ := ih (l.drop F) (by rw [List.length_drop]; rw [Nat.succ_mul] at hl; omega)
    refine ⟨?_, ?_⟩
    · intro t ht
      rcases List.mem_cons.1 ht with rfl | h
      · exact ⟨by simp [hF], fun x hx => List.mem_of_mem_take hx⟩
      · exact ⟨(h1 t h).1, fun x hx => List.mem_of_mem_drop ((h1 t h).2 x hx)⟩
    · rw [templates, List.flatten_cons, h2, Nat.succ_mul, Nat.add_comm, List.take_add]

/-- **C50.**  If the parameters are accepted, the numbers read are a sequence of permutations
of the flavors, and `swap_vector` contains exactly these permutations and their inverses, without
the identity and without duplicates. -/
theorem C50_members (F spins sites : ℕ) (toks : List (Option ℤ)) (l : List (List ℕ))
    (h : buildSwaps F spins sites toks = .ok l) :
    ∃ ts : List (List ℕ), ts.flatten.map Int.ofNat = swapTokens spins sites toks ∧
      (∀ t ∈ ts, IsFlavorPerm F t) ∧ l.Nodup ∧
      ∀ v, v ∈ l ↔ (v.length = F ∧ v ≠ List.range F ∧ ∃ t ∈ ts, v = t ∨ Undoes F t v) := by
  unfold buildSwaps at h
  simp only at h
  split_ifs at h with hr hm
  rw [ne_eq, not_not] at hm
  set fl := (swapTokens spins sites toks).map Int.toNat with hfl
  simp only [List.any_eq_true, Bool.or_eq_true, decide_eq_true_eq, not_exists, not_and, not_or,
    not_le, not_lt] at hr
  have hlt : ∀ x ∈ fl, x < F := by
    intro x hx
    rw [hfl, List.mem_map] at hx
    obtain ⟨f, hf, rfl⟩ := hx
    have := hr f hf
    omega
  have hT := templates_spec F (fl.length / F) fl (Nat.div_mul_le_self _ _)
  cases hl : templateLoop F (templates F (fl.length / F) fl) [] with
  | none => rw [hl] at h; simp at h
  | some s =>
    rw [hl] at h
    simp only [SwapInit.ok.injEq] at h
    subst h
    obtain ⟨h1, h2, h3⟩ := templateLoop_spec F _ [] s
      (fun t ht => ⟨(hT.1 t ht).1, fun x hx => hlt x ((hT.1 t ht).2 x hx)⟩) List.nodup_nil hl
    refine ⟨templates F (fl.length / F) fl, ?_, h2, h1.filter _, ?_⟩
    · rw [hT.2, Nat.div_mul_cancel (Nat.dvd_of_mod_eq_zero hm), List.take_length, hfl,
        List.map_map]
      conv_rhs => rw [← List.map_id (swapTokens spins sites toks)]
      refine List.map_congr_left (fun f hf => ?_)
      have := hr f hf
      simp only [Function.comp_apply, id_eq]
      exact Int.toNat_of_nonneg this.2
    · intro v
      rw [List.mem_filter, h3]
      simp only [List.not_mem_nil, false_or, ne_eq, decide_not, Bool.not_eq_true',
        decide_eq_false_iff_not]
      constructor
      · rintro ⟨⟨t, ht, hv⟩, hn⟩
        obtain ⟨i1, i2, i3⟩ := invTemplate_undoes (h2 t ht)
        rcases hv with rfl | rfl
        · exact ⟨(h2 v ht).1, hn, v, ht, Or.inl rfl⟩
        · exact ⟨i1.1, hn, t, ht, Or.inr i2⟩
      · rintro ⟨hlen, hn, t, ht, hv⟩
        obtain ⟨i1, i2, i3⟩ := invTemplate_undoes (h2 t ht)
        refine ⟨⟨t, ht, ?_⟩, hn⟩
        rcases hv with rfl | hv
        · exact Or.inl rfl
        · exact Or.inr (undoes_unique (h2 t ht) hlen i1.1 hv i2)

/-- **C50.**  If the parameters are accepted, every entry of `swap_vector` is a permutation of
the flavors different from the identity, and with every entry its inverse is in the list. -/
theorem C50_inverse_closed (F spins sites : ℕ) (toks : List (Option ℤ)) (l : List (List ℕ))
    (h : buildSwaps F spins sites toks = .ok l) :
    ∀ v ∈ l, IsFlavorPerm F v ∧ v ≠ List.range F ∧
      ∃ v' ∈ l, Undoes F v v' ∧ Undoes F v' v := by
  obtain ⟨ts, -, h2, -, h3⟩ := C50_members F spins sites toks l h
  have hid : ∀ a b : List ℕ, IsFlavorPerm F a → b.length = F → Undoes F a b →
      b = List.range F → a = List.range F := by
    intro a b ha hb hu hbr
    subst hbr
    have := (undoes_perm ha hb hu).2
    refine List.ext_getElem (by simp [ha.1]) ?_
    intro i hi hi'
    have hi2 : i < F := by simpa using hi'
    have := this i hi2
    rw [List.getD_eq_getElem _ _ hi', List.getElem_range] at this
    rw [List.getD_eq_getElem _ _ hi] at this
    rw [this, List.getElem_range]
  intro v hv
  obtain ⟨hlen, hne, t, ht, hvt⟩ := (h3 v).1 hv
  have htp := h2 t ht
  rcases hvt with rfl | hu
  · obtain ⟨i1, i2, i3⟩ := invTemplate_undoes htp
    refine ⟨htp, hne, invTemplate F v, (h3 _).2 ⟨i1.1, ?_, v, ht, Or.inr i2⟩, i2, i3⟩
    exact fun hc => hne (hid v _ htp i1.1 i2 hc)
  · obtain ⟨hp, hu'⟩ := undoes_perm htp hlen hu
    refine ⟨hp, hne, t, (h3 _).2 ⟨htp.1, ?_, t, ht, Or.inl rfl⟩, hu', hu⟩
    exact fun hc => hne (hid v t hp htp.1 hu' hc)

/-- Applying a permutation of the list to the flavors (`ExchangeFlavor`, src/operator.hpp) and
then its inverse restores every operator. -/
theorem C50_exchange_undone {T : Type} (F : ℕ) (v v' : List ℕ) (h : Undoes F v v') (o : Psi T)
    (ho : o.flavor < F) :
    exchangeOp (fun f => v'.getD f 0) (exchangeOp (fun f => v.getD f 0) o) = o := by
  unfold exchangeOp
  simp only
  rw [h _ ho]

/-- The permutation exchanging `2s` and `2s+1`. -/
def spinFlip (n : ℕ) : List ℕ :=
  (List.range (2 * n)).map (fun f => if f % 2 = 0 then f + 1 else f - 1)

theorem readInts_some (l : List ℤ) : readInts (l.map some) = l := by
  induction l with
  | nil => rfl
  | cons a l ih => simp [readInts, ih]

theorem spinFlipNums_eq (n : ℕ) :
    spinFlipNums n = ((spinFlip n).map (fun f : ℕ => (f : ℤ))).map some := by
  induction n with
  | zero => rfl
  | succ n ih =>
    unfold spinFlipNums at ih ⊢
    rw [List.range_succ, List.flatMap_append, ih]
    unfold spinFlip
    rw [show 2 * (n + 1) = 2 * n + 1 + 1 by ring, List.range_succ, List.range_succ]
    have h1 : (2 * n) % 2 = 0 := by omega
    have h2 : ¬ (2 * n + 1) % 2 = 0 := by omega
    simp [h2]

theorem spinFlip_getD (n f : ℕ) (hf : f < 2 * n) :
    (spinFlip n).getD f 0 = if f % 2 = 0 then f + 1 else f - 1 := by
  have h : f < (spinFlip n).length := by simpa [spinFlip] using hf
  rw [List.getD_eq_getElem _ _ h]
  simp [spinFlip]

theorem spinFlip_perm (n : ℕ) : IsFlavorPerm (2 * n) (spinFlip n) ∧
    Undoes (2 * n) (spinFlip n) (spinFlip n) := by
  refine ⟨⟨by simp [spinFlip], ?_, ?_⟩, ?_⟩
  · refine List.Nodup.map_on ?_ List.nodup_range
    intro x _ y _ h
    split_ifs at h <;> omega
  · intro x hx
    simp only [spinFlip, List.mem_map, List.mem_range] at hx
    obtain ⟨f, hf, rfl⟩ := hx
    split_ifs <;> omega
  · intro f hf
    rw [spinFlip_getD n f hf]
    split_ifs with h
    · rw [spinFlip_getD n _ (by omega), if_neg (by omega)]; omega
    · rw [spinFlip_getD n _ (by omega), if_pos (by omega)]; omega

/-- **C50.**  With two spins and no further templates, the only swap is the spin flip, which is
its own inverse; `C50_sweep_involutions` applies. -/
theorem C50_spin_flip (n : ℕ) (hn : 0 < n) :
    buildSwaps (2 * n) 2 n [] = .ok [spinFlip n] ∧
      Undoes (2 * n) (spinFlip n) (spinFlip n) := by
  obtain ⟨hp, hu⟩ := spinFlip_perm n
  refine ⟨?_, hu⟩
  have htok : swapTokens 2 n [] = (spinFlip n).map (fun f : ℕ => (f : ℤ)) := by
    unfold swapTokens
    rw [if_pos rfl, List.nil_append, spinFlipNums_eq, readInts_some]
  have hmap : ((spinFlip n).map (fun f : ℕ => (f : ℤ))).map Int.toNat = spinFlip n := by
    rw [List.map_map]
    conv_rhs => rw [← List.map_id (spinFlip n)]
    exact List.map_congr_left (fun f _ => Int.toNat_natCast f)
  have hany : ((spinFlip n).map (fun f : ℕ => (f : ℤ))).any
      (fun f => decide (((2 * n : ℕ) : ℤ) ≤ f) || decide (f < 0)) = false := by
    rw [List.any_eq_false]
    intro f hf
    rw [List.mem_map] at hf
    obtain ⟨g, hg, rfl⟩ := hf
    have := hp.2.2 g hg
    simp only [Bool.or_eq_true, decide_eq_true_eq, not_or]
    omega
  have hinv : invTemplate (2 * n) (spinFlip n) = spinFlip n := by
    obtain ⟨i1, i2, -⟩ := invTemplate_undoes hp
    exact undoes_unique hp i1.1 hp.1 i2 hu
  have hne : spinFlip n ≠ List.range (2 * n) := by
    intro h
    have := spinFlip_getD n 0 (by omega)
    rw [h, List.getD_eq_getElem _ _ (by simp; omega)] at this
    simp at this
  unfold buildSwaps
  simp only
  rw [htok, hany, hmap, if_neg (by simp), hp.1, Nat.mod_self, if_neg (by simp),
    Nat.div_self (by omega)]
  have htake : (spinFlip n).take (2 * n) = spinFlip n := by
    rw [← hp.1, List.take_length]
  simp only [templates, templateLoop, htake, hinv, List.dedup_eq_self.2 hp.2.1, hp.1, lt_irrefl,
    if_false]
  simp [updInsert, hne]

/-- **C50.**  A token that is not an integer silently removes everything after it, including the
predefined spin flip. -/
theorem C50_bad_token (toks : List (Option ℤ)) :
    buildSwaps 2 2 1 (none :: toks) = .ok [] ∧ buildSwaps 2 2 1 [] = .ok [[1, 0]] := by
  refine ⟨?_, by decide⟩
  simp [buildSwaps, swapTokens, readInts, templates, templateLoop]

/-- The effect of an entry of `swap_vector` on the configurations with one operator pair, which
are labelled by the flavor of the pair. -/
def actOnPair (v : List ℕ) (f : Fin 3) : Fin 3 := Fin.ofNat 3 (v.getD f 0)

/-- **C50.**  Closure under inversion is not enough: the updates are not drawn at random but all
tried one after another, and for a permutation of order three the result does not leave the
weight invariant.  Three flavors, one operator pair, weights 4, 2, 1. -/
theorem C50_sweep_not_stationary :
    buildSwaps 3 1 3 [some 1, some 2, some 0] = .ok [[1, 2, 0], [2, 0, 1]] ∧
    ¬ Stationary (fun f : Fin 3 => |(![4, 2, 1] f : ℚ)|)
      (sweepKernel (AbsoluteValue.abs : AbsoluteValue ℚ ℚ) ![4, 2, 1]
        ([[1, 2, 0], [2, 0, 1]].map actOnPair)) := by
  refine ⟨by decide, ?_⟩
  have hp : ∀ a b : Fin 3 → Fin 3, [a, b].permutations = [[a, b], [b, a]] := by
    intro a b
    simp [List.permutations, List.permutationsAux_cons, List.permutationsAux_nil,
      List.permutationsAux2]
  have k1 : ∀ x y : Fin 3, globalKernel (AbsoluteValue.abs : AbsoluteValue ℚ ℚ) ![4, 2, 1]
      (actOnPair [1, 2, 0]) x y =
      (![![1 / 2, 1 / 2, 0], ![0, 1 / 2, 1 / 2], ![1, 0, 0]] x : Fin 3 → ℚ) y := by
    decide +kernel
  have k2 : ∀ x y : Fin 3, globalKernel (AbsoluteValue.abs : AbsoluteValue ℚ ℚ) ![4, 2, 1]
      (actOnPair [2, 0, 1]) x y =
      (![![3 / 4, 0, 1 / 4], ![1, 0, 0], ![0, 1, 0]] x : Fin 3 → ℚ) y := by
    decide +kernel
  intro h
  have h0 := h 0
  simp only [sweepKernel, List.map_cons, List.map_nil, hp, seqKernel, thenKernel, idKernel, k1, k2,
    Fin.sum_univ_three] at h0
  revert h0
  decide +kernel

/-- The three-cycle passes the checks; together with the spin flip for two sites. -/
example : buildSwaps 4 2 2 [some 2, some 3, some 0, some 1] =
    .ok [[2, 3, 0, 1], [1, 0, 3, 2]] := by decide

end CTHyb
