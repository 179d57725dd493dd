import Verif.Postprocess
import Verif.LegendreProps
import Mathlib.Data.Complex.BigOperators
import Mathlib.Analysis.SpecialFunctions.ExpDeriv
import Mathlib.Analysis.Calculus.Deriv.Polynomial
import Mathlib.Analysis.Complex.RealDeriv
import Mathlib.Topology.Algebra.Polynomial
import Mathlib.MeasureTheory.Integral.IntervalIntegral.FundThmCalculus
import Mathlib.Tactic.Ring
import Mathlib.Tactic.Linarith
import Mathlib.Tactic.FieldSimp
import Mathlib.Tactic.NormNum

/-!
Property C43: the tail correction of the one-particle Green's function.
-/

namespace CTHyb

open Finset

/-! ### C43: specification -/

/-- Specification: the function of imaginary time with Legendre coefficients `g`,
`G(tau) = sum_l sqrt(2l+1)/beta P_l(2 tau/beta - 1) g_l`. -/
noncomputable def gAt (beta : ℝ) (g : List ℂ) (tau : ℝ) : ℂ :=
  ∑ l ∈ range g.length, ((Real.sqrt (2 * l + 1) / beta * legendreP l (2 * tau / beta - 1) : ℝ) : ℂ) * g.getD l 0

/-- Specification: the first moment, the coefficient of `1/(i omega)` at large frequency, is
`-(G(0+) + G(beta-))`. -/
noncomputable def firstMoment (beta : ℝ) (g : List ℂ) : ℂ := -(gAt beta g 0 + gAt beta g beta)

/-! ### Lemmas on the loops -/

theorem foldl_zipIdx_sum {A B : Type} [AddCommMonoid B] (f : A → ℕ → B) (d : A) (g : List A) (k : ℕ) (a : B) :
    (g.zipIdx k).foldl (fun s p => s + f p.1 p.2) a =
      a + ∑ i ∈ range g.length, f (g.getD i d) (k + i) := by
  induction g generalizing k a with
  | nil => simp
  | cons x g ih =>
    rw [List.zipIdx_cons, List.foldl_cons, ih, List.length_cons, sum_range_succ']
    simp only [List.getD_cons_zero, List.getD_cons_succ, add_zero]
    rw [add_assoc, add_comm (∑ i ∈ range g.length, _)]
    congr 2
    refine sum_congr rfl fun i _ => ?_
    rw [show k + 1 + i = k + (i + 1) by omega]

/-- The sum over the coefficients with the weights of the code. -/
noncomputable def tSum (g : List ℂ) : ℂ := ∑ l ∈ range g.length, (tl1 l : ℂ) * g.getD l 0

/-- The sum of the squared weights. -/
noncomputable def t2Sum (nl : ℕ) : ℝ := ∑ l ∈ range nl, tl1 l * tl1 l

theorem tailSums_eq (beta c1 : ℝ) (g : List ℂ) :
    tailSums beta c1 g = ((beta * c1 : ℝ) - tSum g, (t2Sum g.length : ℂ)) := by
  have key : ∀ (g : List ℂ) (k : ℕ) (s : ℂ × ℂ),
      (g.zipIdx k).foldl (fun s p => (s.1 - (tl1 p.2 : ℂ) * p.1, s.2 + (tl1 p.2 : ℂ) * (tl1 p.2 : ℂ))) s =
        (s.1 - ∑ i ∈ range g.length, (tl1 (k + i) : ℂ) * g.getD i 0,
          s.2 + ∑ i ∈ range g.length, (tl1 (k + i) : ℂ) * (tl1 (k + i) : ℂ)) := by
    intro g
    induction g with
    | nil => simp
    | cons x g ih =>
      intro k s
      rw [List.zipIdx_cons, List.foldl_cons, ih, List.length_cons, sum_range_succ', sum_range_succ']
      have e : ∀ i, k + 1 + i = k + (i + 1) := fun i => by omega
      simp only [List.getD_cons_zero, List.getD_cons_succ, add_zero, e, Prod.mk.injEq]
      constructor <;> ring
  unfold tailSums tSum t2Sum
  rw [key]
  simp

theorem correctRow_length (beta c1 : ℝ) (g : List ℂ) : (correctRow beta c1 g).length = g.length := by
  simp [correctRow]

theorem correctRow_getD (beta c1 : ℝ) (g : List ℂ) {l : ℕ} (hl : l < g.length) :
    (correctRow beta c1 g).getD l 0 =
      g.getD l 0 + (((beta * c1 : ℝ) - tSum g) / (t2Sum g.length : ℂ)) * (tl1 l : ℂ) := by
  unfold correctRow
  rw [tailSums_eq]
  simp [List.getD_eq_getElem?_getD, hl]

theorem t2Sum_pos {nl : ℕ} (h : 0 < nl) : 0 < t2Sum nl := by
  unfold t2Sum
  obtain ⟨m, rfl⟩ := Nat.exists_eq_succ_of_ne_zero h.ne'
  rw [sum_range_succ']
  have : (0 : ℝ) ≤ ∑ k ∈ range m, tl1 (k + 1) * tl1 (k + 1) := sum_nonneg fun _ _ => mul_self_nonneg _
  have h0 : tl1 0 * tl1 0 = 4 := by simp [tl1]; norm_num
  linarith

theorem tSum_correct (beta c1 : ℝ) (g : List ℂ) (hg : g ≠ []) :
    tSum (correctRow beta c1 g) = (beta * c1 : ℝ) := by
  have hp : 0 < g.length := List.length_pos_iff.2 hg
  have h2 : (t2Sum g.length : ℂ) ≠ 0 := by exact_mod_cast (t2Sum_pos hp).ne'
  have : tSum (correctRow beta c1 g) = tSum g +
      (((beta * c1 : ℝ) - tSum g) / (t2Sum g.length : ℂ)) * (t2Sum g.length : ℂ) := by
    conv_lhs => unfold tSum
    rw [correctRow_length]
    conv_rhs => arg 2; arg 2; unfold t2Sum
    rw [Complex.ofReal_sum, mul_sum]
    conv_rhs => arg 1; unfold tSum
    rw [← sum_add_distrib]
    refine sum_congr rfl fun l hl => ?_
    rw [correctRow_getD _ _ _ (mem_range.1 hl)]
    push_cast
    ring
  rw [this, div_mul_cancel₀ _ h2]
  ring

theorem correctRow_eq_self (beta c1 : ℝ) (g : List ℂ) (h : tSum g = (beta * c1 : ℝ)) :
    correctRow beta c1 g = g := by
  apply List.ext_getElem (correctRow_length _ _ _)
  intro l h1 h2
  have := correctRow_getD beta c1 g h2
  rw [List.getD_eq_getElem?_getD, List.getD_eq_getElem?_getD, List.getElem?_eq_getElem h1,
    List.getElem?_eq_getElem h2, Option.getD_some, Option.getD_some, h] at this
  rw [this]
  simp


/-! ### The sum with the weights of the code is the first moment -/

theorem tSum_eq_firstMoment {beta : ℝ} (hb : beta ≠ 0) (g : List ℂ) :
    tSum g = beta * firstMoment beta g := by
  unfold tSum firstMoment gAt
  rw [← sum_add_distrib, ← sum_neg_distrib, mul_sum]
  refine sum_congr rfl fun l _ => ?_
  have e1 : 2 * (0 : ℝ) / beta - 1 = -1 := by simp
  have e2 : 2 * beta / beta - 1 = 1 := by field_simp; norm_num
  rw [e1, e2, (C35_normalised (K := ℝ) l 1).1, (C35_normalised (K := ℝ) l 1).2, (C35_normalised (K := ℝ) l 1).1]
  have hb' : (beta : ℂ) ≠ 0 := by exact_mod_cast hb
  rcases Nat.even_or_odd l with h | h
  · rw [tl1, if_pos (Nat.even_iff.1 h), h.neg_one_pow]
    push_cast
    field_simp
    ring
  · rw [tl1, if_neg (by rw [Nat.odd_iff.1 h]; decide), h.neg_one_pow]
    push_cast
    field_simp
    ring

/-! ### C43 -/

/-- **C43.** After the correction the first moment is exactly `c1` (1 for a diagonal, 0 for an
off-diagonal element), for every list of coefficients with at least one element. -/
theorem C43_sum_rule {beta : ℝ} (hb : beta ≠ 0) (c1 : ℝ) (g : List ℂ) (hg : g ≠ []) :
    firstMoment beta (correctRow beta c1 g) = c1 := by
  have h := tSum_correct beta c1 g hg
  rw [tSum_eq_firstMoment hb] at h
  have hb' : (beta : ℂ) ≠ 0 := by exact_mod_cast hb
  push_cast at h
  exact mul_left_cancel₀ hb' h

/-- **C43.** The whole array: the first moment of the corrected object is the unit matrix. -/
theorem C43_array {n : ℕ} {beta : ℝ} (hb : beta ≠ 0) (G : Fin n → Fin n → List ℂ)
    (hG : ∀ i j, G i j ≠ []) (i j : Fin n) :
    firstMoment beta (correctTail beta G i j) = if i = j then 1 else 0 := by
  unfold correctTail
  rw [C43_sum_rule hb _ _ (hG i j)]
  split <;> simp

/-- **C43.** The result of `compute_G1` satisfies the sum rule for every scale factor, every rotation
matrix and every measured array. -/
theorem C43_computeG1 {n : ℕ} {beta : ℝ} (hb : beta ≠ 0) (coeff : ℝ) {nl : ℕ} (hnl : 0 < nl)
    (R : Matrix (Fin n) (Fin n) ℂ) (data : ℕ → Matrix (Fin n) (Fin n) ℂ) (i j : Fin n) :
    firstMoment beta (computeG1 beta coeff nl R data i j) = if i = j then 1 else 0 := by
  unfold computeG1
  refine C43_array hb _ (fun i j h => ?_) i j
  have := congrArg List.length h
  simp at this
  omega

/-- **C43.** The number of coefficients and all odd coefficients are unchanged. -/
theorem C43_odd (beta c1 : ℝ) (g : List ℂ) :
    (correctRow beta c1 g).length = g.length ∧
    ∀ l, l % 2 = 1 → (correctRow beta c1 g)[l]? = g[l]? := by
  refine ⟨correctRow_length _ _ _, fun l hl => ?_⟩
  by_cases h : l < g.length
  · have := correctRow_getD beta c1 g h
    rw [tl1, if_neg (by omega)] at this
    have h' : l < (correctRow beta c1 g).length := by rw [correctRow_length]; exact h
    rw [List.getD_eq_getElem?_getD, List.getD_eq_getElem?_getD, List.getElem?_eq_getElem h,
      List.getElem?_eq_getElem h', Option.getD_some, Option.getD_some] at this
    rw [List.getElem?_eq_getElem h, List.getElem?_eq_getElem h', this]
    simp
  · rw [List.getElem?_eq_none (by rw [correctRow_length]; omega), List.getElem?_eq_none (by omega)]

/-- **C43.** Beside the tail correction, which changes even coefficients only, `compute_G1` returns the
measured coefficients times the scale factor in the original basis. -/
theorem C43_computeG1_odd {n : ℕ} (beta coeff : ℝ) {nl l : ℕ} (hl : l < nl) (hodd : l % 2 = 1)
    (R : Matrix (Fin n) (Fin n) ℂ) (data : ℕ → Matrix (Fin n) (Fin n) ℂ) (i j : Fin n) :
    (computeG1 beta coeff nl R data i j)[l]? = some ((coeff : ℂ) * (R * data l * R⁻¹) i j) := by
  unfold computeG1 correctTail
  rw [(C43_odd _ _ _).2 l hodd, List.getElem?_map, List.getElem?_range hl]
  simp [rotateG1]

/-- **C43.** Coefficients which already satisfy the rule are not changed. -/
theorem C43_unchanged {beta : ℝ} (hb : beta ≠ 0) (c1 : ℝ) (g : List ℂ)
    (h : firstMoment beta g = c1) : correctRow beta c1 g = g := by
  apply correctRow_eq_self
  rw [tSum_eq_firstMoment hb, h]
  push_cast
  rfl

/-- **C43.** Applying the correction twice is the same as applying it once. -/
theorem C43_idempotent {n : ℕ} {beta : ℝ} (hb : beta ≠ 0) (G : Fin n → Fin n → List ℂ) :
    correctTail beta (correctTail beta G) = correctTail beta G := by
  funext i j
  show correctRow beta _ (correctRow beta _ _) = correctRow beta _ _
  by_cases hg : G i j = []
  · rw [hg]; rfl
  · exact C43_unchanged hb _ _ (C43_sum_rule hb _ _ hg)

/-- **C43.** The correction is the smallest possible one: every other list of the same length which
satisfies the rule is farther from the input, in the sense of least squares. -/
theorem C43_smallest {beta : ℝ} (hb : beta ≠ 0) (c1 : ℝ) (g h : List ℂ) (hl : h.length = g.length)
    (hm : firstMoment beta h = c1) :
    ∑ l ∈ range g.length, Complex.normSq (h.getD l 0 - g.getD l 0) =
      ∑ l ∈ range g.length, Complex.normSq ((correctRow beta c1 g).getD l 0 - g.getD l 0) +
      ∑ l ∈ range g.length, Complex.normSq (h.getD l 0 - (correctRow beta c1 g).getD l 0) := by
  by_cases hg : g = []
  · subst hg; simp
  set q := correctRow beta c1 g with hq
  set d : ℂ := ((beta * c1 : ℝ) - tSum g) / (t2Sum g.length : ℂ) with hd
  have hs : ∑ l ∈ range g.length, (tl1 l : ℂ) * (h.getD l 0 - q.getD l 0) = 0 := by
    have h1 : tSum h = (beta * c1 : ℝ) := by rw [tSum_eq_firstMoment hb, hm]; push_cast; rfl
    have h2 := tSum_correct beta c1 g hg
    unfold tSum at h1 h2
    rw [hl] at h1
    rw [correctRow_length] at h2
    simp only [mul_sub, sum_sub_distrib]
    rw [← hq] at h2
    rw [h1, h2, sub_self]
  have hc : ∑ l ∈ range g.length, (starRingEnd ℂ (q.getD l 0 - g.getD l 0)) * (h.getD l 0 - q.getD l 0) = 0 := by
    have : ∑ l ∈ range g.length, (starRingEnd ℂ (q.getD l 0 - g.getD l 0)) * (h.getD l 0 - q.getD l 0) =
        starRingEnd ℂ d * ∑ l ∈ range g.length, (tl1 l : ℂ) * (h.getD l 0 - q.getD l 0) := by
      rw [mul_sum]
      refine sum_congr rfl fun l hl => ?_
      rw [hq, correctRow_getD _ _ _ (mem_range.1 hl), ← hd, add_sub_cancel_left, map_mul, Complex.conj_ofReal,
        mul_assoc]
    rw [this, hs, mul_zero]
  have hr := congrArg Complex.re hc
  rw [Complex.re_sum, Complex.zero_re] at hr
  rw [← sum_add_distrib, ← sub_eq_zero, ← sum_sub_distrib]
  have : ∀ l, Complex.normSq (h.getD l 0 - g.getD l 0) -
      (Complex.normSq (q.getD l 0 - g.getD l 0) + Complex.normSq (h.getD l 0 - q.getD l 0)) =
      2 * (starRingEnd ℂ (q.getD l 0 - g.getD l 0) * (h.getD l 0 - q.getD l 0)).re := by
    intro l
    simp only [Complex.normSq_apply, Complex.mul_re, Complex.conj_re, Complex.conj_im, Complex.sub_re, Complex.sub_im]
    ring
  rw [sum_congr rfl fun l _ => this l, ← mul_sum, hr, mul_zero]

/-- **C43.** The values which `compute_G1` writes for the mesh points are the values of the function
with the given Legendre coefficients. -/
theorem C43_gtau {beta : ℝ} (nTau itau : ℕ) (g : List ℂ) :
    gtau beta nTau g itau = gAt beta g (itau * (beta / nTau)) := by
  unfold gtau gAt
  rw [foldl_zipIdx_sum (fun x l => (((computeLegendre g.length (2 * (itau * (beta / nTau)) / beta - 1)).getD l 0 : ℝ) : ℂ) * x *
    (sqrt2l1 l : ℂ) * ((1 / beta : ℝ) : ℂ)) 0]
  rw [zero_add]
  refine sum_congr rfl fun l hl => ?_
  have hl := mem_range.1 hl
  rw [zero_add, C35_legendre]
  have e : sqrt2l1 l = Real.sqrt (2 * l + 1) := by
    unfold sqrt2l1
    split
    · next h => subst h; simp
    · rfl
  rw [e, List.getD_eq_getElem?_getD]
  simp only [List.getElem?_map, List.getElem?_range hl, Option.map_some, Option.getD_some]
  push_cast
  ring

/-- **C43.** For the values on the mesh: the first and the last value add up to `-1` on the diagonal
and to `0` off the diagonal. -/
theorem C43_gtau_ends {n : ℕ} {beta : ℝ} (hb : beta ≠ 0) (coeff : ℝ) {nl nTau : ℕ} (hnl : 0 < nl)
    (ht : 0 < nTau) (R : Matrix (Fin n) (Fin n) ℂ) (data : ℕ → Matrix (Fin n) (Fin n) ℂ) (i j : Fin n) :
    gtau beta nTau (computeG1 beta coeff nl R data i j) 0 +
      gtau beta nTau (computeG1 beta coeff nl R data i j) nTau = if i = j then -1 else 0 := by
  have h := C43_computeG1 hb coeff hnl R data i j
  have ht' : (nTau : ℝ) ≠ 0 := by exact_mod_cast ht.ne'
  rw [C43_gtau, C43_gtau, Nat.cast_zero, zero_mul, mul_div_cancel₀ _ ht']
  unfold firstMoment at h
  rw [neg_eq_iff_eq_neg] at h
  rw [h]
  split <;> simp

/-! ### The first moment is the leading coefficient at large frequency -/

/-- Specification: the Fourier transform of a function on `[0, beta]`. -/
noncomputable def fourierAt (beta omega : ℝ) (f : ℝ → ℂ) : ℂ :=
  ∫ tau in (0 : ℝ)..beta, Complex.exp (Complex.I * omega * tau) * f tau

theorem fourier_by_parts (beta omega : ℝ) (he : Complex.exp (Complex.I * omega * beta) = -1)
    (P : Polynomial ℂ) :
    Complex.I * omega * fourierAt beta omega (fun t => P.eval (t : ℂ)) =
      -(P.eval (0 : ℂ) + P.eval (beta : ℂ)) -
        fourierAt beta omega (fun t => (Polynomial.derivative P).eval (t : ℂ)) := by
  have hd : ∀ t ∈ Set.uIcc (0 : ℝ) beta,
      HasDerivAt (fun t : ℝ => Complex.exp (Complex.I * omega * t) * P.eval (t : ℂ))
        (Complex.I * omega * (Complex.exp (Complex.I * omega * t) * P.eval (t : ℂ)) +
          Complex.exp (Complex.I * omega * t) * (Polynomial.derivative P).eval (t : ℂ)) t := by
    intro t _
    have h1 : HasDerivAt (fun z : ℂ => Complex.exp (Complex.I * omega * z))
        (Complex.exp (Complex.I * omega * t) * (Complex.I * omega)) (t : ℂ) := by
      have := ((hasDerivAt_id (t : ℂ)).const_mul (Complex.I * omega)).cexp
      simpa using this
    have h2 := (h1.mul (P.hasDerivAt (t : ℂ))).comp_ofReal
    have h3 : Complex.I * omega * (Complex.exp (Complex.I * omega * t) * P.eval (t : ℂ)) +
          Complex.exp (Complex.I * omega * t) * (Polynomial.derivative P).eval (t : ℂ) =
        Complex.exp (Complex.I * omega * t) * (Complex.I * omega) * P.eval (t : ℂ) +
          Complex.exp (Complex.I * omega * t) * (Polynomial.derivative P).eval (t : ℂ) := by ring
    rw [h3]
    exact h2
  have hc1 : Continuous fun t : ℝ => Complex.exp (Complex.I * omega * t) * P.eval (t : ℂ) :=
    (by fun_prop : Continuous fun t : ℝ => Complex.exp (Complex.I * omega * t)).mul
      (P.continuous.comp Complex.continuous_ofReal)
  have hc2 : Continuous fun t : ℝ =>
      Complex.exp (Complex.I * omega * t) * (Polynomial.derivative P).eval (t : ℂ) :=
    (by fun_prop : Continuous fun t : ℝ => Complex.exp (Complex.I * omega * t)).mul
      ((Polynomial.derivative P).continuous.comp Complex.continuous_ofReal)
  have hc3 : Continuous fun t : ℝ =>
      Complex.I * omega * (Complex.exp (Complex.I * omega * t) * P.eval (t : ℂ)) :=
    continuous_const.mul hc1
  have := intervalIntegral.integral_eq_sub_of_hasDerivAt hd
    ((hc3.add hc2).intervalIntegrable _ _)
  rw [intervalIntegral.integral_add (hc3.intervalIntegrable _ _)
    (hc2.intervalIntegrable _ _), intervalIntegral.integral_const_mul, he] at this
  unfold fourierAt
  rw [eq_sub_iff_add_eq, this]
  simp
  ring

theorem fourier_bound (beta : ℝ) (P : Polynomial ℂ) :
    ∃ C : ℝ, ∀ omega : ℝ, ‖fourierAt beta omega (fun t => P.eval (t : ℂ))‖ ≤ C := by
  obtain ⟨C, hC⟩ := (isCompact_uIcc (a := (0 : ℝ)) (b := beta)).exists_bound_of_continuousOn
    (f := fun t : ℝ => P.eval (t : ℂ)) (P.continuous.comp Complex.continuous_ofReal).continuousOn
  refine ⟨C * |beta - 0|, fun omega => intervalIntegral.norm_integral_le_of_norm_le_const fun t ht => ?_⟩
  rw [norm_mul]
  have : ‖Complex.exp (Complex.I * omega * t)‖ = 1 := by
    rw [Complex.norm_exp]; simp
  rw [this, one_mul]
  exact hC t (Set.uIoc_subset_uIcc ht)

theorem gAt_polynomial (beta : ℝ) (g : List ℂ) :
    ∃ P : Polynomial ℂ, ∀ tau : ℝ, gAt beta g tau = P.eval (tau : ℂ) := by
  refine ⟨∑ l ∈ range g.length, Polynomial.C ((Real.sqrt (2 * l + 1) / beta : ℝ) * g.getD l 0) *
    ((Polynomial.shiftedLegendre l).map (Int.castRingHom ℂ)).comp
      (Polynomial.C 1 - Polynomial.C ((1 / beta : ℝ) : ℂ) * Polynomial.X), fun tau => ?_⟩
  unfold gAt
  rw [Polynomial.eval_finsetSum]
  refine sum_congr rfl fun l _ => ?_
  have : ((legendreP l (2 * tau / beta - 1) : ℝ) : ℂ) =
      (((Polynomial.shiftedLegendre l).map (Int.castRingHom ℂ)).comp
      (Polynomial.C 1 - Polynomial.C ((1 / beta : ℝ) : ℂ) * Polynomial.X)).eval (tau : ℂ) := by
    rw [Polynomial.eval_comp, Polynomial.eval_map]
    unfold legendreP
    have e : ((1 - (2 * tau / beta - 1)) / 2 : ℝ) = 1 - 1 / beta * tau := by ring
    rw [e, Polynomial.aeval_def, ← Complex.ofRealHom_eq_coe, Polynomial.hom_eval₂]
    have e2 : Complex.ofRealHom.comp (algebraMap ℤ ℝ) = Int.castRingHom ℂ := RingHom.ext_int _ _
    rw [e2]
    congr 1
    simp
  rw [Complex.ofReal_mul, this]
  simp only [Polynomial.eval_mul, Polynomial.eval_C]
  ring

/-- **C43.** The first moment of the specification is the coefficient of `1/(i omega_n)` in the
Fourier transform at the fermionic frequencies `omega_n = (2n+1) pi/beta`, as `n` grows. -/
theorem C43_first_moment_is_tail {beta : ℝ} (hb : 0 < beta) (g : List ℂ) :
    Filter.Tendsto (fun n : ℕ => Complex.I * (((2 * n + 1) * Real.pi / beta : ℝ) : ℂ) *
        fourierAt beta ((2 * n + 1) * Real.pi / beta) (gAt beta g))
      Filter.atTop (nhds (firstMoment beta g)) := by
  obtain ⟨P, hP⟩ := gAt_polynomial beta g
  have hf : gAt beta g = fun t : ℝ => P.eval (t : ℂ) := funext hP
  have he : ∀ n : ℕ, Complex.exp (Complex.I * (((2 * n + 1) * Real.pi / beta : ℝ) : ℂ) * beta) = -1 := by
    intro n
    have hb' : (beta : ℂ) ≠ 0 := by exact_mod_cast hb.ne'
    have : Complex.I * (((2 * n + 1) * Real.pi / beta : ℝ) : ℂ) * beta =
        Real.pi * Complex.I + n * (2 * Real.pi * Complex.I) := by
      push_cast
      field_simp
      ring
    rw [this, Complex.exp_add, Complex.exp_pi_mul_I, Complex.exp_nat_mul_two_pi_mul_I, mul_one]
  obtain ⟨C, hC⟩ := fourier_bound beta (Polynomial.derivative (Polynomial.derivative P))
  set Q := Polynomial.derivative P with hQ
  set D := ‖-(Q.eval (0 : ℂ) + Q.eval (beta : ℂ))‖ + C with hD
  have hom : ∀ n : ℕ, (0 : ℝ) < (2 * n + 1) * Real.pi / beta := fun n => by positivity
  rw [tendsto_iff_norm_sub_tendsto_zero]
  refine squeeze_zero (g := fun n : ℕ => D / ((2 * n + 1) * Real.pi / beta)) (fun _ => norm_nonneg _)
    (fun n => ?_) ?_
  · rw [hf, fourier_by_parts _ _ (he n)]
    have h0 : firstMoment beta g = -(P.eval (0 : ℂ) + P.eval (beta : ℂ)) := by
      unfold firstMoment
      rw [hP, hP, Complex.ofReal_zero]
    rw [h0, sub_sub_cancel_left, norm_neg, ← hQ, le_div_iff₀ (hom n)]
    have h1 := congrArg norm (fourier_by_parts beta _ (he n) Q)
    rw [norm_mul, norm_mul, Complex.norm_I, one_mul, Complex.norm_real, Real.norm_of_nonneg (hom n).le] at h1
    rw [mul_comm, h1]
    exact (norm_sub_le _ _).trans (add_le_add le_rfl (hC _))
  · apply Filter.Tendsto.div_atTop tendsto_const_nhds
    refine Filter.Tendsto.atTop_div_const hb (Filter.Tendsto.atTop_mul_const Real.pi_pos ?_)
    exact Filter.tendsto_atTop_add_const_right _ _ (tendsto_natCast_atTop_atTop.const_mul_atTop two_pos)

/-- **C43.** The corrected Green's function has the exact first moment: its Fourier transform times
`i omega_n` tends to the unit matrix. -/
theorem C43_tail {n : ℕ} {beta : ℝ} (hb : 0 < beta) (coeff : ℝ) {nl : ℕ} (hnl : 0 < nl)
    (R : Matrix (Fin n) (Fin n) ℂ) (data : ℕ → Matrix (Fin n) (Fin n) ℂ) (i j : Fin n) :
    Filter.Tendsto (fun k : ℕ => Complex.I * (((2 * k + 1) * Real.pi / beta : ℝ) : ℂ) *
        fourierAt beta ((2 * k + 1) * Real.pi / beta) (gAt beta (computeG1 beta coeff nl R data i j)))
      Filter.atTop (nhds (if i = j then 1 else 0)) := by
  rw [← C43_computeG1 hb.ne' coeff hnl R data i j]
  exact C43_first_moment_is_tail hb _

/-! ### C56: the Green's function in frequency space -/

/-- Specification of the library function: the spherical Bessel functions, through the integral
`2 i^l j_l(z) = int_{-1}^{1} e^{izx} P_l(x) dx`. -/
def IsSphBessel (j : ℕ → ℝ → ℝ) : Prop :=
  ∀ (l : ℕ) (z : ℝ), 2 * Complex.I ^ l * (j l z : ℂ) =
    ∫ x in (-1 : ℝ)..1, Complex.exp (Complex.I * z * x) * ((legendreP l x : ℝ) : ℂ)

theorem tnl_eq (j : ℕ → ℝ → ℝ) (im il : ℕ) :
    tnl j im il = (-1) ^ im * Complex.I ^ (il + 1) * (Real.sqrt (2 * il + 1) : ℂ) *
      (j il ((2 * im + 1) * Real.pi / 2) : ℂ) := by
  have h : ∀ (a z : ℂ) (m : ℕ), (List.range m).foldl (fun s _ => s * a) z = z * a ^ m := by
    intro a z m
    induction m with
    | zero => simp
    | succ m ih => rw [List.range_succ, List.foldl_append, ih, List.foldl_cons, List.foldl_nil, pow_succ, mul_assoc]
  unfold tnl
  simp only [h]
  rw [one_mul, ← pow_succ', show (0.5 * (2 * (im : ℝ) + 1) * Real.pi) = (2 * im + 1) * Real.pi / 2 by ring]

theorem continuous_legendreP (l : ℕ) : Continuous fun x : ℝ => legendreP l x := by
  have : (fun x : ℝ => legendreP l x) = fun x : ℝ =>
      ((Polynomial.shiftedLegendre l).map (Int.castRingHom ℝ)).eval ((1 - x) / 2) := by
    funext x
    unfold legendreP
    rw [Polynomial.eval_map, Polynomial.aeval_def]
    rfl
  rw [this]
  exact (Polynomial.continuous _).comp (by fun_prop)

/-- **C56.** For every list of Legendre coefficients and every frequency the element written to `gf`
is the Fourier transform of the function of imaginary time with these coefficients. -/
theorem C56_fourier (j : ℕ → ℝ → ℝ) (hj : IsSphBessel j) {beta : ℝ} (hb : 0 < beta) (g : List ℂ) (im : ℕ) :
    gomega j g im = fourierAt beta ((2 * im + 1) * Real.pi / beta) (gAt beta g) := by
  unfold gomega fourierAt gAt
  rw [foldl_zipIdx_sum (fun x l => tnl j im l * x) 0, zero_add]
  simp only [mul_sum]
  rw [intervalIntegral.integral_finsetSum]
  · refine sum_congr rfl fun l _ => ?_
    rw [zero_add, tnl_eq]
    set om : ℝ := (2 * im + 1) * Real.pi / beta with hom
    set z : ℝ := (2 * im + 1) * Real.pi / 2 with hz
    have hb' : (beta : ℂ) ≠ 0 := by exact_mod_cast hb.ne'
    have hph : Complex.exp (Complex.I * z) = Complex.I * (-1) ^ im := by
      have : Complex.I * (z : ℂ) = Real.pi / 2 * Complex.I + im * (Real.pi * Complex.I) := by
        rw [hz]; push_cast; ring
      rw [this, Complex.exp_add, Complex.exp_pi_div_two_mul_I, Complex.exp_nat_mul, Complex.exp_pi_mul_I]
    have e : ∀ tau : ℝ, Complex.exp (Complex.I * om * tau) *
        (((Real.sqrt (2 * l + 1) / beta * legendreP l (2 * tau / beta - 1) : ℝ) : ℂ) * g.getD l 0) =
        (Real.sqrt (2 * l + 1) / beta * g.getD l 0 * (Complex.I * (-1) ^ im)) *
          (fun x : ℝ => Complex.exp (Complex.I * z * x) * ((legendreP l x : ℝ) : ℂ)) (2 / beta * tau - 1) := by
      intro tau
      have h1 : Complex.exp (Complex.I * om * tau) = Complex.exp (Complex.I * z) *
          Complex.exp (Complex.I * z * ((2 / beta * tau - 1 : ℝ) : ℂ)) := by
        rw [← Complex.exp_add]
        congr 1
        rw [hom, hz]
        push_cast
        field_simp
        ring
      rw [h1, hph, show 2 * tau / beta - 1 = 2 / beta * tau - 1 by ring]
      push_cast
      ring
    rw [intervalIntegral.integral_congr fun tau _ => e tau, intervalIntegral.integral_const_mul,
      intervalIntegral.integral_comp_mul_sub
        (fun x : ℝ => Complex.exp (Complex.I * z * x) * ((legendreP l x : ℝ) : ℂ))
        (by positivity : (2 / beta : ℝ) ≠ 0),
      show 2 / beta * 0 - 1 = -1 by simp, show 2 / beta * beta - 1 = 1 by field_simp; norm_num, ← hj]
    rw [Complex.real_smul]
    push_cast
    field_simp
    ring
  · intro l _
    apply Continuous.intervalIntegrable
    have := continuous_legendreP l
    fun_prop

/-- **C56.** With the tail correction the values in frequency space have the exact leading behaviour:
`i omega_n G(i omega_n)` tends to the unit matrix. -/
theorem C56_tail (j : ℕ → ℝ → ℝ) (hj : IsSphBessel j) {n : ℕ} {beta : ℝ} (hb : 0 < beta) (coeff : ℝ) {nl : ℕ} (hnl : 0 < nl)
    (R : Matrix (Fin n) (Fin n) ℂ) (data : ℕ → Matrix (Fin n) (Fin n) ℂ) (a b : Fin n) :
    Filter.Tendsto (fun k : ℕ => Complex.I * (((2 * k + 1) * Real.pi / beta : ℝ) : ℂ) *
        gomega j (computeG1 beta coeff nl R data a b) k)
      Filter.atTop (nhds (if a = b then 1 else 0)) := by
  simp only [C56_fourier j hj hb]
  exact C43_tail hb coeff hnl R data a b

/-! ### Examples -/

/-- The hypothesis on the library function is satisfiable: the integral is `i^l` times a real number,
because the Legendre polynomials have a parity. -/
theorem exists_sphBessel : ∃ j, IsSphBessel j := by
  set F : ℕ → ℝ → ℂ := fun l z =>
    ∫ x in (-1 : ℝ)..1, Complex.exp (Complex.I * z * x) * ((legendreP l x : ℝ) : ℂ) with hF
  have hI : ∀ l : ℕ, (2 * Complex.I ^ l : ℂ) ≠ 0 := fun l => by simp
  have hc : ∀ l z, starRingEnd ℂ (F l z) = (-1) ^ l * F l z := by
    intro l z
    rw [hF]
    simp only
    have hconj : ∀ f : ℝ → ℂ, starRingEnd ℂ (∫ x in (-1 : ℝ)..1, f x) =
        ∫ x in (-1 : ℝ)..1, starRingEnd ℂ (f x) := by
      intro f
      rw [intervalIntegral.integral_of_le (by norm_num), intervalIntegral.integral_of_le (by norm_num)]
      exact integral_conj.symm
    rw [hconj]
    have h1 := intervalIntegral.integral_comp_neg (a := -1) (b := 1)
      (fun x : ℝ => Complex.exp (Complex.I * z * x) * ((legendreP l x : ℝ) : ℂ))
    rw [neg_neg] at h1
    rw [← h1, ← intervalIntegral.integral_const_mul]
    refine intervalIntegral.integral_congr fun x _ => ?_
    simp only [map_mul, Complex.conj_ofReal, ← Complex.exp_conj, Complex.conj_I,
      (C35_normalised (K := ℝ) l x).2]
    push_cast
    rw [show -Complex.I * (z : ℂ) * x = Complex.I * z * -(x : ℂ) by ring]
    have : ((-1 : ℂ) ^ l) * (-1) ^ l = 1 := by rw [← mul_pow]; simp
    linear_combination (-(Complex.exp (Complex.I * z * -(x : ℂ)) * ((legendreP l x : ℝ) : ℂ))) * this
  refine ⟨fun l z => (F l z / (2 * Complex.I ^ l)).re, fun l z => ?_⟩
  have hr : (((F l z / (2 * Complex.I ^ l)).re : ℝ) : ℂ) = F l z / (2 * Complex.I ^ l) := by
    rw [← Complex.conj_eq_iff_re, map_div₀, hc, map_mul, map_pow, Complex.conj_I, neg_pow Complex.I, map_ofNat,
      show (2 : ℂ) * ((-1) ^ l * Complex.I ^ l) = (-1) ^ l * (2 * Complex.I ^ l) by ring]
    exact mul_div_mul_left _ _ (by simp)
  rw [hr, mul_div_cancel₀ _ (hI l)]

/-- The correction changes the coefficients of this list: the first moment was `-4/beta`. -/
example : firstMoment 1 [2, 5] = -4 ∧ firstMoment 1 (correctRow 1 1 [2, 5]) = 1 ∧
    correctRow 1 1 [2, 5] = [-1 / 2, 5] := by
  have h2 : tSum [2, 5] = -4 := by
    simp [tSum, sum_range_succ, tl1]; norm_num
  have t2 : t2Sum 2 = 4 := by simp [t2Sum, sum_range_succ, tl1]; norm_num
  refine ⟨?_, by simpa using C43_sum_rule one_ne_zero 1 [2, 5] (by simp), ?_⟩
  · have := tSum_eq_firstMoment (one_ne_zero (α := ℝ)) [2, 5]
    rw [h2] at this
    simpa using this.symm
  · unfold correctRow
    rw [tailSums_eq, h2]
    simp [t2, tl1]
    norm_num

/-- Off the diagonal `[0, 5]` satisfies the rule, on the diagonal it does not. -/
example : correctRow 1 0 [0, 5] = [0, 5] ∧ correctRow 1 1 [0, 5] ≠ [0, 5] := by
  have h2 : tSum [0, 5] = 0 := by simp [tSum, sum_range_succ, tl1]
  refine ⟨correctRow_eq_self _ _ _ (by rw [h2]; simp), fun h => ?_⟩
  have := tSum_correct 1 1 [0, 5] (by simp)
  rw [h, h2] at this
  norm_num at this

end CTHyb
