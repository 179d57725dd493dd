import Verif.FastUpdate
import Mathlib.LinearAlgebra.Matrix.Adjugate
import Mathlib.Tactic.FieldSimp
import Mathlib.Tactic.Ring
import Mathlib.Tactic.LinearCombination
import Mathlib.Tactic.NoncommRing
import Mathlib.LinearAlgebra.Matrix.Notation

/-!
C13, C14, C15: the formulas return determinant ratios and exact inverses.  The specification is
only `det` and `invG * G = 1`.
-/

namespace CTHyb

open Matrix

variable {K : Type} [Field K]
variable {n m m' : Type} [Fintype n] [Fintype m] [Fintype m'] [DecidableEq n] [DecidableEq m]
  [DecidableEq m']

/-! ### C13: adding rows and columns -/

/-- **C13 (ratio).**  If `invA` is the inverse of `A`, `compute_det_ratio_up` times `det A` is
the determinant of the enlarged matrix. -/
theorem C13_det_ratio_up (A : Matrix n n K) (B : Matrix n m K) (C : Matrix m n K)
    (D : Matrix m m K) (invA : Matrix n n K) (h : invA * A = 1) :
    (fromBlocks A B C D).det = detRatioUp B C D invA * A.det := by
  letI : Invertible A := ⟨invA, h, mul_eq_one_comm.1 h⟩
  rw [det_fromBlocks₁₁, mul_comm]
  rfl

/-- **C13 (inverse).**  If the ratio is not zero, `compute_inverse_matrix_up` produces the
inverse of the enlarged matrix. -/
theorem C13_inverse_up (A : Matrix n n K) (B : Matrix n m K) (C : Matrix m n K)
    (D : Matrix m m K) (invA : Matrix n n K) (h : invA * A = 1) (hr : detRatioUp B C D invA ≠ 0) :
    inverseUp B C D invA * fromBlocks A B C D = 1 := by
  have hS : (D - C * invA * B)⁻¹ * (D - C * invA * B) = 1 :=
    nonsing_inv_mul _ (isUnit_iff_ne_zero.2 hr)
  unfold inverseUp
  simp only
  rw [fromBlocks_multiply, ← fromBlocks_one]
  generalize (D - C * invA * B)⁻¹ = H at *
  have e3 : -H * (C * invA) * A + H * C = 0 := by
    rw [Matrix.mul_assoc (-H), Matrix.mul_assoc C, h, Matrix.mul_one, Matrix.neg_mul, neg_add_cancel]
  have e4 : -H * (C * invA) * B + H * D = 1 := by
    rw [← hS, Matrix.mul_sub, Matrix.mul_assoc (-H), Matrix.neg_mul]
    abel
  congr 1
  · calc (invA - invA * B * (-H * (C * invA))) * A + -(invA * B) * H * C
        = invA * A - invA * B * (-H * (C * invA) * A + H * C) := by
          simp only [Matrix.sub_mul, Matrix.mul_add, Matrix.neg_mul, Matrix.mul_assoc]
          abel
      _ = 1 := by rw [e3, h]; simp
  · calc (invA - invA * B * (-H * (C * invA))) * B + -(invA * B) * H * D
        = invA * B - invA * B * (-H * (C * invA) * B + H * D) := by
          simp only [Matrix.sub_mul, Matrix.mul_add, Matrix.neg_mul, Matrix.mul_assoc]
          abel
      _ = 0 := by rw [e4, Matrix.mul_one, sub_self]

/-! ### C14: removing rows and columns -/

/-- **C14 (ratio).**  If `invG` is the inverse of `G`, `compute_det_ratio_down` times `det G` is
the determinant of the matrix without the last rows and columns. -/
theorem C14_det_ratio_down (G invG : Matrix (n ⊕ m) (n ⊕ m) K) (h : invG * G = 1) :
    G.toBlocks₁₁.det = detRatioDown invG * G.det := by
  have h' : G * invG = 1 := mul_eq_one_comm.1 h
  have e : G * fromBlocks 1 invG.toBlocks₁₂ 0 invG.toBlocks₂₂ =
      fromBlocks G.toBlocks₁₁ 0 G.toBlocks₂₁ 1 := by
    have h2 := h'
    rw [← fromBlocks_toBlocks G, ← fromBlocks_toBlocks invG, fromBlocks_multiply,
      ← fromBlocks_one, fromBlocks_inj] at h2
    conv_lhs => rw [← fromBlocks_toBlocks G]
    rw [fromBlocks_multiply]
    simp only [Matrix.mul_one, Matrix.mul_zero, add_zero]
    rw [h2.2.1, h2.2.2.2]
  have e2 := congrArg Matrix.det e
  rw [det_mul, det_fromBlocks_zero₂₁, det_fromBlocks_zero₁₂, det_one, det_one, mul_one,
    one_mul] at e2
  rw [← e2, mul_comm]
  rfl

/-- **C14 (inverse).**  If the ratio is not zero, `compute_inverse_matrix_down` produces the
inverse of the matrix without the last rows and columns. -/
theorem C14_inverse_down (G invG : Matrix (n ⊕ m) (n ⊕ m) K) (h : invG * G = 1)
    (hr : detRatioDown invG ≠ 0) : inverseDown invG * G.toBlocks₁₁ = 1 := by
  have hH : (invG.toBlocks₂₂)⁻¹ * invG.toBlocks₂₂ = 1 :=
    nonsing_inv_mul _ (isUnit_iff_ne_zero.2 hr)
  have h2 := h
  rw [← fromBlocks_toBlocks G, ← fromBlocks_toBlocks invG, fromBlocks_multiply,
    ← fromBlocks_one, fromBlocks_inj] at h2
  unfold inverseDown
  have h3 : invG.toBlocks₂₁ * G.toBlocks₁₁ = -(invG.toBlocks₂₂ * G.toBlocks₂₁) :=
    eq_neg_of_add_eq_zero_left h2.2.2.1
  rw [Matrix.sub_mul, Matrix.mul_assoc _ _ G.toBlocks₁₁, h3, Matrix.mul_neg, Matrix.mul_assoc _ _
    (invG.toBlocks₂₂ * G.toBlocks₂₁), ← Matrix.mul_assoc _ _ G.toBlocks₂₁, hH, Matrix.one_mul,
    sub_neg_eq_add, h2.1]

/-! ### C15: replacing one row or column -/

/-- **C15 (ratio, column).** -/
theorem C15_det_ratio_col (G invG : Matrix n n K) (l : n) (col : n → K) (h : invG * G = 1) :
    (G.updateCol l col).det = detRatioCol invG l col * G.det := by
  have h' : G * invG = 1 := mul_eq_one_comm.1 h
  have e : invG * G.updateCol l col = (1 : Matrix n n K).updateCol l (invG *ᵥ col) := by
    ext i j
    rw [Matrix.mul_apply]
    by_cases hj : j = l
    · subst hj
      simp [updateCol_self, mulVec, dotProduct]
    · simp only [updateCol_ne hj]
      rw [← Matrix.mul_apply, h]
  have e2 := congrArg Matrix.det e
  rw [det_mul] at e2
  have e3 : ((1 : Matrix n n K).updateCol l (invG *ᵥ col)).det = detRatioCol invG l col := by
    rw [← cramer_apply, cramer_one]
    rfl
  have hdet : invG.det * G.det = 1 := by rw [← det_mul, h, det_one]
  rw [e3] at e2
  calc (G.updateCol l col).det = (invG.det * G.det) * (G.updateCol l col).det := by
        rw [hdet, one_mul]
    _ = (invG.det * (G.updateCol l col).det) * G.det := by ring
    _ = _ := by rw [e2]

/-- **C15 (inverse, column).** -/
theorem C15_inverse_col (G invG : Matrix n n K) (l : n) (col : n → K) (h : invG * G = 1)
    (hr : detRatioCol invG l col ≠ 0) :
    inverseCol invG l col (detRatioCol invG l col) * G.updateCol l col = 1 := by
  ext i j
  have hone : ∀ a b, ∑ k, invG a k * G k b = if a = b then 1 else 0 := by
    intro a b
    have := congrFun (congrFun h a) b
    rw [Matrix.mul_apply] at this
    rw [this, Matrix.one_apply]
  rw [Matrix.mul_apply, Matrix.one_apply]
  unfold inverseCol
  simp only
  by_cases hj : j = l
  · subst hj
    simp only [updateCol_self]
    by_cases hi : i = j
    · subst hi
      simp only [if_true]
      have : ∀ k, invG i k * (1 / detRatioCol invG i col) * col k =
          (1 / detRatioCol invG i col) * (invG i k * col k) := by intro k; ring
      simp only [this, ← Finset.mul_sum]
      have e : ∑ k, invG i k * col k = detRatioCol invG i col := rfl
      rw [e]
      field_simp
    · simp only [if_neg hi]
      have : ∀ k, (invG i k - invG j k * (∑ k, invG i k * col k) * (1 / detRatioCol invG j col)) *
          col k = invG i k * col k - ((∑ k, invG i k * col k) * (1 / detRatioCol invG j col)) *
            (invG j k * col k) := by intro k; ring
      simp only [this, Finset.sum_sub_distrib, ← Finset.mul_sum]
      have e : ∑ k, invG j k * col k = detRatioCol invG j col := rfl
      rw [e]
      field_simp
      ring
  · simp only [updateCol_ne hj]
    by_cases hi : i = l
    · subst hi
      simp only [if_true]
      have : ∀ k, invG i k * (1 / detRatioCol invG i col) * G k j =
          (1 / detRatioCol invG i col) * (invG i k * G k j) := by intro k; ring
      simp only [this, ← Finset.mul_sum, hone]
      rw [if_neg (Ne.symm hj)]
      simp
    · simp only [if_neg hi]
      have : ∀ k, (invG i k - invG l k * (∑ k, invG i k * col k) * (1 / detRatioCol invG l col)) *
          G k j = invG i k * G k j - ((∑ k, invG i k * col k) * (1 / detRatioCol invG l col)) *
            (invG l k * G k j) := by intro k; ring
      simp only [this, Finset.sum_sub_distrib, ← Finset.mul_sum, hone]
      rw [if_neg (Ne.symm hj)]
      simp

/-- The row formulas are the column formulas for the transposed matrices. -/
theorem detRatioRow_eq (invG : Matrix n n K) (l : n) (row : n → K) :
    detRatioRow invG l row = detRatioCol invGᵀ l row := by
  unfold detRatioRow detRatioCol
  simp [transpose_apply, mul_comm]

theorem inverseRow_eq (invG : Matrix n n K) (l : n) (row : n → K) (d : K) :
    (inverseRow invG l row d) = (inverseCol invGᵀ l row d)ᵀ := by
  ext i j
  show inverseRow invG l row d i j = inverseCol invGᵀ l row d j i
  unfold inverseRow inverseCol
  simp only [transpose_apply, mul_comm]

/-- **C15 (ratio, row).** -/
theorem C15_det_ratio_row (G invG : Matrix n n K) (l : n) (row : n → K) (h : invG * G = 1) :
    (G.updateRow l row).det = detRatioRow invG l row * G.det := by
  have ht : invGᵀ * Gᵀ = 1 := by
    rw [← transpose_mul, mul_eq_one_comm.1 h, transpose_one]
  rw [detRatioRow_eq, ← det_transpose, ← det_transpose G, ← updateCol_transpose]
  exact C15_det_ratio_col Gᵀ invGᵀ l row ht

/-- **C15 (inverse, row).** -/
theorem C15_inverse_row (G invG : Matrix n n K) (l : n) (row : n → K) (h : invG * G = 1)
    (hr : detRatioRow invG l row ≠ 0) :
    inverseRow invG l row (detRatioRow invG l row) * G.updateRow l row = 1 := by
  have ht : invGᵀ * Gᵀ = 1 := by
    rw [← transpose_mul, mul_eq_one_comm.1 h, transpose_one]
  rw [detRatioRow_eq] at hr ⊢
  have := C15_inverse_col Gᵀ invGᵀ l row ht hr
  rw [inverseRow_eq]
  rw [updateCol_transpose] at this
  have h2 := congrArg transpose (mul_eq_one_comm.1 this)
  rw [transpose_mul, transpose_transpose, transpose_one] at h2
  exact h2

/-! ### Replacing several rows and columns at once -/

/-- **C15 (simultaneous removal and insertion).**  `G = [P Q₀; R₀ S₀]` is replaced by
`[P Q; R S]`.  If the intermediate state is not singular, `ReplaceHelper` returns the ratio of
determinants. -/
theorem C15_replace_det_ratio [DecidableEq K] (G invG : Matrix (n ⊕ m') (n ⊕ m') K)
    (Q : Matrix n m K) (R : Matrix m n K) (S : Matrix m m K) (h : invG * G = 1)
    (hs : Fintype.card n = 0 ∨ invG.toBlocks₂₂.det ≠ 0) :
    (fromBlocks G.toBlocks₁₁ Q R S).det = replaceDetRatio invG Q R S * G.det := by
  have hdet : invG.det * G.det = 1 := by rw [← det_mul, h, det_one]
  unfold replaceDetRatio
  by_cases hn : Fintype.card n = 0
  · rw [if_pos hn]
    haveI : IsEmpty n := Fintype.card_eq_zero_iff.1 hn
    rw [mul_assoc, hdet, mul_one]
    have : G.toBlocks₁₁ = 1 := by ext i; exact isEmptyElim i
    rw [this, det_fromBlocks_one₁₁]
    congr 1
    ext i j
    simp [Matrix.mul_apply]
  · rw [if_neg hn]
    rcases hs with hs | hs
    · exact absurd hs hn
    rw [if_neg hs]
    have h1 : replaceMmat invG * G.toBlocks₁₁ = 1 := C14_inverse_down G invG h hs
    rw [C13_det_ratio_up _ Q R S _ h1, C14_det_ratio_down G invG h]
    unfold detRatioUp replaceInvTSp detRatioDown
    rw [Matrix.mul_assoc]
    ring

/-- **C15 (simultaneous removal and insertion, inverse).** -/
theorem C15_replace_inverse [DecidableEq K] (G invG : Matrix (n ⊕ m') (n ⊕ m') K)
    (Q : Matrix n m K) (R : Matrix m n K) (S : Matrix m m K) (h : invG * G = 1)
    (hr : replaceDetRatio invG Q R S ≠ 0) :
    replaceInverse (replaceMmat invG) (replaceInvTSp (replaceMmat invG) Q R S) Q R S *
      fromBlocks G.toBlocks₁₁ Q R S = 1 := by
  unfold replaceInverse
  unfold replaceDetRatio at hr
  by_cases hn : Fintype.card n = 0
  · rw [if_pos hn] at hr ⊢
    haveI : IsEmpty n := Fintype.card_eq_zero_iff.1 hn
    have hS : S⁻¹ * S = 1 := nonsing_inv_mul _ (isUnit_iff_ne_zero.2 (left_ne_zero_of_mul hr))
    rw [fromBlocks_multiply, ← fromBlocks_one]
    congr 1
    · ext i; exact isEmptyElim i
    · ext i; exact isEmptyElim i
    · ext i j; exact isEmptyElim j
    · rw [hS]; simp
  · rw [if_neg hn] at hr ⊢
    by_cases hs : invG.toBlocks₂₂.det = 0
    · rw [if_pos hs] at hr; exact absurd rfl hr
    rw [if_neg hs] at hr
    have h1 : replaceMmat invG * G.toBlocks₁₁ = 1 := C14_inverse_down G invG h hs
    have h2 : detRatioUp Q R S (replaceMmat invG) ≠ 0 := by
      have := right_ne_zero_of_mul hr
      unfold replaceInvTSp at this
      unfold detRatioUp
      rwa [Matrix.mul_assoc]
    have h3 := C13_inverse_up _ Q R S _ h1 h2
    rw [← h3]
    congr 1
    unfold inverseUp replaceInvTSp
    simp only [Matrix.mul_assoc, Matrix.neg_mul]

/-- Counterexample: with a singular intermediate state `ReplaceHelper` returns 0 although the
new matrix is regular (`G = [[0,1],[1,0]]`, the second row and column are replaced by
themselves; the true ratio is 1). -/
theorem C15_replace_singular_wrong :
    ∃ (G invG : Matrix (Fin 1 ⊕ Fin 1) (Fin 1 ⊕ Fin 1) ℚ), invG * G = 1 ∧
      replaceDetRatio invG G.toBlocks₁₂ G.toBlocks₂₁ G.toBlocks₂₂ = 0 ∧
      (fromBlocks G.toBlocks₁₁ G.toBlocks₁₂ G.toBlocks₂₁ G.toBlocks₂₂).det = 1 * G.det ∧
      G.det ≠ 0 := by
  have hG : fromBlocks (0 : Matrix (Fin 1) (Fin 1) ℚ) 1 1 (0 : Matrix (Fin 1) (Fin 1) ℚ) *
      fromBlocks (0 : Matrix (Fin 1) (Fin 1) ℚ) 1 1 (0 : Matrix (Fin 1) (Fin 1) ℚ) = 1 := by
    rw [fromBlocks_multiply]; simp
  refine ⟨fromBlocks 0 1 1 0, fromBlocks 0 1 1 0, hG, ?_, ?_, ?_⟩
  · simp [replaceDetRatio]
  · rw [fromBlocks_toBlocks, one_mul]
  · intro h0
    have := congrArg det hG
    rw [det_mul, h0] at this
    simp at this

/-! ### Non-vacuity -/

/-- A concrete invertible 2×2 matrix with a regular enlargement, reduction and replacement. -/
example :
    let A : Matrix (Fin 1) (Fin 1) ℚ := !![2]
    let G : Matrix (Fin 1 ⊕ Fin 1) (Fin 1 ⊕ Fin 1) ℚ := fromBlocks !![2] !![1] !![1] !![1]
    let invG : Matrix (Fin 1 ⊕ Fin 1) (Fin 1 ⊕ Fin 1) ℚ := fromBlocks !![1] !![-1] !![-1] !![2]
    !![(1 / 2 : ℚ)] * A = 1 ∧ detRatioUp !![(1 : ℚ)] !![(1 : ℚ)] !![(1 : ℚ)] !![(1 / 2 : ℚ)] ≠ 0 ∧
    invG * G = 1 ∧ detRatioDown invG ≠ 0 ∧
    detRatioCol invG (Sum.inr 0) (fun _ => 3) ≠ 0 ∧ detRatioRow invG (Sum.inr 0) (fun _ => 3) ≠ 0 := by
  refine ⟨?_, ?_, ?_, ?_, ?_, ?_⟩
  · ext i j; fin_cases i; fin_cases j; simp [Matrix.mul_apply]
  · simp [detRatioUp, Matrix.mul_apply, det_unique]; norm_num
  · rw [fromBlocks_multiply, ← fromBlocks_one]
    congr 1 <;> (ext i j; fin_cases i; fin_cases j; simp [Matrix.mul_apply]; try norm_num)
  · simp [detRatioDown]
  · simp [detRatioCol]; norm_num
  · simp [detRatioRow]; norm_num

end CTHyb
