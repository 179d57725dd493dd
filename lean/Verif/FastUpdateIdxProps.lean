import Verif.FastUpdateIdxLemmas
import Mathlib.LinearAlgebra.Matrix.Notation
import Mathlib.Tactic.FinCases
import Mathlib.Tactic.NormNum

/-!
C75: removal of rows and columns at given positions.

Specification: `rowsKept` and `colsKept` list in ascending order the positions which are not
removed; the determinant ratio is the determinant of the matrix of the kept rows and columns divided
by the determinant of the whole matrix (Jacobi's theorem about complementary minors), and the new
inverse is the inverse of the matrix of the kept rows and columns in the order which step 1 leaves
behind: a kept row whose position is still inside the small matrix stays where it is.
-/

namespace CTHyb

open Matrix

variable {K : Type} [Field K] {N M : ℕ}

/-- `kept` lists in ascending order the positions not in `removed`. -/
structure KeptOf (removed : Fin M → Fin (N + M)) (kept : Fin N → Fin (N + M)) : Prop where
  mono : StrictMono kept
  apart : ∀ i j, kept i ≠ removed j

/-- **C75 (ratio).**  For every invertible matrix and all ascending lists of positions,
`compute_det_ratio_down` times the old determinant is the determinant of the kept rows and
columns in their old order. -/
theorem C75_ratio (G invG : Matrix (Fin (N + M)) (Fin (N + M)) K) (h : invG * G = 1)
    (rows cols : Fin M → Fin (N + M)) (hr : StrictMono rows) (hc : StrictMono cols)
    (rowsKept colsKept : Fin N → Fin (N + M)) (kr : KeptOf rows rowsKept)
    (kc : KeptOf cols colsKept) :
    (G.submatrix rowsKept colsKept).det = detRatioDownIdx rows cols invG * G.det := by
  set er := splitEquiv rowsKept rows kr.mono.injective hr.injective kr.apart with her
  set ec := splitEquiv colsKept cols kc.mono.injective hc.injective kc.apart with hec
  have h' : invG.submatrix ec er * G.submatrix er ec = 1 := by
    rw [submatrix_mul_equiv, h, submatrix_one_equiv]
  have e := C14_det_ratio_down (G.submatrix er ec) (invG.submatrix ec er) h'
  have e1 : (G.submatrix er ec).toBlocks₁₁ = G.submatrix rowsKept colsKept := by
    ext i j; rfl
  have e2 : detRatioDown (invG.submatrix ec er) =
      (Matrix.of fun i j => invG (cols i) (rows j)).det := rfl
  have sr := sign_split rowsKept rows kr.mono hr kr.apart
  have sc := sign_split colsKept cols kc.mono hc kc.apart
  rw [← her] at sr
  rw [← hec] at sc
  have e3 : (G.submatrix er ec).det = (-1) ^ permCount rows cols * G.det := by
    have d1 : G.submatrix er ec = ((G.submatrix (finSumFinEquiv.symm.trans er) id).submatrix id
        (finSumFinEquiv.symm.trans ec)).submatrix finSumFinEquiv finSumFinEquiv := by
      ext i j; simp
    rw [d1, det_submatrix_equiv_self, det_permute', det_permute, sr, sc, ← mul_assoc]
    congr 1
    push_cast
    rw [← Finset.prod_mul_distrib, permCount, ← Finset.prod_pow_eq_pow_sum]
    refine Finset.prod_congr rfl fun j _ => ?_
    rw [← pow_add, neg_one_pow_eq_pow_mod_two, neg_one_pow_eq_pow_mod_two (n := Int.natAbs _)]
    congr 1
    omega
  rw [e1, e2, e3] at e
  rw [e, detRatioDownIdx]
  by_cases hp : permCount rows cols % 2 = 0
  · rw [if_pos hp, (Nat.even_iff.2 hp).neg_one_pow, one_mul]
  · rw [if_neg hp, (Nat.odd_iff.2 (by omega)).neg_one_pow, neg_one_mul, mul_neg, neg_mul]

/-- **C75 (inverse).**  `compute_inverse_matrix_down` with ascending lists of positions produces
the inverse of a matrix made of exactly the kept rows and columns (none of the removed ones, every
kept one once).  A kept row or column whose position lies in the small matrix keeps its
position. -/
theorem C75_inverse (G invG : Matrix (Fin (N + M)) (Fin (N + M)) K) (h : invG * G = 1)
    (rows cols : Fin M → Fin (N + M)) (hr : StrictMono rows) (hc : StrictMono cols)
    (hne : detRatioDownIdx rows cols invG ≠ 0) :
    ∃ rowAt colAt : Fin N → Fin (N + M),
      (∀ p, (∃ i, rowAt i = p) ↔ ∀ j, rows j ≠ p) ∧ Function.Injective rowAt ∧
      (∀ p, (∃ i, colAt i = p) ↔ ∀ j, cols j ≠ p) ∧ Function.Injective colAt ∧
      (∀ i : Fin N, (∀ j, rows j ≠ Fin.castAdd M i) → rowAt i = Fin.castAdd M i) ∧
      (∀ i : Fin N, (∀ j, cols j ≠ Fin.castAdd M i) → colAt i = Fin.castAdd M i) ∧
      inverseDownIdx rows cols invG * G.submatrix rowAt colAt = 1 := by
  have key : ∀ rs : Fin M → Fin (N + M), StrictMono rs →
      (∀ p, (∃ i : Fin N, endPerm rs M (Fin.castAdd M i) = p) ↔ ∀ j, rs j ≠ p) := by
    intro rs hrs p
    obtain ⟨a, _⟩ := endPerm_spec rs hrs M le_rfl
    constructor
    · rintro ⟨i, rfl⟩ j hj
      rw [← a j (by omega)] at hj
      have := congrArg Fin.val ((endPerm rs M).injective hj)
      have := i.isLt
      simp at *
      omega
    · intro hj
      obtain ⟨q, rfl⟩ := (endPerm rs M).surjective p
      induction q using Fin.addCases with
      | left q => exact ⟨q, rfl⟩
      | right q => exact absurd (a q (by omega)).symm (hj q)
  have key2 : ∀ rs : Fin M → Fin (N + M),
      Function.Injective fun i : Fin N => endPerm rs M (Fin.castAdd M i) := by
    intro rs a b hab
    exact Fin.castAdd_injective N M ((endPerm rs M).injective hab)
  have key3 : ∀ rs : Fin M → Fin (N + M), StrictMono rs → ∀ i : Fin N,
      (∀ j, rs j ≠ Fin.castAdd M i) → endPerm rs M (Fin.castAdd M i) = Fin.castAdd M i := by
    intro rs hrs i hi
    refine (endPerm_spec rs hrs M le_rfl).2 _ ?_ fun j _ => (hi j).symm
    have := i.isLt
    simp
  refine ⟨fun i => endPerm rows M (Fin.castAdd M i), fun i => endPerm cols M (Fin.castAdd M i),
    key rows hr, key2 rows, key cols hc, key2 cols, key3 rows hr, key3 cols hc, ?_⟩
  set er := finSumFinEquiv.trans (endPerm rows M) with her
  set ec := finSumFinEquiv.trans (endPerm cols M) with hec
  have h' : invG.submatrix ec er * G.submatrix er ec = 1 := by
    rw [submatrix_mul_equiv, h, submatrix_one_equiv]
  have hd : detRatioDown (invG.submatrix ec er) ≠ 0 := by
    have e : (invG.submatrix ec er).toBlocks₂₂ = Matrix.of fun i j => invG (cols i) (rows j) := by
      ext i j
      show invG (endPerm cols M (Fin.natAdd N i)) (endPerm rows M (Fin.natAdd N j)) = _
      rw [(endPerm_spec cols hc M le_rfl).1 i (by omega),
        (endPerm_spec rows hr M le_rfl).1 j (by omega)]
      rfl
    rw [detRatioDown, e]
    intro h0
    apply hne
    unfold detRatioDownIdx
    simp only [h0, neg_zero, ite_self]
  have e := C14_inverse_down (G.submatrix er ec) (invG.submatrix ec er) h' hd
  have e1 : inverseDownIdx rows cols invG = inverseDown (invG.submatrix ec er) := by
    unfold inverseDownIdx inverseDown
    rw [moveToEnd_eq]
    rfl
  rw [e1]
  exact e

/-- **C75 (agreement).**  For the last `M` rows and columns the function with index lists gives
the same number as the function without. -/
theorem C75_agree (invG : Matrix (Fin (N + M)) (Fin (N + M)) K) :
    detRatioDownIdx (fun j => Fin.natAdd N j) (fun j => Fin.natAdd N j) invG =
      detRatioDown (n := Fin N) (m := Fin M)
        (invG.submatrix finSumFinEquiv finSumFinEquiv) := by
  have : permCount (N := N) (fun j : Fin M => Fin.natAdd N j) (fun j => Fin.natAdd N j) = 0 := by
    simp [permCount]
  rw [detRatioDownIdx, this, if_pos rfl]
  rfl

/-- **C75 (order, violated).**  The comment of the function (fastupdate_formula.hpp:60-68) asks
only for the positions to be removed, but the sign is wrong if a list is not ascending: both
permutations of the same positions are removed, the matrix of the kept rows and columns is the
same, the two ratios differ. -/
theorem C75_order_violated :
    ∃ (G invG : Matrix (Fin (0 + 2)) (Fin (0 + 2)) ℚ) (rows cols : Fin 2 → Fin (0 + 2)),
      invG * G = 1 ∧ Function.Injective rows ∧ Function.Injective cols ∧
      ∀ kr kc : Fin 0 → Fin (0 + 2),
        (G.submatrix kr kc).det ≠ detRatioDownIdx rows cols invG * G.det := by
  refine ⟨1, 1, ![1, 0], ![0, 1], by simp, by decide, by decide, fun kr kc => ?_⟩
  have hp : permCount (N := 0) ![1, 0] ![0, 1] % 2 = 0 := by decide
  rw [detRatioDownIdx, if_pos hp]
  simp only [det_one, mul_one, det_isEmpty]
  rw [det_fin_two]
  have a : (1 : Matrix (Fin (0 + 2)) (Fin (0 + 2)) ℚ) 0 0 = 1 := Matrix.one_apply_eq 0
  have b : (1 : Matrix (Fin (0 + 2)) (Fin (0 + 2)) ℚ) 1 1 = 1 := Matrix.one_apply_eq 1
  have c : (1 : Matrix (Fin (0 + 2)) (Fin (0 + 2)) ℚ) 0 1 = 0 := Matrix.one_apply_ne (by decide)
  show (1 : ℚ) ≠ (1 : Matrix (Fin (0 + 2)) (Fin (0 + 2)) ℚ) 0 1 *
    (1 : Matrix (Fin (0 + 2)) (Fin (0 + 2)) ℚ) 1 0 - (1 : Matrix (Fin (0 + 2)) (Fin (0 + 2)) ℚ) 0 0 *
    (1 : Matrix (Fin (0 + 2)) (Fin (0 + 2)) ℚ) 1 1
  rw [a, b, c]
  norm_num

/-- Non-trivial case: a 3×3 matrix, row 0 and column 1 removed; the sign is negative. -/
example :
    let G : Matrix (Fin (2 + 1)) (Fin (2 + 1)) ℚ := !![1, 2, 0; 0, 1, 3; 1, 0, 1]
    let invG : Matrix (Fin (2 + 1)) (Fin (2 + 1)) ℚ :=
      !![1/7, -2/7, 6/7; 3/7, 1/7, -3/7; -1/7, 2/7, 1/7]
    invG * G = 1 ∧ KeptOf (N := 2) ![0] ![1, 2] ∧ KeptOf (N := 2) ![1] ![0, 2] ∧
      permCount (N := 2) ![0] ![1] = 1 ∧ detRatioDownIdx (N := 2) ![0] ![1] invG = -3/7 ∧
      (G.submatrix ![1, 2] ![0, 2]).det = -3 ∧ G.det = 7 := by
  refine ⟨?_, ⟨by decide, by decide⟩, ⟨by decide, by decide⟩, by decide, ?_, ?_, ?_⟩
  · ext i j
    fin_cases i <;> fin_cases j <;> simp [Matrix.mul_apply, Fin.sum_univ_succ] <;> norm_num
  · rw [detRatioDownIdx, if_neg (by decide)]
    simp
    norm_num
  · rw [det_fin_two]; simp
  · rw [det_fin_three]; simp; norm_num

end CTHyb
