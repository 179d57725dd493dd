import Verif.Legendre
import Mathlib.RingTheory.Polynomial.ShiftedLegendre
import Mathlib.Tactic.FieldSimp
import Mathlib.Tactic.LinearCombination
import Mathlib.Tactic.NormNum

/-!
C35: the recurrence computes Legendre polynomials.
-/

namespace CTHyb

open Polynomial

/-- Specification: the Legendre polynomial `P_l`, defined through Mathlib's shifted Legendre
polynomial, which satisfies Rodrigues' formula
`l! * shiftedLegendre l = d^l/dX^l (X^l (1-X)^l)` (`Polynomial.factorial_mul_shiftedLegendre_eq`);
`P_l(1 - 2y)` is its value at `y`. -/
noncomputable def legendreP {K : Type} [Field K] (l : ℕ) (x : K) : K :=
  aeval ((1 - x) / 2) (shiftedLegendre l)

theorem choose_formula {n k : ℕ} (h : k ≤ n) :
    (n.choose k : ℚ) * ((n + k).choose n : ℚ) * (n - k).factorial * (k.factorial : ℚ) ^ 2 =
      (n + k).factorial := by
  have h1 := Nat.choose_mul_factorial_mul_factorial h
  have h2 := Nat.choose_mul_factorial_mul_factorial (Nat.le_add_right n k)
  rw [Nat.add_sub_cancel_left] at h2
  have h1' : (n.choose k : ℚ) * k.factorial * (n - k).factorial = n.factorial := by exact_mod_cast h1
  have h2' : ((n + k).choose n : ℚ) * n.factorial * k.factorial = (n + k).factorial := by
    exact_mod_cast h2
  rw [← h2', ← h1']; ring

/-- Signed coefficients of the shifted Legendre polynomials. -/
def slc (n k : ℕ) : ℚ := (n.choose k : ℚ) * ((n + k).choose n : ℚ)

theorem slc_zero (n : ℕ) : slc n 0 = 1 := by simp [slc]

theorem slc_big {n k : ℕ} (h : n < k) : slc n k = 0 := by simp [slc, Nat.choose_eq_zero_of_lt h]

theorem slc_eq {n k : ℕ} (h : k ≤ n) :
    slc n k = (n + k).factorial / ((n - k).factorial * (k.factorial : ℚ) ^ 2) := by
  have h1 : ((n - k).factorial : ℚ) ≠ 0 := by exact_mod_cast (n - k).factorial_ne_zero
  have h2 : (k.factorial : ℚ) ≠ 0 := by exact_mod_cast k.factorial_ne_zero
  rw [eq_div_iff (mul_ne_zero h1 (pow_ne_zero _ h2)), ← choose_formula h]
  unfold slc; ring

theorem slc_rec (n k : ℕ) :
    ((n : ℚ) + 2) * slc (n + 2) (k + 1) =
      (2 * n + 3) * (slc (n + 1) (k + 1) + 2 * slc (n + 1) k) - (n + 1) * slc n (k + 1) := by
  have hk : ((k + 1).factorial : ℚ) = (k + 1) * k.factorial := by
    rw [Nat.factorial_succ]; push_cast; ring
  have hk0 : (k.factorial : ℚ) ≠ 0 := by exact_mod_cast k.factorial_ne_zero
  have hk1 : ((k : ℚ) + 1) ≠ 0 := by exact_mod_cast Nat.succ_ne_zero k
  have f : ∀ m : ℕ, ((m + 1).factorial : ℚ) = (m + 1) * m.factorial := by
    intro m; rw [Nat.factorial_succ]; push_cast; ring
  by_cases h0 : n + 1 < k
  · rw [slc_big (by omega), slc_big (by omega), slc_big (by omega), slc_big (by omega)]; ring
  rcases Nat.lt_trichotomy k n with h | h | h
  · -- generic case
    obtain ⟨d, rfl⟩ : ∃ d, n = k + 1 + d := ⟨n - (k + 1), by omega⟩
    rw [slc_eq (n := k + 1 + d + 2) (by omega), slc_eq (n := k + 1 + d + 1) (k := k + 1) (by omega),
      slc_eq (n := k + 1 + d + 1) (k := k) (by omega), slc_eq (n := k + 1 + d) (by omega)]
    rw [show k + 1 + d + 2 - (k + 1) = d + 1 + 1 by omega, show k + 1 + d + 1 - (k + 1) = d + 1 by omega,
      show k + 1 + d + 1 - k = d + 1 + 1 by omega, show k + 1 + d - (k + 1) = d by omega,
      show k + 1 + d + 2 + (k + 1) = (k + 1 + d + 1 + k) + 1 + 1 by omega,
      show k + 1 + d + 1 + (k + 1) = (k + 1 + d + 1 + k) + 1 by omega,
      show k + 1 + d + (k + 1) = (k + 1 + d + 1 + k) by omega]
    have hd : (d.factorial : ℚ) ≠ 0 := by exact_mod_cast d.factorial_ne_zero
    have hd1 : ((d : ℚ) + 1) ≠ 0 := by exact_mod_cast Nat.succ_ne_zero d
    have hd2 : ((d : ℚ) + 1 + 1) ≠ 0 := by exact_mod_cast Nat.succ_ne_zero (d + 1)
    rw [f (k + 1 + d + 1 + k + 1), f (k + 1 + d + 1 + k), hk, f (d + 1), f d]
    push_cast
    field_simp
    ring
  · subst h
    rw [slc_big (n := k) (k := k + 1) (by omega)]
    rw [slc_eq (n := k + 2) (by omega), slc_eq (n := k + 1) (k := k + 1) (by omega),
      slc_eq (n := k + 1) (k := k) (by omega)]
    rw [show k + 2 - (k + 1) = 0 + 1 by omega, show k + 1 - (k + 1) = 0 by omega,
      show k + 1 - k = 0 + 1 by omega, show k + 2 + (k + 1) = (k + 1 + k) + 1 + 1 by omega,
      show k + 1 + (k + 1) = (k + 1 + k) + 1 by omega]
    rw [f (k + 1 + k + 1), f (k + 1 + k), hk, f 0]
    push_cast
    simp only [Nat.factorial_zero, Nat.cast_one]
    field_simp
    ring
  · have : k = n + 1 := by omega
    subst this
    rw [slc_big (n := n) (by omega), slc_big (n := n + 1) (k := n + 1 + 1) (by omega)]
    rw [slc_eq (n := n + 2) (by omega), slc_eq (n := n + 1) (k := n + 1) (by omega)]
    rw [show n + 2 - (n + 1 + 1) = 0 by omega, show n + 1 - (n + 1) = 0 by omega,
      show n + 2 + (n + 1 + 1) = (n + 1 + (n + 1)) + 1 + 1 by omega]
    rw [f (n + 1 + (n + 1) + 1), f (n + 1 + (n + 1)), hk]
    push_cast
    simp only [Nat.factorial_zero, Nat.cast_one]
    push_cast at hk1
    field_simp
    ring

theorem bonnet (n : ℕ) :
    ((n : ℤ[X]) + 2) * shiftedLegendre (n + 2) =
      (2 * (n : ℤ[X]) + 3) * ((1 - 2 * X) * shiftedLegendre (n + 1)) - ((n : ℤ[X]) + 1) * shiftedLegendre n := by
  have hc : ∀ (a : ℤ) (p : ℤ[X]) (k : ℕ), (C a * p).coeff k = a * p.coeff k := fun a p k => coeff_C_mul p
  have e1 : ((n : ℤ[X]) + 2) = C ((n : ℤ) + 2) := by simp
  have e2 : (2 * (n : ℤ[X]) + 3) = C (2 * (n : ℤ) + 3) := by simp
  have e3 : ((n : ℤ[X]) + 1) = C ((n : ℤ) + 1) := by simp
  have e4 : (1 - 2 * X) * shiftedLegendre (n + 1) =
      shiftedLegendre (n + 1) - C 2 * (X * shiftedLegendre (n + 1)) := by
    have : (C 2 : ℤ[X]) = 2 := by simp
    rw [this]; ring
  have key : ∀ m k : ℕ, (((shiftedLegendre m).coeff k : ℤ) : ℚ) = (-1) ^ k * slc m k := by
    intro m k
    rw [coeff_shiftedLegendre, slc]; push_cast; ring
  rw [e1, e2, e3, e4]
  ext k
  apply Int.cast_injective (α := ℚ)
  rw [coeff_sub, hc, hc, hc, coeff_sub, hc]
  push_cast
  rw [key, key, key]
  cases k with
  | zero =>
    rw [coeff_X_mul_zero, slc_zero, slc_zero, slc_zero]
    push_cast; ring
  | succ k =>
    rw [coeff_X_mul, key]
    have := slc_rec n k
    rw [pow_succ]
    linear_combination (-1) * (-1) ^ k * this

theorem legendreP_zero {K : Type} [Field K] (x : K) : legendreP 0 x = 1 := by
  simp [legendreP, shiftedLegendre]

theorem legendreP_one {K : Type} [Field K] [CharZero K] (x : K) : legendreP 1 x = x := by
  have h2 : (2 : K) ≠ 0 := two_ne_zero
  simp [legendreP, shiftedLegendre, Finset.sum_range_succ]
  field_simp
  ring

theorem legendreP_rec {K : Type} [Field K] [CharZero K] (n : ℕ) (x : K) :
    ((n : K) + 2) * legendreP (n + 2) x =
      (2 * (n : K) + 3) * (x * legendreP (n + 1) x) - ((n : K) + 1) * legendreP n x := by
  have h := congrArg (aeval ((1 - x) / 2)) (bonnet n)
  have h2 : (2 : K) ≠ 0 := two_ne_zero
  have hx : (1 : K) - 2 * ((1 - x) / 2) = x := by field_simp; ring
  simp only [map_mul, map_add, map_sub, map_natCast, map_one, map_ofNat, aeval_X, hx] at h
  exact h

theorem legendreNext_eq {K : Type} [Field K] [CharZero K] (x : K) (l : ℕ) :
    legendreNext x l (legendreP (l - 1) x) (legendreP (l - 2) x) = legendreP l x := by
  unfold legendreNext
  rcases l with _ | _ | n
  · simp [legendreP_zero]
  · simp [legendreP_one]
  · rw [if_neg (by omega), if_neg (by omega)]
    have h := legendreP_rec n x
    have hn : ((n : K) + 2) ≠ 0 := by exact_mod_cast Nat.succ_ne_zero (n + 1)
    rw [show n + 1 + 1 - 1 = n + 1 by omega, show n + 1 + 1 - 2 = n by omega]
    have hc : ((n + 1 + 1 : ℕ) : K) = (n : K) + 2 := by push_cast; ring
    rw [hc, mul_one_div, div_eq_iff hn, mul_comm (legendreP (n + 1 + 1) x) _, h]
    ring

/-- **C35.** For every number of polynomials and every argument the computed values are the Legendre
polynomials. -/
theorem C35_legendre {K : Type} [Field K] [CharZero K] (nl : ℕ) (x : K) :
    computeLegendre nl x = (List.range nl).map fun l => legendreP l x := by
  unfold computeLegendre
  induction nl with
  | zero => rfl
  | succ nl ih =>
    rw [List.range_succ, List.foldl_append, ih, List.map_append]
    simp only [List.foldl_cons, List.foldl_nil, List.map_cons, List.map_nil]
    congr 2
    rw [← legendreNext_eq x nl]
    have rd : ∀ j, j < nl → ((List.range nl).map fun l => legendreP l x).getD j 0 = legendreP j x := by
      intro j hj
      simp [List.getD, List.getElem?_range hj]
    by_cases h0 : nl = 0
    · subst h0; simp [legendreNext]
    · by_cases h1 : nl = 1
      · subst h1; simp [legendreNext]
      · rw [rd _ (by omega), rd _ (by omega)]

/-- **C35.** The version for many arguments gives the same values column by column. -/
theorem C35_legendre_vec {K : Type} [Field K] [CharZero K] (nl : ℕ) (xs : List K) :
    computeLegendreVec nl xs = (List.range nl).map fun l => xs.map fun x => legendreP l x := by
  unfold computeLegendreVec
  induction nl with
  | zero => rfl
  | succ nl ih =>
    rw [List.range_succ, List.foldl_append, ih, List.map_append]
    simp only [List.foldl_cons, List.foldl_nil, List.map_cons, List.map_nil]
    congr 2
    have hm : xs.map (fun x => legendreP nl x) = xs.zipIdx.map fun p => legendreP nl p.1 := by
      have : (fun p : K × ℕ => legendreP nl p.1) = (fun x => legendreP nl x) ∘ Prod.fst := rfl
      rw [this, ← List.map_map, List.zipIdx_map_fst]
    rw [hm]
    refine List.map_congr_left fun p hp => ?_
    rw [← legendreNext_eq p.1 nl]
    have hp' := List.mem_zipIdx_iff_getElem?.1 hp
    have rd : ∀ j, j < nl → (((List.range nl).map fun l => xs.map fun x => legendreP l x).getD j []).getD p.2 0 =
        legendreP j p.1 := by
      intro j hj
      simp [List.getD, List.getElem?_range hj, hp']
    by_cases h0 : nl = 0
    · subst h0; simp [legendreNext]
    · by_cases h1 : nl = 1
      · subst h1; simp [legendreNext]
      · rw [rd _ (by omega), rd _ (by omega)]

/-- **C35.** Normalisation and parity of the specification. -/
theorem C35_normalised {K : Type} [Field K] [CharZero K] (l : ℕ) (x : K) :
    legendreP l (1 : K) = 1 ∧ legendreP l (-x) = (-1) ^ l * legendreP l x := by
  constructor
  · unfold legendreP
    rw [sub_self, zero_div, aeval_def, eval₂_at_zero, coeff_shiftedLegendre]
    simp
  · unfold legendreP
    rw [shiftedLegendre_eval_symm]
    congr 2
    have h2 : (2 : K) ≠ 0 := two_ne_zero
    field_simp
    ring

/-- Concrete case: `P_0 .. P_4` at `1/2`. -/
example : computeLegendre 5 (1 / 2 : ℚ) = [1, 1 / 2, -1 / 8, -7 / 16, -37 / 128] := by
  decide +kernel

end CTHyb
