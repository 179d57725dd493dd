import Verif.Checks
import Verif.OperatorProps
import Mathlib.Data.List.Induction
import Mathlib.Data.Rat.Floor
import Mathlib.Algebra.Order.Floor.Ring
import Mathlib.Tactic.Linarith
import Mathlib.Tactic.Ring
import Mathlib.Tactic.NormNum

/-!
Properties C37 (k_L k_R estimator), C51 (window parameters) and C52 (vector observables).
-/

namespace CTHyb

section
variable {R : Type} [Field R] [LinearOrder R] [IsStrictOrderedRing R]

/-- Specification: the number of operators with time in `[a, b)`. -/
def countIn (ops : OpSet (OpTime R)) (a b : R) : ℕ := (ops.filter fun o => decide (a ≤ o.time.time ∧ o.time.time < b)).length

/-- C37: with fewer than `2^16` operators and non-negative small indices, the estimator is `k_L * k_R`
where `k_L` is the number of operators with times in `[start, start + β/2)` and `k_R` the number of
operators with times outside, i.e. in `[0, start)` or `[start + β/2, β]`. -/
theorem C37_kLkR (ops : OpSet (OpTime R)) (beta start : R) (hsmall : ∀ o ∈ ops, 0 ≤ o.time.small)
    (hlen : ops.length < 2 ^ 16) :
    measureKLKR ops beta start = countIn ops start (start + beta / 2) *
      (ops.filter fun o => decide (o.time.time < start ∨ start + beta / 2 ≤ o.time.time)).length ∧
    countIn ops start (start + beta / 2) +
      (ops.filter fun o => decide (o.time.time < start ∨ start + beta / 2 ≤ o.time.time)).length = ops.length := by
  have hw : ops.countP (inWindow ⟨start, 0⟩ ⟨start + 1 / 2 * beta, 0⟩) = countIn ops start (start + beta / 2) := by
    rw [countIn, ← List.countP_eq_length_filter]
    refine List.countP_congr fun o ho => ?_
    have h0 := hsmall o ho
    rw [inWindow, decide_eq_true_iff, decide_eq_true_iff, OpTime.le_def, OpTime.lt_def,
      show start + 1 / 2 * beta = start + beta / 2 by ring]
    constructor
    · rintro ⟨h1, h2⟩
      refine ⟨?_, ?_⟩
      · rcases h1 with h | ⟨h, _⟩
        · exact h.le
        · exact h.le
      · rcases h2 with h | ⟨_, h⟩
        · exact h
        · exact absurd h (not_lt.2 h0)
    · rintro ⟨h1, h2⟩
      refine ⟨?_, Or.inl h2⟩
      rcases h1.lt_or_eq with h | h
      · exact Or.inl h
      · exact Or.inr ⟨h, h0⟩
  have hsum : countIn ops start (start + beta / 2) +
      (ops.filter fun o => decide (o.time.time < start ∨ start + beta / 2 ≤ o.time.time)).length = ops.length := by
    rw [countIn]
    have := List.length_eq_length_filter_add (l := ops)
      (fun o => decide (start ≤ o.time.time ∧ o.time.time < start + beta / 2))
    rw [this]
    congr 2
    refine List.filter_congr fun o _ => ?_
    by_cases h1 : start ≤ o.time.time <;> by_cases h2 : o.time.time < start + beta / 2 <;>
      simp [h1, h2, not_le.1, not_lt.1]
  refine ⟨?_, hsum⟩
  rw [measureKLKR, hw]
  set kL := countIn ops start (start + beta / 2)
  set kR := (ops.filter fun o => decide (o.time.time < start ∨ start + beta / 2 ≤ o.time.time)).length
  have h1 : kL < 2 ^ 16 := by omega
  have h2 : kR < 2 ^ 16 := by omega
  have h3 : kL % 2 ^ 32 = kL := Nat.mod_eq_of_lt (by omega)
  simp only [h3]
  have h4 : (ops.length + 2 ^ 64 - kL) % 2 ^ 64 = kR := by omega
  rw [h4]
  have h5 : kL * kR < 2 ^ 32 := by
    calc kL * kR < 2 ^ 16 * 2 ^ 16 := Nat.mul_lt_mul'' h1 h2
      _ = 2 ^ 32 := by norm_num
  rw [Nat.mod_eq_of_lt (a := kL * kR) (by omega), Nat.mod_eq_of_lt h5]

/-- C37: the estimator lies between 0 and `k²/4` and does not depend on which half is called left:
counting in the complementary half (times outside `[start, start+β/2)`) gives the same value. -/
theorem C37_bounds (ops : OpSet (OpTime R)) (beta start : R) (hsmall : ∀ o ∈ ops, 0 ≤ o.time.small)
    (hlen : ops.length < 2 ^ 16) :
    4 * measureKLKR ops beta start ≤ ops.length ^ 2 ∧
    measureKLKR ops beta start =
      (ops.length - countIn ops start (start + beta / 2)) *
        (ops.length - (ops.length - countIn ops start (start + beta / 2))) := by
  obtain ⟨h1, h2⟩ := C37_kLkR ops beta start hsmall hlen
  rw [h1, ← h2]
  generalize countIn ops start (start + beta / 2) = a
  generalize (ops.filter fun o => decide (o.time.time < start ∨ start + beta / 2 ≤ o.time.time)).length = b
  constructor
  · rcases le_total a b with h | h
    · obtain ⟨c, rfl⟩ := Nat.exists_eq_add_of_le h; nlinarith [Nat.zero_le (c * c)]
    · obtain ⟨c, rfl⟩ := Nat.exists_eq_add_of_le h; nlinarith [Nat.zero_le (c * c)]
  · rw [show a + b - a = b by omega, show a + b - b = a by omega, Nat.mul_comm]

/-- C37: moving the window by half a period (as `start` ranges over `[0, β/2)` only) gives the same
value, for operators with times in `[0, β)` understood periodically: the right half is
`[start + β/2, start + β)` modulo `β`. -/
theorem C37_period (ops : OpSet (OpTime R)) (beta start : R) (h0 : 0 ≤ start) (hs : start ≤ beta / 2)
    (hr : ∀ o ∈ ops, 0 ≤ o.time.time ∧ o.time.time < beta) :
    (ops.filter fun o => decide (o.time.time < start ∨ start + beta / 2 ≤ o.time.time)).length =
      countIn ops (start + beta / 2) beta + countIn ops 0 start := by
  clear h0
  induction ops with
  | nil => rfl
  | cons o ops ih =>
    obtain ⟨ha, hb⟩ := hr o List.mem_cons_self
    have ih' := ih fun x hx => hr x (List.mem_cons_of_mem _ hx)
    simp only [countIn, Bool.decide_or, Bool.decide_and] at ih' ⊢
    by_cases h1 : o.time.time < start
    · have h2 : ¬ (start + beta / 2 ≤ o.time.time) := by
        intro h; linarith
      simp [h1, h2, ha, ih']
      omega
    · by_cases h2 : start + beta / 2 ≤ o.time.time
      · simp [h1, h2, hb, ih']
        omega
      · simp [h1, h2, ih']

/-- Four operators; with `β = 4` and `start = 1` two of them are in the window. -/
example : measureKLKR [(⟨⟨(1 / 2 : ℚ), 0⟩, .creation, 0⟩ : Psi (OpTime ℚ)), ⟨⟨1, 0⟩, .annihilation, 0⟩,
    ⟨⟨2, 0⟩, .creation, 1⟩, ⟨⟨3, 0⟩, .annihilation, 1⟩] 4 1 = 4 := by decide +kernel

/-! ### Window parameters -/

variable [FloorRing R]

/-- C51, partial: if the limits are consistent, the number of windows is between them.  Missing: the
constructor does not reject inconsistent limits (`C51_not_rejected`). -/
theorem C51_between_partial (winMin winMax : ℤ) (h : winMin ≤ winMax) (ave : R) (flavors : ℕ) :
    winMin ≤ nWinStandard winMin winMax ave flavors ∧ nWinStandard winMin winMax ave flavors ≤ winMax := by
  unfold nWinStandard
  omega

/-- Between the limits the number of windows is the average order per flavor, rounded up. -/
theorem C51_value (winMin winMax : ℤ) (ave : R) (flavors : ℕ) (hf : 0 < flavors) (n : ℤ)
    (h1 : winMin ≤ n) (h2 : n ≤ winMax)
    (hn : ((n : R) - 1) * flavors < ave ∧ ave ≤ (n : R) * flavors) :
    nWinStandard winMin winMax ave flavors = n := by
  have hp : (0 : R) < flavors := Nat.cast_pos.2 hf
  have : ⌈ave / (flavors : R)⌉ = n := by
    rw [Int.ceil_eq_iff, lt_div_iff₀ hp, div_le_iff₀ hp]; exact hn
  rw [nWinStandard, this]; omega

/-- C51 is false in general: for every pair of limits with `1 ≤ max < min` the constructor does not throw
and the number of windows exceeds the configured maximum. -/
theorem C51_not_rejected (winMin winMax : ℤ) (h1 : 1 ≤ winMax) (h2 : winMax < winMin) (ave : R)
    (flavors : ℕ) : windowParamsRejected winMin winMax = false ∧
      winMax < nWinStandard winMin winMax ave flavors := by
  unfold windowParamsRejected nWinStandard
  constructor
  · simp; omega
  · omega

example : windowParamsRejected 5 2 = false ∧ nWinStandard 5 2 (3 : ℚ) 2 = 5 := by decide +kernel
example : nWinStandard 1 1000 (7 : ℚ) 2 = 4 := by decide +kernel

/-- The number of windows computed from the recorded orders is at least one if the minimum is. -/
theorem C51_positive (winMin winMax : ℤ) (h : 1 ≤ winMin) (ave : R) (flavors : ℕ) :
    1 ≤ nWinStandard winMin winMax ave flavors := by unfold nWinStandard; omega

omit [LinearOrder R] [IsStrictOrderedRing R] [FloorRing R] in
/-- C51: the orders averaged for the number of windows are the most recent 100 ones (all of them, as long
as there are no more than 100). -/
theorem C51_history (xs : List R) : xs.foldl pushHist [] = xs.drop (xs.length - 100) := by
  induction xs using List.reverseRecOn with
  | nil => rfl
  | append_singleton xs x ih =>
    rw [List.foldl_append, List.foldl_cons, List.foldl_nil, ih]
    simp only [pushHist, List.length_append, List.length_drop, List.length_singleton]
    by_cases h : 100 ≤ xs.length
    · rw [if_pos (by omega), ← List.drop_append_of_le_length (by omega), List.drop_drop]
      congr 1; omega
    · rw [if_neg (by omega), ← List.drop_append_of_le_length (by omega)]
      congr 1; omega

example : ((List.range 102).map (fun i : ℕ => (i : ℚ))).foldl pushHist [] =
    ((List.range 100).map (fun i : ℕ => ((i + 2 : ℕ) : ℚ))) := by
  rw [C51_history]; decide +kernel

end

/-! ### Vector observables -/

/-- C52 for complex data: both vectors have the length of the data and hold the real and imaginary parts. -/
theorem C52_complex {R C : Type} (re im : C → R) (data : List C) :
    (recordComplexVector re im data).re.length = data.length ∧
    (recordComplexVector re im data).im.length = data.length ∧
    ∀ i (h : i < data.length), (recordComplexVector re im data).re[i]? = some (re data[i]) ∧
      (recordComplexVector re im data).im[i]? = some (im data[i]) := by
  refine ⟨by simp [recordComplexVector], by simp [recordComplexVector], fun i h => ?_⟩
  simp [recordComplexVector, List.getElem?_eq_getElem h]

/-- C52 is false for real data: the vector of imaginary parts is always empty, so its length differs from
that of the data for every non-empty data vector. -/
theorem C52_real_wrong {R : Type} [NatCast R] (data : List R) (h : data ≠ []) :
    (recordRealVector data).im = [] ∧ (recordRealVector data).im.length ≠ data.length := by
  refine ⟨rfl, ?_⟩
  have := List.length_pos_iff.2 h
  simp only [recordRealVector, vectorFill, List.length_replicate]
  omega

example : (recordRealVector [(1 : ℚ), 2, 3]).im.length = 0 := rfl

end CTHyb
