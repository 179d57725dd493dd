import Verif.Util
import Mathlib.Data.Nat.Factorial.Basic
import Mathlib.Algebra.Order.Ring.Nat
import Mathlib.Data.Rat.Floor
import Mathlib.Tactic.FieldSimp
import Mathlib.Tactic.Linarith
import Mathlib.Tactic.NormNum

/-!
C34: wrapping of imaginary times, global shifts, open random numbers.
-/

namespace CTHyb

section
variable {R : Type} [Field R] [LinearOrder R] [IsStrictOrderedRing R] [FloorRing R]

/-- **C34.** `mymod` differs from its argument by an integer multiple of `β` and lies in `[0, β]`; it
lies in `[0, β)` unless the argument is a negative multiple of `β`. -/
theorem C34_mymod {beta : R} (hb : 0 < beta) (x : R) :
    (∃ m : ℤ, mymod x beta = x + beta * m) ∧ 0 ≤ mymod x beta ∧ mymod x beta ≤ beta ∧
      ((¬ ∃ m : ℤ, m < 0 ∧ x = beta * m) → mymod x beta < beta) := by
  by_cases hx : 0 ≤ x
  · have hq : 0 ≤ x / beta := div_nonneg hx hb.le
    have e : mymod x beta = x - beta * ((⌊x / beta⌋ : ℤ) : R) := by
      unfold mymod truncInt; rw [if_pos hx, if_pos hq]
    have h1 : beta * ((⌊x / beta⌋ : ℤ) : R) ≤ x := by
      have := mul_le_mul_of_nonneg_left (Int.floor_le (x / beta)) hb.le
      rwa [mul_div_cancel₀ _ hb.ne'] at this
    have h2 : x < beta * (((⌊x / beta⌋ : ℤ) : R) + 1) := by
      have := mul_lt_mul_of_pos_left (Int.lt_floor_add_one (x / beta)) hb
      rwa [mul_div_cancel₀ _ hb.ne'] at this
    have h3 : beta * (((⌊x / beta⌋ : ℤ) : R) + 1) = beta * ((⌊x / beta⌋ : ℤ) : R) + beta := by ring
    refine ⟨⟨-⌊x / beta⌋, by rw [e]; push_cast; ring⟩, ?_, ?_, fun _ => ?_⟩ <;> rw [e] <;> linarith
  · have hq : 0 ≤ -x / beta := div_nonneg (by linarith) hb.le
    have e : mymod x beta = x + beta * (((⌊-x / beta⌋ : ℤ) : R) + 1) := by
      unfold mymod truncInt; rw [if_neg hx, if_pos hq]
    have h1 : beta * ((⌊-x / beta⌋ : ℤ) : R) ≤ -x := by
      have := mul_le_mul_of_nonneg_left (Int.floor_le (-x / beta)) hb.le
      rwa [mul_div_cancel₀ _ hb.ne'] at this
    have h2 : -x < beta * (((⌊-x / beta⌋ : ℤ) : R) + 1) := by
      have := mul_lt_mul_of_pos_left (Int.lt_floor_add_one (-x / beta)) hb
      rwa [mul_div_cancel₀ _ hb.ne'] at this
    have h3 : beta * (((⌊-x / beta⌋ : ℤ) : R) + 1) = beta * ((⌊-x / beta⌋ : ℤ) : R) + beta := by ring
    refine ⟨⟨⌊-x / beta⌋ + 1, by rw [e]; push_cast; ring⟩, ?_, ?_, fun hno => ?_⟩
    · rw [e]; linarith
    · rw [e]; linarith
    · rw [e]
      have : beta * ((⌊-x / beta⌋ : ℤ) : R) ≠ -x := by
        intro heq
        have hxe : x = beta * ((-⌊-x / beta⌋ : ℤ) : R) := by push_cast; linarith
        refine hno ⟨-⌊-x / beta⌋, ?_, hxe⟩
        by_contra hm
        have : (0 : R) ≤ ((-⌊-x / beta⌋ : ℤ) : R) := by exact_mod_cast not_lt.1 hm
        exact hx (by rw [hxe]; exact mul_nonneg hb.le this)
      have := lt_of_le_of_ne h1 this
      linarith

/-- **C34, refuted at negative multiples.**  `mymod(-k β)` is `β`, not a value in `[0, β)`. -/
theorem C34_mymod_negative_multiple {beta : R} (hb : 0 < beta) (k : ℕ) (hk : 0 < k) :
    mymod (-(k * beta)) beta = beta := by
  have hkR : (0 : R) < k := by exact_mod_cast hk
  have hx : ¬ 0 ≤ -((k : R) * beta) := by
    have := mul_pos hkR hb; linarith
  unfold mymod
  rw [if_neg hx, neg_neg, mul_div_assoc, div_self hb.ne', mul_one]
  unfold truncInt
  rw [if_pos hkR.le, Int.floor_natCast]
  push_cast; ring

/-- **C34.** A global shift by `s` in `[0, β]` keeps all times in `(0, β]`, changes each by `s` up to
a multiple of `β`. -/
theorem C34_shift_range {beta s t : R} (hs0 : 0 ≤ s) (hs1 : s ≤ beta) (ht0 : 0 < t) (ht1 : t ≤ beta) :
    0 < shiftTime beta s t ∧ shiftTime beta s t ≤ beta ∧
      (shiftTime beta s t = t + s ∨ shiftTime beta s t = t + s - beta) := by
  unfold shiftTime
  split
  · rename_i h; exact ⟨by linarith, by linarith, Or.inr rfl⟩
  · rename_i h; exact ⟨by linarith, by linarith, Or.inl rfl⟩

/-- **C34.** The shift by `β - s` undoes the shift by `s`. -/
theorem C34_shift_undo {beta s t : R} (hs0 : 0 ≤ s) (hs1 : s ≤ beta) (ht0 : 0 < t) (ht1 : t ≤ beta) :
    shiftTime beta (beta - s) (shiftTime beta s t) = t := by
  unfold shiftTime
  split
  · rw [if_neg (by linarith)]; ring
  · rename_i h; rw [if_pos (by linarith)]; ring

/-- **C34.** Successive shifts compose to one shift (by the sum, modulo `β`). -/
theorem C34_shift_compose {beta s s' t : R} (hs0 : 0 < s) (hs1 : s ≤ beta) (hs0' : 0 < s')
    (hs1' : s' ≤ beta) (ht0 : 0 < t) (ht1 : t ≤ beta) :
    shiftTime beta s' (shiftTime beta s t) = shiftTime beta (shiftTime beta s' s) t := by
  unfold shiftTime
  by_cases h1 : beta < t + s <;> by_cases h2 : beta < s + s' <;> simp only [h1, h2, if_true, if_false]
  · by_cases h3 : beta < t + s - beta + s'
    · rw [if_pos h3, if_pos (by linarith)]; ring
    · rw [if_neg h3, if_neg (by linarith)]; ring
  · by_cases h3 : beta < t + s - beta + s'
    · exfalso; linarith
    · rw [if_neg h3, if_pos (by linarith)]; ring
  · by_cases h3 : beta < t + s + s'
    · rw [if_pos h3, if_neg (by linarith)]; ring
    · exfalso; linarith
  · by_cases h3 : beta < t + s + s'
    · rw [if_pos h3, if_pos (by linarith)]; ring
    · rw [if_neg h3, if_neg (by linarith)]; ring

/-- **C34.** A global shift maps operators at distinct times to operators at distinct times, and the
opposite shift gives back the operators. -/
theorem C34_shift_operators {beta s : R} (hs0 : 0 ≤ s) (hs1 : s ≤ beta) (ops : List (Psi (OpTime R)))
    (hr : ∀ o ∈ ops, 0 < o.time.time ∧ o.time.time ≤ beta) :
    (ops.map (shiftOp beta s)).map (shiftOp beta (beta - s)) = ops ∧
    ((ops.map fun o => o.time).Nodup → ((ops.map (shiftOp beta s)).map fun o => o.time).Nodup) ∧
    ∀ o ∈ ops, (shiftOp beta s o).type = o.type ∧ (shiftOp beta s o).flavor = o.flavor ∧
      (shiftOp beta s o).time.small = o.time.small := by
  refine ⟨?_, ?_, fun o _ => ⟨rfl, rfl, rfl⟩⟩
  · rw [List.map_map]
    conv_rhs => rw [← List.map_id ops]
    refine List.map_congr_left fun o ho => ?_
    have := C34_shift_undo hs0 hs1 (hr o ho).1 (hr o ho).2
    obtain ⟨⟨t, k⟩, ty, f⟩ := o
    simp only [Function.comp, shiftOp, id]
    simp only at this
    rw [this]
  · intro hnd
    rw [List.map_map]
    rw [List.Nodup, List.pairwise_map] at hnd ⊢
    refine hnd.imp_of_mem ?_
    intro a b ha hb hne h
    apply hne
    simp only [Function.comp, shiftOp, OpTime.mk.injEq] at h
    have h1 := C34_shift_undo hs0 hs1 (hr a ha).1 (hr a ha).2
    have h2 := C34_shift_undo hs0 hs1 (hr b hb).1 (hr b hb).2
    rw [h.1] at h1
    have : a.time.time = b.time.time := h1.symm.trans h2
    cases ha' : a.time with
    | mk t k =>
      cases hb' : b.time with
      | mk t' k' =>
        rw [ha', hb'] at this
        rw [ha', hb'] at h
        simp only at this h
        rw [this, h.2]

/-- **C34.** `open_random` never returns an end point of the interval. -/
theorem C34_open_random {r t1 t2 eps : R} (hr0 : 0 ≤ r) (hr1 : r < 1) (he0 : 0 < eps) (he1 : eps < 1)
    (ht : t2 < t1) :
    (t2 < openRandom r t1 t2 eps ∧ openRandom r t1 t2 eps < t1) ∧
    (t2 < openRandom r t2 t1 eps ∧ openRandom r t2 t1 eps < t1) := by
  have a1 : 0 < (1 - eps) * r + eps / 2 := by
    have := mul_nonneg (by linarith : (0 : R) ≤ 1 - eps) hr0; linarith
  have a2 : (1 - eps) * r + eps / 2 < 1 := by
    have := mul_lt_mul_of_pos_left hr1 (by linarith : (0 : R) < 1 - eps); linarith
  have d : 0 < t1 - t2 := by linarith
  have p1 := mul_pos d a1
  have p2 := mul_lt_mul_of_pos_left a2 d
  unfold openRandom
  refine ⟨⟨by linarith, by linarith⟩, ?_, ?_⟩
  · have : (t2 - t1) * ((1 - eps) * r + eps / 2) = -((t1 - t2) * ((1 - eps) * r + eps / 2)) := by ring
    rw [this]; linarith
  · have : (t2 - t1) * ((1 - eps) * r + eps / 2) = -((t1 - t2) * ((1 - eps) * r + eps / 2)) := by ring
    rw [this]; linarith

end

/-- **C34, helper `permutation`.**  For `k ≤ N` the product is the number of ordered choices. -/
theorem C34_permutation (N k : ℕ) (hk : 0 < k) (hkN : k ≤ N) (hN : N < 2 ^ 64) :
    permutationNK N k = N.descFactorial k := by
  have hlo : (N + 2 ^ 64 - k + 1) % 2 ^ 64 = N - k + 1 := by
    have : N + 2 ^ 64 - k + 1 = (N - k + 1) + 2 ^ 64 := by omega
    rw [this, Nat.add_mod_right, Nat.mod_eq_of_lt (by omega)]
  unfold permutationNK
  simp only [hlo]
  clear hlo hN
  have gen : ∀ k, k ≤ N → ((List.range (N + 1)).filter fun i => decide (N - k + 1 ≤ i)) =
      (List.range k).map (fun j => N - k + 1 + j) := by
    intro k hk
    have e : N + 1 = (N - k + 1) + k := by omega
    rw [e, List.range_add, List.filter_append]
    have h1 : (List.range (N - k + 1)).filter (fun i => decide (N - k + 1 ≤ i)) = [] := by
      rw [List.filter_eq_nil_iff]; intro a ha; simp at ha ⊢; omega
    have h2 : ((List.range k).map (N - k + 1 + ·)).filter (fun i => decide (N - k + 1 ≤ i)) =
        (List.range k).map (N - k + 1 + ·) := by
      rw [List.filter_eq_self]; intro a ha; simp at ha ⊢; obtain ⟨b, _, rfl⟩ := ha; omega
    rw [h1, h2, List.nil_append]
  have fold : ∀ (a m : ℕ), ((List.range m).map (fun j => a + j)).foldl (fun r i => r * i) 1 =
      a.ascFactorial m := by
    intro a m
    induction m with
    | zero => rfl
    | succ m ih =>
      rw [List.range_succ, List.map_append, List.foldl_append, ih, Nat.ascFactorial_succ]
      simp [Nat.mul_comm]
  rw [gen k hkN, fold]
  rw [← Nat.add_descFactorial_eq_ascFactorial']
  congr 1
  omega

/-- Concrete cases. -/
example : mymod (-5 / 2 : ℚ) 1 = 1 / 2 ∧ mymod (-2 : ℚ) 1 = 1 ∧ mymod (7 / 2 : ℚ) 2 = 3 / 2 := by
  decide +kernel
example : shiftTime (2 : ℚ) (3 / 2) 1 = 1 / 2 ∧ shiftTime (2 : ℚ) (1 / 2) (1 / 2) = 1 := by
  decide +kernel
example : permutationNK 5 2 = 20 := by decide +kernel

end CTHyb
