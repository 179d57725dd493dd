import Verif.WideScalar
import Mathlib.Algebra.Algebra.Basic
import Mathlib.Analysis.Complex.Norm
import Mathlib.LinearAlgebra.Complex.Module
import Mathlib.Algebra.Order.Ring.Rat
import Mathlib.Tactic.Ring
import Mathlib.Tactic.LinearCombination
import Mathlib.Tactic.FieldSimp
import Mathlib.Tactic.NormNum

/-!
Property C45: the complex type of extended range implements the field operations; equality does not.
-/

namespace CTHyb

section

variable {T K : Type} [Field T] [Field K] [Algebra T K]

/-- Specification: the value of the pair in a field which contains `T` and a root of -1. -/
def WC.val (i : K) (z : WC T) : K := algebraMap T K z.a + algebraMap T K z.b * i

/-- **C45.** Sum, difference and product have the values of the field operations. -/
theorem C45_ring {i : K} (hi : i * i = -1) (z w : WC T) (x : T) :
    (z.add w).val i = z.val i + w.val i ∧ (z.sub w).val i = z.val i - w.val i ∧
    (z.mul w).val i = z.val i * w.val i ∧
    (z.mulReal x).val i = z.val i * algebraMap T K x ∧
    (z.mulAssign x).val i = z.val i * algebraMap T K x ∧
    (WC.ofReal x : WC T).val i = algebraMap T K x := by
  simp only [WC.val, WC.add, WC.sub, WC.mul, WC.mulReal, WC.mulAssign, WC.ofReal, map_add, map_sub, map_mul,
    map_zero]
  refine ⟨by ring, by ring, ?_, by ring, by ring, by ring⟩
  linear_combination -(algebraMap T K z.b * algebraMap T K w.b) * hi

/-- **C45.** The quotient has the value of the quotient, for every divisor for which `c^2 + d^2` is
not zero; the divisor then has a value different from zero. -/
theorem C45_div {i : K} (hi : i * i = -1) (z w : WC T) (hw : w.a * w.a + w.b * w.b ≠ 0) :
    w.val i ≠ 0 ∧ (z.div w).val i = z.val i / w.val i := by
  have hn : w.val i * (algebraMap T K w.a - algebraMap T K w.b * i) =
      algebraMap T K (w.a * w.a + w.b * w.b) := by
    simp only [WC.val, map_add, map_mul]
    linear_combination -(algebraMap T K w.b * algebraMap T K w.b) * hi
  have hne : algebraMap T K (w.a * w.a + w.b * w.b) ≠ 0 := by
    rwa [Ne, map_eq_zero]
  have hv : w.val i ≠ 0 := by
    intro h
    rw [h, zero_mul] at hn
    exact hne hn.symm
  refine ⟨hv, ?_⟩
  rw [eq_div_iff hv]
  have : (z.div w).val i = z.val i * (algebraMap T K w.a - algebraMap T K w.b * i) *
      (1 / algebraMap T K (w.a * w.a + w.b * w.b)) := by
    simp only [WC.val, WC.div, map_add, map_mul, map_div₀, map_one, map_neg]
    linear_combination (algebraMap T K z.b * algebraMap T K w.b) *
      (1 / (algebraMap T K w.a * algebraMap T K w.a + algebraMap T K w.b * algebraMap T K w.b)) * hi
  rw [this]
  calc _ = z.val i * (w.val i * (algebraMap T K w.a - algebraMap T K w.b * i)) *
        (1 / algebraMap T K (w.a * w.a + w.b * w.b)) := by ring
    _ = _ := by rw [hn, mul_assoc, mul_one_div_cancel hne, mul_one]

/-- **C45.** Division by a real number. -/
theorem C45_div_real (i : K) (z : WC T) (x : T) :
    (z.divReal x).val i = z.val i / algebraMap T K x := by
  simp only [WC.val, WC.divReal, map_div₀]
  ring

/-- **C45.** The operators with a `std::complex` argument agree with converting the argument first. -/
theorem C45_mixed {S : Type} [Field S] (φ : S →+* T) (z : WC T) (re im : S) :
    z.addPair φ re im = z.add (WC.ofPair φ re im) ∧ z.mulPair φ re im = z.mul (WC.ofPair φ re im) ∧
      z.divPair φ re im = z.div (WC.ofPair φ re im) := by
  refine ⟨rfl, rfl, ?_⟩
  simp [WC.divPair, WC.div, WC.ofPair]

end

/-! ### Real components -/

/-- **C45.** For real components the value is a bijection to the complex numbers, every divisor with
value not zero is allowed, and `myabs` is the absolute value. -/
theorem C45_complex :
    Function.Bijective (WC.val (T := ℝ) Complex.I) ∧
    (∀ w : WC ℝ, w.val Complex.I ≠ 0 → w.a * w.a + w.b * w.b ≠ 0) ∧
    ∀ z : WC ℝ, z.abs = ‖z.val Complex.I‖ := by
  have e : ∀ z : WC ℝ, z.val Complex.I = ⟨z.a, z.b⟩ := by
    intro z
    apply Complex.ext <;> simp [WC.val]
  refine ⟨⟨fun z w h => ?_, fun c => ⟨⟨c.re, c.im⟩, by rw [e]⟩⟩, fun w hw h => ?_, fun z => ?_⟩
  · rw [e, e] at h
    exact WC.ext (congrArg Complex.re h) (congrArg Complex.im h)
  · apply hw
    have ha : w.a = 0 := by nlinarith [mul_self_nonneg w.a, mul_self_nonneg w.b]
    have hb : w.b = 0 := by nlinarith [mul_self_nonneg w.a, mul_self_nonneg w.b]
    rw [e, ha, hb]
    rfl
  · rw [e, WC.abs, Complex.norm_def, Complex.normSq_apply]

/-- **C45 (partial).** `==` answers whether the real parts are equal; in particular equal values are
never told apart.  The full statement would be `z.eq w = true ↔ z = w`. -/
theorem C45_eq_partial {T : Type} [DecidableEq T] (z w : WC T) :
    (z.eq w = true ↔ z.a = w.a) ∧ (z = w → z.eq w = true) ∧ (z.b = w.b → (z.eq w = true ↔ z = w)) := by
  have h : z.eq w = true ↔ z.a = w.a := by simp [WC.eq]
  refine ⟨h, fun e => h.2 (e ▸ rfl), fun hb => ⟨fun e => WC.ext (h.1 e) hb, fun e => h.2 (e ▸ rfl)⟩⟩

/-- **C45, violated.** In every field `==` does not tell apart `0` and the imaginary unit, and more
generally any two values with the same real part. -/
theorem C45_eq_violated {T : Type} [Field T] [DecidableEq T] :
    (∀ a b d : T, b ≠ d → (⟨a, b⟩ : WC T) ≠ ⟨a, d⟩ ∧ (⟨a, b⟩ : WC T).eq ⟨a, d⟩ = true) ∧
      ∃ z w : WC T, z ≠ w ∧ z.eq w = true := by
  have h : ∀ a b d : T, b ≠ d → (⟨a, b⟩ : WC T) ≠ ⟨a, d⟩ ∧ (⟨a, b⟩ : WC T).eq ⟨a, d⟩ = true :=
    fun a b d hbd => ⟨fun e => hbd (congrArg WC.b e), by simp [WC.eq]⟩
  exact ⟨h, ⟨0, 0⟩, ⟨0, 1⟩, h 0 0 1 zero_ne_one⟩

/-- A quotient: `(1 + 2i)/(3 - i) = 1/10 + 7/10 i`. -/
example : (⟨1, 2⟩ : WC ℚ).div ⟨3, -1⟩ = ⟨1 / 10, 7 / 10⟩ ∧ (3 : ℚ) * 3 + -1 * -1 ≠ 0 := by
  constructor
  · simp only [WC.div]; norm_num
  · norm_num

end CTHyb
