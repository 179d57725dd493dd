import Mathlib.Algebra.Field.Basic
import Mathlib.Analysis.Real.Sqrt

/-!
Model of `wcomplex` (src/wide_scalar.hpp:48-315), the complex numbers used for weights if the code is
compiled with `USE_QUAD_PRECISION`.

Simplifications: the component type is a field `T` (exact arithmetic, no rounding, no overflow, no
values which are not numbers); the conversion from `double` to `T` is a map `φ`, so that a
`std::complex<S>` operand is the pair of its converted components; streams are not modelled.
-/

namespace CTHyb

/-- `wcomplex<T>` (wide_scalar.hpp:53-101): the members `a_` and `b_`. -/
@[ext] structure WC (T : Type) where
  a : T
  b : T
deriving DecidableEq

variable {T S : Type} [Field T]

/-- Constructor from a real number (wide_scalar.hpp:57, 59). -/
def WC.ofReal (x : T) : WC T := ⟨x, 0⟩

/-- Constructor from `std::complex<S>` (wide_scalar.hpp:61-62). -/
def WC.ofPair (φ : S → T) (re im : S) : WC T := ⟨φ re, φ im⟩

/-- `operator+(wcomplex, wcomplex)` (wide_scalar.hpp:103-113). -/
def WC.add (z w : WC T) : WC T := ⟨z.a + w.a, z.b + w.b⟩

/-- `operator+(wcomplex, std::complex<double>)` (wide_scalar.hpp:115-125). -/
def WC.addPair (φ : S → T) (z : WC T) (re im : S) : WC T := ⟨z.a + φ re, z.b + φ im⟩

/-- `operator*(wcomplex, wcomplex)` (wide_scalar.hpp:130-140). -/
def WC.mul (z w : WC T) : WC T := ⟨z.a * w.a - z.b * w.b, z.a * w.b + z.b * w.a⟩

/-- `operator*(wcomplex, std::complex<S>)` (wide_scalar.hpp:142-152); the version with exchanged
arguments (154-158) calls it. -/
def WC.mulPair (φ : S → T) (z : WC T) (re im : S) : WC T :=
  ⟨z.a * φ re - z.b * φ im, z.a * φ im + z.b * φ re⟩

/-- `operator*(wcomplex, double)` and `operator*(wcomplex, EXTENDED_REAL)` (wide_scalar.hpp:160-186). -/
def WC.mulReal (z : WC T) (w : T) : WC T := ⟨z.a * w, z.b * w⟩

/-- `operator*=(const T&)` (wide_scalar.hpp:67-71). -/
def WC.mulAssign (z : WC T) (re : T) : WC T := { z with a := z.a * re, b := z.b * re }

/-- `operator-(wcomplex, wcomplex)` (wide_scalar.hpp:191-201). -/
def WC.sub (z w : WC T) : WC T := ⟨z.a - w.a, z.b - w.b⟩

/-- `operator/(wcomplex, wcomplex)` (wide_scalar.hpp:206-217). -/
def WC.div (z w : WC T) : WC T :=
  let coeff := 1 / (w.a * w.a + w.b * w.b)
  ⟨(z.a * w.a + z.b * w.b) * coeff, (-z.a * w.b + z.b * w.a) * coeff⟩

/-- `operator/(wcomplex, std::complex<double>)` (wide_scalar.hpp:219-230): `coeff` is computed in the
type of the argument. -/
def WC.divPair [Field S] (φ : S → T) (z : WC T) (c d : S) : WC T :=
  let coeff := 1 / (c * c + d * d)
  ⟨(z.a * φ c + z.b * φ d) * φ coeff, (-z.a * φ d + z.b * φ c) * φ coeff⟩

/-- `operator/(wcomplex, T)` (wide_scalar.hpp:232-236). -/
def WC.divReal (z : WC T) (w : T) : WC T := ⟨z.a / w, z.b / w⟩

/-- `operator==` (wide_scalar.hpp:238-242): the second comparison has `z` on both sides. -/
def WC.eq [DecidableEq T] (z w : WC T) : Bool := decide (z.a = w.a) && decide (z.b = z.b)

/-- `myabs` (wide_scalar.hpp:273-276). -/
noncomputable def WC.abs (z : WC ℝ) : ℝ := Real.sqrt (z.a * z.a + z.b * z.b)

end CTHyb
