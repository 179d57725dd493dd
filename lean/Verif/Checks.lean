import Verif.Operator
import Verif.Hyb

/-!
Small pieces of the measurement and parameter code: `measure_kLkR` (src/measurement/measurement.hpp:
163-189), the window parameters (src/impurity.ipp:146-152, 699-722) and the recording of observables
(src/accumulator.hpp:55-123).
-/

namespace CTHyb

section
variable {R : Type} [Field R] [LinearOrder R]

/-- `Window::operator()` (measurement.hpp:170-172); `>=` and `<` of `OperatorTime` are the lexicographic
comparisons of `Operator.lean`. -/
def inWindow (lo hi : OpTime R) (op : Psi (OpTime R)) : Bool := decide (lo ≤ op.time ∧ op.time < hi)

/-- `measure_kLkR` (measurement.hpp:185-189).  `unsigned * size_t` is computed with 64 bits and the
result is converted to 32 bits. -/
def measureKLKR (ops : OpSet (OpTime R)) (beta start : R) : ℕ :=
  let kL := (ops.countP (inWindow ⟨start, 0⟩ ⟨start + 1 / 2 * beta, 0⟩)) % 2 ^ 32
  (kL * ((ops.length + 2 ^ 64 - kL) % 2 ^ 64)) % 2 ^ 64 % 2 ^ 32

variable [FloorRing R]

/-- Checks of the constructor (impurity.ipp:146-151); `true`: an exception is thrown.  The second
comparison is the one of the code: `sliding_window.max` with itself. -/
def windowParamsRejected (_winMin winMax : ℤ) : Bool := decide (winMax < 1) || decide (winMax < winMax)

/-- `N_win_standard` in `update_MC_parameters` (impurity.ipp:712-722). -/
def nWinStandard (winMin winMax : ℤ) (aveOrder : R) (flavors : ℕ) : ℤ :=
  max winMin (min ⌈aveOrder / flavors⌉ winMax)

/-- The history of expansion orders in `update_MC_parameters` (impurity.ipp:706-711): at most 100 values. -/
def pushHist (h : List R) (x : R) : List R :=
  let h' := h ++ [x]
  if 100 < h'.length then h'.drop 1 else h'

end

/-- What is sent to the two accumulators of a vector observable, `_Re` and `_Im`. -/
structure Recorded (R : Type) where
  re : List R
  im : List R

/-- `std::vector<double>(n, value)`. -/
def vectorFill {R : Type} (n : ℕ) (x : R) : List R := List.replicate n x

/-- `measure_observable_helper<double, OBS, std::vector<double>>` (accumulator.hpp:69-76): the constructor
call is `std::vector<double> zeros(0.0, data.size())`, i.e. size `0.0` (converted to 0) and value
`data.size()`. -/
def recordRealVector {R : Type} [NatCast R] (data : List R) : Recorded R :=
  ⟨data, vectorFill 0 (data.length : R)⟩

/-- `measure_observable_helper<std::complex<double>, OBS, std::vector<std::complex<double>>>`
(accumulator.hpp:109-123); the loops over the temporary vector are maps.  `re` and `im` are the functions
`real()` and `imag()`. -/
def recordComplexVector {R C : Type} (re im : C → R) (data : List C) : Recorded R :=
  ⟨data.map re, data.map im⟩

end CTHyb
