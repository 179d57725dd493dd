import Verif.Hyb
import Verif.Operator
import Mathlib.Data.List.Basic

/-!
Model of the helpers for imaginary times: `mymod` (src/util.cpp:45-51), `permutation`
(src/util.cpp:36-43), `open_random` (src/util.hpp:226-228), `OperatorShift` (src/moves/moves.hpp:45-64)
and `WormShift` (moves.hpp:572-590).  Real numbers are a linearly ordered field with floor; the
overflow of `static_cast<int>` for quotients above 2^31 is not modelled.
-/

namespace CTHyb

section
variable {R : Type} [Field R] [LinearOrder R] [FloorRing R]

/-- `mymod` (util.cpp:45-51). -/
def mymod (x beta : R) : R :=
  if 0 ≤ x then x - beta * (truncInt (x / beta) : R)
  else x + beta * ((truncInt (-x / beta) : R) + 1)

/-- `open_random` (util.hpp:226-228) for the random number `r`. -/
def openRandom (r t1 t2 eps : R) : R := (t1 - t2) * ((1 - eps) * r + eps / 2) + t2

/-- The new time in `OperatorShift` and `WormShift` (moves.hpp:51-54, 580-583). -/
def shiftTime (beta s t : R) : R := if beta < t + s then t + s - beta else t + s

end

/-- `OperatorShift::operator()` (moves.hpp:47-61): only the real part of the time changes. -/
def shiftOp {R : Type} [Field R] [LinearOrder R] (beta s : R) (o : Psi (OpTime R)) : Psi (OpTime R) :=
  { o with time := { o.time with time := shiftTime beta s o.time.time } }

/-- `permutation(N, k)` (util.cpp:36-43) with 64-bit `size_t` arithmetic for the lower limit. -/
def permutationNK (N k : ℕ) : ℕ :=
  let lo := (N + 2 ^ 64 - k + 1) % 2 ^ 64
  ((List.range (N + 1)).filter fun i => decide (lo ≤ i)).foldl (fun r i => r * i) 1

end CTHyb
