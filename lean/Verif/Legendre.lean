import Mathlib.Algebra.Field.Basic
import Mathlib.Data.Nat.Cast.Basic
import Mathlib.Data.List.Basic

/-!
Model of `LegendreTransformer::compute_legendre` (src/legendre.cpp:24-38 for one argument, 44-85 for
a vector of arguments).  The transformation matrix `Tnl_` (spherical Bessel functions) is not
modelled.
-/

namespace CTHyb

variable {K : Type} [Field K]

/-- Body of the loop over `l` (legendre.cpp:28-36): the new element from the elements before it;
`inv_l_[l] = 1/l` (legendre.cpp:19). -/
def legendreNext (x : K) (l : ℕ) (vl1 vl2 : K) : K :=
  if l = 0 then 1 else if l = 1 then x
  else (((2 : K) * l - 1) * x * vl1 - ((l : K) - 1) * vl2) * (1 / (l : K))

/-- `compute_legendre(x, val)` (legendre.cpp:24-38): the first `nl` elements of `val`. -/
def computeLegendre (nl : ℕ) (x : K) : List K :=
  (List.range nl).foldl (fun v l => v ++ [legendreNext x l (v.getD (l - 1) 0) (v.getD (l - 2) 0)]) []

/-- `compute_legendre(xval, val)` (legendre.cpp:44-85): rows `val[l]`, columns the arguments. -/
def computeLegendreVec (nl : ℕ) (xs : List K) : List (List K) :=
  (List.range nl).foldl (fun v l => v ++ [xs.zipIdx.map fun p =>
    legendreNext p.1 l ((v.getD (l - 1) []).getD p.2 0) ((v.getD (l - 2) []).getD p.2 0)]) []

end CTHyb
