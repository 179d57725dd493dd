import Verif.Hyb
import Verif.Operator
import Mathlib.Data.List.Basic
import Mathlib.Data.List.Range

/-!
Model of the random selection helpers: `MyRandomNumberGenerator` and `pickup_a_few_numbers`
(src/util.hpp:277-306) with `std::random_shuffle` as in libstdc++ (`bits/stl_algo.h`), and
`pick_up_operators` (src/operator_util.ipp:48-86).  Random numbers are elements of a linearly ordered
field with floor; a random generator is a stream `ℕ → R` whose entries lie in `[0, 1)` (assumed by the
theorems), consumed in order.
-/

namespace CTHyb

/-- `std::swap(v[i], v[j])`; both positions must be inside the vector, which the callers guarantee (see
`floorIndex_lt`); otherwise the list is returned unchanged. -/
def swapAt {α : Type} (l : List α) (i j : ℕ) : List α :=
  match l[i]?, l[j]? with
  | some a, some b => (l.set i b).set j a
  | _, _ => l

/-- `list.resize(n)` for a vector of integers: shortened, or padded by zeros. -/
def resizeList (l : List ℕ) (n : ℕ) : List ℕ := l.take n ++ List.replicate (n - l.length) 0

/-- `std::random_shuffle` (libstdc++): for `i = 1, …, N-1` element `i` is exchanged with element
`rng(i+1)`.  The argument is the list of the results of the calls `rng(2), rng(3), …`. -/
def shuffleFrom {α : Type} : ℕ → List ℕ → List α → List α
  | _, [], l => l
  | i, j :: js, l => shuffleFrom (i + 1) js (swapAt l i j)

section
variable {R : Type} [Field R] [LinearOrder R] [FloorRing R]

/-- `static_cast<unsigned int>(N * random())` (util.hpp:281) and `static_cast<int>(random01() * N)`
(operator_util.ipp:79). -/
def floorIndex (r : R) (N : ℕ) : ℕ := (truncInt ((N : R) * r)).toNat

/-- `pickup_a_few_numbers` (util.hpp:295-306). -/
def pickupNumbers (N n : ℕ) (rnd : ℕ → R) : List ℕ :=
  resizeList
    (shuffleFrom 1 ((List.range (N - 1)).map fun c => floorIndex (rnd c) (c + 2)) (List.range N)) n

end

/-- The loop of `pick_up_operators` (operator_util.ipp:76-81) for the displacements `js`: element `i` is
exchanged with element `i + js[i]`. -/
def frontShuffle {α : Type} : ℕ → List ℕ → List α → List α
  | _, [], l => l
  | i, j :: js, l => frontShuffle (i + 1) js (swapAt l i (i + j))

section
variable {R : Type} [Field R] [LinearOrder R] [FloorRing R] {T : Type}

/-- One flavor of `pick_up_operators` (operator_util.ipp:66-84): `num` operators out of the operators of
that flavor, using the stream from position `c` on. -/
def pickOne (opsFlavor : List (Psi T)) (num : ℕ) (rnd : ℕ → R) (c : ℕ) : List (Psi T) :=
  (frontShuffle 0
    ((List.range num).map fun i => floorIndex (rnd (c + i)) (opsFlavor.length - i)) opsFlavor).take num

/-- `pick_up_operators` (operator_util.ipp:48-86): flavors one after another; `none` is the exception.
The comparison of line 72 converts the signed number to an unsigned one, so a negative number throws as
well.  `acc` is what has been appended to `ops_picked_up` before, `c` the number of random numbers used. -/
def pickUp (ops : List (Psi T)) (rnd : ℕ → R) : ℕ → List ℤ → ℕ → List (Psi T) → Option (List (Psi T))
  | _, [], _, acc => some acc
  | f, num :: nums, c, acc =>
    if num = 0 then pickUp ops rnd (f + 1) nums c acc
    else
      let opsF := ops.filter fun o => o.flavor == f
      if num < 0 ∨ (opsF.length : ℤ) < num then none
      else pickUp ops rnd (f + 1) nums (c + num.toNat) (acc ++ pickOne opsF num.toNat rnd c)

end

end CTHyb
