import Mathlib.GroupTheory.Perm.Sign
import Mathlib.Order.Fin.Basic
import Mathlib.Data.Fintype.Perm

/-!
Model of `comb_sort` and `permutation` (include/alps/fastupdate/detail/util.hpp:12-35, 152-189).
The range `[first, end)` is a vector `Fin N → α`; the comparison is a decidable relation `r`.
-/

namespace CTHyb

variable {α : Type} {N : ℕ}

/-- `static_cast<int>(N/1.3)` (util.hpp:164, 185), in exact arithmetic `⌊10 N / 13⌋`. -/
def shrink13 (n : ℕ) : ℕ := 10 * n / 13

/-- Body of the inner loop of `comb_sort` (util.hpp:171-179) for index `i`: compare the elements
at `i` and `i+gap`, swap and count if out of order.  State: vector, `count_exchange`, `swapped`. -/
def passStep (r : α → α → Prop) [DecidableRel r] (gap : ℕ)
    (st : (Fin N → α) × ℕ × Bool) (i : ℕ) : (Fin N → α) × ℕ × Bool :=
  if h : i + gap < N then
    let a : Fin N := ⟨i, lt_of_le_of_lt (Nat.le_add_right i gap) h⟩
    let b : Fin N := ⟨i + gap, h⟩
    if r (st.1 b) (st.1 a) then (st.1 ∘ Equiv.swap a b, st.2.1 + 1, true) else st
  else st

/-- One pass of the `while` loop (util.hpp:166-179): `for (i=0; i+gap<N; ++i)`. -/
def combPass (r : α → α → Prop) [DecidableRel r] (gap : ℕ) (v : Fin N → α) (cnt : ℕ) :
    (Fin N → α) × ℕ × Bool :=
  (List.range (N - gap)).foldl (passStep r gap) (v, cnt, false)

/-- The `while(true)` loop (util.hpp:165-186); `fuel` bounds the number of passes, `none` means
that the loop has not ended yet.  `shr` is the function computing `static_cast<int>(gap/1.3)`. -/
def combLoop (r : α → α → Prop) [DecidableRel r] (shr : ℕ → ℕ) :
    ℕ → ℕ → (Fin N → α) → ℕ → Option ((Fin N → α) × ℕ)
  | 0, _, _, _ => none
  | fuel + 1, gap, v, cnt =>
    let p := combPass r gap v cnt
    if p.2.2 = false ∧ gap = 1 then some (p.1, p.2.1)
    else combLoop r shr fuel (max (shr gap) 1) p.1 p.2.1

/-- The returned value (util.hpp:188). -/
def exchSign (cnt : ℕ) : ℤ := if cnt % 2 = 0 then 1 else -1

/-- `comb_sort` (util.hpp:152-189): the sorted vector and the returned sign.  For `N = 0` the
C++ code advances an iterator past the end before the loop condition fails; the model has no
counterpart of that (harmless) step. -/
def combSort (r : α → α → Prop) [DecidableRel r] (shr : ℕ → ℕ) (fuel : ℕ) (v : Fin N → α) :
    Option ((Fin N → α) × ℤ) :=
  (combLoop r shr fuel (shr N) v 0).map (fun p => (p.1, exchSign p.2))

/-- Body of the inner loop of `permutation` (util.hpp:25-31): adjacent elements are swapped
unless `values[i] < values[i+1]`. -/
def bubbleStep [LT α] [DecidableRel (α := α) (· < ·)]
    (st : (Fin N → α) × ℕ × Bool) (i : ℕ) : (Fin N → α) × ℕ × Bool :=
  if h : i + 1 < N then
    let a : Fin N := ⟨i, lt_of_le_of_lt (Nat.le_add_right i 1) h⟩
    let b : Fin N := ⟨i + 1, h⟩
    if ¬ (st.1 a < st.1 b) then (st.1 ∘ Equiv.swap a b, st.2.1 + 1, true) else st
  else st

/-- One pass of `permutation` (util.hpp:24-31). -/
def bubblePass [LT α] [DecidableRel (α := α) (· < ·)] (v : Fin N → α) (cnt : ℕ) :
    (Fin N → α) × ℕ × Bool :=
  (List.range (N - 1)).foldl bubbleStep (v, cnt, false)

/-- The `while(true)` loop of `permutation` (util.hpp:23-33) with a bound on the passes. -/
def bubbleLoop [LT α] [DecidableRel (α := α) (· < ·)] :
    ℕ → (Fin N → α) → ℕ → Option ((Fin N → α) × ℕ)
  | 0, _, _ => none
  | fuel + 1, v, cnt =>
    let p := bubblePass v cnt
    if p.2.2 = false then some (p.1, p.2.1) else bubbleLoop fuel p.1 p.2.1

/-- `permutation` (util.hpp:12-35): the sign of the time ordering. -/
def bubblePermutation [LT α] [DecidableRel (α := α) (· < ·)] (fuel : ℕ) (v : Fin N → α) :
    Option ℤ :=
  (bubbleLoop fuel v 0).map (fun p => exchSign p.2)

end CTHyb
