import Mathlib.Algebra.BigOperators.Group.Finset.Basic
import Mathlib.Algebra.BigOperators.Ring.Finset
import Mathlib.Algebra.Order.AbsoluteValue.Basic
import Mathlib.Algebra.Order.Field.Basic
import Mathlib.Algebra.Order.BigOperators.Group.Finset
import Mathlib.Data.Fintype.BigOperators
import Mathlib.Data.List.Permutation
import Mathlib.Logic.Equiv.Basic

/-!
The Markov chain produced by the updates, on a finite configuration space `X` with weight
`w : X → K`: transition probabilities of one Metropolis step
(src/moves/moves.ipp:144-213, 835-893), sequences of steps, and the list of flavor
permutations tried in `global_updates` (src/impurity_init.ipp:278-347,
src/impurity.ipp:636-664).
-/

namespace CTHyb

variable {X K R : Type}

section Kernel
variable [Fintype X] [DecidableEq X] [Field K]
  [Field R] [LinearOrder R] [IsStrictOrderedRing R]

/-- Probability that `rng() < |ratio * correction|` (src/moves/moves.ipp:190, 866), `rng()` being
uniform in `[0,1)`; `C12_accept_probability` proves that this is the measure of the accepted
random numbers. -/
def acceptProb (abv : AbsoluteValue K R) (p : K) : R := min 1 (abv p)

/-- One Metropolis step as a matrix of transition probabilities: the configuration `y` is
proposed with probability `q x y`, accepted with probability `a x y`, and otherwise (also when
`propose` gives up) the configuration stays (src/moves/moves.ipp:97-213). -/
def stepKernel (q a : X → X → R) (x y : X) : R :=
  q x y * a x y + if x = y then 1 - ∑ z, q x z * a x z else 0

/-- `LocalUpdater::update` on a finite configuration space: weight `w`, proposal `q` and
correction `corr` (the acceptance rate correction of `propose`). -/
def localKernel (abv : AbsoluteValue K R) (ι : R →+* K) (w : X → K) (q corr : X → X → R) :
    X → X → R :=
  stepKernel q (fun x y => acceptProb abv (w y / w x * ι (corr x y)))

/-- `global_update` with a fixed transformation `σ` of the configurations: `σ x` is proposed
with certainty, there is no correction (src/moves/moves.ipp:857-866). -/
def globalKernel (abv : AbsoluteValue K R) (w : X → K) (σ : X → X) : X → X → R :=
  stepKernel (fun x y => if y = σ x then 1 else 0) (fun x y => acceptProb abv (w y / w x))

/-- The transition matrix of doing nothing. -/
def idKernel (x y : X) : R := if x = y then 1 else 0

/-- First a step with `P`, then one with `Q`. -/
def thenKernel (P Q : X → X → R) (x y : X) : R := ∑ z, P x z * Q z y

/-- A list of steps one after another. -/
def seqKernel : List (X → X → R) → X → X → R
  | [] => idKernel
  | P :: l => thenKernel P (seqKernel l)

/-- Choosing the step `P i` with probability `c i`. -/
def mixKernel {ι : Type} [Fintype ι] (c : ι → R) (P : ι → X → X → R) (x y : X) : R :=
  ∑ i, c i * P i x y

/-- The swap part of `global_updates` (src/impurity.ipp:636-664): all transformations of the
list are tried once each, in an order drawn by `random_shuffle`; every order has the same
probability. -/
def sweepKernel (abv : AbsoluteValue K R) (w : X → K) (l : List (X → X)) : X → X → R :=
  fun x y => ((l.permutations.map (fun o => seqKernel (o.map (globalKernel abv w)) x y)).sum)
    / (l.permutations.length : R)

end Kernel

/-! ### The list of flavor permutations -/

/-- How `resize_vectors` ends (src/impurity_init.ipp:278-347). -/
inductive SwapInit
  /-- a flavor out of range: `abort()` (lines 292-295) -/
  | aborted
  /-- wrong number of elements or a duplicate in a template: `exit(1)` (lines 299-302, 309-313) -/
  | exited
  /-- the contents of `swap_vector` (first components) -/
  | ok (swaps : List (List ℕ))
deriving DecidableEq, Repr

/-- `while (swapstream >> f)` (src/impurity_init.ipp:291): reading stops at the first token that
is not an integer.  Tokens are given as `some` integer or `none`; a token such as `1,` which
yields an integer before it fails is represented by `some 1, none`. -/
def readInts : List (Option ℤ) → List ℤ
  | some f :: l => f :: readInts l
  | _ => []

/-- The numbers appended for the spin flip when `SPINS == 2` (src/impurity_init.ipp:283-288). -/
def spinFlipNums (sites : ℕ) : List (Option ℤ) :=
  (List.range sites).flatMap (fun s => [some ((2 * s + 1 : ℕ) : ℤ), some ((2 * s : ℕ) : ℤ)])

/-- The numbers read from the parameter string, the predefined spin flip at the end. -/
def swapTokens (spins sites : ℕ) (toks : List (Option ℤ)) : List ℤ :=
  readInts (toks ++ if spins = 2 then spinFlipNums sites else [])

/-- Cut the list into `k` templates of length `F` (src/impurity_init.ipp:304-331). -/
def templates (F : ℕ) : ℕ → List ℕ → List (List ℕ)
  | 0, _ => []
  | k + 1, l => l.take F :: templates F k (l.drop F)

/-- `tmp_vec_rev[tmp_vec[flavor]] = flavor` (src/impurity_init.ipp:316-319). -/
def invTemplate (F : ℕ) (v : List ℕ) : List ℕ :=
  (List.range F).foldl (fun acc f => acc.set (v.getD f 0) f) (List.replicate F 0)

/-- `updates_set.insert`: no duplicates.  The set is kept in order of insertion instead of
lexicographic order; the order does not matter since `global_updates` shuffles it. -/
def updInsert (s : List (List ℕ)) (v : List ℕ) : List (List ℕ) := if v ∈ s then s else s ++ [v]

/-- The loop over the templates (src/impurity_init.ipp:308-332); `none` if a template contains a
duplicate. -/
def templateLoop (F : ℕ) : List (List ℕ) → List (List ℕ) → Option (List (List ℕ))
  | [], s => some s
  | v :: rest, s =>
    if v.dedup.length < F then none
    else templateLoop F rest (updInsert (updInsert s v) (invTemplate F v))

/-- The part of `resize_vectors` that fills `swap_vector` (src/impurity_init.ipp:278-347). -/
def buildSwaps (F spins sites : ℕ) (toks : List (Option ℤ)) : SwapInit :=
  let nums := swapTokens spins sites toks
  if nums.any (fun f => decide ((F : ℤ) ≤ f) || decide (f < 0)) then .aborted
  else
    let fl := nums.map Int.toNat
    if fl.length % F ≠ 0 then .exited
    else
      match templateLoop F (templates F (fl.length / F) fl) [] with
      | none => .exited
      | some s => .ok (s.filter (fun v => v ≠ List.range F))

end CTHyb
