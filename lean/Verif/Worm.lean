import Verif.Util
import Mathlib.Data.List.Basic

/-!
Model of src/worm.hpp and src/worm.ipp: the three worm types, their coordinates, their operators, and the
transformations `WormExchangeFlavor`, `WormShift` (src/moves/moves.hpp:556-590) with their counterparts for
bath operators (moves.hpp:25-64).
-/

namespace CTHyb

/-- The dynamic type of a worm: `CorrelationWorm<NumTimes>`, `GWorm<Rank>`, `EqualTimeGWorm<Rank>`
(worm.hpp:135-316). -/
inductive WormKind
  | corr (numTimes : ℕ)
  | green (rank : ℕ)
  | equalTime (rank : ℕ)
deriving DecidableEq, Repr

/-- `num_independent_times` (worm.hpp:150, 210, 272). -/
def WormKind.numTimes : WormKind → ℕ
  | .corr m => m
  | .green r => 2 * r
  | .equalTime _ => 1

/-- `num_independent_flavors` (worm.hpp:162, 222, 284); equal to `num_operators`. -/
def WormKind.numFlavors : WormKind → ℕ
  | .corr m => 2 * m
  | .green r => 2 * r
  | .equalTime r => 2 * r

/-- A worm: type and the arrays `times_`, `flavors_`. -/
structure Worm (R : Type) where
  kind : WormKind
  times : List R
  flavors : List ℕ
deriving DecidableEq, Repr

/-- The arrays have the sizes fixed by the type. -/
def Worm.Valid {R : Type} (w : Worm R) : Prop :=
  w.times.length = w.kind.numTimes ∧ w.flavors.length = w.kind.numFlavors

section
variable {R : Type}

/-- `get_time` (worm.hpp:152-155, 212-215, 274-277); `none`: the assertion fails. -/
def Worm.getTime (w : Worm R) (i : ℕ) : Option R := if i < w.kind.numTimes then w.times[i]? else none

/-- `set_time` (worm.hpp:157-160, 217-220, 279-282). -/
def Worm.setTime (w : Worm R) (i : ℕ) (t : R) : Option (Worm R) :=
  if i < w.kind.numTimes then some { w with times := w.times.set i t } else none

/-- `get_flavor` (worm.hpp:164-167, 224-227, 286-289). -/
def Worm.getFlavor (w : Worm R) (i : ℕ) : Option ℕ := if i < w.kind.numFlavors then w.flavors[i]? else none

/-- `set_flavor` (worm.hpp:169-172, 229-232, 291-294). -/
def Worm.setFlavor (w : Worm R) (i : ℕ) (f : ℕ) : Option (Worm R) :=
  if i < w.kind.numFlavors then some { w with flavors := w.flavors.set i f } else none

/-- `get_time_index` (worm.hpp:139-141, 174-177, 199-201, 234-237, 262, 296-299): the only entry of the
returned vector. -/
def WormKind.timeIndex : WormKind → ℕ → ℕ
  | .corr _, f => f / 2
  | .green _, f => f
  | .equalTime _, _ => 0

/-- `get_operators` (worm.ipp:3-78).  `times_` and `flavors_` are read at positions inside the arrays;
for a worm that is not `Valid` defaults are used. -/
def Worm.operators [Inhabited R] (w : Worm R) : List (Psi (OpTime R)) :=
  match w.kind with
  | .corr m => (List.range m).flatMap fun it =>
      [⟨⟨w.times.getD it default, 1⟩, .creation, w.flavors.getD (2 * it) 0⟩,
       ⟨⟨w.times.getD it default, 0⟩, .annihilation, w.flavors.getD (2 * it + 1) 0⟩]
  | .green r => (List.range r).flatMap fun it =>
      [⟨⟨w.times.getD (2 * it) default, 0⟩, .annihilation, w.flavors.getD (2 * it) 0⟩,
       ⟨⟨w.times.getD (2 * it + 1) default, 0⟩, .creation, w.flavors.getD (2 * it + 1) 0⟩]
  | .equalTime r => (List.range r).flatMap fun (it : ℕ) =>
      [⟨⟨w.times.getD 0 default, 2 * (r : ℤ) - 1 - 2 * it⟩, .creation, w.flavors.getD (2 * it) 0⟩,
       ⟨⟨w.times.getD 0 default, 2 * (r : ℤ) - 1 - (2 * it + 1)⟩, .annihilation, w.flavors.getD (2 * it + 1) 0⟩]

/-- `operator==(Worm, Worm)` (worm.hpp:107-122): type, then all times, then all flavors through the
getters. -/
def wormEq [DecidableEq R] (w1 w2 : Worm R) : Bool :=
  if w1.kind ≠ w2.kind then false
  else ((List.range w1.kind.numTimes).all fun t => decide (w1.getTime t = w2.getTime t)) &&
    ((List.range w1.kind.numFlavors).all fun f => decide (w1.getFlavor f = w2.getFlavor f))

/-- `is_worm_in_range` (worm.hpp:85-94). -/
def wormInRange [LinearOrder R] (w : Worm R) (lo hi : R) : Bool :=
  (List.range w.kind.numTimes).all fun t =>
    match w.getTime t with
    | none => false
    | some x => !(decide (x < lo) || decide (hi < x))

/-- `is_worm_diagonal_in_flavor` (worm.hpp:96-105). -/
def wormDiagonal (w : Worm R) : Bool :=
  ((List.range w.kind.numFlavors).drop 1).all fun f => decide (w.getFlavor f = w.getFlavor 0)

/-- `WormExchangeFlavor` (moves.hpp:556-570): the flavors are set one after another on a clone. -/
def wormExchange (perm : ℕ → ℕ) (w : Worm R) : Option (Worm R) :=
  (List.range w.kind.numFlavors).foldlM
    (fun (n : Worm R) f => (w.getFlavor f).bind fun x => n.setFlavor f (perm x)) w

/-- `WormShift` (moves.hpp:575-590). -/
def wormShift [Field R] [LinearOrder R] (beta s : R) (w : Worm R) : Option (Worm R) :=
  (List.range w.kind.numTimes).foldlM
    (fun (n : Worm R) t => (w.getTime t).bind fun x => n.setTime t (shiftTime beta s x)) w

/-- `ExchangeFlavor` (moves.hpp:25-37). -/
def exchangeOp {T : Type} (perm : ℕ → ℕ) (o : Psi T) : Psi T := { o with flavor := perm o.flavor }

end

end CTHyb
