import Verif.Proposal
import Verif.Histogram

/-!
`OperatorPairFlavorUpdater::propose` (src/moves/moves.ipp:543-590) and
`SingleOperatorShiftUpdater` (592-690): proposal and adjustment of the step sizes.  Conventions as
in `Verif.Proposal`; for the shift, times are integers (multiples of the grid spacing).
-/

namespace CTHyb

open Rand

section
variable {T W R : Type} [Field R]

/-- `cdagg_ops_rem_ = {o}, cdagg_ops_add_ = {o'}` or the same for annihilation operators. -/
def replaceMv (cd : Bool) (o o' : BOp T) (worm : W) : Mv T W :=
  if cd then ⟨[o], [], [o'], [], worm⟩ else ⟨[], [o], [], [o'], worm⟩

/-- Operators in the window (src/moves/moves.ipp:557-561, 603-609). -/
def winOps (win : Win T R) (l : List (BOp T)) : List (BOp T) := l.filter fun o => win.inWin o.1

/-- `OperatorPairFlavorUpdater::propose` (src/moves/moves.ipp:543-590). -/
def flavorPropose (nf : ℕ) (win : Win T R) (x : PCfg T W) : Rand R (Option (Mv T W × R)) :=
  if (winOps win x.cd).length = 0 ∨ (winOps win x.c).length = 0 then ret none
  else
    bind (coin (1 / 2)) fun b =>
    bind (unif (if b then winOps win x.cd else winOps win x.c)) fun o =>
    bind (unif (List.range nf)) fun f =>
    ret (some (replaceMv b o (o.1, f) x.worm, 1))

/-- `gen_new_flavor` (src/moves/moves.ipp:685-690). -/
def genNewFlavor (R : Type) [Field R] (E : PEnv) (old : ℕ) : Rand R ℕ := unif (blockFlavors E (E.sector old))

/-- `(2 * rng() - 1.0) * max_distance` in units of the grid spacing: uniform among `-d, …, d`. -/
def stepList (d : ℕ) : List ℤ := (List.range (2 * d + 1)).map fun i : ℕ => (i : ℤ) - d

/-- `SingleOperatorShiftUpdater::propose` (src/moves/moves.ipp:592-649); `maxDist` is
`max_distance_` in units of the grid spacing.  The index `idx` runs through the creation operators
first. -/
def shiftPropose (E : PEnv) (win : Win ℤ R) (maxDist : ℕ → ℕ) (x : PCfg ℤ W) :
    Rand R (Option (Mv ℤ W × R)) :=
  let ops := (winOps win x.cd).map (true, ·) ++ (winOps win x.c).map (false, ·)
  if ops.length = 0 then ret none
  else
    bind (unif ops) fun o =>
    bind (bind (coin (1 / 2)) fun b => if b then ret o.2.2 else genNewFlavor R E o.2.2) fun f =>
    bind (unif (stepList (maxDist o.2.2))) fun s =>
    if win.inWin (o.2.1 + s) then ret (some (replaceMv o.1 o.2 (o.2.1 + s, f) x.worm, 1)) else ret none

end

section
variable {R : Type} [Field R] [LinearOrder R] [FloorRing R]

/-- `SingleOperatorShiftUpdater::update_parameters` (src/moves/moves.ipp:660-665): `update_cutoff` is
called once for each flavor and changes the state of the optimizer each time.  `none`: no flavors. -/
def shiftUpdateParams (hs : List (Hist R)) (maxVal : R) (numBins : ℕ) :
    ℕ → List R → Option (List R × List R)
  | 0, cut => some (cut, [])
  | n + 1, cut =>
    match optUpdate hs cut maxVal numBins (1 / 100) (105 / 100) with
    | none => none
    | some (cut', d) =>
      match shiftUpdateParams hs maxVal numBins n cut' with
      | none => none
      | some (cut'', ds) => some (cut'', d :: ds)

end

end CTHyb
