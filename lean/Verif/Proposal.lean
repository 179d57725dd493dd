import Verif.SelectionProps
import Verif.Partitioned
import Mathlib.Algebra.Order.Field.Basic
import Mathlib.Algebra.BigOperators.Group.Finset.Basic
import Mathlib.Data.Multiset.Bind
import Mathlib.Data.Fintype.Pi
import Mathlib.Data.Nat.Choose.Basic

/-!
Random proposals of the updates in src/moves/moves.ipp, as finite probability distributions:
`InsertionRemovalUpdater` (269-405), `InsertionRemovalDiagonalUpdater` (407-500).

Simplifications.
* `static_cast<int>(rng() * n)` is a uniform choice among `n` indices (`C48_index_interval`),
  `rng() < 0.5` a fair coin.
* A time drawn by `open_random` from the window is a uniform choice from a finite grid of `N`
  times in the window.  The margin `eps = 1e-10` of `open_random` is left out.  A probability on
  the grid is a density times `(length / N)` for each free time, so a weight density `w` on
  configurations with `n` free times becomes the grid weight `w * (length / N)^n`.
* Only what the proposal needs is kept of a configuration: the bath operators and the worm.
-/

namespace CTHyb

/-- A finite distribution: outcomes with their probabilities. -/
abbrev Rand (R α : Type) := Multiset (R × α)

namespace Rand
variable {R α β : Type} [Field R]

/-- No randomness. -/
def ret (a : α) : Rand R α := {(1, a)}

/-- First draw from `m`, then from `k`. -/
def bind (m : Rand R α) (k : α → Rand R β) : Rand R β :=
  Multiset.bind m fun p => (k p.2).map fun q => (p.1 * q.1, q.2)

/-- An element of `l` at a uniformly distributed position: `l[static_cast<int>(rng() * l.size())]`
(`pick`, src/moves/moves.ipp:6-10).  For an empty list the code would read outside the vector; the
model has no outcome then. -/
def unif (l : List α) : Rand R α := (l : Multiset α).map fun a => (1 / (l.length : R), a)

/-- `rng() < p`. -/
def coin (p : R) : Rand R Bool := {(p, true), (1 - p, false)}

/-- Expectation value. -/
def mean (m : Rand R α) (f : α → R) : R := (m.map fun p => p.1 * f p.2).sum

end Rand

open Rand

/-- An operator of the bath as far as the proposals look at it: time and flavor. -/
abbrev BOp (T : Type) := T × ℕ

/-- The part of `MonteCarloConfiguration` which is changed by an update: the bath operators of `M`
(time-ordered sets, here lists) and the worm `p_worm`. -/
structure PCfg (T W : Type) where
  cd : List (BOp T)
  c : List (BOp T)
  worm : W

/-- What `propose` hands to `LocalUpdater::update`: `cdagg_ops_rem_`, `c_ops_rem_`, `cdagg_ops_add_`,
`c_ops_add_`, `p_new_worm_` (src/moves/moves.hpp:120-135). -/
structure Mv (T W : Type) where
  cdRem : List (BOp T)
  cRem : List (BOp T)
  cdAdd : List (BOp T)
  cAdd : List (BOp T)
  worm : W

/-- The configuration after the move is `y`. -/
def Leads {T W : Type} [DecidableEq T] (x : PCfg T W) (m : Mv T W) (y : PCfg T W) : Prop :=
  (x.cd : Multiset (BOp T)) - m.cdRem + m.cdAdd = y.cd ∧
    (x.c : Multiset (BOp T)) - m.cRem + m.cAdd = y.c ∧ m.worm = y.worm

instance {T W : Type} [DecidableEq T] [DecidableEq W] (x : PCfg T W) (m : Mv T W) (y : PCfg T W) :
    Decidable (Leads x m y) := by unfold Leads; infer_instance

/-- The time window of the sliding window: the grid of times `open_random` may return, its length
`tau_high - tau_low`, and the test `tau_low <= t && t <= tau_high`. -/
structure Win (T R : Type) where
  grid : List T
  len : R
  inWin : T → Bool

section
variable {T W R : Type} [Field R]

/-- `safe_falling_factorial` (src/moves/moves.ipp:16-23): `x (x-1) … (x-i+1)`. -/
def fallingFac (x : R) : ℕ → R
  | 0 => 1
  | i + 1 => fallingFac x i * (x - i)

/-- Bath operators of block `b` in the window (src/moves/moves.ipp:284-293). -/
def blockOps (E : PEnv) (win : Win T R) (l : List (BOp T)) (b : ℕ) : List (BOp T) :=
  l.filter fun o => win.inWin o.1 && E.sector o.2 == b

/-- `M.flavors(b)` (determinant_matrix_partitioned.ipp:40-60). -/
def blockFlavors (E : PEnv) (b : ℕ) : List ℕ := (List.range E.nf).filter fun f => E.sector f == b

/-- `psi(open_random(rng, tau_low, tau_high), type, pick(flavors, rng))` (src/moves/moves.ipp:317-321). -/
def randOp (win : Win T R) (fl : List ℕ) : Rand R (BOp T) :=
  bind (unif win.grid) fun t => bind (unif fl) fun f => ret (t, f)

/-- The loop of `propose_insertion` (src/moves/moves.ipp:313-328): block, creation operator and
annihilation operator of each iteration. -/
def insDraws (E : PEnv) (win : Win T R) : ℕ → Rand R (List (ℕ × BOp T × BOp T))
  | 0 => ret []
  | k + 1 =>
    bind (unif (List.range E.ns)) fun b =>
    bind (randOp win (blockFlavors E b)) fun p =>
    bind (randOp win (blockFlavors E b)) fun q =>
    bind (insDraws E win k) fun l => ret ((b, p, q) :: l)

/-- Acceptance factor of `propose_insertion` (src/moves/moves.ipp:330-348), `m b` being
`num_new_pairs[b]`. -/
def insCorr (E : PEnv) (win : Win T R) (rank : ℕ) (x : PCfg T W) (m : ℕ → ℕ) : R :=
  (List.range E.ns).foldl (fun a b =>
    if m b = 0 then a
    else a * ((blockFlavors E b).length : R) ^ (2 * m b)
      / fallingFac (((blockOps E win x.cd b).length + m b : ℕ) : R) (m b)
      / fallingFac (((blockOps E win x.c b).length + m b : ℕ) : R) (m b))
    (win.len ^ (2 * rank))

/-- `propose_insertion` (src/moves/moves.ipp:305-352). -/
def insPropose (E : PEnv) (win : Win T R) (rank : ℕ) (x : PCfg T W) : Rand R (Option (Mv T W × R)) :=
  bind (insDraws E win rank) fun l =>
    ret (some (⟨[], [], l.map (·.2.1), l.map (·.2.2), x.worm⟩,
      insCorr E win rank x fun b => (l.map (·.1)).count b))

/-- The blocks drawn by `propose_removal` (src/moves/moves.ipp:361-363). -/
def blockDraws (R : Type) [Field R] (ns : ℕ) : ℕ → Rand R (List ℕ)
  | 0 => ret []
  | k + 1 => bind (unif (List.range ns)) fun b => bind (blockDraws R ns k) fun l => ret (b :: l)

/-- `pickup_a_few_numbers(N, n, rng)` (src/util.hpp:310-320): the calls `rnd(2), …, rnd(N)` of
`random_shuffle` are independent uniform choices (see `C48_pickup_box`). -/
def pickRand (R : Type) [Field R] (N n : ℕ) : Rand R (List ℕ) :=
  (Finset.univ : Finset (∀ c : Fin (N - 1), Fin (c.1 + 2))).val.map fun J =>
    (∏ c : Fin (N - 1), 1 / ((c.1 + 2 : ℕ) : R), resizeList (shuffleResult N J) n)

/-- The operators at the picked positions (src/moves/moves.ipp:377-388). -/
def pickOps (l : List (BOp T)) (n : ℕ) : Rand R (List (BOp T)) :=
  bind (pickRand R l.length n) fun idx => ret (idx.filterMap (l[·]?))

/-- The loop picking operators in all blocks (src/moves/moves.ipp:373-389). -/
def remDraws (E : PEnv) (win : Win T R) (x : PCfg T W) (m : ℕ → ℕ) :
    List ℕ → Rand R (List (BOp T) × List (BOp T))
  | [] => ret ([], [])
  | b :: bs =>
    bind (pickOps (blockOps E win x.cd b) (m b)) fun p =>
    bind (pickOps (blockOps E win x.c b) (m b)) fun q =>
    bind (remDraws E win x m bs) fun r => ret (p ++ r.1, q ++ r.2)

/-- Acceptance factor of `propose_removal` (src/moves/moves.ipp:391-402). -/
def remCorr (E : PEnv) (win : Win T R) (rank : ℕ) (x : PCfg T W) (m : ℕ → ℕ) : R :=
  (List.range E.ns).foldl (fun a b =>
    if m b = 0 then a
    else a / ((blockFlavors E b).length : R) ^ (2 * m b)
      * (fallingFac ((blockOps E win x.cd b).length : R) (m b)
      * fallingFac ((blockOps E win x.c b).length : R) (m b)))
    (1 / win.len ^ (2 * rank))

/-- `propose_removal` (src/moves/moves.ipp:354-405). -/
def remPropose (E : PEnv) (win : Win T R) (rank : ℕ) (x : PCfg T W) : Rand R (Option (Mv T W × R)) :=
  bind (blockDraws R E.ns rank) fun bl =>
    if (List.range E.ns).any (fun b => decide ((blockOps E win x.cd b).length < bl.count b) ||
        decide ((blockOps E win x.c b).length < bl.count b)) then ret none
    else
      bind (remDraws E win x (bl.count ·) (List.range E.ns)) fun r =>
        ret (some (⟨r.1, r.2, [], [], x.worm⟩, remCorr E win rank x (bl.count ·)))

/-- `InsertionRemovalUpdater::propose` (src/moves/moves.ipp:269-302). -/
def irPropose (E : PEnv) (win : Win T R) (rank : ℕ) (x : PCfg T W) : Rand R (Option (Mv T W × R)) :=
  bind (coin (1 / 2)) fun b => if b then insPropose E win rank x else remPropose E win rank x

/-! ### Insertion and removal with a single flavor -/

/-- Operators of flavor `f` in the window (src/moves/moves.ipp:424-446).  The code looks through the
operators of the block of `f` only, which contains all operators of flavor `f`. -/
def flavorOps (win : Win T R) (l : List (BOp T)) (f : ℕ) : List (BOp T) :=
  l.filter fun o => win.inWin o.1 && o.2 == f

/-- The loop drawing the times (src/moves/moves.ipp:449-460). -/
def diagDraws (win : Win T R) (f : ℕ) : ℕ → Rand R (List (BOp T × BOp T))
  | 0 => ret []
  | k + 1 =>
    bind (unif win.grid) fun t => bind (unif win.grid) fun t' =>
    bind (diagDraws win f k) fun l => ret (((t, f), (t', f)) :: l)

/-- `InsertionRemovalDiagonalUpdater::propose` (src/moves/moves.ipp:407-500); sorting the operators
and `distance_` are left out. -/
def diagPropose (nf : ℕ) (win : Win T R) (rank : ℕ) (x : PCfg T W) : Rand R (Option (Mv T W × R)) :=
  bind (unif (List.range nf)) fun f =>
  let nc := (flavorOps win x.cd f).length
  let na := (flavorOps win x.c f).length
  bind (coin (1 / 2)) fun b =>
  if b then
    bind (diagDraws win f rank) fun l =>
      ret (some (⟨[], [], l.map (·.1), l.map (·.2), x.worm⟩,
        win.len ^ (2 * rank) / (((nc + rank).choose rank : R) * ((na + rank).choose rank : R)
          * (rank.factorial : R))))
  else if nc < rank ∨ na < rank then ret none
  else
    bind (pickOps (flavorOps win x.cd f) rank) fun p =>
    bind (pickOps (flavorOps win x.c f) rank) fun q =>
      ret (some (⟨p, q, [], [], x.worm⟩,
        ((nc.choose rank : R) * (na.choose rank : R) * (rank.factorial : R)) / win.len ^ (2 * rank)))

end

end CTHyb
