import Verif.ShiftMove
import Verif.Worm

/-!
Random proposals of the worm updates of src/moves/moves.ipp: `WormMover` (930-972), `WormFlavorChanger`
(975-1010), `WormInsertionRemover` (1012-1240), `GWormInsertionRemover` (1241-1300),
`EqualTimeG1_TwoTimeG2_Connector` (1384-1515), and the choice of the worm type in
`transition_between_config_spaces` (src/impurity.ipp:550-566).  Conventions as in `Verif.Proposal`.
The limits `tau_lower_limit_ = 0`, `tau_upper_limit_ = beta` (impurity_init.ipp:84) do not restrict the
window and are left out.
-/

namespace CTHyb

open Rand

section
variable {T R : Type} [Field R]

/-- The configuration with `p_worm`; `none` is the partition function space. -/
abbrev WCfg (T : Type) := PCfg T (Option (Worm T))

/-- `n` independent draws, as in the loops `for (int t = 0; t < num_time_indices; ++t)`. -/
def drawList {α : Type} (m : Rand R α) : ℕ → Rand R (List α)
  | 0 => ret []
  | n + 1 => bind m fun a => bind (drawList m n) fun l => ret (a :: l)

/-- `is_worm_in_range` (src/worm.hpp:85-94). -/
def wormInWin (win : Win T R) (w : Worm T) : Bool :=
  (List.range w.kind.numTimes).all fun t => (w.getTime t).any win.inWin

/-! ### Insertion and removal through the trace -/

/-- `propose_by_trace_impl` (src/moves/moves.ipp:1041-1109) for a worm of type `k` and
`weight_scaled = ws`.  All times and flavors of the clone of the template are set, so the new worm is
given by the drawn values. -/
def tracePropose (nf : ℕ) (win : Win T R) (k : WormKind) (ws : R) (x : WCfg T) :
    Rand R (Option (Mv T (Option (Worm T)) × R)) :=
  match x.worm with
  | some w =>
    bind (coin (1 / 2)) fun b =>
    if b then
      ret (some (⟨[], [], [], [], none⟩, 1 / (ws * win.len ^ k.numTimes * (nf : R) ^ k.numFlavors)))
    else if wormDiagonal w then
      ret (some (⟨[], [], [], [], none⟩, 1 / (ws * win.len ^ k.numTimes * (nf : R))))
    else ret none
  | none =>
    bind (drawList (unif win.grid) k.numTimes) fun ts =>
    bind (coin (1 / 2)) fun b =>
    if b then
      bind (drawList (unif (List.range nf)) k.numFlavors) fun fs =>
      ret (some (⟨[], [], [], [], some ⟨k, ts, fs⟩⟩, ws * win.len ^ k.numTimes * (nf : R) ^ k.numFlavors))
    else
      bind (unif (List.range nf)) fun f =>
      ret (some (⟨[], [], [], [], some ⟨k, ts, List.replicate k.numFlavors f⟩⟩,
        ws * win.len ^ k.numTimes * (nf : R)))

/-! ### Insertion and removal through the trace and the bath -/

/-- The random numbers of `pick_up_operators` (src/operator_util.ipp:76-81): displacements below
`N, N - 1, …`. -/
def frontIdx (R : Type) [Field R] : ℕ → ℕ → Rand R (List ℕ)
  | _, 0 => ret []
  | N, n + 1 => bind (unif (List.range N)) fun j => bind (frontIdx R (N - 1) n) fun js => ret (j :: js)

/-- One flavor of `pick_up_operators` (src/operator_util.ipp:66-84). -/
def pickFront (l : List (BOp T)) (n : ℕ) : Rand R (List (BOp T)) :=
  bind (frontIdx R l.length n) fun js => ret ((frontShuffle 0 js l).take n)

/-- `pick_up_operators` (src/operator_util.ipp:48-86); `m f` is `num_ops_flavors[f]`. -/
def pickFlavors (ops : ℕ → List (BOp T)) (m : ℕ → ℕ) : List ℕ → Rand R (List (BOp T))
  | [] => ret []
  | f :: fs =>
    if m f = 0 then pickFlavors ops m fs
    else bind (pickFront (ops f) (m f)) fun p => bind (pickFlavors ops m fs) fun r => ret (p ++ r)

/-- The loop attaching the operators of a worm to the bath at random times
(src/moves/moves.ipp:1149-1160). -/
def attachDraws (win : Win T R) : List (Psi (OpTime T)) → Rand R (List (BOp T) × List (BOp T))
  | [] => ret ([], [])
  | o :: os =>
    bind (unif win.grid) fun t => bind (attachDraws win os) fun r =>
    ret (if o.type = .creation then ((t, o.flavor) :: r.1, r.2) else (r.1, (t, o.flavor) :: r.2))

/-- `count_operators` with a type (src/operator_util.ipp:15-28). -/
def wormCount (ops : List (Psi (OpTime T))) (ty : OpType) (f : ℕ) : ℕ :=
  ops.countP fun o => decide (o.type = ty) && o.flavor == f

/-- `1 / p_prop_worm_ins` (src/moves/moves.ipp:1166-1179, 1217-1230); `ncd f`, `nc f` are the numbers the
falling factorials start from. -/
def pickFac (nf : ℕ) (ncd nc mcd mc : ℕ → ℕ) : R :=
  (List.range nf).foldl (fun a f =>
    let a := if 0 < mcd f then a * fallingFac ((ncd f : ℕ) : R) (mcd f) else a
    if 0 < mc f then a * fallingFac ((nc f : ℕ) : R) (mc f) else a) 1

/-- `propose_by_trace_hyb_impl` (src/moves/moves.ipp:1111-1240). -/
def hybPropose [Inhabited T] (nf : ℕ) (win : Win T R) (k : WormKind) (ws : R) (x : WCfg T) :
    Rand R (Option (Mv T (Option (Worm T)) × R)) :=
  let ncd := fun f => (flavorOps win x.cd f).length
  let nc := fun f => (flavorOps win x.c f).length
  match x.worm with
  | some w =>
    let mcd := wormCount w.operators .creation
    let mc := wormCount w.operators .annihilation
    bind (attachDraws win w.operators) fun r =>
    ret (some (⟨[], [], r.1, r.2, none⟩,
      ((1 / pickFac nf (fun f => ncd f + mcd f) (fun f => nc f + mc f) mcd mc)
        / (1 / win.len ^ w.operators.length))
        * (1 / (ws * win.len ^ k.numTimes * (nf : R) ^ k.numFlavors))))
  | none =>
    bind (drawList (unif win.grid) k.numTimes) fun ts =>
    bind (drawList (unif (List.range nf)) k.numFlavors) fun fs =>
    let w : Worm T := ⟨k, ts, fs⟩
    let mcd := wormCount w.operators .creation
    let mc := wormCount w.operators .annihilation
    if (List.range nf).any (fun f => decide (ncd f < mcd f) || decide (nc f < mc f)) then ret none
    else
      bind (pickFlavors (flavorOps win x.cd) mcd (List.range nf)) fun p =>
      bind (pickFlavors (flavorOps win x.c) mc (List.range nf)) fun q =>
      ret (some (⟨p, q, [], [], some w⟩,
        (1 / win.len ^ w.operators.length / (1 / pickFac nf ncd nc mcd mc))
          * ws * win.len ^ k.numTimes * (nf : R) ^ k.numFlavors))

/-- `WormInsertionRemover::propose` (src/moves/moves.ipp:1012-1039), with
`weight_scaled = worm_space_weight / insertion_proposal_rate_`. -/
def wormInsRem [Inhabited T] (nf : ℕ) (win : Win T R) (k : WormKind) (spaceWeight rate : R) (x : WCfg T) :
    Rand R (Option (Mv T (Option (Worm T)) × R)) :=
  if x.worm.any fun w => !wormInWin win w then ret none
  else
    bind (coin (1 / 2)) fun b =>
    if b then tracePropose nf win k (spaceWeight / rate) x
    else hybPropose nf win k (spaceWeight / rate) x

/-- First step of `transition_between_config_spaces` (src/impurity.ipp:558-566): in the partition
function space one of the worm types is chosen, in a worm space the updater of this space is used; the
rates are set to `1 / worm_types.size()` in src/impurity_init.ipp:249. -/
def wormTransition [Inhabited T] (nf : ℕ) (win : Win T R) (kinds : List WormKind)
    (spaceWeight : WormKind → R) (x : WCfg T) : Rand R (Option (Mv T (Option (Worm T)) × R)) :=
  let rate : R := 1 / (kinds.length : R)
  match x.worm with
  | none => bind (unif kinds) fun k => wormInsRem nf win k (spaceWeight k) rate x
  | some w => wormInsRem nf win w.kind (spaceWeight w.kind) rate x

/-! ### Cutting hybridization lines -/

/-- The operators `worm_ops[2 * rank + 1]` (creation) resp. `worm_ops[2 * rank]` (annihilation) of a
`GWorm` (src/moves/moves.ipp:1262-1265). -/
def greenOps [Inhabited T] (rank : ℕ) (w : Worm T) (off : ℕ) : List (BOp T) :=
  (List.range rank).filterMap fun r => (w.operators[2 * r + off]?).map fun o => (o.time.time, o.flavor)

/-- The worm made of the operators cut out of the bath (src/moves/moves.ipp:1284-1293). -/
def greenWorm (rank : ℕ) (p q : List (BOp T)) : Worm T :=
  ⟨.green rank, (q.zip p).flatMap fun o => [o.1.1, o.2.1], (q.zip p).flatMap fun o => [o.1.2, o.2.2]⟩

/-- `GWormInsertionRemover::propose` (src/moves/moves.ipp:1241-1300); `pert_order()` is the number of
bath creation operators, the same as of annihilation operators.  The test of the type compares types of
pointers and never throws. -/
def greenPropose [Inhabited T] (rank : ℕ) (ws : R) (x : WCfg T) :
    Rand R (Option (Mv T (Option (Worm T)) × R)) :=
  match x.worm with
  | some w =>
    ret (some (⟨[], [], greenOps rank w 1, greenOps rank w 0, none⟩,
      1 / (ws * fallingFac ((x.cd.length + rank : ℕ) : R) rank ^ 2)))
  | none =>
    if x.cd.length < rank then ret none
    else
      bind (pickOps x.cd rank) fun p => bind (pickOps x.c rank) fun q =>
      ret (some (⟨p, q, [], [], some (greenWorm rank p q)⟩, ws * fallingFac (x.cd.length : R) rank ^ 2))

/-! ### Connection between equal-time G1 and two-time G2 -/

/-- `EqualTimeG1_TwoTimeG2_Connector::propose` (src/moves/moves.ipp:1384-1515).  The code after the two
`return false` in the `else` branches is never reached.  `none` for other worm spaces is the exception. -/
def connectPropose (nf : ℕ) (win : Win T R) (wG1 wG2 : R) (x : WCfg T) :
    Rand R (Option (Mv T (Option (Worm T)) × R)) :=
  match x.worm with
  | some ⟨.equalTime 1, [t], [f0, f1]⟩ =>
    bind (unif win.grid) fun t1 =>
    bind (coin (1 / 2)) fun b =>
    if b then
      bind (unif (List.range nf)) fun f2 => bind (unif (List.range nf)) fun f3 =>
      ret (some (⟨[], [], [], [], some ⟨.corr 2, [t, t1], [f0, f1, f2, f3]⟩⟩,
        (wG2 / wG1) * (nf : R) * (nf : R) * win.len))
    else ret none
  | some ⟨.corr 2, [t, t1], [f0, f1, _, _]⟩ =>
    if win.inWin t1 then
      bind (coin (1 / 2)) fun b =>
      if b then
        ret (some (⟨[], [], [], [], some ⟨.equalTime 1, [t], [f0, f1]⟩⟩,
          (wG1 / wG2) / ((nf : R) * (nf : R) * win.len)))
      else ret none
    else ret none
  | _ => ret none

/-! ### Moving a worm and changing its flavors -/

/-- `static_cast<int>(rng() * num_flavors)` for each flavor index whose time is in the window
(src/moves/moves.ipp:989-1000). -/
def flavorDraws (nf : ℕ) (win : Win T R) (w : Worm T) : List ℕ → Rand R (List ℕ)
  | [] => ret []
  | f :: fs =>
    bind (if (w.getTime (w.kind.timeIndex f)).any win.inWin then unif (List.range nf)
      else ret (w.flavors.getD f 0)) fun g =>
    bind (flavorDraws nf win w fs) fun r => ret (g :: r)

/-- `WormFlavorChanger::propose` (src/moves/moves.ipp:975-1010). -/
def flavorChangePropose [DecidableEq T] (nf : ℕ) (win : Win T R) (x : WCfg T) :
    Rand R (Option (Mv T (Option (Worm T)) × R)) :=
  match x.worm with
  | none => ret none
  | some w =>
    bind (flavorDraws nf win w (List.range w.kind.numFlavors)) fun fs =>
    let w' : Worm T := { w with flavors := fs }
    if wormEq w w' then ret none else ret (some (⟨[], [], [], [], some w'⟩, 1))

/-- The new time (src/moves/moves.ipp:953-955) in units of the grid spacing. -/
def moverTime (win : Win ℤ R) (maxDist : ℕ) (t : ℤ) : Rand R ℤ :=
  bind (coin (9 / 10)) fun b =>
  if b then bind (unif (stepList maxDist)) fun s => ret (t + s) else unif win.grid

/-- The loop of `WormMover::propose` (src/moves/moves.ipp:948-964) with `n` iterations left; the result
is the index and the new time.  The model gives up when the time cannot be read, which the assertions
in `get_time` exclude. -/
def moverLoop (win : Win ℤ R) (maxDist : ℕ) (w : Worm ℤ) : ℕ → Rand R (Option (ℕ × ℤ))
  | 0 => ret none
  | n + 1 =>
    bind (unif (List.range w.kind.numTimes)) fun i =>
    match w.getTime i with
    | none => ret none
    | some t =>
      if win.inWin t then
        bind (moverTime win maxDist t) fun t' =>
        if win.inWin t' then ret (some (i, t')) else moverLoop win maxDist w n
      else moverLoop win maxDist w n

/-- `WormMover::propose` (src/moves/moves.ipp:930-972). -/
def moverPropose (win : Win ℤ R) (maxDist : ℕ) (x : WCfg ℤ) :
    Rand R (Option (Mv ℤ (Option (Worm ℤ)) × R)) :=
  match x.worm with
  | none => ret none
  | some w =>
    bind (moverLoop win maxDist w w.kind.numTimes) fun r =>
    match r with
    | none => ret none
    | some (i, t') => ret (some (⟨[], [], [], [], some { w with times := w.times.set i t' }⟩, 1))

end

end CTHyb
