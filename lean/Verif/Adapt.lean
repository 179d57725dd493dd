import Verif.Checks
import Verif.ShiftMove
import Verif.LocalUpdate
import Verif.WormTablesProps
import Verif.Observables

/-!
Model of the adaptation of the random walk before thermalization and of what is kept of it afterwards: `update_MC_parameters`
(src/impurity.ipp:694-744) and its place in `update` (238-250), the calls of `call_back` and `update_parameters` of the updaters
(src/moves/moves.ipp:244-264, 647-665, 912-927), `finalize_learning` (src/moves/moves.hpp:98, 230, 302, 379) in
`prepare_for_measurement` (src/impurity.ipp:750-797), `update_thermalization_status` (src/impurity.hpp:88-92) and
`measure_acc_rate` (src/moves/moves.hpp:111-118) in `measure` (src/impurity.ipp:336-355) and `measure_Z_function_space` (391-396).

The list of expansion orders is a static variable of the function, that is, it belongs to the process and not to the simulation
(src/impurity.ipp:703): it is a parameter of the initial state here.  Not modelled: the histograms of `InsertionRemovalDiagonalUpdater`
(class not used by the simulation), the vectors `Shift_attempted` and `Shift_accepted`, printing.
-/

namespace CTHyb

section
variable {R : Type} [Field R] [LinearOrder R] [FloorRing R]

/-- `StepSizeOptimizer` (src/update_histogram.hpp:187-276); the histograms contain `max_val_`. -/
structure StepOpt (R : Type) where
  maxVal : R
  numBins : ℕ
  hists : List (Hist R)
  cut : List R

/-- Constructor (update_histogram.hpp:189-198). -/
def StepOpt.init (numBins : ℕ) (maxVal : R) (flavors : ℕ) (initial : R) : StepOpt R :=
  ⟨maxVal, numBins, List.replicate flavors (Hist.init numBins maxVal), List.replicate flavors initial⟩

/-- `add_sample` (update_histogram.hpp:200-203); `none`: the flavor is out of range. -/
def StepOpt.addSample (o : StepOpt R) (distance value : R) (flavor : ℕ) : Option (StepOpt R) :=
  if flavor < o.hists.length then some { o with hists := o.hists.modify flavor fun h => (h.addSample distance value).1 }
  else none

/-- `scalar_histogram::reset` (update_histogram.hpp:163-170). -/
def Hist.reset (h : Hist R) : Hist R :=
  ⟨h.maxVal, 0, List.replicate h.counter.length 0, List.replicate h.counter.length 0⟩

/-- `StepSizeOptimizer::reset` (update_histogram.hpp:261-265): the cutoffs stay. -/
def StepOpt.reset (o : StepOpt R) : StepOpt R := { o with hists := o.hists.map Hist.reset }

/-- `SingleOperatorShiftUpdater`: the optimizer and `max_distance_` (src/moves/moves.hpp:309-312). -/
structure ShiftU (R : Type) where
  opt : StepOpt R
  maxDist : List R

/-- Constructor (src/moves/moves.hpp:284-288). -/
def ShiftU.init (beta : R) (flavors numBins : ℕ) : ShiftU R :=
  ⟨StepOpt.init numBins (1 / 2 * beta) flavors (1 / 2 * beta), List.replicate flavors (1 / 2 * beta)⟩

/-- `call_back` (src/moves/moves.ipp:648-658). -/
def ShiftU.callBack (u : ShiftU R) (valid accepted : Bool) (distance : R) (flavor : ℕ) : Option (ShiftU R) :=
  if valid then (u.opt.addSample distance (if accepted then 1 else 0) flavor).map fun o => { u with opt := o }
  else some u

/-- `update_parameters` (src/moves/moves.ipp:660-665), see `shiftUpdateParams`. -/
def ShiftU.updateParams (u : ShiftU R) : Option (ShiftU R) :=
  (shiftUpdateParams u.opt.hists u.opt.maxVal u.opt.numBins u.maxDist.length u.opt.cut).map fun r =>
    ⟨{ u.opt with cut := r.1 }, r.2⟩

/-- `WormMover`: the optimizer and `max_distance_` (src/moves/moves.hpp:389-390). -/
structure MoverU (R : Type) where
  opt : StepOpt R
  maxDist : R

/-- Constructor (src/moves/moves.hpp:368-373). -/
def MoverU.init (beta : R) : MoverU R := ⟨StepOpt.init 100 (1 / 2 * beta) 1 (1 / 2 * beta), 1 / 2 * beta⟩

/-- `call_back` (src/moves/moves.ipp:913-923). -/
def MoverU.callBack (u : MoverU R) (beta : R) (valid accepted : Bool) (distance : R) : Option (MoverU R) :=
  if valid then (u.opt.addSample (min distance (beta - distance)) (if accepted then 1 else 0) 0).map fun o => { u with opt := o }
  else some u

/-- `update_parameters` (src/moves/moves.ipp:925-928). -/
def MoverU.updateParams (u : MoverU R) : Option (MoverU R) :=
  (optUpdate u.opt.hists u.opt.cut u.opt.maxVal u.opt.numBins (1 / 10) (105 / 100)).map fun r =>
    ⟨{ u.opt with cut := r.1 }, r.2⟩

end

/-- A loop over the elements of a container that can fail. -/
def mapOpt {α β : Type} (f : α → Option β) : List α → Option (List β)
  | [] => some []
  | a :: l => (f a).bind fun b => (mapOpt f l).map fun l' => b :: l'

/-- The parameters that matter here. -/
structure AdaptParams where
  beta : ℝ
  flavors : ℕ
  /-- `model.n_tau_hyb`, the number of bins -/
  nTau : ℕ
  winMin : ℤ
  winMax : ℤ
  /-- names of the updaters of operators hybridized with the bath, in the order of `measure` -/
  bath : List String
  /-- names of the worm updaters -/
  worm : List String

/-- The part of the state of a simulation concerned by the adaptation. -/
structure Adapt where
  /-- the static list `min_pert_order_hist` -/
  orders : List ℝ
  nWin : ℤ
  shift : ShiftU ℝ
  movers : List (Space × MoverU ℝ)
  tables : WormTables
  thermalized : Bool
  /-- counters of an updater (src/moves/moves.hpp:153) -/
  counters : String → Counters
  /-- samples of the three scalar observables of an updater -/
  samples : String → List Counters

/-- A simulation that has been constructed (src/impurity.ipp:93-195); `orders` is the content of the static list at that moment. -/
noncomputable def Adapt.init (p : AdaptParams) (orders : List ℝ) (t : WormTables) : Adapt where
  orders := orders
  nWin := 1
  shift := ShiftU.init p.beta p.flavors p.nTau
  movers := (t.movers.filter fun e => decide (e.2 = WUpd.mover)).map fun e => (e.1, MoverU.init p.beta)
  tables := t
  thermalized := false
  counters := fun _ => ⟨0, 0, 0⟩
  samples := fun _ => []

/-- The special part of `call_back` of the updater that made a move. -/
inductive AUpd
  /-- an updater with the empty `call_back` (src/moves/moves.hpp:92) -/
  | plain
  /-- the single-operator shift with the distance and the flavor -/
  | shift (distance : ℝ) (flavor : ℕ)
  /-- the mover of the worm in a space -/
  | mover (s : Space) (distance : ℝ)

/-- `finalize_update` of the updater `name` (src/moves/moves.ipp:244-264). -/
noncomputable def Adapt.move (p : AdaptParams) (a : Adapt) (name : String) (u : AUpd) (valid accepted : Bool) : Option Adapt :=
  let a := { a with counters := Function.update a.counters name (finalizeUpdate (a.counters name) valid accepted) }
  match u with
  | .plain => some a
  | .shift d f => (a.shift.callBack valid accepted d f).map fun u => { a with shift := u }
  | .mover s d =>
    (mapOpt (fun e => if e.1 = s then (e.2.callBack p.beta valid accepted d).map fun u => (e.1, u) else some e) a.movers).map
      fun m => { a with movers := m }

/-- `update_MC_parameters` (src/impurity.ipp:694-744); `none` after thermalization is the exception (698-700).  The order of the
updaters does not matter, since they do not share data; `update_parameters` of the others is empty (src/moves/moves.hpp:95). -/
noncomputable def Adapt.updateMC (p : AdaptParams) (a : Adapt) (order : ℕ) : Option Adapt :=
  if a.thermalized then none
  else
    let orders := pushHist a.orders (order : ℝ)
    a.shift.updateParams.bind fun sh =>
    (mapOpt (fun e => e.2.updateParams.map fun u => (e.1, u)) a.movers).map fun mv =>
    { a with
      orders := orders
      nWin := nWinStandard p.winMin p.winMax (orders.sum / orders.length) p.flavors
      shift := sh
      movers := mv }

/-- End of an iteration of `update` (src/impurity.ipp:238-250). -/
noncomputable def Adapt.step (p : AdaptParams) (a : Adapt) (order : ℕ) (s : Space) : Option Adapt :=
  if a.thermalized then (a.tables.everyStep s).map fun t => { a with tables := t }
  else a.updateMC p order

/-- `prepare_for_measurement` (src/impurity.ipp:750-797); `f` is the mean over the processes of the histograms.  `finalize_learning`
clears the histograms of the optimizers; the counters stay. -/
noncomputable def Adapt.prepare (a : Adapt) (f : ℕ → ℝ) : Option Adapt :=
  (a.tables.prepare f).map fun t =>
    { a with
      shift := { a.shift with opt := a.shift.opt.reset }
      movers := a.movers.map fun e => (e.1, { e.2 with opt := e.2.opt.reset })
      tables := t }

/-- `LocalUpdater::measure_acc_rate` (src/moves/moves.hpp:111-118): three scalars are recorded, the counters start again. -/
def Adapt.record (a : Adapt) (name : String) : Adapt :=
  { a with
    samples := Function.update a.samples name (a.samples name ++ [a.counters name])
    counters := Function.update a.counters name ⟨0, 0, 0⟩ }

/-- `measure` (src/impurity.ipp:313-368): the statistics of the updaters; in the space of the partition function those of the bath
updaters are recorded again (391-396).  `SingleOperatorShiftUpdater::measure_acc_rate` also clears its histograms
(src/moves/moves.ipp:676-682). -/
noncomputable def Adapt.measure (p : AdaptParams) (a : Adapt) (s : Space) : Adapt :=
  let a := { a with tables := a.tables.measure.2, shift := { a.shift with opt := a.shift.opt.reset } }
  let a := (p.bath ++ p.worm).foldl Adapt.record a
  if s = .z then p.bath.foldl Adapt.record a else a

/-- What a process does. -/
inductive AOp
  /-- an updater has made an attempt -/
  | move (name : String) (u : AUpd) (valid accepted : Bool)
  /-- `adjust_worm_space_weight` -/
  | adjust (s : Space)
  /-- a space is visited at a position of the window (src/impurity.ipp:537-539) -/
  | visit (s : Space)
  /-- the end of an iteration of `update` -/
  | step (order : ℕ) (s : Space)
  /-- `update_thermalization_status` after the time for thermalization -/
  | timeOver
  | prepare (f : ℕ → ℝ)
  | measure (s : Space)

/-- One operation. -/
noncomputable def Adapt.exec (p : AdaptParams) (a : Adapt) : AOp → Option Adapt
  | .move name u valid accepted => a.move p name u valid accepted
  | .adjust s => (a.tables.adjust a.thermalized s).map fun t => { a with tables := t }
  | .visit s => (a.tables.visit a.thermalized s).map fun t => { a with tables := t }
  | .step order s => a.step p order s
  | .timeOver => some { a with thermalized := true }
  | .prepare f => a.prepare f
  | .measure s => some (a.measure p s)

/-- A history of operations. -/
noncomputable def runAdapt (p : AdaptParams) (a : Adapt) (ops : List AOp) : Option Adapt :=
  ops.foldl (fun a? op => a?.bind fun a => a.exec p op) (some a)

/-- The rate printed for an updater (`print_acc_rate`, src/impurity_postprocess.ipp:3-8): mean number of accepted moves divided by mean
number of valid moves, the samples of all processes together.  `none`: no samples (an exception of the accumulators) or no valid move
(not a number). -/
noncomputable def printedRate (procs : List Adapt) (name : String) : Option ℝ :=
  let l := procs.flatMap fun a => a.samples name
  let acc := (l.map fun c => (c.accepted : ℝ)).sum / l.length
  let valid := (l.map fun c => (c.valid : ℝ)).sum / l.length
  if l.length = 0 ∨ valid = 0 then none else some (acc / valid)

end CTHyb
