import Verif.WormTables

/-!
Model of the set of observables: their creation (`create_observables`, src/impurity_init.ipp:3-73), what is sent to them by
`measure_every_step`, `measure`, `prepare_for_measurement` and `finish_measurement` (src/impurity.ipp:261-490, 798, 812) and what is
read from them by `solve` and `show_statistics` (src/solver.ipp:50-85, src/postprocess.hpp, src/impurity_postprocess.ipp).

Names are strings, as in the code.  Of the data only the type (number or vector) and the number of samples are kept.  The class
`accumulator_set` belongs to ALPSCore: inserting a name which exists, and an access to a name which does not exist, is an exception
there; a value of the wrong type is rejected; the mean of an observable without samples is not defined.  All of this is `none` here.
`MEASURE_TIMING` is off.
-/

namespace CTHyb

/-- The type of the accumulated values. -/
inductive ObsType
  | scalar | vector
deriving DecidableEq

/-- Name and type. -/
abbrev Obs := String × ObsType

/-- `measurements << Accumulator(name)`. -/
def register (S : List Obs) (o : Obs) : Option (List Obs) := if o.1 ∈ S.map Prod.fst then none else some (S ++ [o])

/-- Several of them. -/
def registerAll (l : List Obs) (S : List Obs) : Option (List Obs) := l.foldlM register S

/-- The pair of observables of `create_observable` and `measure_observable_helper` (src/accumulator.hpp:50-56, 60-66, 92-124): real and
imaginary part, also for real scalars. -/
def complexObs (name : String) (ty : ObsType) : List Obs := [(name ++ "_Re", ty), (name ++ "_Im", ty)]

/-- `create_measurement_acc_rate` and `measure_acc_rate` of `LocalUpdater` (src/moves/moves.hpp:101-118). -/
def accObs (name : String) : List Obs :=
  [(name ++ "_attempted_scalar", .scalar), (name ++ "_valid_move_scalar", .scalar), (name ++ "_accepted_scalar", .scalar)]

/-- The name of `InsertionRemovalUpdater` (src/moves/moves.hpp:165). -/
def insRemoverName (k : ℕ) : String := toString k ++ "-pair_insertion_remover"

/-- The name of `SingleOperatorShiftUpdater` (src/moves/moves.hpp:285). -/
def shiftName : String := "Single_operator_shift_updater"

/-- The name of `OperatorPairFlavorUpdater` (src/moves/moves.hpp:259). -/
def pairFlavorName : String := "Operator_pair_flavor_updater"

/-- `create_measurement_acc_rate` and `measure_acc_rate` of `SingleOperatorShiftUpdater` (src/moves/moves.ipp:667-682). -/
def shiftObs : List Obs := accObs shiftName ++ [("Shift_attempted", .vector), ("Shift_accepted", .vector)]

/-- The updaters of the operators of the bath (src/impurity_init.ipp:15-19, src/impurity.ipp:337-341). -/
def bathObs (multi : ℕ) : List Obs :=
  ((List.range multi).flatMap fun k => accObs (insRemoverName (k + 1))) ++ shiftObs ++ accObs pairFlavorName

/-- `get_config_space_name` (src/worm.hpp:19-42); `none` is the exception. -/
def Space.name : Space → Option String
  | .z => some "Z_FUNCTION"
  | .g1 => some "G1"
  | .g2 => some "G2"
  | .eq1 => some "Equal_time_G1"
  | .eq2 => some "Equal_time_G2"
  | .tt => some "Two_time_G2"
  | .unknown => none

/-- The names of the `WormInsertionRemover`s (src/impurity_init.ipp:102, 129, 158, 179, 200); none is created for other spaces. -/
def insRemName : Space → Option String
  | .g1 => some "G1_ins_rem"
  | .g2 => some "G2_ins_rem"
  | .tt => some "Two_time_G2_ins_rem"
  | .eq1 => some ("Equal_time_G1" ++ "_ins_rem")
  | .eq2 => some ("Equal_time_G2" ++ "_ins_rem")
  | _ => none

/-- The names of the `WormMover`s (src/impurity_init.ipp:97, 124, 153, 174, 195). -/
def wormMoverName : Space → Option String
  | .g1 => some "G1_mover"
  | .g2 => some "G2_mover"
  | .tt => some "Two_time_G2_mover"
  | .eq1 => some ("Equal_time_G1" ++ "_mover")
  | .eq2 => some ("Equal_time_G2" ++ "_mover")
  | _ => none

/-- The names of the `WormFlavorChanger`s (src/impurity_init.ipp:98, 125, 154, 175, 196). -/
def flavorChangerName : Space → Option String
  | .g1 => some "G1_flavor_changer"
  | .g2 => some "G2_flavor_changer"
  | .tt => some "Two_time_G2_flavor_changer"
  | .eq1 => some ("Equal_time_G1" ++ "_flavor_changer")
  | .eq2 => some ("Equal_time_G2" ++ "_flavor_changer")
  | _ => none

/-- The name of an element of `worm_movers`. -/
def moverName (e : Space × WUpd) : Option String :=
  match e.2 with
  | .mover => wormMoverName e.1
  | .flavorChanger => flavorChangerName e.1

/-- What the set of observables needs to know of the tables. -/
structure Spaces where
  types : List Space
  insRem : List Space
  movers : List (Space × WUpd)
  special : List String
deriving DecidableEq

/-- Read off the tables; `std::map` is sorted by the names. -/
def WormTables.spaces (t : WormTables) : Option Spaces :=
  (t.insRem.mapM fun u : InsRemU => u.template.space).map fun l =>
    ⟨t.types, l, t.movers, [nameConnect, nameG1Hyb, nameG2Hyb].filter fun n => (t.special n).isSome⟩

/-- The names of the worm updaters, in the order of src/impurity_init.ipp:59-69, src/impurity.ipp:344-355 and
`get_active_worm_updaters` (src/impurity.hpp:104-117). -/
def Spaces.updaters (t : Spaces) : Option (List String) :=
  (t.insRem.mapM insRemName).bind fun a => (t.movers.mapM moverName).map fun b => a ++ b ++ t.special

/-- `"worm_space_volume_"` resp. `"worm_space_num_steps_"` with the names of the spaces. -/
def Spaces.volumes (t : Spaces) (prefix' : String) : Option (List Obs) :=
  (t.types.mapM Space.name).map fun l => l.map fun n => (prefix' ++ n, .scalar)

/-- The name of `GMeasurement<SCALAR, Rank>` (src/measurement/measurement.hpp:333). -/
def gName (rank : ℕ) : String := "G" ++ toString rank

/-- The first part of `create_observables` (src/impurity_init.ipp:6-25). -/
def createHead : List Obs :=
  complexObs "Greens_legendre" .vector ++ complexObs "Greens_legendre_rotated" .vector ++
    complexObs "Two_time_correlation_functions" .vector ++
    [("n", .vector), ("Sign", .scalar), ("order", .vector), ("PerturbationOrderFlavors", .vector)]

/-- The part behind the updaters of the bath (src/impurity_init.ipp:21-70); `p_G1_meas` and `p_G2_meas` are not null in the spaces in
use. -/
def createTail (p : WormParams) (t : Spaces) (meas : Space → Bool) : Option (List Obs) :=
  (t.types.mapM Space.name).bind fun names => t.updaters.map fun upd =>
    [("Acceptance_rate_global_shift", .scalar), ("Acceptance_rate_swap", .vector), ("Z_function_space_volume", .scalar),
      ("Z_function_space_num_steps", .scalar)] ++
    (names.flatMap fun n => [("worm_space_volume_" ++ n, .scalar), ("worm_space_num_steps_" ++ n, .scalar)]) ++
    (if p.tt ≠ 0 then complexObs "Two_time_G2" .vector else []) ++
    (if meas .g1 then complexObs (gName 1) .vector else []) ++ (if meas .g2 then complexObs (gName 2) .vector else []) ++
    (if p.eq1 ≠ 0 then complexObs "Equal_time_G1" .vector else []) ++
    (if p.eq2 ≠ 0 then complexObs "Equal_time_G2" .vector else []) ++
    complexObs "kLkR" .scalar ++ complexObs "k" .scalar ++ [("Pert_order_start", .scalar), ("Pert_order_end", .scalar)] ++
    upd.flatMap accObs

/-- `create_observables` (src/impurity_init.ipp:3-73). -/
def createObservables (p : WormParams) (multi : ℕ) (t : WormTables) : Option (List Obs) :=
  t.spaces.bind fun sp => (createTail p sp t.meas).bind fun tail => registerAll (createHead ++ bathObs multi ++ tail) []

/-! ### Recording -/

/-- The parameters which decide what is recorded: number of flavors, highest rank, `max_num_data_accumulated` of the two
`GMeasurement`s, whether `p_meas_corr` is not null. -/
structure RecParams where
  nf : ℕ
  multi : ℕ
  max1 : ℤ
  max2 : ℤ
  corr : Bool

/-- The observables, the number of samples of each, and the members which decide what is recorded: `num_data_` of the two
`GMeasurement`s, `has_samples` of `g_meas_legendre`, `global_shift_acc_rate`, `swap_acc_rate`. -/
structure RecState where
  obs : List Obs
  count : String → ℕ
  data1 : ℤ
  data2 : ℤ
  gl : Bool
  gshift : Bool
  swap : Bool

/-- After the constructor. -/
def RecState.init (S : List Obs) : RecState := ⟨S, fun _ => 0, 0, 0, false, false, false⟩

/-- `measurements[name] << value`. -/
def RecState.write (st : RecState) (o : Obs) : Option RecState :=
  if o ∈ st.obs then some { st with count := Function.update st.count o.1 (st.count o.1 + 1) } else none

/-- Several of them. -/
def RecState.writes (st : RecState) (l : List Obs) : Option RecState := l.foldlM RecState.write st

/-- `measure_every_step` (src/impurity.ipp:261-307) in the space `s`, with `GMeasurement::measure_via_hyb` (src/measurement/
measurement.ipp:299-309), `TwoTimeG2Measurement::measure` (111), `EqualTimeGMeasurement` (546, 561). -/
def RecState.step (q : RecParams) (st : RecState) (s : Space) : Option RecState :=
  match s with
  | .z => (st.writes (complexObs "kLkR" .scalar ++ complexObs "k" .scalar)).map fun st => { st with gl := true }
  | .g1 =>
    let st := { st with data1 := st.data1 + 1 }
    if st.data1 = q.max1 then (st.writes (complexObs (gName 1) .vector)).map fun st => { st with data1 := 0 } else some st
  | .g2 =>
    let st := { st with data2 := st.data2 + 1 }
    if st.data2 = q.max2 then (st.writes (complexObs (gName 2) .vector)).map fun st => { st with data2 := 0 } else some st
  | .tt => st.writes (complexObs "Two_time_G2" .vector)
  | .eq1 => st.writes (complexObs "Equal_time_G1" .vector)
  | .eq2 => st.writes (complexObs "Equal_time_G2" .vector)
  | .unknown => none

/-- `measure_Z_function_space` (src/impurity.ipp:371-443): what is recorded.  `has_samples` of `swap_acc_rate[0]` stands for all. -/
def zWrites (q : RecParams) (st : RecState) : List Obs :=
  List.replicate q.nf ("order", .vector) ++ [("PerturbationOrderFlavors", .vector)] ++
    shiftObs ++ ((List.range q.multi).flatMap fun k => accObs (insRemoverName (k + 1))) ++ accObs pairFlavorName ++
    (if st.gshift then [("Acceptance_rate_global_shift", .scalar)] else []) ++
    (if st.swap then [("Acceptance_rate_swap", .vector)] else []) ++
    [("n", .vector)] ++ (if q.corr then complexObs "Two_time_correlation_functions" .vector else []) ++
    (if st.gl then complexObs "Greens_legendre" .vector ++ complexObs "Greens_legendre_rotated" .vector else []) ++
    [("Sign", .scalar)]

/-- What `measure` (src/impurity.ipp:313-361) records before it looks at the space. -/
def measureHead (q : RecParams) (t : Spaces) : Option (List Obs) :=
  (t.volumes "worm_space_num_steps_").bind fun a => (t.volumes "worm_space_volume_").bind fun b => t.updaters.map fun upd =>
    [("Z_function_space_num_steps", .scalar)] ++ a ++ [("Z_function_space_volume", .scalar)] ++ b ++ bathObs q.multi ++ upd.flatMap accObs

/-- `measure` (src/impurity.ipp:313-367) in the space `s`. -/
def RecState.measure (q : RecParams) (t : Spaces) (st : RecState) (s : Space) : Option RecState :=
  (measureHead q t).bind fun l => (st.writes l).bind fun st =>
    if s = .z then (st.writes (zWrites q st)).map fun st => { st with gl := false, gshift := false, swap := false } else some st

/-- What the driver calls. -/
inductive ROp
  /-- `measure_every_step` in a space -/
  | step (s : Space)
  /-- `measure` in a space -/
  | measure (s : Space)
  /-- `prepare_for_measurement` (src/impurity.ipp:750, 798) -/
  | prepare
  /-- `finish_measurement` (src/impurity.ipp:812) -/
  | finish
  /-- `global_updates` (src/impurity.ipp:624-693), with exchanges of flavors or without -/
  | globalUpdate (swaps : Bool)

/-- One call. -/
def RecState.exec (q : RecParams) (t : Spaces) (st : RecState) : ROp → Option RecState
  | .step s => st.step q s
  | .measure s => st.measure q t s
  | .prepare => ({ st with gl := false } : RecState).writes [("Pert_order_start", .scalar)]
  | .finish => st.writes [("Pert_order_end", .scalar)]
  | .globalUpdate sw => some { st with gshift := true, swap := st.swap || sw }

/-- A run. -/
def runRec (q : RecParams) (t : Spaces) (st : RecState) (ops : List ROp) : Option RecState :=
  ops.foldlM (fun st op => st.exec q t op) st

/-! ### Reading -/

/-- `print_acc_rate` (src/impurity_postprocess.ipp:3-8). -/
def accReads (name : String) : List Obs := [(name ++ "_accepted_scalar", .scalar), (name ++ "_valid_move_scalar", .scalar)]

/-- The names read for an observable of a worm space (src/postprocess.hpp:33-43, 128-138, 306-314, 370-379, 412-422). -/
def wormReads (vol name : String) : List Obs :=
  [(vol, .scalar), ("Sign", .scalar), ("Z_function_space_volume", .scalar)] ++ complexObs name .vector

/-- What `solve` (src/solver.ipp:55-80) reads; `nDef`: parameter `measurement.nn_corr.n_def`. -/
def solveReads (p : WormParams) (nDef : ℤ) : List Obs :=
  [("Sign", .scalar)] ++ wormReads "worm_space_volume_G1" "G1" ++
    (if p.eq1 ≠ 0 then wormReads "worm_space_volume_Equal_time_G1" "Equal_time_G1" else []) ++
    (if p.g2 ≠ 0 then wormReads "worm_space_volume_G2" "G2" else []) ++
    (if p.tt ≠ 0 then wormReads "worm_space_volume_Two_time_G2" "Two_time_G2" else []) ++
    (if p.eq2 ≠ 0 then wormReads "worm_space_volume_Equal_time_G2" "Equal_time_G2" else []) ++
    (if nDef ≠ 0 then [("Sign", .scalar)] ++ complexObs "Two_time_correlation_functions" .vector else []) ++
    complexObs "kLkR" .scalar ++ complexObs "k" .scalar

/-- What `show_statistics` (src/impurity_postprocess.ipp:10-47) reads. -/
def statReads (multi : ℕ) (t : Spaces) : Option (List Obs) :=
  (t.volumes "worm_space_num_steps_").bind fun a => t.updaters.map fun upd =>
    [("Pert_order_start", .scalar), ("Pert_order_end", .scalar), ("Z_function_space_num_steps", .scalar)] ++ a ++
      ((List.range multi).flatMap fun k => accReads (insRemoverName (k + 1))) ++ accReads shiftName ++ accReads pairFlavorName ++
      upd.flatMap accReads

/-- `results[name].mean<T>()` has a value. -/
def RecState.readable (st : RecState) (o : Obs) : Prop := o ∈ st.obs ∧ 0 < st.count o.1

end CTHyb
