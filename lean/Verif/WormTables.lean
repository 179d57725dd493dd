import Verif.SamplingSweep
import Verif.WangLandau

/-!
Model of the tables of worm spaces and worm updaters: `create_worm_updaters` (src/impurity_init.ipp:92-274), `add_worm_mover` (76-90),
`get_config_space_position` (src/impurity.hpp:144-156), the calls made by `transition_between_config_spaces` (src/impurity.ipp:550-622)
through these tables, the pointers used by `measure_every_step` (261-310), and the weights kept in the tables
(`adjust_worm_space_weight`, 864-888, and the part of `prepare_for_measurement` at 782-797).

Objects are represented by what distinguishes them.  `std::map` is a partial function, `std::multimap` a list sorted by key in which
elements with the same key keep the order of their insertion (C++11).  An exception, a null pointer or an index outside a vector is
`none`.  Names of updaters are left out (see `Observables`).
-/

namespace CTHyb

/-- `ConfigSpace` (src/worm.hpp:9-17). -/
inductive Space
  | z | g1 | g2 | eq1 | eq2 | tt | unknown
deriving DecidableEq, Repr

/-- The value of the enumeration, the order of the keys of a map. -/
def Space.val : Space → ℕ
  | .z => 0 | .g1 => 1 | .g2 => 2 | .eq1 => 3 | .eq2 => 4 | .tt => 5 | .unknown => 6

/-- `get_config_space` (src/worm.hpp:186-192, 256-264, 326-334). -/
def WormKind.space : WormKind → Option Space
  | .corr m => if m = 2 then some .tt else none
  | .green r => if r = 1 then some .g1 else if r = 2 then some .g2 else none
  | .equalTime r => if r = 1 then some .eq1 else if r = 2 then some .eq2 else none

/-- `current_config_space` (src/mc_config.hpp:81-88). -/
def currentSpace {T : Type} (w : Option (Worm T)) : Option Space :=
  match w with
  | none => some .z
  | some w => w.kind.space

/-- The parameters `measurement.*.on` (src/impurity.ipp:53-69). -/
structure WormParams where
  g2 : ℤ
  tt : ℤ
  eq1 : ℤ
  eq2 : ℤ

/-- The two updaters of a worm space (src/impurity.hpp:218-221). -/
inductive WUpd
  | mover | flavorChanger
deriving DecidableEq

/-- A `WormInsertionRemover`: the template of the worm and `insertion_proposal_rate_` (src/moves/moves.hpp:419-463). -/
structure InsRemU where
  template : WormKind
  rate : ℝ

/-- Elements of `specialized_updaters`. -/
inductive SpecialU
  /-- `GWormInsertionRemover<RANK>` with its template -/
  | green (rank : ℕ) (template : WormKind)
  /-- `EqualTimeG1_TwoTimeG2_Connector` -/
  | connector

/-- The members of `HybridizationSimulation` written by `create_worm_updaters` (src/impurity.hpp:187-190, 217-229, 264, 278 and the
pointers to the measurements; `meas s` is true if the pointer used in the space `s` is not null). -/
structure WormTables where
  types : List Space
  movers : List (Space × WUpd)
  insRem : List InsRemU
  special : String → Option SpecialU
  meas : Space → Bool
  wl : Option WL
  weight : List ℝ
  wmap : Space → Option ℝ
  numSteps : List ℝ
  visited : List Bool

/-- Before `create_worm_updaters` (src/impurity.ipp:109-126). -/
def WormTables.empty : WormTables :=
  ⟨[], [], [], fun _ => none, fun _ => false, none, [], fun _ => none, [], []⟩

/-- `std::multimap::insert`: behind all elements with the same or a smaller key. -/
def multiInsert {α : Type} (k : Space) (a : α) (l : List (Space × α)) : List (Space × α) :=
  l.takeWhile (fun e => e.1.val ≤ k.val) ++ (k, a) :: l.dropWhile (fun e => e.1.val ≤ k.val)

/-- The statements repeated for each space: `worm_types.push_back`, `add_worm_mover` twice, `worm_insertion_removers.push_back` and
`p_..._meas.reset` (src/impurity_init.ipp:97-106 and 116-119, 125-142, 155-169, 177-190, 198-211).  The rate is the default of the
constructor (src/moves/moves.hpp:432). -/
def WormTables.addSpace (t : WormTables) (s : Space) (template : WormKind) : WormTables :=
  { t with
    types := t.types ++ [s]
    movers := multiInsert s .flavorChanger (multiInsert s .mover t.movers)
    insRem := t.insRem ++ [⟨template, 0⟩]
    meas := Function.update t.meas s true }

/-- `specialized_updaters[name] = …`. -/
def WormTables.addSpecial (t : WormTables) (name : String) (u : SpecialU) : WormTables :=
  { t with special := Function.update t.special name (some u) }

def nameG1Hyb : String := "G1_ins_rem_hyb"
def nameG2Hyb : String := "G2_ins_rem_hyb"
def nameConnect : String := "Connect_Equal_time_G1_and_Two_time_G2"

/-- `target_fractions` (src/impurity_init.ipp:254-261). -/
noncomputable def targetFractions (types : List Space) : List ℝ :=
  1 :: types.map fun s => if s = .eq1 ∨ s = .eq2 then 0.1 else 1

/-- The first part of `create_worm_updaters` (src/impurity_init.ipp:93-222), given which of the optional spaces are switched on. -/
noncomputable def registerSpaces (g2 tt eq1 eq2 : Bool) : WormTables :=
  let t := (WormTables.empty.addSpace .g1 (.green 1)).addSpecial nameG1Hyb (.green 1 (.green 1))
  let t := if g2 then (t.addSpace .g2 (.green 2)).addSpecial nameG2Hyb (.green 2 (.green 2)) else t
  let t := if tt then t.addSpace .tt (.corr 2) else t
  let t := if eq1 then t.addSpace .eq1 (.equalTime 1) else t
  let t := if eq2 then t.addSpace .eq2 (.equalTime 2) else t
  if .eq1 ∈ t.types ∧ .tt ∈ t.types then t.addSpecial nameConnect .connector else t

/-- The second part (src/impurity_init.ipp:246-273).  The constructor of `FlatHistogram` tests the number of fractions
(src/wang_landau.hpp:54-56). -/
noncomputable def finishTables (t : WormTables) : Option WormTables :=
  let n := t.types.length
  let t := { t with insRem := t.insRem.map fun u => { u with rate := 1.0 / (n : ℝ) } }
  let t? : Option WormTables :=
    if 0 < n then
      let fr := targetFractions t.types
      if fr.length ≠ n + 1 then none else some { t with wl := some (WL.init n fun i => fr.getD i 0) }
    else some t
  t?.map fun t =>
    { t with
      weight := List.replicate (n + 1) 1
      wmap := t.types.foldl (fun m s => Function.update m s (some 1)) t.wmap
      numSteps := List.replicate (n + 1) 0
      visited := List.replicate (n + 1) false }

/-- `create_worm_updaters` (src/impurity_init.ipp:92-274). -/
noncomputable def createWormUpdaters (p : WormParams) : Option WormTables :=
  finishTables (registerSpaces (p.g2 != 0) (p.tt != 0) (p.eq1 != 0) (p.eq2 != 0))

/-- `get_config_space_position` (src/impurity.hpp:144-156). -/
def WormTables.position (t : WormTables) (s : Space) : ℤ :=
  if s = .z then 0 else if s ∈ t.types then (t.types.idxOf s : ℤ) + 1 else -1

/-- Element of a vector at an index of type `int`. -/
def atInt {α : Type} (l : List α) (i : ℤ) : Option α := if i < 0 then none else l[i.toNat]?

/-! ### The calls of `transition_between_config_spaces` -/

section calls
variable (nf : ℕ) (win : Win ℤ ℝ) (dist : Space → ℕ) (t : WormTables)

/-- What an updater proposes, `none` if the call fails. -/
abbrev CallRes := Option (Rand ℝ (Option (Mv ℤ (Option (Worm ℤ)) × ℝ)))

/-- `worm_insertion_removers[i]->update(…, worm_space_extra_weight_map)`: the weight is looked up with the space of the template
(src/moves/moves.ipp:1053-1060, 1125-1131). -/
noncomputable def callInsRem (i : ℤ) (x : WCfg ℤ) : CallRes :=
  (atInt t.insRem i).bind fun u => u.template.space.bind fun s => (t.wmap s).map fun w => wormInsRem nf win u.template w u.rate x

/-- The choice of the updater (src/impurity.ipp:558-565).  In the partition function space every index is equally likely, and the
call must not fail for any of them. -/
noncomputable def callWorm (x : WCfg ℤ) : CallRes :=
  (currentSpace x.worm).bind fun s =>
    if s = .z then ((List.range t.insRem.length).mapM fun i : ℕ => callInsRem nf win t i x).map fun l => Rand.bind (Rand.unif l) id
    else callInsRem nf win t (t.position s - 1) x

/-- A call of an element of `specialized_updaters` (src/moves/moves.ipp:1253-1257, 1393-1398). -/
noncomputable def callSpecial (name : String) (x : WCfg ℤ) : CallRes :=
  (t.special name).bind fun u =>
    match u with
    | .green rank template => template.space.bind fun s => (t.wmap s).map fun w => greenPropose rank w x
    | .connector => (currentSpace x.worm).bind fun s =>
        if s ≠ .eq1 ∧ s ≠ .tt then none
        else (t.wmap .eq1).bind fun w1 => (t.wmap .tt).map fun w2 => connectPropose nf win w1 w2 x

/-- A call made only in some spaces. -/
noncomputable def guarded (ok : Space → Bool) (call : WCfg ℤ → CallRes) (x : WCfg ℤ) : CallRes :=
  (currentSpace x.worm).bind fun s => if ok s then call x else some (Rand.ret none)

/-- A mover; `dist` is its maximum distance. -/
noncomputable def callMover (e : Space × WUpd) (x : WCfg ℤ) : CallRes :=
  match e.2 with
  | .mover => some (moverPropose win (dist e.1) x)
  | .flavorChanger => some (flavorChangePropose nf win x)

/-- The calls of one pass of the loop over `update` (src/impurity.ipp:556-621), each as a function of the configuration in which it
is made. -/
noncomputable def passCalls : List (WCfg ℤ → CallRes) :=
  [callWorm nf win t, guarded (fun s => s = .z || s = .g1) (callSpecial nf win t nameG1Hyb)] ++
    (if (t.special nameG2Hyb).isSome then [guarded (fun s => s = .z || s = .g2) (callSpecial nf win t nameG2Hyb)] else []) ++
    (if (t.special nameConnect).isSome then [guarded (fun s => s = .eq1 || s = .tt) (callSpecial nf win t nameConnect)] else []) ++
    t.movers.map fun e => guarded (fun s => e.1 = s) (callMover nf win dist e)

/-- `transition_between_config_spaces` (src/impurity.ipp:550-622). -/
noncomputable def transitionCalls : List (WCfg ℤ → CallRes) :=
  if t.types.length = 0 then [] else (List.replicate nf (passCalls nf win dist t)).flatten

end calls

/-! ### Weights and steps -/

/-- The copy of the weights (src/impurity.ipp:791-795, 883-887). -/
noncomputable def WormTables.applyWeights (t : WormTables) (wl : WL) : Option WormTables :=
  (List.range t.types.length).foldl
    (fun t? w => t?.bind fun t => (wl.weightRatio (w + 1) 0).bind fun q => (t.types[w]?).map fun s =>
      { t with weight := t.weight.set (w + 1) q, wmap := Function.update t.wmap s (some q) })
    (some { t with wl := some wl, weight := t.weight.set 0 1 })

/-- `adjust_worm_space_weight` (src/impurity.ipp:864-888) in the space `s`; a negative position becomes a large unsigned number. -/
noncomputable def WormTables.adjust (t : WormTables) (thermalized : Bool) (s : Space) : Option WormTables :=
  match t.wl with
  | none => some t
  | some wl =>
    if thermalized then some t
    else (wl.adjust (if t.position s < 0 then 2 ^ 32 - 1 else (t.position s).toNat)).bind t.applyWeights

/-- `prepare_for_measurement` (src/impurity.ipp:782-797): `synchronize` replaces the histogram by the mean `f` over the processes and
throws if the learning is done; after the copy of the weights the learning ends. -/
noncomputable def WormTables.prepare (t : WormTables) (f : ℕ → ℝ) : Option WormTables :=
  match t.wl with
  | none => some t
  | some wl =>
    if wl.done then none
    else (t.applyWeights { wl with logF := f }).map fun t => { t with wl := t.wl.map WL.finish }

/-- `measure_every_step` (src/impurity.ipp:261-310): the pointer of the space must not be null; the space of the partition function
needs none. -/
noncomputable def WormTables.everyStep (t : WormTables) (s : Space) : Option WormTables :=
  if s = .unknown then none
  else if s ≠ .z ∧ t.meas s = false then none
  else (atInt t.numSteps (t.position s)).map fun n =>
    { t with numSteps := t.numSteps.set (t.position s).toNat (n + 1) }

/-- The beginning of `measure` (src/impurity.ipp:319-333): the numbers of steps and the volumes are recorded, then the steps are set to
zero.  `operator/=` divides element by element (src/accumulator.hpp:208-215). -/
noncomputable def WormTables.measure (t : WormTables) : (List ℝ × List ℝ) × WormTables :=
  ((t.numSteps, List.zipWith (· / ·) t.numSteps t.weight), { t with numSteps := t.numSteps.map fun _ => 0 })

/-- `config_spaces_visited_in_measurement_steps[…] = true` (src/impurity.ipp:537-539). -/
def WormTables.visit (t : WormTables) (thermalized : Bool) (s : Space) : Option WormTables :=
  if thermalized then
    (atInt t.visited (t.position s)).map fun _ => { t with visited := t.visited.set (t.position s).toNat true }
  else some t

/-- The loop of `finish_measurement` (src/impurity.ipp:816-820): `false` if it throws. -/
def WormTables.finishOK (t : WormTables) : Bool := t.visited.all id

end CTHyb
