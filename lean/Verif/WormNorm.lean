import Mathlib.Data.Real.Basic
import Mathlib.Algebra.Module.Defs

/-!
Normalisation of the observables measured in worm spaces.

The accumulators of ALPSCore are modelled by the sum and the number of the recorded values; their mean does not exist without a
value (the library throws).  Simplifications: real numbers; what is recorded in a space is an element `d` of a vector space (the
real and the imaginary parts, recorded in two observables with suffix `_Re` and `_Im`); acceptance rates, binning and error bars are
left out.
-/

namespace CTHyb

/-- `alps::accumulators`: sum and number of recorded values. -/
structure Acc (V : Type) where
  sum : V
  count : ℕ

section
variable {V : Type} [AddCommGroup V] [Module ℝ V]

/-- An observable without a value. -/
def Acc.empty : Acc V := ⟨0, 0⟩

/-- `measurements[name] << x`. -/
def Acc.add (a : Acc V) (x : V) : Acc V := ⟨a.sum + x, a.count + 1⟩

/-- Values of another process, in `alps::collect_results` (src/solver.ipp:50). -/
def Acc.merge (a b : Acc V) : Acc V := ⟨a.sum + b.sum, a.count + b.count⟩

/-- `results[name].mean`. -/
noncomputable def Acc.mean (a : Acc V) : Option V := if a.count = 0 then none else some ((a.count : ℝ)⁻¹ • a.sum)

end

/-- What is measured in a space: `data_`, `num_data_`, `max_num_data_` of `GMeasurement` (src/measurement/measurement.hpp:363-365) and the
observable.  The other observables are passed on at once, `cap = 1`. -/
structure WBuf (V : Type) where
  cap : ℕ
  buf : V
  num : ℕ
  acc : Acc V

/-- The end of `measure_via_hyb` (src/measurement/measurement.ipp:297-309). -/
noncomputable def WBuf.add {V : Type} [AddCommGroup V] [Module ℝ V] (b : WBuf V) (x : V) : WBuf V :=
  if b.num + 1 = b.cap then { b with buf := 0, num := 0, acc := b.acc.add ((b.cap : ℝ)⁻¹ • (b.buf + x)) }
  else { b with buf := b.buf + x, num := b.num + 1 }

/-- What takes part in the normalisation: `config_space_extra_weight`, `num_steps_in_config_space` (src/impurity.hpp:187, 264),
the observables `Z_function_space_volume` and `worm_space_volume_*`, what is measured in each space, and `Sign`.  Position 0 is the
space of the partition function, the `k` worm spaces follow (src/impurity.hpp:144-156); vectors of fixed length are functions. -/
structure WMeas (k : ℕ) (V : Type) where
  weight : Fin (k + 1) → ℝ
  num : Fin (k + 1) → ℝ
  vol : Fin (k + 1) → Acc ℝ
  data : Fin (k + 1) → WBuf V
  sign : Acc ℝ

section
variable {k : ℕ} {V : Type} [AddCommGroup V] [Module ℝ V]

/-- After the constructor (src/impurity_init.ipp:264-270); the observables are created without values. -/
def WMeas.start (cap : Fin (k + 1) → ℕ) : WMeas k V :=
  ⟨fun _ => 1, fun _ => 0, fun _ => Acc.empty, fun i => ⟨cap i, 0, 0, Acc.empty⟩, Acc.empty⟩

/-- `measure_every_step` (src/impurity.ipp:261-310) in the space with position `i`, where `d` is measured; nothing is measured
(`none`) if `measure_via_hyb` finds a vanishing weight (src/measurement/measurement.ipp:201-204). -/
noncomputable def WMeas.step (i : Fin (k + 1)) (d : Option V) (m : WMeas k V) : WMeas k V :=
  { m with data := Function.update m.data i (d.elim (m.data i) (m.data i).add), num := Function.update m.num i (m.num i + 1) }

/-- The part of `prepare_for_measurement` which sets new weights (src/impurity.ipp:789-796); `adjust_worm_space_weight` does the same
before the process is thermalized (lines 883-887). -/
def WMeas.prepare (w : Fin (k + 1) → ℝ) (m : WMeas k V) : WMeas k V := { m with weight := w }

/-- `measure` (src/impurity.ipp:313-333, 440): volumes of the spaces; the sign (`some`) if the configuration is in the
space of the partition function (lines 358-360). -/
noncomputable def WMeas.measure (sgn : Option ℝ) (m : WMeas k V) : WMeas k V :=
  { m with
    vol := fun i => (m.vol i).add (m.num i / m.weight i)
    num := fun _ => 0
    sign := sgn.elim m.sign m.sign.add }

/-- What the loop of src/mc/mympiadapter.hpp:71-106 does with these data. -/
inductive MEvent (k : ℕ) (V : Type)
  | step (i : Fin (k + 1)) (d : Option V)
  | prepare (w : Fin (k + 1) → ℝ)
  | measure (sgn : Option ℝ)

noncomputable def WMeas.exec (m : WMeas k V) : MEvent k V → WMeas k V
  | .step i d => m.step i d
  | .prepare w => m.prepare w
  | .measure s => m.measure s

noncomputable def WMeas.run (m : WMeas k V) (es : List (MEvent k V)) : WMeas k V := es.foldl WMeas.exec m

/-- The observables of all processes together (`alps::collect_results`, src/solver.ipp:50). -/
structure WRes (k : ℕ) (V : Type) where
  vol : Fin (k + 1) → Acc ℝ
  data : Fin (k + 1) → Acc V
  sign : Acc ℝ

def collect (ms : List (WMeas k V)) : WRes k V :=
  ⟨fun i => (ms.map fun m => m.vol i).foldl Acc.merge Acc.empty, fun i => (ms.map fun m => (m.data i).acc).foldl Acc.merge Acc.empty,
    (ms.map fun m => m.sign).foldl Acc.merge Acc.empty⟩

/-- `coeff` (src/postprocess.hpp:32-34, 130-132, 309-311, 371-373, 413-415); `temp` is the temperature for `Two_time_G2`,
`Equal_time_G1`, `Equal_time_G2`, and 1 for `G1`, `G2`. -/
noncomputable def wormCoeff (temp volW volZ sign : ℝ) : ℝ := temp * volW / (sign * volZ)

/-- The coefficient times the mean of what was measured in the space with position `i` (the same lines and 42-49, 138-145, 313-319,
379-383, 423-428); `none` if an observable has no value. -/
noncomputable def WRes.result (temp : ℝ) (i : Fin (k + 1)) (r : WRes k V) : Option V :=
  (r.vol i).mean.bind fun volW => (r.vol 0).mean.bind fun volZ => r.sign.mean.bind fun sign => (r.data i).mean.map fun d =>
    wormCoeff temp volW volZ sign • d

end

/-- What `measure_G1` and `measure_G2` of `EqualTimeGMeasurement` record (src/measurement/measurement.ipp:535-562): the sign at the
flavors of the worm, zero elsewhere; the position in the array is the list of flavors. -/
def equalTimeData {K : Type} [Zero K] (flavors : List ℕ) (sign : K) : List ℕ → K := fun fl => if fl = flavors then sign else 0

end CTHyb
