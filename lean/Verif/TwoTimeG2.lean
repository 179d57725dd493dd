import Verif.SimulationCode
import Verif.Legendre
import Verif.Util
import Mathlib.Data.List.Sort

/-!
Model of `TwoTimeG2Measurement` (src/measurement/measurement.ipp:3-146): the two-time Green's function measured with several
times for the left pair of operators and with a second choice of flavors.

Simplifications: the array `data_` is complex also if `SCALAR` is real; here it has the type of `SCALAR`.  The random
numbers are arguments.  `none` stands for an exception, an access out of bounds, or a loop that does not end.
-/

namespace CTHyb

variable {𝕜 : Type} [RCLike 𝕜] {N : ℕ}

/-- `data_[f0][f1][f2][f3][il]` (measurement.hpp). -/
abbrev TTData (𝕜 : Type) := ℕ → ℕ → ℕ → ℕ → ℕ → 𝕜

/-- The loop drawing new times (measurement.ipp:33-39) when `open_random` returns the times `ts` one after the other; `m` is
`num_times`, `dup` the set `duplicate_check`, `new` the set `new_times` in increasing order.  `none`: more times are needed. -/
noncomputable def ttFill (m : ℕ) : List ℝ → List ℝ → List ℝ → Option (List ℝ)
  | [], _, new => if new.length < m then none else some new
  | t :: ts, dup, new =>
    if new.length < m then
      if t ∈ dup then ttFill m ts dup new
      else ttFill m ts (t :: dup) (new.orderedInsert (· ≤ ·) t)
    else some new

/-- `num_times` (measurement.ipp:24). -/
def ttNum (avgOrder : ℕ) : ℕ := max 20 avgOrder

/-- The times of the left pair (measurement.ipp:22-41) for the random numbers `rs`; `t0` is the present one. -/
noncomputable def ttTimes (beta : ℝ) (ops : OpSet (OpTime ℝ)) (t0 : ℝ) (avgOrder : ℕ) (rs : List ℝ) : Option (List ℝ) :=
  ttFill (ttNum avgOrder) (rs.map fun r => openRandom r 0 beta 1e-10) (ops.map fun o => o.time.time) [t0]

/-- `measure_impl` (measurement.ipp:116-146). -/
noncomputable def ttImpl (nf nl : ℕ) (beta : ℝ) (worm : List (TPsi ℝ)) (weight : 𝕜) (data : TTData 𝕜) : Option (TTData 𝕜) :=
  match worm with
  | w0 :: w1 :: w2 :: w3 :: _ =>
    if w0.time.time ≠ w1.time.time then none
    else if w2.time.time ≠ w3.time.time then none
    else
      let d := w0.time.time - w2.time.time
      let tdiff := if d < 0 then d + beta else d
      let pl := computeLegendre nl (2 * tdiff / beta - 1)
      if w0.flavor < nf ∧ w1.flavor < nf ∧ w2.flavor < nf ∧ w3.flavor < nf then
        some fun f0 f1 f2 f3 il =>
          if f0 = w0.flavor ∧ f1 = w1.flavor ∧ f2 = w2.flavor ∧ f3 = w3.flavor ∧ il < nl then
            data f0 f1 f2 f3 il + weight * (Real.sqrt (2 * il + 1) : 𝕜) * ((pl.getD il 0 : ℝ) : 𝕜)
          else data f0 f1 f2 f3 il
      else none
  | _ => none

/-- `while (*it > get_tau_high()) move_window_to_next_position(ops)` (measurement.ipp:75-77); the first argument bounds the
number of passes. -/
noncomputable def ttAdvance {Ket Bra K ι : Type} (V : SWEnv ℝ Ket Bra K ι) (ops : OpSet (OpTime ℝ)) (t : ℝ) :
    ℕ → SWState Ket Bra ι → Option (SWState Ket Bra ι)
  | 0, _ => none
  | k + 1, w =>
    if tauEdge V.beta w.n w.posL < t then (moveNext V ops w).bind (ttAdvance V ops t k) else some w

/-- `worm_ops[0].set_time`, `worm_ops[1].set_time` (measurement.ipp:81-82). -/
def ttShift (t : ℝ) : List (TPsi ℝ) → List (TPsi ℝ)
  | w0 :: w1 :: rest => { w0 with time := ⟨t, 1⟩ } :: { w1 with time := ⟨t, 0⟩ } :: rest
  | l => l

/-- `safe_insert` and `safe_erase` for several operators (src/operator.hpp:240-268, measurement.ipp:19, 66-68, 98-100). -/
noncomputable def ttInsertAll (ops : OpSet (OpTime ℝ)) (l : List (TPsi ℝ)) : Option (OpSet (OpTime ℝ)) := l.foldlM safeInsert ops

@[inherit_doc ttInsertAll]
noncomputable def ttEraseAll (ops : OpSet (OpTime ℝ)) (l : List (TPsi ℝ)) : Option (OpSet (OpTime ℝ)) := l.foldlM safeErase ops

variable (A : CodeArgs 𝕜 N)

/-- Window, operators, `data_` and `norm` in the loops. -/
structure TTAcc where
  sw : SWState (BK 𝕜) (BK 𝕜) (Fin (ebBrakets A.B A.p).length)
  ops : OpSet (OpTime ℝ)
  data : TTData 𝕜
  norm : ℝ

variable [DecidableEq 𝕜]

/-- The body of the loop over the times (measurement.ipp:73-96); `cut` is `trace_cutoff`, `trace` and `sign` are those of
`mc_config`.  The result of `lazy_eval_trace` is used without looking at its first component, as in the code. -/
noncomputable def ttPoint (nl : ℕ) (trace sign : 𝕜) (cut : ℝ) (worm : List (TPsi ℝ)) (a : TTAcc A) (t : ℝ) : Option (TTAcc A) :=
  (ttAdvance A.env.V a.ops t (2 * a.sw.n + 1) a.sw).bind fun w =>
  let worm' := ttShift t worm
  (ttInsertAll a.ops (worm'.take 2)).bind fun ops2 =>
  let r := ((A.env.tr w).lazyEval ops2 0).2
  let weight := r / trace
  (if cut < ‖r‖ then (ttImpl A.P.nf nl A.beta worm' (sign * weight) a.data).map fun d => (d, a.norm + ‖weight‖)
    else some (a.data, a.norm)).bind fun dn =>
  (ttEraseAll ops2 (worm'.take 2)).map fun ops3 => ⟨w, ops3, dn.1, dn.2⟩

/-- One pass of the loop over `sweep` (measurement.ipp:57-101) with the worm operators `worm`; `nWin` is the number of windows
before the measurement. -/
noncomputable def ttSweep (nl m nWin : ℕ) (trace sign : 𝕜) (cut : ℝ) (times : List ℝ) (worm : List (TPsi ℝ)) (a : TTAcc A) :
    Option (TTAcc A) :=
  (ttInsertAll a.ops (worm.drop 2)).bind fun ops1 =>
  (setWindowSize A.env.V (max m nWin) ops1 0 true a.sw).bind fun w =>
  (times.foldlM (ttPoint A nl trace sign cut worm) { a with sw := w, ops := ops1 }).bind fun a' =>
  (ttEraseAll a'.ops (worm.drop 2)).map fun ops2 => { a' with ops := ops2 }

/-- New flavors for all worm operators (measurement.ipp:59-63). -/
def ttFlavors (worm : List (TPsi ℝ)) (fl : List ℕ) : List (TPsi ℝ) :=
  List.zipWith (fun (o : TPsi ℝ) f => { o with flavor := f }) worm fl

/-- `measure` (measurement.ipp:3-114) in the space `Two_time_G2`: `rs` are the random numbers for the times, `fl` the flavors
drawn for the second sweep.  Result: the window, and the data passed on. -/
noncomputable def twoTimeMeasure (nl avgOrder : ℕ) (rs : List ℝ) (fl : List ℕ)
    (s : GState ℝ 𝕜 (CodeDet 𝕜) (BK 𝕜) (BK 𝕜) (Fin (ebBrakets A.B A.p).length)) :
    Option (SWState (BK 𝕜) (BK 𝕜) (Fin (ebBrakets A.B A.p).length) × TTData 𝕜) :=
  let worm := wormOps s.cfg.worm
  match worm with
  | [] => none
  | w0 :: _ =>
    (ttEraseAll s.cfg.ops worm).bind fun ops0 =>
    (ttTimes A.beta s.cfg.ops w0.time.time avgOrder rs).bind fun times =>
    let cut := 1e-30 * ‖s.cfg.trace‖
    (ttSweep A nl (ttNum avgOrder) s.sw.n s.cfg.trace s.cfg.sign cut times worm ⟨s.sw, ops0, fun _ _ _ _ _ => 0, 0⟩).bind fun a1 =>
    (ttSweep A nl (ttNum avgOrder) s.sw.n s.cfg.trace s.cfg.sign cut times (ttFlavors worm fl) a1).bind fun a2 =>
    (restoreState A.env.V s.cfg.ops (getState s.sw) a2.sw).map fun w =>
      (w, fun f0 f1 f2 f3 il => a2.data f0 f1 f2 f3 il / ((a2.norm : ℝ) : 𝕜))

end CTHyb
