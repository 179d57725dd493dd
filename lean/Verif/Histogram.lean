import Verif.Hyb
import Mathlib.Data.List.Basic
import Mathlib.Algebra.BigOperators.Group.List.Basic
import Mathlib.Algebra.Order.Floor.Ring
import Mathlib.Algebra.Order.Field.Basic

/-!
Model of src/update_histogram.hpp: rebinning (25-58), `scalar_histogram` (60-182),
`StepSizeOptimizer::update_cutoff` (240-247), `ThermalizationChecker` (278-357), `PertOrderRecorder`
(360-381).  Real numbers are a linearly ordered field with floor.
-/

namespace CTHyb

/-- Inner loop of `rebin` (update_histogram.hpp:30-34): `T sum = 0`, then `sum += org_array[count]`. -/
def sumList {V : Type} [AddMonoid V] (l : List V) : V := l.foldl (· + ·) 0

/-- `rebin(org_array, nrebin)` (update_histogram.hpp:25-39); `none`: division by zero.  `count` runs
through consecutive elements, so group `i` consists of the elements `i*nrebin, …, i*nrebin+nrebin-1`. -/
def rebin {V : Type} [AddMonoid V] (org : List V) (nrebin : ℕ) : Option (List V) :=
  if nrebin = 0 then none
  else some ((List.range (org.length / nrebin)).map fun i => sumList ((org.drop (i * nrebin)).take nrebin))

section
variable {R : Type} [Field R] [LinearOrder R] [FloorRing R]

/-- Position of bin `i` after rebinning (update_histogram.hpp:47-48). -/
def rebinPos (maxval maxvalNew : R) (oldLen newLen i : ℕ) : ℤ :=
  ⌊(newLen : R) * (((i : R) + 1 / 2) * (maxval / oldLen)) / maxvalNew⌋

/-- The loop of the second `rebin` (update_histogram.hpp:46-55) from bin `i` on, with `break`. -/
def rebin2Loop (maxval maxvalNew : R) (oldLen newLen : ℕ) : ℕ → List R → (ℕ → R) → (ℕ → R)
  | _, [], acc => acc
  | i, x :: xs, acc =>
    let pos := rebinPos maxval maxvalNew oldLen newLen i
    let acc' := if 0 ≤ pos ∧ pos < newLen then Function.update acc pos.toNat (acc pos.toNat + x) else acc
    if (newLen : ℤ) < pos then acc'
    else rebin2Loop maxval maxvalNew oldLen newLen (i + 1) xs acc'

/-- `rebin(org_array, maxval, maxval_new, new_len)` (update_histogram.hpp:41-58). -/
def rebin2 (org : List R) (maxval maxvalNew : R) (newLen : ℕ) : List R :=
  (List.range newLen).map
    (rebin2Loop maxval maxvalNew org.length newLen 0 org (fun _ => 0))

/-- `scalar_histogram` (update_histogram.hpp:176-181); the sum of squares is not used by the solver and
left out. -/
structure Hist (R : Type) where
  maxVal : R
  numSample : ℕ
  sumval : List R
  counter : List R

/-- `init` (update_histogram.hpp:74-84). -/
def Hist.init (numBins : ℕ) (maxVal : R) : Hist R :=
  ⟨maxVal, 0, List.replicate numBins 0, List.replicate numBins 0⟩

/-- `add_sample` (update_histogram.hpp:86-97). -/
def Hist.addSample (h : Hist R) (distance value : R) : Hist R × Bool :=
  let pos := ⌊(h.counter.length : R) * distance / h.maxVal⌋
  if 0 ≤ pos ∧ pos < h.counter.length then
    ({ h with
        numSample := h.numSample + 1
        sumval := h.sumval.modify pos.toNat (· + value)
        counter := h.counter.modify pos.toNat (· + 1) }, true)
  else (h, false)

/-- The scan of the rebinned arrays (update_histogram.hpp:140-149): `none` is `flag`, otherwise the
maximum of the means and of -1. -/
def scanBins : List R → List R → R → Option R
  | c :: cs, s :: ss, m => if c < 10 then none else scanBins cs ss (max m (s / c))
  | _, _, m => some m

/-- The loop of `update_cutoff` (update_histogram.hpp:131-162) with `n` iterations left. -/
def cutoffLoop (h : Hist R) (ratio0 mag : R) : ℕ → R → Bool × R
  | 0, d => (true, d)
  | n + 1, d =>
    let c := rebin2 h.counter h.maxVal d 4
    let s := rebin2 h.sumval h.maxVal d 4
    match scanBins c s (-1) with
    | none => (false, d)
    | some m =>
      if m < 0 then (false, d)
      else
        let ratio := s.getD 3 0 / c.getD 3 0 / m
        cutoffLoop h ratio0 mag n
          (if ratio < ratio0 then d / mag else if ratio0 < ratio then d * mag else d)

/-- `scalar_histogram::update_cutoff` (update_histogram.hpp:115-163). -/
def Hist.updateCutoff (h : Hist R) (ratio0 d mag : R) : Bool × R := cutoffLoop h ratio0 mag 10 d

/-- `StepSizeOptimizer::update_cutoff` (update_histogram.hpp:240-247): the new cutoffs and the returned
value; `none`: no flavors, so the maximum of an empty range would be dereferenced. -/
def optUpdate (hs : List (Hist R)) (cut : List R) (maxVal : R) (numBins : ℕ) (ratio0 mag : R) :
    Option (List R × R) :=
  let cut' := List.zipWith (fun h d => (h.updateCutoff ratio0 d mag).2) hs cut
  match cut' with
  | [] => none
  | d :: ds => some (cut', max (ds.foldl max d) (maxVal / numBins))

/-- `ThermalizationChecker` (update_histogram.hpp:351-356); `num_thermalization_steps_` is never read. -/
structure Therm (R : Type) where
  maxSteps : ℤ
  thermalized : Bool
  series : List R
  actual : ℤ

/-- Constructor (update_histogram.hpp:280-286). -/
def Therm.init (maxSteps : ℤ) : Therm R := ⟨maxSteps, false, [], -1000000000⟩

/-- `add_sample` (update_histogram.hpp:288-293). -/
def Therm.addSample (t : Therm R) (x : R) : Therm R :=
  if t.thermalized then t else { t with series := t.series ++ [x] }

/-- `get_actual_thermalization_steps` (update_histogram.hpp:295-300); `none` is the exception. -/
def Therm.getActual (t : Therm R) : Option ℤ := if t.thermalized then some t.actual else none

/-- The stability test of `update` (update_histogram.hpp:328-338) for at least 10000 samples. -/
def stableSeries (series : List R) : Bool :=
  match rebin series (series.length / 10) with
  | none => false
  | some b =>
    match b.drop (b.length / 2) with
    | [] => false
    | x :: xs => decide (xs.foldl max x - xs.foldl min x < 5 / 100 * xs.foldl max x)

/-- `update(steps)` (update_histogram.hpp:306-349). -/
def Therm.update (t : Therm R) (steps : ℤ) : Therm R :=
  if t.thermalized then t
  else if t.maxSteps ≤ steps then { t with thermalized := true, actual := steps }
  else if 0 < t.actual then
    if steps < t.actual then t else { t with thermalized := true }
  else if t.series.length < 10 * 1000 then t
  else if stableSeries t.series then { t with actual := 5 * steps }
  else t

/-- `PertOrderRecorder` (update_histogram.hpp:360-381) with a non-negative capacity. -/
structure PertRec where
  cap : ℕ
  data : List ℤ

/-- `operator<<` (update_histogram.hpp:364-370). -/
def PertRec.push (p : PertRec) (x : ℤ) : PertRec :=
  let d := p.data ++ [x]
  { p with data := if p.cap < d.length then d.drop 1 else d }

/-- `mean` (update_histogram.hpp:372-374); the quotient of an empty recorder (0/0) is `none`. -/
def PertRec.mean (p : PertRec) : Option R :=
  if p.data.length = 0 then none
  else some (((sumList p.data : ℤ) : R) / (p.data.length : R))

end

end CTHyb
