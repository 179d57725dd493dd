import Mathlib.Algebra.Order.Floor.Ring
import Mathlib.Algebra.Order.Field.Basic
import Mathlib.Algebra.Module.Basic

/-!
Model of the reading of the hybridization function (src/model/model.ipp:232-304) and of its
evaluation between two operators (src/mc_config.hpp:41-54).

Real numbers are a linearly ordered field with floor, the values are a module over it.
-/

namespace CTHyb

/-! ### Reading -/

/-- The index triples `(time, f1, f2)` in the order of the three nested loops
(model.ipp:244-246 and 278-280). -/
def deltaIndices (np1 nf : ℕ) : List (ℕ × ℕ × ℕ) :=
  (List.range np1).flatMap fun time => (List.range nf).flatMap fun f1 =>
    (List.range nf).map fun f2 => (time, f1, f2)

/-- The table `F[i][j][k]`. -/
abbrev HybTable (V : Type) := ℕ → ℕ → ℕ → V

/-- Writing one element of the table. -/
def HybTable.set {V : Type} (F : HybTable V) (i j k : ℕ) (v : V) : HybTable V :=
  fun i' j' k' => if i' = i ∧ j' = j ∧ k' = k then v else F i' j' k'

/-- Possible results of reading: a table, an exception, or undefined behaviour. -/
inductive ReadRes (V : Type)
  | ok (F : HybTable V)
  | throws
  | ub

/-- Command-line mode (model.ipp:235-256).  The two vectors of real and imaginary parts are one list
of values if their lengths agree with the size of the table; `sizeRe` and `sizeIm` are the lengths. -/
def readCommandLine {V : Type} [AddGroup V] (np1 nf sizeRe sizeIm : ℕ) (delta : ℕ → V) : ReadRes V :=
  if sizeRe ≠ nf * nf * np1 ∨ sizeIm ≠ nf * nf * np1 then .throws
  else .ok ((deltaIndices np1 nf).foldl
    (fun st t => (HybTable.set st.1 t.2.2 t.2.1 (np1 - t.1 - 1) (-delta st.2), st.2 + 1))
    ((fun _ _ _ => 0 : HybTable V), 0)).1

/-- The local variables `dummy_it, dummy_i, dummy_j` and the complex number made of `real, imag`;
`none` before the first assignment. -/
structure DeltaVars (V : Type) where
  it : Option ℤ
  i : Option ℤ
  j : Option ℤ
  val : Option V

/-- The input file: complete records, then possibly an incomplete one with the given leading integer
columns (at most three), after which the stream is at its end. -/
structure DeltaFile (V : Type) where
  recs : List (ℤ × ℤ × ℤ × V)
  rest : List ℤ

/-- `infile_f >> dummy_it >> dummy_i >> dummy_j >> real >> imag` (model.ipp:281): at the end of the
stream an extraction leaves its variable unchanged, and the state of the stream is not tested. -/
def readRecord {V : Type} (f : DeltaFile V) (v : DeltaVars V) : DeltaFile V × DeltaVars V :=
  match f.recs with
  | (a, b, c, x) :: rs => ({ f with recs := rs }, ⟨some a, some b, some c, some x⟩)
  | [] => match f.rest with
    | [] => (f, v)
    | [a] => (⟨[], []⟩, { v with it := some a })
    | [a, b] => (⟨[], []⟩, { v with it := some a, i := some b })
    | a :: b :: c :: _ => (⟨[], []⟩, { v with it := some a, i := some b, j := some c })

/-- The loops of the file mode (model.ipp:278-303). -/
def readLoop {V : Type} [AddGroup V] (np1 : ℕ) :
    List (ℕ × ℕ × ℕ) → DeltaFile V → DeltaVars V → HybTable V → ReadRes V
  | [], _, _, F => .ok F
  | t :: ts, f, v, F =>
    let p := readRecord f v
    match p.2.it with
    | none => .ub
    | some a => if a ≠ t.1 then .throws else
      match p.2.i with
      | none => .ub
      | some b => if b ≠ t.2.1 then .throws else
        match p.2.j with
        | none => .ub
        | some c => if c ≠ t.2.2 then .throws else
          match p.2.val with
          | none => .ub
          | some x => readLoop np1 ts p.1 p.2 (HybTable.set F t.2.2 t.2.1 (np1 - t.1 - 1) (-x))

/-- File mode (model.ipp:266-303); all variables uninitialised, all elements are written. -/
def readFile {V : Type} [AddGroup V] (np1 nf : ℕ) (f : DeltaFile V) : ReadRes V :=
  readLoop np1 (deltaIndices np1 nf) f ⟨none, none, none, none⟩ (fun _ _ _ => 0)

/-! ### Evaluation -/

/-- Conversion of a floating-point number to `int` (truncation towards zero). -/
def truncInt {R : Type} [Field R] [LinearOrder R] [FloorRing R] (x : R) : ℤ :=
  if 0 ≤ x then ⌊x⌋ else ⌈x⌉

/-- Read access to an array with `size` elements. -/
def readAt {V : Type} (size : ℕ) (F : ℕ → V) (i : ℤ) : Option V :=
  if 0 ≤ i ∧ i < size then some (F i.toNat) else none

/-- `HybridizationFunction::operator()` (mc_config.hpp:41-54) for the row `F` of one pair of flavours;
`none`: the access is outside the row of `n_tau + 1` elements. -/
def hybEval {R V : Type} [Field R] [LinearOrder R] [FloorRing R] [AddCommGroup V] [Module R V]
    (beta : R) (ntau : ℕ) (F : ℕ → V) (tc tcd : R) : Option V :=
  let t0 := tc - tcd
  let t := if t0 < 0 then t0 + beta else t0
  let sign : R := if t0 < 0 then -1 else 1
  let n := t / beta * ntau
  let nl := truncInt n
  (readAt (ntau + 1) F nl).bind fun a => (readAt (ntau + 1) F (nl + 1)).map fun b =>
    sign • (a + (n - (nl : R)) • (b - a))

end CTHyb
