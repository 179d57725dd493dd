import Verif.Postprocess
import Mathlib.Analysis.RCLike.Basic

/-!
Model of the input of the local Hamiltonian: `read_U_tensor` (src/model/model.ipp:100-176), `read_hopping`
(model.ipp:178-228), the loop reading the rotation matrix (model.ipp:330-343) and the test of the hopping
matrix (model.ipp:551-557).

A file is a list of tokens.  Extraction at the end of the file leaves the variable as it is; all variables
are declared without a value, so that using such a variable is undefined behaviour (outcome `ub`).  The
extraction of an integer from a token with a fractional part, which splits the token, is not modelled
(outcome `malformed`).  A file which cannot be opened ends the program and is not modelled.  Numbers are
real numbers; the template parameter `SCALAR` (`double` or `std::complex<double>`) is a field `𝕜` which is
ℝ or ℂ.
-/

namespace CTHyb

variable {𝕜 : Type} [RCLike 𝕜]

/-- A token of an input file. -/
inductive Tok where
  | int (z : ℤ)
  | num (x : ℝ)

/-- The number a token stands for. -/
def Tok.val : Tok → ℝ
  | .int z => z
  | .num x => x

/-- Outcome of a reader. -/
inductive InRes (α : Type) where
  | ok (a : α)
  | throws
  /-- a variable without a value is used -/
  | ub
  /-- an integer is extracted from a token with a fractional part -/
  | malformed

/-- Continue with a result. -/
def InRes.map {α β : Type} (f : α → β) : InRes α → InRes β
  | .ok a => .ok (f a)
  | .throws => .throws
  | .ub => .ub
  | .malformed => .malformed

/-- Use of a variable. -/
def need {α β : Type} (x : Option α) (k : α → InRes β) : InRes β :=
  match x with
  | none => .ub
  | some a => k a

/-- `infile_f >> i` for an integer; `none`: not modelled. -/
def getInt : List Tok → Option (Option ℤ × List Tok)
  | [] => some (none, [])
  | .int z :: ts => some (some z, ts)
  | .num _ :: _ => none

/-- `infile_f >> x` for a floating-point number. -/
def getNum : List Tok → Option ℝ × List Tok
  | [] => (none, [])
  | t :: ts => (some t.val, ts)

/-- `mycast<SCALAR>(std::complex<double>(re, im))` (src/util.cpp:5-13): the number itself if `SCALAR` is
complex, and its real part if `SCALAR` is real (`RCLike.I` is zero for ℝ). -/
noncomputable def mycast (re im : ℝ) : 𝕜 := (re : 𝕜) + (im : 𝕜) * RCLike.I

/-! ### Coulomb tensor -/

/-- The variables `line, f0, f1, f2, f3, re, im` (model.ipp:145-146). -/
structure URec where
  line : Option ℤ
  f0 : Option ℤ
  f1 : Option ℤ
  f2 : Option ℤ
  f3 : Option ℤ
  re : Option ℝ
  im : Option ℝ

/-- `infile_f >> line >> f0 >> f1 >> f2 >> f3 >> re >> im` (model.ipp:147). -/
def readURec (ts : List Tok) : Option (URec × List Tok) := do
  let (line, ts) ← getInt ts
  let (f0, ts) ← getInt ts
  let (f1, ts) ← getInt ts
  let (f2, ts) ← getInt ts
  let (f3, ts) ← getInt ts
  let r := getNum ts
  let i := getNum r.2
  some (⟨line, f0, f1, f2, f3, r.1, i.1⟩, i.2)

/-- Use of a flavor: `if (f < 0 || f >= flavors_) throw …` (model.ipp:151-162). -/
def needFlavor {β : Type} (n : ℕ) (x : Option ℤ) (k : Fin n → InRes β) : InRes β :=
  need x fun z => if h : 0 ≤ z ∧ z < n then k ⟨z.toNat, by omega⟩ else .throws

/-- The loop over the elements (model.ipp:144-165): `i` is `i_elem`, the second argument the number of
elements left. -/
noncomputable def readULoop (n : ℕ) : ℕ → ℕ → List Tok → InRes (List (UElem n 𝕜))
  | _, 0, _ => .ok []
  | i, k + 1, ts =>
    match readURec ts with
    | none => .malformed
    | some (r, ts') =>
      need r.line fun l => if l ≠ i then .throws else
      needFlavor n r.f0 fun a => needFlavor n r.f1 fun b => needFlavor n r.f2 fun c =>
      needFlavor n r.f3 fun d => need r.re fun re => need r.im fun im =>
        (readULoop n (i + 1) k ts').map (⟨a, b, c, d, 1 / 2 * mycast re im⟩ :: ·)

/-- `read_U_tensor` from a file (model.ipp:123-167).  The exception for a negative number of elements is
constructed but not thrown (line 137); `reserve` with the number converted to an unsigned type throws. -/
noncomputable def readUFile (n : ℕ) (ts : List Tok) : InRes (List (UElem n 𝕜)) :=
  match getInt ts with
  | none => .malformed
  | some (m, ts') => need m fun m => if m < 0 then .throws else readULoop n 0 m.toNat ts'

/-- The indices in the order of the loops (model.ipp:109-112). -/
def uIndices (n : ℕ) : List (Fin n × Fin n × Fin n × Fin n) :=
  (List.finRange n).flatMap fun a => (List.finRange n).flatMap fun b => (List.finRange n).flatMap fun c =>
    (List.finRange n).map fun d => (a, b, c, d)

open Classical in
/-- `read_U_tensor` from the parameters (model.ipp:101-122). -/
noncomputable def readUCmd (n : ℕ) (re im : List ℝ) : InRes (List (UElem n 𝕜)) :=
  if re.length ≠ n * n * n * n ∨ im.length ≠ n * n * n * n then .throws
  else .ok ((uIndices n).zipIdx.filterMap fun p =>
    if re.getD p.2 0 = 0 ∧ im.getD p.2 0 = 0 then none
    else some ⟨p.1.1, p.1.2.1, p.1.2.2.1, p.1.2.2.2, mycast (1 / 2 * re.getD p.2 0) (1 / 2 * im.getD p.2 0)⟩)

/-! ### Matrices -/

/-- The variables of one record of a matrix, `infile_f >> f0_in >> f1_in >> re >> im`
(model.ipp:211-213, 333-335). -/
def readMRec (ts : List Tok) : Option ((Option ℤ × Option ℤ × Option ℝ × Option ℝ) × List Tok) := do
  let (i, ts) ← getInt ts
  let (j, ts) ← getInt ts
  let r := getNum ts
  let m := getNum r.2
  some ((i, j, r.1, m.1), m.2)

/-- The loop reading a matrix (model.ipp:209-225, 331-342) over the index pairs left. -/
def readMLoop {n : ℕ} : List (Fin n × Fin n) → List Tok → InRes (List (Fin n × Fin n × ℝ × ℝ))
  | [], _ => .ok []
  | p :: ps, ts =>
    match readMRec ts with
    | none => .malformed
    | some (r, ts') =>
      need r.1 fun i => if (p.1.val : ℤ) ≠ i then .throws else
      need r.2.1 fun j => if (p.2.val : ℤ) ≠ j then .throws else
      need r.2.2.1 fun re => need r.2.2.2 fun im =>
        (readMLoop ps ts').map ((p.1, p.2, re, im) :: ·)

/-- The index pairs in the order of the loops (model.ipp:209-210, 331-332). -/
def mIndices (n : ℕ) : List (Fin n × Fin n) :=
  (List.finRange n).flatMap fun a => (List.finRange n).map fun b => (a, b)

open Classical in
/-- The elements kept: `if (std::abs(hopping) != 0.0) push_back` (model.ipp:193-195, 221-223). -/
noncomputable def keepHopping {n : ℕ} (l : List (Fin n × Fin n × ℝ × ℝ)) : List (Fin n × Fin n × 𝕜) :=
  l.filterMap fun e =>
    if (mycast e.2.2.1 e.2.2.2 : 𝕜) = 0 then none else some (e.1, e.2.1, mycast e.2.2.1 e.2.2.2)

/-- `read_hopping` from a file (model.ipp:199-227). -/
noncomputable def readHopFile (n : ℕ) (ts : List Tok) : InRes (List (Fin n × Fin n × 𝕜)) :=
  (readMLoop (mIndices n) ts).map keepHopping

/-- `read_hopping` from the parameters (model.ipp:180-198). -/
noncomputable def readHopCmd (n : ℕ) (re im : List ℝ) : InRes (List (Fin n × Fin n × 𝕜)) :=
  if re.length ≠ n * n ∨ im.length ≠ n * n then .throws
  else .ok (keepHopping ((mIndices n).zipIdx.map fun p => (p.1.1, p.1.2, re.getD p.2 0, im.getD p.2 0)))

/-- The rotation matrix read from the file before normalisation (model.ipp:330-343), as the argument of
`readEntries`; every element is written once. -/
noncomputable def readRotFile (n : ℕ) (ts : List Tok) : InRes (Matrix (Fin n) (Fin n) (ℝ × ℝ)) :=
  (readMLoop (mIndices n) ts).map fun l =>
    l.foldl (fun t e => fun i j => if i = e.1 ∧ j = e.2.1 then e.2.2 else t i j) fun _ _ => (0, 0)

/-- The test of the hopping matrix (model.ipp:551-557): `true` if the run goes on. -/
def HopAccepted {n : ℕ} (tol : ℝ) (t : Matrix (Fin n) (Fin n) 𝕜) : Prop :=
  ∀ i j, ¬ tol < ‖t i j - star (t j i)‖

end CTHyb
