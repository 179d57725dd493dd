import Verif.SimulationCode
import Verif.Legendre
import Mathlib.Analysis.RCLike.Sqrt

/-!
Model of `GreensFunctionLegendreMeasurement` (src/measurement/measurement.hpp:22-161): the Green's function measured by
removing hybridization lines.
-/

namespace CTHyb

open Matrix

section
variable {𝕜 : Type} [RCLike 𝕜]

/-- `n_meas_` and `g_meas_[flavor_a][flavor_c][il]` (measurement.hpp:159-160).  The array of the code is complex also if
`SCALAR` is real; here it has the type of `SCALAR`. -/
structure RemovalAcc (𝕜 : Type) where
  nMeas : ℕ
  g : ℕ → ℕ → ℕ → 𝕜

/-- The constructor and `reset` (measurement.hpp:36-46, 141-144). -/
def RemovalAcc.zero : RemovalAcc 𝕜 := ⟨0, fun _ _ _ => 0⟩

/-- `argument` and `bubble_sign` (measurement.hpp:78-85). -/
noncomputable def removalArg (beta : ℝ) (a c : TPsi ℝ) : ℝ × ℝ :=
  let argument := a.time.time - c.time.time
  if 0 < argument then (argument, 1) else (argument + beta, -1)

/-- What is added to `g_meas_[flavor_a][flavor_c][il]` for one pair of operators (measurement.hpp:88-94); `m = M(l, k)`. -/
noncomputable def removalTerm (nl : ℕ) (beta : ℝ) (sign m : 𝕜) (a c : TPsi ℝ) (il : ℕ) : 𝕜 :=
  let temperature := 1 / beta
  let r := removalArg beta a c
  let pl := computeLegendre nl (2 * r.1 * temperature - 1)
  let coeff : 𝕜 := -m * (r.2 : 𝕜) * sign * (temperature : 𝕜)
  coeff * (Real.sqrt (2 * il + 1) : 𝕜) * ((pl.getD il 0 : ℝ) : 𝕜)

/-- One pass through the loop over `l` (measurement.hpp:76-96).  `none`: an iterator past the end of its vector, or an
element outside the array. -/
noncomputable def removalPair (nf nl : ℕ) (beta : ℝ) (sign : 𝕜) (b : DM (OpTime ℝ) 𝕜) (k : ℕ)
    (g : ℕ → ℕ → ℕ → 𝕜) (l : ℕ) : Option (ℕ → ℕ → ℕ → 𝕜) :=
  match b.c.ops[k]?, b.cd.ops[l]? with
  | some a, some c =>
    if a.flavor < nf ∧ c.flavor < nf then
      some fun fa fc il => if fa = a.flavor ∧ fc = c.flavor ∧ il < nl then
        g fa fc il + removalTerm nl beta sign (b.inv l k) a c il else g fa fc il
    else none
  | _, _ => none

/-- The loops over the rows and columns of the matrix of one block (measurement.hpp:74-97). -/
noncomputable def removalBlock (nf nl : ℕ) (beta : ℝ) (sign : 𝕜) (b : DM (OpTime ℝ) 𝕜) (g : ℕ → ℕ → ℕ → 𝕜) :
    Option (ℕ → ℕ → ℕ → 𝕜) :=
  (List.range b.n).foldlM (fun g k => (List.range b.n).foldlM (removalPair nf nl beta sign b k) g) g

/-- `measure` (measurement.hpp:54-99).  `none`: undefined behaviour, or the matrix is not available. -/
noncomputable def removalMeasure (P : PEnv) (nl : ℕ) (beta : ℝ) (M : CodeDet 𝕜) (sign : 𝕜) (acc : RemovalAcc 𝕜) :
    Option (RemovalAcc 𝕜) :=
  match M with
  | .error _ => none
  | .ok m =>
    if m.cd.act.length = 0 then some { acc with nMeas := acc.nMeas + 1 }
    else ((List.range P.ns).foldlM (fun g k => removalBlock P.nf nl beta sign (m.blocks k) g) acc.g).map
      fun g => ⟨acc.nMeas + 1, g⟩

/-- `get_measured_legendre_coefficients` (measurement.hpp:106-136) for one index `il`; `none` for the exception. -/
noncomputable def removalResult {n : ℕ} (rot : Matrix (Fin n) (Fin n) 𝕜) (acc : RemovalAcc 𝕜) (il : ℕ) :
    Option (Matrix (Fin n) (Fin n) 𝕜) :=
  if acc.nMeas = 0 then none
  else some (rot * (Matrix.of fun a c : Fin n => acc.g a c il / (acc.nMeas : 𝕜)) * rotᴴ)

end

end CTHyb
