import Verif.MeasCorrelation
import Verif.SimulationCode
import Verif.ModelInput

/-!
Model of the density-density correlation functions: the reader of their definitions,
`read_two_time_correlation_functions` (src/impurity_init.ipp:402-476), and the measurement,
`measure_two_time_correlation_functions` (src/impurity.ipp:473-490).

Files are lists of tokens as in `ModelInput`.  Not modelled: the existence of the file, log output, the parameter
dictionary (`measurement.nn_corr.n_tau` and `n_def` are given as integers, the file name is not empty).
-/

namespace CTHyb

/-- `infile_f >> line`, `infile_f >> flavor_tmp` (impurity_init.ipp:447, 455): extract and use an integer. -/
def useInt {β : Type} (ts : List Tok) (k : ℤ → List Tok → InRes β) : InRes β :=
  match getInt ts with
  | none => .malformed
  | some (x, ts') => need x fun z => k z ts'

/-- A flavor (impurity_init.ipp:453-459). -/
def useFlavor {β : Type} (n : ℕ) (ts : List Tok) (k : ℕ → List Tok → InRes β) : InRes β :=
  useInt ts fun z ts => if z < 0 ∨ z ≥ n then .throws else k z.toNat ts

/-- The loop over the definitions (impurity_init.ipp:445-468): `i` is `i_elem`, the next argument the number of
definitions left.  The flavors are written twice, so both observables are densities (460). -/
def readCorrLoop (n : ℕ) : ℕ → ℕ → List Tok → InRes (List (CdagC × CdagC))
  | _, 0, _ => .ok []
  | i, k + 1, ts =>
    useInt ts fun l ts => if l ≠ i then .throws else
    useFlavor n ts fun f ts => useFlavor n ts fun g ts =>
      (readCorrLoop n (i + 1) k ts).map ((⟨f, f⟩, ⟨g, g⟩) :: ·)

/-- `read_two_time_correlation_functions` (impurity_init.ipp:402-476) with a file: the definitions handed to the constructor of
`MeasCorrelation`. -/
def readCorr (n : ℕ) (nTau nDef : ℤ) (ts : List Tok) : InRes (List (CdagC × CdagC)) :=
  if nTau = 1 then .throws else
  useInt ts fun m ts =>
    if m < 0 then .throws else if m ≠ nDef then .throws else readCorrLoop n 0 m.toNat ts

/-- `measure_two_time_correlation_functions` (impurity.ipp:473-490): element `(icorr, itau)` of what is recorded,
`result * (sign / trace)`.  `none` for an exception. -/
noncomputable def measureCorr {𝕜 : Type} [RCLike 𝕜] [DecidableEq 𝕜] {N : ℕ} (A : CodeArgs 𝕜 N)
    (corr : List (CdagC × CdagC)) (nTau : ℕ)
    (s : GState ℝ 𝕜 (CodeDet 𝕜) (BK 𝕜) (BK 𝕜) (Fin (ebBrakets A.B A.p).length)) :
    Option (GState ℝ 𝕜 (CodeDet 𝕜) (BK 𝕜) (BK 𝕜) (Fin (ebBrakets A.B A.p).length) × (ℕ → ℕ → Option 𝕜)) :=
  (corrMeas A.env.V corr nTau s.cfg.ops s.sw).map fun r =>
    ({ s with sw := r.1 }, fun ic it => (r.2 ic it).map fun x => s.cfg.sign / s.cfg.trace * x)

/-- The recorded element; `0` for an exception or an element which does not exist. -/
noncomputable def recordCorr {𝕜 : Type} [RCLike 𝕜] [DecidableEq 𝕜] {N : ℕ} (A : CodeArgs 𝕜 N)
    (corr : List (CdagC × CdagC)) (nTau ic it : ℕ)
    (s : GState ℝ 𝕜 (CodeDet 𝕜) (BK 𝕜) (BK 𝕜) (Fin (ebBrakets A.B A.p).length)) : 𝕜 :=
  (measureCorr A corr nTau s).elim 0 fun r => (r.2 ic it).getD 0

end CTHyb
