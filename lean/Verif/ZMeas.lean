import Verif.StaticMeas
import Verif.Removal
import Verif.Checks
import Verif.SamplingGlobal

/-!
Observables recorded in the space without worm: `measure_every_step` and `measure_Z_function_space` (src/impurity.ipp:261-273,
368-442), and what the postprocessing makes of them (src/postprocess.hpp:450-495).
-/

namespace CTHyb

/-! ### Histogram of the expansion orders -/

/-- `count_creation_operators` (mc_config.hpp:300-308): the numbers of creation operators of the flavors.  A flavor outside of the
range would be a write out of bounds; here it is ignored. -/
def countCreation {T : Type} (nf : ℕ) (cdagg : List (Psi T)) : List ℕ :=
  cdagg.foldl (fun n o => n.set o.flavor (n.getD o.flavor 0 + 1)) (List.replicate nf 0)

/-- The vectors sent to `order` in one call of `measure_Z_function_space` (impurity.ipp:373-384): one vector for every flavor, with
at most one entry set.  `counts[f]` is the number of creation operators of flavor `f`. -/
def orderRecords (nOrder : ℕ) (counts : List ℕ) : List (List ℚ) :=
  (List.range counts.length).map fun f =>
    let v := List.replicate (counts.length * nOrder) (0 : ℚ)
    if counts.getD f 0 < nOrder then v.set (f * nOrder + counts.getD f 0) 1 else v

/-- The vector sent to `PerturbationOrderFlavors` (impurity.ipp:385-389). -/
def orderFlavors (counts : List ℕ) : List ℚ := counts.map (↑)

/-- Entry `i` of the mean of the vectors an accumulator has received. -/
def recordedMean (rs : List (List ℚ)) (i : ℕ) : ℚ := (rs.map fun v => v.getD i 0).sum / rs.length

/-! ### Fidelity susceptibility -/

section
variable {𝕜 : Type} [RCLike 𝕜] [DecidableEq 𝕜] {N : ℕ}

/-- The number sent to `kLkR` (impurity.ipp:267-269) if `random()` returns `u`; `unsigned` to `double` is exact. -/
noncomputable def recordKLKR (A : CodeArgs 𝕜 N) (u : ℝ)
    (s : GState ℝ 𝕜 (CodeDet 𝕜) (BK 𝕜) (BK 𝕜) (Fin (ebBrakets A.B A.p).length)) : 𝕜 :=
  (measureKLKR s.cfg.ops A.beta (1 / 2 * A.beta * u) : 𝕜) * s.cfg.sign

/-- The number sent to `k` (impurity.ipp:270-272). -/
noncomputable def recordK (A : CodeArgs 𝕜 N)
    (s : GState ℝ 𝕜 (CodeDet 𝕜) (BK 𝕜) (BK 𝕜) (Fin (ebBrakets A.B A.p).length)) : 𝕜 :=
  (s.cfg.ops.length : 𝕜) * s.cfg.sign

/-- `compute_fidelity_susceptibility` (postprocess.hpp:485-495): from the means of real and imaginary parts of `kLkR` and `k`; the
mean of the sign is not used. -/
def fidelityOf {R : Type} [Field R] (kLkRre kre kim : R) : R := 1 / 2 * (kLkRre - 1 / 4 * (kre * kre - kim * kim))

end

/-- The density of flavor `f` in what `measure_n` records; `0` if there is no such entry or an exception. -/
noncomputable def recordN {𝕜 : Type} [RCLike 𝕜] [DecidableEq 𝕜] {N : ℕ} (A : CodeArgs 𝕜 N) (f : ℕ)
    (s : GState ℝ 𝕜 (CodeDet 𝕜) (BK 𝕜) (BK 𝕜) (Fin (ebBrakets A.B A.p).length)) : ℝ :=
  (measureN A s).elim 0 fun r => r.2.getD f 0

/-- What one call of `measure` adds to `g_meas_[fa][fc][il]` (measurement.hpp:54-99); `0` for undefined behaviour. -/
noncomputable def recordG {𝕜 : Type} [RCLike 𝕜] [DecidableEq 𝕜] {N : ℕ} (A : CodeArgs 𝕜 N) (nl fa fc il : ℕ)
    (s : GState ℝ 𝕜 (CodeDet 𝕜) (BK 𝕜) (BK 𝕜) (Fin (ebBrakets A.B A.p).length)) : 𝕜 :=
  (removalMeasure A.P nl A.beta s.cfg.M s.cfg.sign .zero).elim 0 fun acc => acc.g fa fc il

end CTHyb
