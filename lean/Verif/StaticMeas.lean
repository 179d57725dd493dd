import Verif.MeasCorrelation
import Verif.SimulationCode

/-!
Model of `MeasStaticObs` (src/sliding_window/meas_static_obs.ipp) and of `measure_n` (src/impurity.ipp:445-471).
-/

namespace CTHyb

section
variable {R Ket Bra K ι : Type} [Field R] [LinearOrder R]

/-- Life of a `MeasStaticObs` object with one call of `perform_meas`: the constructor moves both edges to position
`n_window` (meas_static_obs.ipp:7-16), `perform_meas` applies the observable to a copy of the last ket and forms the
product with the last bra (18-33), the destructor restores the window (35-38).  `none` for an exception or an empty
stack.  Not modelled: the assertions of the window on its positions. -/
def staticMeas [Fintype ι] [AddCommMonoid K] (V : SWEnv R Ket Bra K ι) (obs : List CdagC) (ops : OpSet (OpTime R))
    (s : SWState Ket Bra ι) : Option (SWState Ket Bra ι × List K) :=
  (moveLeftTo V ops s.n s).bind fun s1 =>
  (moveRightTo V ops s.n s1).bind fun s2 =>
    match s2.left, s2.right with
    | b :: _, k :: _ =>
      let result := obs.map fun o =>
        ∑ i, if V.E.invB (b i) || V.E.invK (k i) then 0 else V.E.product (b i) (applyKet V.E o (k i))
      (restoreState V ops (getState s) s2).map fun s3 => (s3, result)
    | _, _ => none

/-- The density operators of all flavors (impurity.ipp:448-455). -/
def densityOps (nf : ℕ) : List CdagC := (List.range nf).map fun f => ⟨f, f⟩

end

/-- `measure_n` (impurity.ipp:445-471): the measured densities, real part of `result * sign * (1 / trace)`. -/
noncomputable def measureN {𝕜 : Type} [RCLike 𝕜] [DecidableEq 𝕜] {N : ℕ} (A : CodeArgs 𝕜 N)
    (s : GState ℝ 𝕜 (CodeDet 𝕜) (BK 𝕜) (BK 𝕜) (Fin (ebBrakets A.B A.p).length)) :
    Option (GState ℝ 𝕜 (CodeDet 𝕜) (BK 𝕜) (BK 𝕜) (Fin (ebBrakets A.B A.p).length) × List ℝ) :=
  (staticMeas A.env.V (densityOps A.P.nf) s.cfg.ops s.sw).map fun r =>
    ({ s with sw := r.1 }, r.2.map fun x => RCLike.re (x * s.cfg.sign * (1 / s.cfg.trace)))

end CTHyb
