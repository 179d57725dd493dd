import Verif.GMeasCode
import Verif.Postprocess
import Mathlib.Analysis.SpecialFunctions.Exp
import Mathlib.Analysis.SpecialFunctions.Trigonometric.Basic

/-!
What `MeasureGHelper<SCALAR, 2>::perform` adds to the elements of the two-particle Green's function (src/measurement/measurement.ipp:387-533):
the tables of Legendre polynomials and of exponentials, and the loops over them.  The coefficients and the choice of the operators are
those of `measureG2`.  The tables are indexed by operators instead of their positions.
-/

namespace CTHyb

open Matrix Rand

variable {𝕜 : Type} [RCLike 𝕜] [DecidableEq 𝕜] {N : ℕ}

/-- A number of type `SCALAR` as `std::complex<double>`. -/
noncomputable def toC : 𝕜 →ₗ[ℝ] ℂ where
  toFun z := ⟨RCLike.re z, RCLike.im z⟩
  map_add' x y := by apply Complex.ext <;> simp
  map_smul' r x := by apply Complex.ext <;> simp [RCLike.smul_re, RCLike.smul_im]

/-- `sqrt_2l_1_p[il]` (measurement.ipp:409-412): the sign of every second element is changed, beginning with the first one. -/
noncomputable def sqrt2l1p (il : ℕ) : ℝ := if il % 2 = 0 then sqrt2l1 il * -1 else sqrt2l1 il

/-- `arg_sign` (measurement.ipp:422-427). -/
noncomputable def argSign (a c : TPsi ℝ) : ℝ := if a.time.time - c.time.time < 0 then -1 else 1

/-- `sqrt_2l_1_Pl[k][l][il]` (measurement.ipp:422-431), with `w` the factor `sqrt_2l_1[il]`; with `sqrt_2l_1_p[il]` it is
`sqrt_2l_1_Pl_p[k][l][il]` (line 432). -/
noncomputable def sqrtPl (w : ℕ → ℝ) (beta : ℝ) (nl : ℕ) (a c : TPsi ℝ) (il : ℕ) : ℝ :=
  argSign a c * (computeLegendre nl (2 * g1Arg OpTime.time beta a c * (1 / beta) - 1)).getD il 0 * w il

/-- `rat` (measurement.ipp:443-444). -/
noncomputable def expRat (beta : ℝ) (a c : TPsi ℝ) : ℂ :=
  Complex.exp ⟨0, 2 * Real.pi * (a.time.time - c.time.time) * (1 / beta)⟩

/-- `expiomega[k][l][freq]` (measurement.ipp:445-448). -/
noncomputable def expiomega (beta : ℝ) (a c : TPsi ℝ) : ℕ → ℂ
  | 0 => 1
  | freq + 1 => expRat beta a c * expiomega beta a c freq

/-- What one call for `Rank = 2` adds to `result[fa][fb][fc][fd][il][il_p][im]` (measurement.ipp:501-532). -/
noncomputable def green2Legendre (A : CodeArgs 𝕜 N) (maxOps nl fa fb fc fd il il_p im : ℕ)
    (s : CodeState A (Option (Worm ℤ))) (aux : Fin 2 ⊕ Fin 2 → Fin 2 ⊕ Fin 2 → 𝕜) (jr jc : List ℕ) : ℂ :=
  match s.1.cfg.M with
  | .error _ => 0
  | .ok m =>
    let n := m.cd.act.length
    let w := wormOps s.1.cfg.worm
    let c := gOps m.c.act w 0 n 2
    let cd := gOps m.cd.act w 1 n 2
    match gStateM A 2 s m aux with
    | none => 0
    | some dM =>
      let cut := gCutoff dM.2 (gRows n 2 maxOps jr) (gRows n 2 maxOps jc)
      ((measureG2 (fun z : 𝕜 => ‖z‖) A.beta A.G c cd aux (blk (m.inverse A.P) 0 0 n n) s.1.cfg.sign maxOps jr jc cut).elim
        0 fun data => (data.map fun x =>
          let a := c x.1.1
          let b := cd x.1.2.1
          let c' := c x.1.2.2.1
          let d := cd x.1.2.2.2
          if a.flavor = fa ∧ b.flavor = fb ∧ c'.flavor = fc ∧ d.flavor = fd ∧ x.2 ≠ 0 then
            let coeff2 := x.2 * ((sqrtPl sqrt2l1 A.beta nl a b il : ℝ) : 𝕜) * ((sqrtPl sqrt2l1p A.beta nl c' d il_p : ℝ) : 𝕜)
            toC coeff2 * expiomega A.beta a d im
          else 0).sum)

end CTHyb
