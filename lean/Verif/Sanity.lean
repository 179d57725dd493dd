import Verif.Simulation
import Verif.SimulationCode

/-!
Model of the consistency check of the configuration in builds without NDEBUG
(src/mc_config.hpp:116-171, called through src/impurity.ipp:855-861 and from
src/moves/moves.ipp:90, 808, 890): a function which stops the program or returns the state after the
check.  In builds with NDEBUG it does nothing.

The comparison of the trace and of the signs is made in exact arithmetic with the tolerance `tol` of
the code (1e-4).  A division by zero gives a NaN or an infinity in the code, which fails the test; in
the model it gives 0, which fails the test as well if `tol ≤ 1`.
-/

namespace CTHyb

section
variable {T R K : Type} [Field K] [Field R] [LinearOrder R]

/-- `std::sort(..., lesser_by_abs)` (determinant_matrix.hpp:154, determinant_matrix_partitioned.hpp:213,
detail/util.hpp:212-215). -/
def sortAbsAsc (abv : AbsoluteValue K R) (l : List K) : List K :=
  l.mergeSort (fun a b => decide (abv a ≤ abv b))

/-- `compute_determinant_as_product` of a sector, with the order of the factors
(determinant_matrix.hpp:137-157). -/
def DM.detFactorsAsc (abv : AbsoluteValue K R) (lu : (n : ℕ) → Matrix (Fin n) (Fin n) K → List K)
    (s : DM T K) : List K :=
  if s.n = 0 then [1]
  else sortAbsAsc abv (mulHead (s.perm : K) ((lu s.n (blk s.inv 0 0 s.n s.n)).map fun x => 1 / x))

/-- `compute_determinant_as_product`, with the order of the factors
(determinant_matrix_partitioned.hpp:201-215). -/
def PM.detFactorsAsc (abv : AbsoluteValue K R) (lu : (n : ℕ) → Matrix (Fin n) (Fin n) K → List K)
    (E : PEnv) (s : PM T K) : List K :=
  sortAbsAsc abv (mulHead (s.perm : K)
    ((List.range E.ns).flatMap fun k => (s.blocks k).detFactorsAsc abv lu))

/-- The loop for `det_rat` (src/mc_config.hpp:140-143): the variable is overwritten, not multiplied.
`none` if `det_old` is shorter than `det_new` (invalid access). -/
def detRatLoop (old new : List K) : Option K :=
  (List.range new.length).foldl
    (fun r i => r.bind fun _ => old[i]?.bind fun x => new[i]?.map fun y => x / y) (some 1)

end

section
variable {R K S Ket Bra ι : Type}
variable [Field K] [DecidableEq K] [Field R] [LinearOrder R] [IsStrictOrderedRing R] [Fintype ι]

/-- The results of the check: the program goes on, the exception at src/mc_config.hpp:133, one of the
assertions at 144, 160, 163 and 171, or an invalid access. -/
inductive SanityResult (R K S Ket Bra ι : Type)
  | ok (s : GState R K S Ket Bra ι)
  | badOperators
  | badDeterminant
  | badTrace
  | badPermutation
  | badSign
  | undefined

/-- The operators collected anew (src/mc_config.hpp:121-127). -/
def collectOps (D : DetOps (OpTime R) K S) (cfg : Cfg (OpTime R) K S) : OpSet (OpTime R) :=
  insertAll (insertAll (insertAll [] (D.cdagg cfg.M)) (D.cs cfg.M)) (wormOps cfg.worm)

/-- `MonteCarloConfiguration::sanity_check` (src/mc_config.hpp:116-171); `rebuild` is
`rebuild_inverse_matrix`, `fac` is `compute_determinant_as_product`.  The Boolean returned by
`lazy_eval_trace` is ignored, as in the code. -/
def sanityCheck (E : SimEnv R K S Ket Bra ι) (rebuild : S → S) (fac : S → List K) (tol : R)
    (s : GState R K S Ket Bra ι) : SanityResult R K S Ket Bra ι :=
  if collectOps E.D s.cfg ≠ s.cfg.ops then .badOperators
  else
    let M' := rebuild s.cfg.M
    let new := fac M'
    match detRatLoop (fac s.cfg.M) new with
    | none => .undefined
    | some r =>
      if ¬ E.abv (r - 1) < tol then .badDeterminant
      else
        match setWindowSize E.V (max s.sw.n 10) s.cfg.ops 0 true s.sw with
        | none => .undefined
        | some w =>
          let tr := ((E.tr w).lazyEval s.cfg.ops 0).2
          match restoreState E.V s.cfg.ops (getState s.sw) w with
          | none => .undefined
          | some w' =>
            if ¬ E.abv (tr - s.cfg.trace) < tol * E.abv s.cfg.trace then .badTrace
            else
              let perm2 := E.permFn (E.D.cdagg M') (E.D.cs M') (wormOps s.cfg.worm)
              if perm2 ≠ s.cfg.permSign then .badPermutation
              else
                let sign2 := (new.map E.sgn).prod * E.sgn tr * (perm2 : K)
                if ¬ E.abv (sign2 / s.cfg.sign - 1) < tol then .badSign
                else .ok { s with cfg := { s.cfg with M := M' }, sw := w' }

end

section
variable {𝕜 : Type} [RCLike 𝕜] [DecidableEq 𝕜] {N : ℕ}

/-- `rebuild_inverse_matrix` (determinant_matrix_partitioned.hpp:278-282) as used by the check. -/
noncomputable def CodeArgs.rebuild (A : CodeArgs 𝕜 N) (x : CodeDet 𝕜) : CodeDet 𝕜 :=
  x.bind (PM.rebuild A.P A.G)

/-- `compute_determinant_as_product` as used by the check. -/
noncomputable def CodeArgs.factorsAsc (A : CodeArgs 𝕜 N) (x : CodeDet 𝕜) : List 𝕜 :=
  match x with
  | .ok s => s.detFactorsAsc (normAbs 𝕜) A.lu A.P
  | .error _ => []

end

end CTHyb
