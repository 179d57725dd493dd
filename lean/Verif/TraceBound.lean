import Verif.EigenBasis
import Verif.LazyTrace
import Verif.LocalUpdate
import Mathlib.Analysis.SpecialFunctions.Pow.NNReal

/-!
Model of the bounds of the trace in `SlidingWindowManager` (src/sliding_window/sliding_window.hpp,
sliding_window.ipp) for the eigenbasis model, and of `spectral_norm_diag` (src/util.hpp:154-205).

Simplifications: the cached norms (`norm_left_states`, `norm_right_states`) are computed from the
states when used; the code computes them when it pushes a state and removes them together with it
(sliding_window.ipp:18-24, 124, 165, 496-512).  The relative cutoffs 1E-15 of `spectral_norm_diag`,
its absolute cutoff 1E-300 and the cutoff 1E-100 relative to the largest norm
(sliding_window.ipp:129-135, 170-175) are taken to be 0.
-/

namespace CTHyb

variable {𝕜 : Type} [RCLike 𝕜] {N : ℕ}

/-- `cwiseAbs().maxCoeff()` as computed by the loop of util.hpp:164-170 (initial value -1); only used
for a matrix which is not empty. -/
noncomputable def DMat.maxAbs (A : DMat 𝕜) : ℝ :=
  (List.range A.cols).foldl (fun m j => (List.range A.rows).foldl (fun m i => max m ‖A.v i j‖) m) (-1)

/-- Multiplication by a number (util.hpp:175-182). -/
def DMat.smul (c : 𝕜) (A : DMat 𝕜) : DMat 𝕜 where
  rows := A.rows
  cols := A.cols
  v := fun i j => A.v i j * c
  supp := fun i j h => by rw [A.supp i j h, zero_mul]

/-- `cwiseAbs().maxCoeff()` of the eigenvalues (util.hpp:196). -/
noncomputable def maxAbsList : List ℝ → ℝ
  | [] => 0
  | a :: l => l.foldl (fun m x => max m |x|) |a|

/-- `spectral_norm_diag` (util.hpp:154-205); `solve` is the eigensolver. -/
noncomputable def spectralNorm (solve : DMat 𝕜 → List ℝ × DMat 𝕜) (A : DMat 𝕜) : ℝ :=
  if A.rows = 0 ∨ A.cols = 0 then 0
  else if A.maxAbs = 0 then 0
  else
    let coeff := 1 / A.maxAbs
    let A1 := DMat.smul (coeff : 𝕜) A
    let A2 := if A1.cols < A1.rows then A1.adj.mul A1 else A1.mul A1.adj
    Real.sqrt (maxAbsList (solve A2).1) / coeff

/-- `compute_spectral_norm` (model.hpp:83-96). -/
noncomputable def BK.norm (solve : DMat 𝕜 → List ℝ × DMat 𝕜) (b : BK 𝕜) : ℝ :=
  if b.normalize.invalid then 0 else spectralNorm solve b.normalize.obj

/-- `min_dim` (model.hpp:79-81). -/
def BK.minDim (b : BK 𝕜) : ℕ := min b.obj.rows b.obj.cols

variable (B : ImpBase 𝕜 N) (p : EBParams 𝕜)

/-- `compute_exp` (sliding_window.hpp:93-101) with `min_energy` (model.hpp:379-382); `lim` is
`log(DBL_MIN)/2`, about -354.2. -/
noncomputable def computeExp (lim : ℝ) (s : ℕ) (tau : ℝ) : ℝ :=
  if -tau * ebMinSec B p s < lim then 0 else Real.exp (-tau * ebMinSec B p s)

/-- The loop over the operators in `compute_trace_bound` (sliding_window.ipp:412-427): sector,
`min_dim` and `norm_prod` at its end; `none` if it was left through `nirvana`. -/
noncomputable def boundLoop (lim tauL : ℝ) : List (TPsi ℝ) → ℕ → ℕ → ℝ → Option (ℕ × ℕ × ℝ)
  | [], s, d, x => some (s, d, x)
  | o :: rest, s, d, x =>
    match ebConn B p o.type o.flavor s with
    | none => none
    | some s' =>
      let tNext := match rest with
        | o' :: _ => o'.time.time
        | [] => tauL
      boundLoop lim tauL rest s' (min d (ebVals B p s').length)
        (x * computeExp B p lim s' (tNext - o.time.time))

/-- The bound for one outer state (sliding_window.ipp:398-440); `l` are the operators in the
window.  `dim_sector` is model.hpp:368-371. -/
noncomputable def boundOne (lim tauR tauL : ℝ) (l : List (TPsi ℝ)) (b k : BK 𝕜) : ℝ :=
  if k.invalid || b.invalid then 0
  else match k.sector with
    | none => 0
    | some s =>
      let r := match l with
        | o :: _ => boundLoop B p lim tauL l s k.minDim (computeExp B p lim s (o.time.time - tauR))
        | [] => some (s, k.minDim, computeExp B p lim s (tauL - tauR))
      match r with
      | none => 0
      | some (s', d, x) =>
        if b.sector = some s' then x * b.norm p.solve * k.norm p.solve * d else 0

/-- `compute_trace_bound` (sliding_window.ipp:382-445): the vector of bounds. -/
noncomputable def traceBounds (lim beta : ℝ) (ops : OpSet (OpTime ℝ))
    (s : SWState (BK 𝕜) (BK 𝕜) (Fin (ebBrakets B p).length)) (i : Fin (ebBrakets B p).length) : ℝ :=
  match s.left, s.right with
  | b :: _, k :: _ =>
    let tR := tauEdge beta s.n s.posR
    let tL := tauEdge beta s.n s.posL
    boundOne B p lim tR tL (rangeCC ops tR tL) (b i) (k i)
  | _, _ => 0

/-- `compute_trace_braket` (sliding_window.ipp:234-247), with the range of `lazy_eval_trace`
(sliding_window.ipp:259-261). -/
noncomputable def traceBraket (beta : ℝ) (ops : OpSet (OpTime ℝ))
    (s : SWState (BK 𝕜) (BK 𝕜) (Fin (ebBrakets B p).length)) (i : Fin (ebBrakets B p).length) : 𝕜 :=
  match s.left, s.right with
  | b :: _, k :: _ =>
    let tR := tauEdge beta s.n s.posR
    let tL := tauEdge beta s.n s.posL
    let k' := evolveKet (ebEvol B p) (rangeCC ops tR tL) tR tL (k i)
    if (b i).sector = k'.sector then bkProduct (b i) k' else 0
  | _, _ => 0

/-- The trace evaluation of a window as used by the updates (moves.ipp:159-192): the sum of the
bounds and the lazy evaluation with these bounds.  `sortIdx` stands for `std::sort` by decreasing
bound (sliding_window.ipp:265-270), `eps` is 1E-15. -/
noncomputable def windowTrace (lim beta eps : ℝ)
    (sortIdx : (Fin (ebBrakets B p).length → ℝ) → List (Fin (ebBrakets B p).length))
    (s : SWState (BK 𝕜) (BK 𝕜) (Fin (ebBrakets B p).length)) : TraceOps (OpTime ℝ) 𝕜 ℝ where
  bound := fun ops => ∑ i, traceBounds B p lim beta ops s i
  lazyEval := fun ops cut =>
    (lazyEvalTrace eps (⟨⟨norm, norm_mul⟩, norm_nonneg, fun _ => norm_eq_zero, norm_add_le⟩ :
        AbsoluteValue 𝕜 ℝ) (traceBraket B p beta ops s) cut
      (sortIdx (traceBounds B p lim beta ops s)) (traceBounds B p lim beta ops s)).1

end CTHyb
