import Verif.TraceBoundLemmas
import Verif.TransInvProps

/-!
C59: the bounds of the trace computed before the lazy evaluation.  They bound the contributions of
the outer states, except for the cutoff of `compute_exp`, so that the update is decided by the exact
trace.
-/

namespace CTHyb

open Matrix
open scoped Matrix.Norms.L2Operator

variable {𝕜 : Type} [RCLike 𝕜] {N : ℕ} {B : ImpBase 𝕜 N} {p : EBParams 𝕜}

/-- The absolute value of the scalars. -/
noncomputable def normAbs (𝕜 : Type) [RCLike 𝕜] : AbsoluteValue 𝕜 ℝ :=
  ⟨⟨norm, norm_mul⟩, norm_nonneg, fun _ => norm_eq_zero, norm_add_le⟩

/-- **C59, spectral norm.** With an exact eigensolver `spectral_norm_diag` returns the operator norm of
the matrix. -/
theorem C59_spectral_norm {solve : DMat 𝕜 → List ℝ × DMat 𝕜} (hs : SolverOK solve) (A : DMat 𝕜) :
    spectralNorm solve A = ‖(of fun (i : Fin A.rows) (j : Fin A.cols) => A.v i j)‖ :=
  spectralNorm_eq hs A

/-- **C59, operators.** Creation and annihilation operators have operator norm at most 1. -/
theorem C59_operators (n : ℕ) (H : Matrix (Fin (2 ^ n)) (Fin (2 ^ n)) 𝕜) (ns : ℕ) (sec : ℕ → ℕ)
    (y : OpType) (f : ℕ) : ‖(impBaseOf n H ns sec).op y f‖ ≤ 1 := by
  have hc : ‖(cOp n f).map (Int.cast : ℤ → 𝕜)‖ ≤ 1 := by
    by_cases hf : f < n
    · have h1 := l2_opNorm_conjTranspose_mul_self ((cOp n f).map (Int.cast : ℤ → 𝕜))
      have h2 : ((cOp n f).map (Int.cast : ℤ → 𝕜))ᴴ * (cOp n f).map (Int.cast : ℤ → 𝕜) =
          diagonal fun s : Fin (2 ^ n) => if s.val.testBit f then (0 : 𝕜) else 1 := by
        have h3 : ((cOp n f).map (Int.cast : ℤ → 𝕜))ᴴ = (cdagOp n f).map (Int.cast : ℤ → 𝕜) := by
          ext i j
          simp [cdagOp]
        have h4 := congrArg (fun M : Matrix (Fin (2 ^ n)) (Fin (2 ^ n)) ℤ => M.map (Int.cast : ℤ → 𝕜))
          (C30_number n ⟨f, hf⟩)
        rw [h3]
        refine Eq.trans (Matrix.map_mul (f := Int.castRingHom 𝕜)).symm (Eq.trans h4 ?_)
        ext i j
        rw [Matrix.map_apply, diagonal_apply, diagonal_apply]
        by_cases hij : i = j
        · rw [if_pos hij, if_pos hij]; split_ifs <;> simp
        · rw [if_neg hij, if_neg hij]; simp
      rw [h2, l2_opNorm_diagonal] at h1
      have h5 : ‖fun s : Fin (2 ^ n) => if s.val.testBit f then (0 : 𝕜) else 1‖ ≤ 1 :=
        (pi_norm_le_iff_of_nonneg zero_le_one).2 fun s => by split_ifs <;> simp
      nlinarith [norm_nonneg ((cOp n f).map (Int.cast : ℤ → 𝕜))]
    · rw [cOp_large (not_lt.1 hf)]
      have : (0 : Matrix (Fin (2 ^ n)) (Fin (2 ^ n)) ℤ).map (Int.cast : ℤ → 𝕜) = 0 := by
        ext i j; simp
      rw [this, norm_zero]; exact zero_le_one
  cases y with
  | annihilation => exact hc
  | creation =>
    have h3 : (impBaseOf n H ns sec).op .creation f = ((cOp n f).map (Int.cast : ℤ → 𝕜))ᴴ := by
      ext i j
      simp [impBaseOf, cdagOp]
    rw [h3, l2_opNorm_conjTranspose]
    exact hc

/-! ### Bounds of a window whose caches belong to the operators -/

theorem inv_bound (hB : B.Lawful) (hp : SolverOK p.solve) (hop : ∀ y f, ‖B.op y f‖ ≤ 1) {beta : ℝ}
    (hb : 0 ≤ beta) (lim : ℝ) {s : SWState (BK 𝕜) (BK 𝕜) (Fin (ebBrakets B p).length)}
    {ops : OpSet (OpTime ℝ)} (h : SWInv (ebEnv B p beta) (s, ops)) (i : Fin (ebBrakets B p).length) :
    (‖traceBraket B p beta ops s i‖ ≤ traceBounds B p lim beta ops s i ∨
      (traceBounds B p lim beta ops s i = 0 ∧ ‖traceBraket B p beta ops s i‖ ≤ Real.exp lim * N)) ∧
    ((∀ s, 0 < keptDim B p s → lim ≤ -beta * ebMinSec B p s) →
      ‖traceBraket B p beta ops s i‖ ≤ traceBounds B p lim beta ops s i) := by
  obtain ⟨ho, hs, hn, hle⟩ := h
  obtain ⟨t1, ht1⟩ := stackOf_head (expL (ebEnv B p beta) ops s.n) (2 * s.n - s.posL)
  obtain ⟨t2, ht2⟩ := stackOf_head (expR (ebEnv B p beta) ops s.n) s.posR
  have hl := hs.left.trans ht1
  have hr := hs.right.trans ht2
  simp only at hl hr hle
  have hac : tauEdge beta s.n s.posR ≤ tauEdge beta s.n s.posL := tauEdge_mono hb _ hle
  have ht : TimesOK (tauEdge beta s.n s.posL)
      (rangeCC ops (tauEdge beta s.n s.posR) (tauEdge beta s.n s.posL)) (tauEdge beta s.n s.posR) := by
    refine timesOK_filter ho.1 hac _ fun o _ hq => ?_
    simpa only [Bool.and_eq_true, decide_eq_true_eq] using hq
  have hB1 := expL_ok hB hp hop hb ho s.n (2 * s.n - s.posL) i
  have hK1 := expR_ok hB hp hop hb ho s.n s.posR i
  have hmain := one_bound hB hp hop lim ht hB1 hK1
  have e1 : traceBraket B p beta ops s i = bkProduct (expL (ebEnv B p beta) ops s.n (2 * s.n - s.posL) i)
      (evolveKet (ebEvol B p) (rangeCC ops (tauEdge beta s.n s.posR) (tauEdge beta s.n s.posL))
        (tauEdge beta s.n s.posR) (tauEdge beta s.n s.posL) (expR (ebEnv B p beta) ops s.n s.posR i)) := by
    unfold traceBraket
    rw [hl, hr]
    simp only
    split
    · rfl
    · rename_i hne
      unfold bkProduct
      rw [if_pos (by simp [hne])]
  have e2 : traceBounds B p lim beta ops s i = boundOne B p lim (tauEdge beta s.n s.posR)
      (tauEdge beta s.n s.posL) (rangeCC ops (tauEdge beta s.n s.posR) (tauEdge beta s.n s.posL))
      (expL (ebEnv B p beta) ops s.n (2 * s.n - s.posL) i) (expR (ebEnv B p beta) ops s.n s.posR i) := by
    unfold traceBounds
    rw [hl, hr]
  rw [e1, e2]
  refine ⟨hmain.1, fun hlim => hmain.2 fun s' hs' => (hlim s' hs').trans ?_⟩
  have h0 : 0 ≤ tauEdge beta s.n s.posR := by
    rw [← tauEdge_zero beta s.n]; exact tauEdge_mono hb _ (Nat.zero_le _)
  have h1 : tauEdge beta s.n s.posL ≤ beta := by
    have := tauEdge_mono hb s.n hs.posL
    rwa [tauEdge_top beta s.n hn] at this
  nlinarith [ebMinSec_nonneg hs']

theorem sum_brakets (hB : B.Lawful) {beta : ℝ} (hb : 0 ≤ beta)
    {s : SWState (BK 𝕜) (BK 𝕜) (Fin (ebBrakets B p).length)} {ops : OpSet (OpTime ℝ)}
    (h : SWInv (ebEnv B p beta) (s, ops)) :
    ∑ i, traceBraket B p beta ops s i = fullTrace (ebEnv B p beta) ops := by
  have hE := C57_lawful (p := p) hB
  have hc := computeTrace_ok (V := ebEnv B p beta) hE hb h.ops h.caches h.n_pos h.le
  obtain ⟨ho, hs, hn, hle⟩ := h
  obtain ⟨t1, ht1⟩ := stackOf_head (expL (ebEnv B p beta) ops s.n) (2 * s.n - s.posL)
  obtain ⟨t2, ht2⟩ := stackOf_head (expR (ebEnv B p beta) ops s.n) s.posR
  have hl := hs.left.trans ht1
  have hr := hs.right.trans ht2
  simp only at hl hr
  unfold computeTrace at hc
  simp only [hl, hr] at hc
  rw [← Option.some.inj hc]
  refine Finset.sum_congr rfl fun i _ => ?_
  unfold traceBraket
  rw [hl, hr]
  simp only
  set k := expR (ebEnv B p beta) ops s.n s.posR i
  set b := expL (ebEnv B p beta) ops s.n (2 * s.n - s.posL) i
  have hprod : (if b.sector = (evolveKet (ebEvol B p) (rangeCC ops (tauEdge beta s.n s.posR)
        (tauEdge beta s.n s.posL)) (tauEdge beta s.n s.posR) (tauEdge beta s.n s.posL) k).sector
      then bkProduct b (evolveKet (ebEvol B p) (rangeCC ops (tauEdge beta s.n s.posR)
        (tauEdge beta s.n s.posL)) (tauEdge beta s.n s.posR) (tauEdge beta s.n s.posL) k) else 0) =
      bkProduct b (evolveKet (ebEvol B p) (rangeCC ops (tauEdge beta s.n s.posR)
        (tauEdge beta s.n s.posL)) (tauEdge beta s.n s.posR) (tauEdge beta s.n s.posL) k) := by
    split
    · rfl
    · rename_i hne
      unfold bkProduct
      rw [if_pos (by simp [hne])]
  rw [hprod]
  by_cases hi : (k.invalid || b.invalid) = true
  · refine Eq.trans ?_ (if_pos hi).symm
    rw [Bool.or_eq_true] at hi
    rcases hi with hi | hi
    · rw [evolveKet_eq hE, timeOrdered_inv hE _ _ _ _ hi]
      exact product_none (Or.inr hi)
    · exact product_none (Or.inl hi)
  · exact (if_neg hi).symm

/-- The cutoff of `compute_exp` is not reached: it lies below `-β(μ-E₀)` for every eigenvalue `μ` of
the states kept. -/
def CutoffFree (B : ImpBase 𝕜 N) (p : EBParams 𝕜) (beta lim : ℝ) : Prop :=
  ∀ E0, IsLeast (eigenvaluesOf B.H) E0 → ∀ μ ∈ eigenvaluesOf B.H, μ ≤ E0 + p.inner →
    lim ≤ -beta * (μ - E0)

theorem CutoffFree.sectors (hB : B.Lawful) (hp : SolverOK p.solve) (hN : 0 < N) (hin : 0 ≤ p.inner)
    {beta lim : ℝ} (h : CutoffFree B p beta lim) :
    ∀ s, 0 < keptDim B p s → lim ≤ -beta * ebMinSec B p s := by
  intro s hs
  have hlen : 0 < (ebVals1 B p s).length := by rw [ebVals1_length]; exact hs
  obtain ⟨m, hmem, hm, -⟩ := minElem_spec (List.length_pos_iff.1 hlen)
  obtain ⟨-, a, ha, he, hcut⟩ := mem_ebVals1.1 hmem
  have hE : ebMinSec B p s = m - ebRef B p := by
    unfold ebMinSec minSectors; rw [hm, Option.getD_some]
  rw [hE]
  refine h _ (ref_least hB hp hN hin) m (he ▸ fullVal_eigen hB hp ha) ?_
  rw [← (ref_spec hB hN hin).2.2.1]
  exact hcut

section reach

variable {beta : ℝ} {n : ℕ} {ops0 : OpSet (OpTime ℝ)} {pl pr nn : ℕ} {d : Bool}
  {s0 s : SWState (BK 𝕜) (BK 𝕜) (Fin (ebBrakets B p).length)} {ops : OpSet (OpTime ℝ)}

theorem reach_window (hb : 0 ≤ beta) (hn : 1 ≤ n) (ho : OpsOK beta ops0)
    (h0 : initStacks (ebEnv B p beta) n ops0 pl pr nn d = some s0)
    (hr : Reach (ebEnv B p beta) (s0, ops0) (s, ops)) : SWInv (ebEnv B p beta) (s, ops) := by
  obtain ⟨s0', e, hi, -⟩ := init_inv (V := ebEnv B p beta) n hn ops0 ho pl pr nn d
  rw [h0] at e
  obtain rfl := Option.some.inj e
  exact reach_inv hb hi hr

/-- **C59, bounds.** In every reachable state of the window, `compute_trace_bound` bounds the
contribution of each outer state to the trace of the current operators.  The only exception is a
bound set to zero by the cutoff of `compute_exp`; then the contribution is at most `e^lim` times
the dimension of the space. -/
theorem C59_bound (hB : B.Lawful) (hp : SolverOK p.solve) (hop : ∀ y f, ‖B.op y f‖ ≤ 1) (hb : 0 ≤ beta)
    (hn : 1 ≤ n) (ho : OpsOK beta ops0) (h0 : initStacks (ebEnv B p beta) n ops0 pl pr nn d = some s0)
    (hr : Reach (ebEnv B p beta) (s0, ops0) (s, ops)) (lim : ℝ) (i : Fin (ebBrakets B p).length) :
    ‖traceBraket B p beta ops s i‖ ≤ traceBounds B p lim beta ops s i ∨
      (traceBounds B p lim beta ops s i = 0 ∧ ‖traceBraket B p beta ops s i‖ ≤ Real.exp lim * N) :=
  (inv_bound hB hp hop hb lim (reach_window hb hn ho h0 hr) i).1

/-- **C59, sum.** The contributions of the outer states add up to the trace. -/
theorem C59_sum (hB : B.Lawful) (hb : 0 ≤ beta)
    (hn : 1 ≤ n) (ho : OpsOK beta ops0) (h0 : initStacks (ebEnv B p beta) n ops0 pl pr nn d = some s0)
    (hr : Reach (ebEnv B p beta) (s0, ops0) (s, ops)) :
    ∑ i, traceBraket B p beta ops s i = fullTrace (ebEnv B p beta) ops :=
  sum_brakets hB hb (reach_window hb hn ho h0 hr)

/-- **C59, decision.** If the cutoff of `compute_exp` is not reached, the bounds are valid without
exception, so that the lazy evaluation decides as the exact trace does and returns it when the
answer is positive, and a vanishing sum of bounds means a vanishing trace. -/
theorem C59_decision (hB : B.Lawful) (hp : SolverOK p.solve) (hop : ∀ y f, ‖B.op y f‖ ≤ 1) (hN : 0 < N)
    (hin : 0 ≤ p.inner) (hb : 0 ≤ beta) (hn : 1 ≤ n) (ho : OpsOK beta ops0)
    (h0 : initStacks (ebEnv B p beta) n ops0 pl pr nn d = some s0)
    (hr : Reach (ebEnv B p beta) (s0, ops0) (s, ops)) {lim : ℝ} (hlim : CutoffFree B p beta lim)
    (sortIdx : (Fin (ebBrakets B p).length → ℝ) → List (Fin (ebBrakets B p).length))
    (hsort : ∀ b, SortedByBound b (sortIdx b)) :
    (∀ i, ‖traceBraket B p beta ops s i‖ ≤ traceBounds B p lim beta ops s i) ∧
    (∀ cut, ((windowTrace B p lim beta 0 sortIdx s).lazyEval ops cut).1 =
        decide (cut < ‖fullTrace (ebEnv B p beta) ops‖) ∧
      (((windowTrace B p lim beta 0 sortIdx s).lazyEval ops cut).1 = true →
        ((windowTrace B p lim beta 0 sortIdx s).lazyEval ops cut).2 = fullTrace (ebEnv B p beta) ops)) ∧
    ((windowTrace B p lim beta 0 sortIdx s).bound ops = 0 → fullTrace (ebEnv B p beta) ops = 0) := by
  have hinv := reach_window hb hn ho h0 hr
  have hbd : ∀ i, ‖traceBraket B p beta ops s i‖ ≤ traceBounds B p lim beta ops s i := fun i =>
    (inv_bound hB hp hop hb lim hinv i).2 (hlim.sectors hB hp hN hin)
  have hsum := sum_brakets hB hb hinv
  refine ⟨hbd, fun cut => ?_, fun hz => ?_⟩
  · have h := C25_exact (normAbs 𝕜) (traceBraket B p beta ops s) cut
      (sortIdx (traceBounds B p lim beta ops s)) (traceBounds B p lim beta ops s) (hsort _) hbd
    rw [hsum] at h
    exact h
  · have h2 : ‖∑ i, traceBraket B p beta ops s i‖ ≤ 0 := by
      refine (norm_sum_le _ _).trans ?_
      have hz' : ∑ i, traceBounds B p lim beta ops s i = 0 := hz
      rw [← hz']
      exact Finset.sum_le_sum fun i _ => hbd i
    rw [← hsum]
    exact norm_le_zero_iff.1 h2

/-- **C59, relative cutoff.** With the relative cutoff `eps` of the lazy evaluation (1E-15 in the
code) the value returned with a positive answer differs from the trace by at most `eps` per outer
state, relative to the value returned; and the decision can only differ from that by the exact
trace if trace and threshold agree up to this error. -/
theorem C59_relative (hB : B.Lawful) (hp : SolverOK p.solve) (hop : ∀ y f, ‖B.op y f‖ ≤ 1) (hN : 0 < N)
    (hin : 0 ≤ p.inner) (hb : 0 ≤ beta) (hn : 1 ≤ n) (ho : OpsOK beta ops0)
    (h0 : initStacks (ebEnv B p beta) n ops0 pl pr nn d = some s0)
    (hr : Reach (ebEnv B p beta) (s0, ops0) (s, ops)) {lim : ℝ} (hlim : CutoffFree B p beta lim)
    {eps : ℝ} (he : 0 ≤ eps)
    (sortIdx : (Fin (ebBrakets B p).length → ℝ) → List (Fin (ebBrakets B p).length))
    (hsort : ∀ b, SortedByBound b (sortIdx b)) (cut : ℝ) :
    (((windowTrace B p lim beta eps sortIdx s).lazyEval ops cut).1 = true →
      ‖fullTrace (ebEnv B p beta) ops - ((windowTrace B p lim beta eps sortIdx s).lazyEval ops cut).2‖ ≤
        (ebBrakets B p).length * (eps * ‖((windowTrace B p lim beta eps sortIdx s).lazyEval ops cut).2‖)) ∧
    (((windowTrace B p lim beta eps sortIdx s).lazyEval ops cut).1 ≠
        decide (cut < ‖fullTrace (ebEnv B p beta) ops‖) →
      |‖fullTrace (ebEnv B p beta) ops‖ - cut| ≤
        (ebBrakets B p).length * (eps * ‖((windowTrace B p lim beta eps sortIdx s).lazyEval ops cut).2‖)) := by
  have hinv := reach_window hb hn ho h0 hr
  have hbd : ∀ i, ‖traceBraket B p beta ops s i‖ ≤ traceBounds B p lim beta ops s i := fun i =>
    (inv_bound hB hp hop hb lim hinv i).2 (hlim.sectors hB hp hN hin)
  have hsum := sum_brakets hB hb hinv
  rw [← hsum]
  have h1 := C25_accept eps he (normAbs 𝕜) (traceBraket B p beta ops s) cut
    (sortIdx (traceBounds B p lim beta ops s)) (traceBounds B p lim beta ops s) (hsort _) hbd
  have h2 := C25_decision eps he (normAbs 𝕜) (traceBraket B p beta ops s) cut
    (sortIdx (traceBounds B p lim beta ops s)) (traceBounds B p lim beta ops s) (hsort _) hbd
  rw [Fintype.card_fin] at h1 h2
  exact ⟨fun h => (h1 h).2, h2⟩

/-- **C59, update.** A local update that makes a change of operators inside the window is accepted by
the window's trace evaluation exactly if the random number is below the ratio of the weights with
the exact traces. -/
theorem C59_update {S : Type} (hB : B.Lawful) (hp : SolverOK p.solve) (hop : ∀ y f, ‖B.op y f‖ ≤ 1)
    (hN : 0 < N) (hin : 0 ≤ p.inner) (hb : 0 ≤ beta) (hn : 1 ≤ n) (ho : OpsOK beta ops0)
    (h0 : initStacks (ebEnv B p beta) n ops0 pl pr nn d = some s0)
    (hr : Reach (ebEnv B p beta) (s0, ops0) (s, ops)) {lim : ℝ} (hlim : CutoffFree B p beta lim)
    (sortIdx : (Fin (ebBrakets B p).length → ℝ) → List (Fin (ebBrakets B p).length))
    (hsort : ∀ b, SortedByBound b (sortIdx b)) (D : DetOps (OpTime ℝ) 𝕜 S) [DecidableEq 𝕜]
    (permFn : List (TPsi ℝ) → List (TPsi ℝ) → List (TPsi ℝ) → Int) (sgn : 𝕜 → 𝕜)
    (inWin : TPsi ℝ → Bool) (cfg : Cfg (OpTime ℝ) 𝕜 S) (cnt : Counters) (pr : Proposal (OpTime ℝ) ℝ) (r : ℝ)
    (hr0 : 0 ≤ r) (hcorr : pr.corr ≠ 0) (hops : cfg.ops = ops)
    (htr : cfg.trace = fullTrace (ebEnv B p beta) ops) (htr0 : cfg.trace ≠ 0)
    (hrange : (rangeCheck inWin (opChange cfg pr).1 && rangeCheck inWin (opChange cfg pr).2) = true)
    (ops' : OpSet (OpTime ℝ)) (rec : Record (OpTime ℝ))
    (hupd : updateOperators cfg.ops (opChange cfg pr).1 (opChange cfg pr).2 = .success ops' rec)
    (ho' : OpsOK beta ops') (hsame : SameOutside beta s ops ops') :
    (localUpdate D (windowTrace B p lim beta 0 sortIdx s) permFn (normAbs 𝕜) sgn (algebraMap ℝ 𝕜) inWin
        cfg cnt (some pr) r).2.2 = .accepted ↔
      r < ‖(algebraMap ℝ 𝕜 pr.corr) * (D.tryUpdate cfg.M pr.ch).1 *
        (fullTrace (ebEnv B p beta) ops' / fullTrace (ebEnv B p beta) ops)‖ := by
  have hr' : Reach (ebEnv B p beta) (s0, ops0) (s, ops') :=
    .step (s, ops) (s, ops') (.change ops') hr ⟨ho', hsame⟩ rfl
  obtain ⟨-, h1, h2⟩ := C59_decision hB hp hop hN hin hb hn ho h0 hr' hlim sortIdx hsort
  rw [← htr]
  refine C12_accept_iff D (windowTrace B p lim beta 0 sortIdx s) (fullTrace (ebEnv B p beta)) permFn
    (normAbs 𝕜) sgn (algebraMap ℝ 𝕜) inWin ?_ cfg cnt pr r hr0 hcorr htr0 (by rw [htr, hops]) hrange
    ops' rec hupd (fun cut => (h1 cut).1) h2
  intro x
  show ‖(algebraMap ℝ 𝕜) x‖ = |x|
  rw [norm_algebraMap', Real.norm_eq_abs]

end reach

/-! ### The cutoff of `compute_exp` -/

/-- **C59, cutoff.** With one window and without operators, the contribution of every outer sector is
not zero, but its bound is zero as soon as the lowest energy of the sector is beyond the cutoff. -/
theorem C59_cutoff_drops {beta lim : ℝ} {pl pr nn : ℕ} {d : Bool}
    {s : SWState (BK 𝕜) (BK 𝕜) (Fin (ebBrakets B p).length)}
    (h0 : initStacks (ebEnv B p beta) 1 [] pl pr nn d = some s) (i : Fin (ebBrakets B p).length)
    (hcut : -beta * ebMinSec B p ((ebBrakets B p).get i) < lim) :
    traceBounds B p lim beta [] s i = 0 ∧ traceBraket B p beta [] s i ≠ 0 := by
  obtain ⟨s', e, hinv, hn, hR, hL⟩ := init_inv (V := ebEnv B p beta) 1 le_rfl []
    ⟨List.Pairwise.nil, fun o ho => absurd ho List.not_mem_nil⟩ pl pr nn d
  rw [h0] at e
  obtain rfl := Option.some.inj e
  have hl := hinv.caches.left
  have hr := hinv.caches.right
  simp only [hn, hR, hL, mul_one, Nat.sub_self, stackOf, expL, expR] at hl hr
  set q := (ebBrakets B p).get i with hq
  have hmem : q ∈ ebBrakets B p := List.get_mem _ _
  have h1 := (List.mem_filter.1 hmem).2
  simp only [Bool.and_eq_true, bne_iff_ne] at h1
  have hdim : 0 < (ebVals B p q).length := Nat.pos_of_ne_zero (by simpa [ebActive] using h1.1)
  have hout : 0 < (ebOuterIdx B p q).length := Nat.pos_of_ne_zero h1.2
  have hk : (BK.invalid (⟨some q, ebOuterObj B p q⟩ : BK 𝕜)) = false := by
    simp [BK.invalid, ebOuterObj, DMat.ofFn, hdim.ne', hout.ne']
  have hbr : (BK.invalid (⟨some q, (ebOuterObj B p q).transp⟩ : BK 𝕜)) = false := by
    simp [BK.invalid, ebOuterObj, DMat.ofFn, DMat.transp, hdim.ne', hout.ne']
  have ht0 : tauEdge beta 1 0 = 0 := tauEdge_zero beta 1
  have ht2 : tauEdge beta 1 2 = beta := tauEdge_top beta 1 le_rfl
  constructor
  · unfold traceBounds
    rw [hl, hr]
    simp only [hn, hR, hL, ht0, ht2, ebEnv, ← hq, rangeCC, List.filter_nil]
    unfold boundOne
    simp only [hk, hbr, Bool.or_false, Bool.false_eq_true, if_false, sub_zero]
    have hc : computeExp B p lim q beta = 0 := if_pos hcut
    rw [hc, if_pos trivial]
    ring
  · unfold traceBraket
    rw [hl, hr]
    simp only [hn, hR, hL, ht0, ht2, ebEnv, ← hq, rangeCC, List.filter_nil]
    have hev : evolveKet (ebEvol B p) [] 0 beta (⟨some q, ebOuterObj B p q⟩ : BK 𝕜) =
        ⟨some q, (ebOuterObj B p q).scaleRows (ebExp B p q beta)⟩ := by
      simp only [evolveKet, ebEvol, hk, Bool.false_eq_true, if_false, ebPropK, sub_zero]
    rw [hev, if_pos rfl, product_raw (by simp), if_pos rfl]
    have hval : ∀ j ∈ Finset.range (ebOuterIdx B p q).length, ∀ a ∈ Finset.range (ebVals B p q).length,
        (ebOuterObj B p q).transp.v j a * ((ebOuterObj B p q).scaleRows (ebExp B p q beta)).v a j =
        (((if (ebOuterIdx B p q).getD j 0 = a then Real.exp (-beta * (ebVals B p q).getD a 0) else 0 : ℝ)) : 𝕜) := by
      intro j hj a ha
      rw [Finset.mem_range] at hj ha
      have e1 : (ebOuterObj B p q).v a j = (if (ebOuterIdx B p q).getD j 0 = a then (1 : 𝕜) else 0) := by
        simp only [ebOuterObj, DMat.ofFn]; rw [if_pos ⟨ha, hj⟩]
      show (ebOuterObj B p q).v a j * ((ebOuterObj B p q).v a j * ebExp B p q beta a) = _
      rw [e1]
      split_ifs
      · rw [one_mul, one_mul]; rfl
      · rw [zero_mul, RCLike.ofReal_zero]
    have hs : ∑ j ∈ Finset.range (ebOuterIdx B p q).length, ∑ a ∈ Finset.range (ebVals B p q).length,
        (ebOuterObj B p q).transp.v j a * ((ebOuterObj B p q).scaleRows (ebExp B p q beta)).v a j =
        ((∑ j ∈ Finset.range (ebOuterIdx B p q).length, ∑ a ∈ Finset.range (ebVals B p q).length,
          (if (ebOuterIdx B p q).getD j 0 = a then Real.exp (-beta * (ebVals B p q).getD a 0) else 0) : ℝ) : 𝕜) := by
      rw [RCLike.ofReal_sum]
      refine Finset.sum_congr rfl fun j hj => ?_
      rw [RCLike.ofReal_sum]
      exact Finset.sum_congr rfl fun a ha => hval j hj a ha
    have hpos : 0 < ∑ j ∈ Finset.range (ebOuterIdx B p q).length, ∑ a ∈ Finset.range (ebVals B p q).length,
          (if (ebOuterIdx B p q).getD j 0 = a then Real.exp (-beta * (ebVals B p q).getD a 0) else (0 : ℝ)) := by
      have hnn : ∀ j a, (0 : ℝ) ≤
          if (ebOuterIdx B p q).getD j 0 = a then Real.exp (-beta * (ebVals B p q).getD a 0) else (0 : ℝ) := by
        intro j a; split_ifs
        · exact (Real.exp_pos _).le
        · exact le_rfl
      have hx : (ebOuterIdx B p q).getD 0 0 ∈ ebOuterIdx B p q := by
        rw [List.getD_eq_getElem?_getD, List.getElem?_eq_getElem hout, Option.getD_some]
        exact List.getElem_mem _
      refine Finset.sum_pos' (fun j _ => Finset.sum_nonneg fun a _ => hnn j a) ⟨0, Finset.mem_range.2 hout, ?_⟩
      refine Finset.sum_pos' (fun a _ => hnn 0 a) ⟨_, Finset.mem_range.2 (mem_keptIdx.1 hx).1, ?_⟩
      rw [if_pos rfl]; exact Real.exp_pos _
    intro hz
    rw [show (∑ j ∈ Finset.range (ebOuterObj B p q).transp.rows, ∑ a ∈ Finset.range (ebOuterObj B p q).transp.cols,
        (ebOuterObj B p q).transp.v j a * ((ebOuterObj B p q).scaleRows (ebExp B p q beta)).v a j) = _ from hs] at hz
    exact hpos.ne' (RCLike.ofReal_eq_zero.1 hz)

/-- One level, each state a sector of its own. -/
noncomputable def twoSectors : ImpBase ℝ (2 ^ 1) := impBaseOf 1 oneLevel 2 id

theorem twoSectors_lawful : twoSectors.Lawful := by
  refine ⟨fun x hx => by simpa [twoSectors, impBaseOf] using hx,
    fun s hs => ⟨s, by simpa [twoSectors, impBaseOf] using hs, rfl⟩, isHermitian_diagonal _, ?_, ?_, ?_⟩
  · intro r c h
    by_cases hrc : r = c
    · rw [hrc]
    · exact absurd (diagonal_apply_ne _ hrc) h
  · intro y f e he e' he' h
    obtain ⟨r, c, hk, rfl⟩ := mem_storedEntries.1 he
    obtain ⟨r', c', hk', rfl⟩ := mem_storedEntries.1 he'
    have hc : c = c' := Fin.ext h
    subst hc
    have h1 := (nz_true _).1 hk
    have h2 := (nz_true _).1 hk'
    show r.val = r'.val
    by_cases hf : f < 1
    · obtain rfl : f = 0 := by omega
      have key : ∀ M : Matrix (Fin (2 ^ 1)) (Fin (2 ^ 1)) ℤ, (M = cOp 1 0 ∨ M = cdagOp 1 0) → ∀ c r r',
          M r c ≠ 0 → M r' c ≠ 0 → r = r' := by
        rintro M (rfl | rfl) <;> decide
      have hcast : ∀ (M : Matrix (Fin (2 ^ 1)) (Fin (2 ^ 1)) ℤ) a b,
          (M.map (Int.cast : ℤ → ℝ)) a b ≠ 0 → M a b ≠ 0 := by
        intro M a b h h'; exact h (by rw [Matrix.map_apply, h', Int.cast_zero])
      cases y with
      | creation => exact congrArg _ (key _ (Or.inr rfl) c r r' (hcast _ _ _ h1) (hcast _ _ _ h2))
      | annihilation => exact congrArg _ (key _ (Or.inl rfl) c r r' (hcast _ _ _ h1) (hcast _ _ _ h2))
    · exfalso
      apply h1
      have h0 := cOp_large (n := 1) (f := f) (Nat.le_of_not_lt hf)
      cases y with
      | creation => simp [twoSectors, impBaseOf, cdagOp, h0]
      | annihilation => simp [twoSectors, impBaseOf, h0]
  · intro f
    ext x z
    simp only [twoSectors, impBaseOf, cdagOp, conjTranspose_apply, Matrix.map_apply, transpose_apply]
    simp

/-- The parameters of the concrete cases. -/
noncomputable def twoParams : EBParams ℝ := ⟨exactSolve, 2, 3⟩

theorem twoSectors_upper : 1 ∈ ebBrakets twoSectors twoParams ∧ ebMinSec twoSectors twoParams 1 = 2 := by
  have hB := twoSectors_lawful
  have hp : SolverOK twoParams.solve := exactSolve_ok
  have hin : (0 : ℝ) ≤ twoParams.inner := by norm_num [twoParams]
  have href : ebRef twoSectors twoParams = 0 :=
    (ref_least hB hp (by norm_num) hin).unique oneLevel_least
  obtain ⟨-, -, hcut, hout⟩ := ref_spec (p := twoParams) hB (by norm_num) hin
  have hv : ∀ a < secDim twoSectors 1, fullVal twoSectors twoParams 1 a = 2 := by
    intro a ha
    have hne : ∃ x, fullVecs twoSectors twoParams 1 x ⟨a, ha⟩ ≠ 0 := by
      by_contra hz
      push Not at hz
      have := congrFun (congrFun (fullVecs_orth (p := twoParams) hB hp 1) ⟨a, ha⟩) ⟨a, ha⟩
      simp [mul_apply, hz] at this
    obtain ⟨x, hx⟩ := hne
    have hx1 : x.val = 1 := by
      by_contra h1
      exact hx (if_neg h1)
    have h2 := ham_fullVecs (p := twoParams) hB hp 1 x ⟨a, ha⟩
    have h3 : (twoSectors.H * fullVecs twoSectors twoParams 1) x ⟨a, ha⟩ =
        2 * fullVecs twoSectors twoParams 1 x ⟨a, ha⟩ := by
      have h4 := diagonal_mul (fun i : Fin (2 ^ 1) => 2 * (i.val : ℝ)) (fullVecs twoSectors twoParams 1) x ⟨a, ha⟩
      rw [hx1, Nat.cast_one, mul_one] at h4
      exact h4
    rw [h3] at h2
    exact (mul_right_cancel₀ hx h2).symm
  have hd := secDim_pos hB (s := 1) (by simp [twoSectors, impBaseOf])
  have hm : (2 : ℝ) ∈ ebVals1 twoSectors twoParams 1 :=
    mem_ebVals1.2 ⟨by simp [twoSectors, impBaseOf], 0, hd, (hv 0 hd).symm, by rw [hcut, href]; norm_num [twoParams]⟩
  have hall : ∀ e ∈ ebVals1 twoSectors twoParams 1, e = 2 := by
    intro e he
    obtain ⟨-, a, ha, rfl, -⟩ := mem_ebVals1.1 he
    exact hv a ha
  have hne : ebVals1 twoSectors twoParams 1 ≠ [] := List.ne_nil_of_mem hm
  constructor
  · have hlen : 0 < (ebVals twoSectors twoParams 1).length := by
      rw [ebVals_length, ← ebVals1_length]; exact List.length_pos_iff.2 hne
    refine List.mem_filter.2 ⟨by simp [twoSectors, impBaseOf], ?_⟩
    simp only [Bool.and_eq_true, bne_iff_ne, ebActive]
    refine ⟨hlen.ne', ?_⟩
    have h0 : 0 ∈ ebOuterIdx twoSectors twoParams 1 := by
      refine mem_keptIdx.2 ⟨hlen, ?_⟩
      rw [hout, ebVals_getD (by rw [← ebVals_length]; exact hlen), href,
        hv _ (kept_mem (by rw [← ebVals_length]; exact hlen)).2.1]
      norm_num [twoParams]
    exact (List.length_pos_of_mem h0).ne'
  · obtain ⟨m, hmem, he, -⟩ := minElem_spec hne
    unfold ebMinSec minSectors
    rw [he, Option.getD_some, hall m hmem, href, sub_zero]

/-- **C59, cutoff in a concrete case.** One level with energy 2 and β = 200, without operators: the
bound of the upper state is 0, its contribution is not. -/
theorem C59_cutoff_case : ∃ s i, initStacks (ebEnv twoSectors twoParams 200) 1 [] 0 0 0 false = some s ∧
    traceBounds twoSectors twoParams (-354) 200 [] s i = 0 ∧
    traceBraket twoSectors twoParams 200 [] s i ≠ 0 := by
  obtain ⟨s, e, -⟩ := init_inv (V := ebEnv twoSectors twoParams 200) 1 le_rfl []
    ⟨List.Pairwise.nil, fun o ho => absurd ho List.not_mem_nil⟩ 0 0 0 false
  obtain ⟨h1, h2⟩ := twoSectors_upper
  obtain ⟨i, hi⟩ := List.mem_iff_get.1 h1
  exact ⟨s, i, e, C59_cutoff_drops e i (by rw [hi, h2]; norm_num)⟩

/-- Sorting by decreasing bound. -/
noncomputable def sortByBound {m : ℕ} (b : Fin m → ℝ) : List (Fin m) :=
  (List.finRange m).mergeSort fun i j => decide (b j ≤ b i)

theorem sortByBound_ok {m : ℕ} (b : Fin m → ℝ) : SortedByBound b (sortByBound b) := by
  have hp := List.mergeSort_perm (List.finRange m) fun i j => decide (b j ≤ b i)
  refine ⟨hp.nodup_iff.2 (List.nodup_finRange m), fun i => hp.mem_iff.2 (List.mem_finRange i), ?_⟩
  have := List.pairwise_mergeSort (le := fun i j => decide (b j ≤ b i))
    (fun i j k h1 h2 => by simp only [decide_eq_true_eq] at *; exact h2.trans h1)
    (fun i j => by simpa using le_total (b j) (b i)) (List.finRange m)
  exact this.imp fun h => by simpa using h

/-- The hypotheses of the theorems above are met with two windows, one pair of operators and β = 4;
the trace is not zero. -/
example : ∃ s, initStacks (ebEnv twoSectors twoParams 4) 2 cCdag 0 0 0 false = some s ∧
    CutoffFree twoSectors twoParams 4 (-354) ∧ (∀ y f, ‖twoSectors.op y f‖ ≤ 1) ∧
    fullTrace (ebEnv twoSectors twoParams 4) cCdag ≠ 0 ∧
    ∀ cut, ((windowTrace twoSectors twoParams (-354) 4 0 sortByBound s).lazyEval cCdag cut).1 =
        decide (cut < ‖fullTrace (ebEnv twoSectors twoParams 4) cCdag‖) := by
  have hok : OpsOK (4 : ℝ) cCdag := by
    refine ⟨by simp [cCdag, OpSet.Sorted, OpTime.lt_def], ?_⟩
    intro o ho
    simp only [cCdag, List.mem_cons, List.not_mem_nil, or_false] at ho
    rcases ho with rfl | rfl <;> constructor <;> (simp [opT, OpTime.le_def]; try norm_num)
  obtain ⟨s, e, -⟩ := init_inv (V := ebEnv twoSectors twoParams 4) 2 (by norm_num) cCdag hok 0 0 0 false
  have hc : CutoffFree twoSectors twoParams 4 (-354) := by
    intro E0 h0 μ hμ _
    rw [h0.unique oneLevel_least]
    rcases (oneLevel_eig μ).1 hμ with rfl | rfl <;> norm_num
  have hop : ∀ y f, ‖twoSectors.op y f‖ ≤ 1 := C59_operators 1 oneLevel 2 id
  exact ⟨s, e, hc, hop, cCdag_trace twoSectors_lawful, fun cut => ((C59_decision twoSectors_lawful exactSolve_ok hop (by norm_num)
    (by norm_num [twoParams]) (by norm_num) (by norm_num) hok e Reach.refl hc sortByBound sortByBound_ok).2.1 cut).1⟩

/-- Determinant matrix of the concrete case: ratio 1/2 for every change. -/
noncomputable def halfDet : DetOps (OpTime ℝ) ℝ Unit where
  tryUpdate := fun _ _ => (1 / 2, ())
  perform := id
  reject := id
  cdagg := fun _ => []
  cs := fun _ => []

/-- The insertion of a pair into the empty configuration meets the hypotheses of `C59_update`. -/
example : ∃ s, initStacks (ebEnv twoSectors twoParams 4) 1 [] 0 0 0 false = some s ∧ ∀ r, 0 ≤ r →
    ((localUpdate halfDet (windowTrace twoSectors twoParams (-354) 4 0 sortByBound s) (fun _ _ _ => 1)
      (normAbs ℝ) id (algebraMap ℝ ℝ) (fun _ => true)
      ⟨[], (), fullTrace (ebEnv twoSectors twoParams 4) [], 1, 1, none⟩ ⟨0, 0, 0⟩
      (some ⟨⟨[], [], [⟨⟨2, 0⟩, .creation, 0⟩], [⟨⟨1, 0⟩, .annihilation, 0⟩]⟩, none, 3⟩) r).2.2 = .accepted ↔
    r < ‖(algebraMap ℝ ℝ 3) * (1 / 2) * (fullTrace (ebEnv twoSectors twoParams 4) cCdag /
      fullTrace (ebEnv twoSectors twoParams 4) [])‖) := by
  have hnil : OpsOK (4 : ℝ) [] := ⟨List.Pairwise.nil, fun o ho => absurd ho List.not_mem_nil⟩
  have hok : OpsOK (4 : ℝ) cCdag := by
    refine ⟨by simp [cCdag, OpSet.Sorted, OpTime.lt_def], ?_⟩
    intro o ho
    simp only [cCdag, List.mem_cons, List.not_mem_nil, or_false] at ho
    rcases ho with rfl | rfl <;> constructor <;> (simp [opT, OpTime.le_def]; try norm_num)
  obtain ⟨s, e, -, hn, hR, hL⟩ := init_inv (V := ebEnv twoSectors twoParams 4) 1 (by norm_num) [] hnil 0 0 0 false
  refine ⟨s, e, fun r hr => ?_⟩
  have hc : CutoffFree twoSectors twoParams 4 (-354) := by
    intro E0 h0 μ hμ _
    rw [h0.unique oneLevel_least]
    rcases (oneLevel_eig μ).1 hμ with rfl | rfl <;> norm_num
  have hop : ∀ y f, ‖twoSectors.op y f‖ ≤ 1 := C59_operators 1 oneLevel 2 id
  refine C59_update twoSectors_lawful exactSolve_ok hop (by norm_num) (by norm_num [twoParams]) (by norm_num)
    (by norm_num) hnil e Reach.refl hc sortByBound sortByBound_ok halfDet (fun _ _ _ => 1) id (fun _ => true)
    ⟨[], (), fullTrace (ebEnv twoSectors twoParams 4) [], 1, 1, none⟩ ⟨0, 0, 0⟩
    ⟨⟨[], [], [⟨⟨2, 0⟩, .creation, 0⟩], [⟨⟨1, 0⟩, .annihilation, 0⟩]⟩, none, 3⟩ r hr (by norm_num) rfl rfl ?_ ?_
    cCdag [(⟨⟨2, 0⟩, .creation, 0⟩, .insertion), (⟨⟨1, 0⟩, .annihilation, 0⟩, .insertion)] ?_ hok ?_
  · show fullTrace (ebEnv twoSectors twoParams 4) [] ≠ 0
    rw [C57_exact twoSectors_lawful exactSolve_ok (by norm_num) oneLevel_least (by
      intro μ hμ
      rcases (oneLevel_eig μ).1 hμ with rfl | rfl <;> norm_num [twoParams])]
    refine mul_ne_zero (by simp) ?_
    have hexp : timeOrderedMat twoSectors.H twoSectors.op 4 [] 0 =
        diagonal fun i : Fin (2 ^ 1) => Real.exp (-(4 - 0) * (2 * (i.val : ℝ))) := by
      rw [← oneLevel_exp]; rfl
    rw [hexp, trace_diagonal]
    exact (Finset.sum_pos (fun i _ => Real.exp_pos _) ⟨0, Finset.mem_univ _⟩).ne'
  · simp [rangeCheck]
  · have h1 : ∀ inst : DecidableEq (TPsi ℝ), @mergeDiff _ inst ([] ++ [] : List (TPsi ℝ)) ([⟨⟨2, 0⟩, .creation, 0⟩] ++ [⟨⟨1, 0⟩, .annihilation, 0⟩])
        (wormOps none) (wormOps none) = ([], [⟨⟨2, 0⟩, .creation, 0⟩, ⟨⟨1, 0⟩, .annihilation, 0⟩]) := by
      intro inst
      simp [mergeDiff, mergeDiffImpl, mergeDiffStep, wormOps]
    have h2 : updateOperators ([] : OpSet (OpTime ℝ)) []
        [⟨⟨2, 0⟩, .creation, 0⟩, ⟨⟨1, 0⟩, .annihilation, 0⟩] = .success cCdag
        [(⟨⟨2, 0⟩, .creation, 0⟩, .insertion), (⟨⟨1, 0⟩, .annihilation, 0⟩, .insertion)] := by
      simp [updateOperators, safeEraseWithRecord, safeInsertWithRecord, OpSet.insert, OpTime.lt_def, cCdag]
    rw [← h2]
    unfold opChange
    simp only
    rw [h1]
  · intro o ho
    rw [hn, hR, hL, tauEdge_zero, tauEdge_top _ _ le_rfl] at ho
    refine ⟨fun h => absurd h List.not_mem_nil, fun h => ?_⟩
    rcases ho with ho | ho
    · exact absurd (hok.2 o h).1 (not_le.2 ho)
    · exact absurd (hok.2 o h).2 (not_le.2 ho)

end CTHyb
