import Verif.SimulationCode
import Verif.SimulationProps
import Verif.PermSignProps

/-!
Property C60 for the parts of the code.
-/

namespace CTHyb

open Matrix

/-! ### Factors of the determinant -/

section factors
variable {T R K : Type} [Field K] [Field R] [LinearOrder R] [IsStrictOrderedRing R] [LinearOrder T]

theorem prod_inv_map (l : List K) : (l.map fun x => 1 / x).prod = 1 / l.prod := by
  induction l with
  | nil => simp
  | cons x l ih => rw [List.map_cons, List.prod_cons, List.prod_cons, ih]; field_simp

theorem DM.detFactors_prod (abv : AbsoluteValue K R) {lu : (n : ℕ) → Matrix (Fin n) (Fin n) K → List K}
    (hlu : ∀ n A, (lu n A).prod = A.det) (hlen : ∀ n A, (lu n A).length = n) {G : Psi T → Psi T → K}
    {s : DM T K} (h : s.Inv G) : (s.detFactors abv lu).prod = s.determinant ∧ s.detFactors abv lu ≠ [] := by
  unfold DM.detFactors DM.determinant
  by_cases h0 : s.n = 0
  · rw [if_pos h0]
    refine ⟨?_, by simp⟩
    have e1 : s.c.ops = [] := List.eq_nil_of_length_eq_zero (h.cLen.trans h0)
    have e2 : s.cd.ops = [] := List.eq_nil_of_length_eq_zero (h.cdLen.trans h0)
    have hp : s.perm = 1 := by rw [h.perm, e1, e2]; rfl
    have hd : (blk s.inv 0 0 s.n s.n).det = 1 := by
      have : IsEmpty (Fin s.n) := by rw [h0]; infer_instance
      exact Matrix.det_isEmpty
    rw [hp, hd]; simp
  · rw [if_neg h0]
    have hne : (lu s.n (blk s.inv 0 0 s.n s.n)).map (fun x => 1 / x) ≠ [] := by
      intro he
      have := congrArg List.length he
      rw [List.length_map, hlen] at this
      exact h0 this
    constructor
    · rw [(sortAbs_perm _ _).prod_eq, mulHead_prod _ _ hne, prod_inv_map, hlu]; ring
    · intro he
      have := (sortAbs_perm abv (mulHead (s.perm : K) ((lu s.n (blk s.inv 0 0 s.n s.n)).map fun x => 1 / x))).length_eq
      rw [he] at this
      have h2 := List.length_pos_iff.2 hne
      cases hl : (lu s.n (blk s.inv 0 0 s.n s.n)).map (fun x => 1 / x) with
      | nil => exact hne hl
      | cons x l => rw [hl] at this; simp [mulHead] at this

/-- **C60, factors.**  `compute_determinant_as_product` returns factors of the determinant of the
time-ordered matrix, up to the order. -/
theorem C60_factors (abv : AbsoluteValue K R) {lu : (n : ℕ) → Matrix (Fin n) (Fin n) K → List K}
    (hlu : ∀ n A, (lu n A).prod = A.det) (hlen : ∀ n A, (lu n A).length = n) {P : PEnv}
    {G : Psi T → Psi T → K} (hG : P.BlockDiag G) {s : PM T K} (h : s.Inv P G) :
    (s.detFactors abv lu P).prod = timeDet G s.c.act s.cd.act := by
  rw [← (C18_determinant P G hG s h).1]
  unfold PM.detFactors PM.determinant
  have hb : ∀ k, k < P.ns → ((s.blocks k).detFactors abv lu).prod = (s.blocks k).determinant ∧
      (s.blocks k).detFactors abv lu ≠ [] := fun k hk => DM.detFactors_prod abv hlu hlen (h.block k hk)
  have hprod : ∀ n, n ≤ P.ns → ((List.range n).flatMap fun k => (s.blocks k).detFactors abv lu).prod =
      ∏ k ∈ Finset.range n, (s.blocks k).determinant := by
    intro n
    induction n with
    | zero => intro _; simp
    | succ n ih =>
      intro hn
      rw [List.range_succ, List.flatMap_append, List.prod_append, ih (by omega), Finset.prod_range_succ,
        List.flatMap_singleton, (hb n (by omega)).1]
  rw [(sortAbs_perm _ _).prod_eq]
  by_cases h0 : P.ns = 0
  · have hp : s.perm = 1 := by
      rw [h.perm]; simp [PSide.order, h0, invs]
    rw [h0, hp]; simp [mulHead]
  · rw [mulHead_prod, hprod _ le_rfl]
    intro he
    rw [List.flatMap_eq_nil_iff] at he
    exact (hb 0 (by omega)).2 (he 0 (by simp; omega))

end factors

/-! ### The trace without operators -/

section trace
variable {𝕜 : Type} [RCLike 𝕜] {N : ℕ}

/-- The trace of a spectral projector with an exponential of the Hamiltonian. -/
theorem trace_proj_exp {H : Matrix (Fin N) (Fin N) 𝕜} (hH : H.IsHermitian) {c : ℝ}
    {Q : Matrix (Fin N) (Fin N) 𝕜} (hQ : IsSpectralProj H c Q) (x : ℝ) :
    trace (Q * NormedSpace.exp (((x : ℝ) : 𝕜) • H)) =
      ∑ i, ((if hH.eigenvalues i ≤ c then Real.exp (x * hH.eigenvalues i) else 0 : ℝ) : 𝕜) := by
  classical
  set U : Matrix (Fin N) (Fin N) 𝕜 := (hH.eigenvectorUnitary : Matrix (Fin N) (Fin N) 𝕜) with hU
  have hUU : U * star U = 1 := Unitary.mul_star_self_of_mem hH.eigenvectorUnitary.2
  have hUU' : star U * U = 1 := Unitary.star_mul_self_of_mem hH.eigenvectorUnitary.2
  have hinv : U⁻¹ = star U := Matrix.inv_eq_right_inv hUU
  have hsp : H = U * diagonal (fun i => ((hH.eigenvalues i : ℝ) : 𝕜)) * U⁻¹ := by
    have := hH.spectral_theorem
    rw [Unitary.conjStarAlgAut_apply] at this
    rw [hinv]; exact this
  have hexp : NormedSpace.exp (((x : ℝ) : 𝕜) • H) =
      U * diagonal (fun i => ((Real.exp (x * hH.eigenvalues i) : ℝ) : 𝕜)) * U⁻¹ := by
    have e1 : ((x : ℝ) : 𝕜) • H = U * diagonal (fun i => (((x * hH.eigenvalues i : ℝ)) : 𝕜)) * U⁻¹ := by
      conv_lhs => rw [hsp]
      rw [← Matrix.smul_mul, ← Matrix.mul_smul, ← diagonal_smul]
      congr 3
      funext i
      simp
    rw [e1, Matrix.exp_conj _ _ ⟨⟨U, star U, hUU, hUU'⟩, rfl⟩, exp_diagonal]
    congr 3
    funext i
    rw [Pi.coe_exp, exp_ofReal]
  have hQU : Q * U = U * diagonal (fun i => if hH.eigenvalues i ≤ c then (1 : 𝕜) else 0) := by
    have hcol : ∀ j, Q *ᵥ (U *ᵥ Pi.single j 1) =
        (if hH.eigenvalues j ≤ c then (1 : 𝕜) else 0) • (U *ᵥ Pi.single j 1) := by
      intro j
      have hv : H *ᵥ (U *ᵥ Pi.single j 1) = ((hH.eigenvalues j : ℝ) : 𝕜) • (U *ᵥ Pi.single j 1) := by
        rw [hU, hH.eigenvectorUnitary_mulVec, hH.mulVec_eigenvectorBasis]
        exact (RCLike.real_smul_eq_coe_smul (K := 𝕜) _ _)
      obtain ⟨h1, h2⟩ := hQ _ _ hv
      by_cases hc : hH.eigenvalues j ≤ c
      · rw [if_pos hc, one_smul]; exact h1 hc
      · rw [if_neg hc, zero_smul]; exact h2 (not_le.1 hc)
    ext i j
    have := congrFun (hcol j) i
    rw [mulVec_mulVec] at this
    simp only [mulVec_single_one, Pi.smul_apply, smul_eq_mul, col_apply] at this
    rw [this, Matrix.mul_diagonal, mul_comm]
  rw [hexp, ← Matrix.mul_assoc, ← Matrix.mul_assoc, hQU, Matrix.mul_assoc, Matrix.mul_assoc,
    Matrix.trace_mul_comm, hinv, Matrix.mul_assoc, Matrix.mul_assoc, hUU', Matrix.mul_one, diagonal_mul_diagonal,
    trace_diagonal]
  refine Finset.sum_congr rfl fun i _ => ?_
  split_ifs <;> simp

theorem eigenvalue_mem {H : Matrix (Fin N) (Fin N) 𝕜} (hH : H.IsHermitian) {μ : ℝ} (h : μ ∈ eigenvaluesOf H) :
    ∃ i, hH.eigenvalues i = μ := by
  obtain ⟨v, hv, e⟩ := h
  by_contra hne
  push Not at hne
  apply hv
  have hz : ∀ i, (star (hH.eigenvectorUnitary : Matrix (Fin N) (Fin N) 𝕜) *ᵥ v) i = 0 := by
    intro i
    have hD := hH.conjStarAlgAut_star_eigenvectorUnitary
    rw [Unitary.conjStarAlgAut_apply, Unitary.coe_star, star_star] at hD
    have hUU : (hH.eigenvectorUnitary : Matrix (Fin N) (Fin N) 𝕜) * star (hH.eigenvectorUnitary : Matrix (Fin N) (Fin N) 𝕜) = 1 :=
      Unitary.mul_star_self_of_mem hH.eigenvectorUnitary.2
    have h2 : diagonal (RCLike.ofReal ∘ hH.eigenvalues) *ᵥ (star (hH.eigenvectorUnitary : Matrix (Fin N) (Fin N) 𝕜) *ᵥ v) =
        ((μ : ℝ) : 𝕜) • (star (hH.eigenvectorUnitary : Matrix (Fin N) (Fin N) 𝕜) *ᵥ v) := by
      rw [← hD, ← Matrix.mulVec_smul, ← e, mulVec_mulVec, mulVec_mulVec]
      congr 1
      rw [Matrix.mul_assoc, hUU, Matrix.mul_one]
    have h3 := congrFun h2 i
    rw [mulVec_diagonal] at h3
    simp only [Function.comp, Pi.smul_apply, smul_eq_mul] at h3
    have h4 : (((hH.eigenvalues i - μ : ℝ)) : 𝕜) * (star (hH.eigenvectorUnitary : Matrix (Fin N) (Fin N) 𝕜) *ᵥ v) i = 0 := by
      push_cast; rw [sub_mul, h3, sub_self]
    rcases mul_eq_zero.1 h4 with h5 | h5
    · exact absurd (RCLike.ofReal_eq_zero.1 h5) (sub_ne_zero.2 (hne i))
    · exact h5
  have hU : (hH.eigenvectorUnitary : Matrix (Fin N) (Fin N) 𝕜) *ᵥ (star (hH.eigenvectorUnitary : Matrix (Fin N) (Fin N) 𝕜) *ᵥ v) = v := by
    rw [mulVec_mulVec, Unitary.mul_star_self_of_mem hH.eigenvectorUnitary.2, one_mulVec]
  rw [← hU, show star (hH.eigenvectorUnitary : Matrix (Fin N) (Fin N) 𝕜) *ᵥ v = 0 from funext hz, mulVec_zero]

/-- **C60, partition function.**  The trace without operators is a positive number: the sum of the
Boltzmann factors of the outer states. -/
theorem C60_partition_function {B : ImpBase 𝕜 N} {p : EBParams 𝕜} (hB : B.Lawful) (hp : SolverOK p.solve)
    (hN : 0 < N) (hin : 0 ≤ p.inner) (hout : 0 ≤ p.outer) (beta : ℝ) :
    ∃ E0 z, IsLeast (eigenvaluesOf B.H) E0 ∧ 0 < z ∧ fullTrace (ebEnv B p beta) [] = ((z : ℝ) : 𝕜) ∧
      z = ∑ i, if hB.herm.eigenvalues i ≤ E0 + min p.inner p.outer then
        Real.exp (-beta * (hB.herm.eigenvalues i - E0)) else 0 := by
  obtain ⟨E0, P, Q, h0, -, hQ, hT⟩ := C57_trace (p := p) hB hp hN hin
  refine ⟨E0, _, h0, ?_, ?_, rfl⟩
  · obtain ⟨i, hi⟩ := eigenvalue_mem hB.herm h0.1
    refine Finset.sum_pos' (fun j _ => ?_) ⟨i, Finset.mem_univ _, ?_⟩
    · split_ifs
      · exact (Real.exp_pos _).le
      · exact le_rfl
    · rw [if_pos (by rw [hi]; have := le_min hin hout; linarith)]
      exact Real.exp_pos _
  · rw [hT, timeOrderedMat, sub_zero, exp_shift, Matrix.mul_smul, trace_smul, trace_proj_exp hB.herm hQ,
      smul_eq_mul, ← map_sum, ← RCLike.ofReal_mul, Finset.mul_sum]
    congr 1
    refine Finset.sum_congr rfl fun i _ => ?_
    split_ifs
    · rw [← Real.exp_add]; congr 1; ring
    · simp

end trace

/-! ### The parts satisfy what the driver needs -/

open scoped Matrix.Norms.L2Operator

theorem lazyLoop_lawful {R K ι : Type} [Field R] [LinearOrder R] [Semiring K] [Fintype ι] [DecidableEq ι]
    (eps : R) (abs : AbsoluteValue K R) (tr : ι → K) (cut : R) (l : List ι) (b : ι → R) (s : K)
    (h : (lazyLoop eps abs tr cut l b s).1.1 = true) : cut < abs (lazyLoop eps abs tr cut l b s).1.2 := by
  induction l generalizing b s with
  | nil => simpa [lazyLoop] using h
  | cons i rest ih =>
    unfold lazyLoop at h ⊢
    simp only at h ⊢
    split_ifs at h ⊢ with h1 h2
    · simpa using h
    · exact ih _ _ h

variable {𝕜 : Type} [RCLike 𝕜] [DecidableEq 𝕜] {N : ℕ}

/-- What is assumed of the input: lawful impurity model, exact eigensolver and LU decomposition,
operators of norm at most 1, energy cutoffs not negative, exponents above the bound of `compute_exp`,
hybridization function block diagonal, indices sorted by bound. -/
structure CodeArgs.OK (A : CodeArgs 𝕜 N) : Prop where
  base : A.B.Lawful
  solver : SolverOK A.p.solve
  norm : ∀ y f, ‖A.B.op y f‖ ≤ 1
  dim : 0 < N
  inner : 0 ≤ A.p.inner
  outer : 0 ≤ A.p.outer
  beta : 0 ≤ A.beta
  lim : CutoffFree A.B A.p A.beta A.lim
  sort : ∀ b, SortedByBound b (A.sortIdx b)
  blocks : A.P.BlockDiag A.G
  sectors : ∀ f, f < A.P.nf → A.P.sector f < A.P.ns
  lu_prod : ∀ n M, (A.lu n M).prod = M.det
  lu_len : ∀ n M, (A.lu n M).length = n

/-- The determinant matrix has not failed and is consistent. -/
def CodeArgs.Inv (A : CodeArgs 𝕜 N) (x : CodeDet 𝕜) : Prop := ∃ s : PM (OpTime ℝ) 𝕜, x = .ok s ∧ s.Inv A.P A.G

omit [DecidableEq 𝕜] in
theorem CodeArgs.blockOf_lt (A : CodeArgs 𝕜 N) (o : TPsi ℝ) :
    A.blockOf o.flavor < A.P.ns ↔ A.P.Valid o := by
  unfold CodeArgs.blockOf PEnv.Valid
  constructor
  · intro hb
    split_ifs at hb with hf
    · exact ⟨hf, hb⟩
    · exact absurd hb (lt_irrefl _)
  · intro hb
    rw [if_pos hb.1]; exact hb.2

omit [DecidableEq 𝕜] in
theorem sgn_mul_norm (a b : 𝕜) : a * b / ((‖a * b‖ : ℝ) : 𝕜) = a / ((‖a‖ : ℝ) : 𝕜) * (b / ((‖b‖ : ℝ) : 𝕜)) := by
  rw [norm_mul, RCLike.ofReal_mul, mul_div_mul_comm]

theorem CodeArgs.build_ok {A : CodeArgs 𝕜 N} (h : A.OK) (cds cs : List (TPsi ℝ)) (hl : cs.length = cds.length)
    (hn : ((cds ++ cs).map Psi.time).Nodup) (hb : ∀ o ∈ cds ++ cs, A.blockOf o.flavor < A.P.ns)
    (hd : timeDet A.G cs cds ≠ 0) : ∃ s : PM (OpTime ℝ) 𝕜, A.build cds cs = .ok s ∧ s.Inv A.P A.G ∧
      s.cd.act.Perm cds ∧ s.c.act.Perm cs ∧ s.determinant A.P = timeDet A.G cs cds := by
  have e1 : (cds.zip cs).map Prod.fst = cds := List.map_fst_zip (by omega)
  have e2 : (cds.zip cs).map Prod.snd = cs := List.map_snd_zip (by omega)
  have := (C18_build A.P A.G h.blocks (cds.zip cs) (by
    intro q hq
    have hq' : (q.1, q.2) ∈ cds.zip cs := hq
    exact ⟨(A.blockOf_lt _).1 (hb _ (List.mem_append_left _ (List.of_mem_zip hq').1)),
      (A.blockOf_lt _).1 (hb _ (List.mem_append_right _ (List.of_mem_zip hq').2))⟩)
    (by rw [e1, e2]; exact hn) (by rw [e1, e2]; exact hd)).2
  rwa [e1, e2] at this

/-- In every state of the window with valid caches the lazy evaluation decides as the trace does. -/
theorem CodeArgs.window_exact {A : CodeArgs 𝕜 N} (h : A.OK) {w : SWState (BK 𝕜) (BK 𝕜) (Fin (ebBrakets A.B A.p).length)}
    {ops : OpSet (OpTime ℝ)} (hw : SWInv (ebEnv A.B A.p A.beta) (w, ops)) :
    (∀ cut, ((A.env.tr w).lazyEval ops cut).1 = decide (cut < ‖fullTrace (ebEnv A.B A.p A.beta) ops‖) ∧
      (((A.env.tr w).lazyEval ops cut).1 = true →
        ((A.env.tr w).lazyEval ops cut).2 = fullTrace (ebEnv A.B A.p A.beta) ops)) ∧
    ((A.env.tr w).bound ops = 0 → fullTrace (ebEnv A.B A.p A.beta) ops = 0) := by
  have hbd : ∀ i, ‖traceBraket A.B A.p A.beta ops w i‖ ≤ traceBounds A.B A.p A.lim A.beta ops w i := fun i =>
    (inv_bound h.base h.solver h.norm h.beta A.lim hw i).2 (h.lim.sectors h.base h.solver h.dim h.inner)
  have hsum := sum_brakets h.base h.beta hw
  refine ⟨fun cut => ?_, fun hz => ?_⟩
  · have h := C25_exact (normAbs 𝕜) (traceBraket A.B A.p A.beta ops w) cut
      (A.sortIdx (traceBounds A.B A.p A.lim A.beta ops w)) (traceBounds A.B A.p A.lim A.beta ops w) (h.sort _) hbd
    rw [hsum] at h
    exact h
  · have h2 : ‖∑ i, traceBraket A.B A.p A.beta ops w i‖ ≤ 0 := by
      refine (norm_sum_le _ _).trans ?_
      have hz' : ∑ i, traceBounds A.B A.p A.lim A.beta ops w i = 0 := hz
      rw [← hz']
      exact Finset.sum_le_sum fun i _ => hbd i
    rw [← hsum]
    exact norm_le_zero_iff.1 h2

/-- **C60, parts.**  The classes and functions of the code satisfy everything the theorems on the
driver assume. -/
theorem C60_lawful (A : CodeArgs 𝕜 N) (h : A.OK) : A.env.Lawful (HybChange.PShape A.P) A.Inv (pmDet A.P) where
  glob :=
    { evol := C57_lawful h.base
      beta := h.beta
      lu_prod := h.lu_prod
      lu_len := h.lu_len
      blocks := by
        intro a b ha hb hab
        have va := (A.blockOf_lt a).1 ha
        have vb := (A.blockOf_lt b).1 hb
        refine h.blocks a b va.1 vb.1 fun e => hab ?_
        change A.blockOf a.flavor = A.blockOf b.flavor
        unfold CodeArgs.blockOf
        rw [if_pos va.1, if_pos vb.1, e]
      sgn_mul := fun a b _ _ => sgn_mul_norm a b
      perm := fun a b c => (C05_perm_sign_invariant a a b b c).1
      build := by
        intro cds cs hl hn hb hd
        obtain ⟨s, e, -, p1, p2, hdet⟩ := CodeArgs.build_ok h cds cs hl hn hb hd
        change ((pmOps A.P A.G).cdagg (A.build cds cs)).Perm cds ∧ ((pmOps A.P A.G).cs (A.build cds cs)).Perm cs ∧ _
        rw [show A.env.build cds cs = .ok s from e, e]
        exact ⟨p1, p2, hdet⟩ }
  dets := by
    convert C18_lawful A.P A.G h.blocks using 1
    · rfl
    · rfl
  len := by
    rintro M ⟨s, rfl, hs⟩
    exact (C18_inverse A.P A.G h.blocks s hs _ rfl).1
  blocks := by
    rintro M ⟨s, rfl, hs⟩ o ho
    refine (A.blockOf_lt o).2 ?_
    have ho' : o ∈ s.cd.act ++ s.c.act := ho
    rcases List.mem_append.1 ho' with ho | ho
    · exact hs.cdOK.valid o (by simpa using ho)
    · exact hs.cOK.valid o (by simpa using ho)
  det_eq := by
    rintro M ⟨s, rfl, hs⟩
    exact (C18_determinant A.P A.G h.blocks s hs).1
  factors := by
    rintro M ⟨s, rfl, hs⟩
    exact (C60_factors (normAbs 𝕜) h.lu_prod h.lu_len h.blocks hs).trans
      (C18_determinant A.P A.G h.blocks s hs).1.symm
  build_inv := by
    intro cds cs hl hn hb hd
    obtain ⟨s, e, hs, -⟩ := CodeArgs.build_ok h cds cs hl hn hb hd
    exact ⟨s, e, hs⟩
  sgn_ne := by
    intro a ha
    change a / ((‖a‖ : ℝ) : 𝕜) ≠ 0
    exact div_ne_zero ha (by simpa using ha)
  perm_congr := fun a a' b b' c h1 h2 => (C05_perm_sign_invariant a a' b b' c).2 h1 h2
  tr_pos := fun w ops cut hc => lazyLoop_lawful _ (normAbs 𝕜) _ cut _ _ _ hc
  tr_value := fun w ops hw cut hc => ((CodeArgs.window_exact h hw).1 cut).2 hc
  M0 := ⟨⟨PM.empty, rfl, PM.empty_inv _ _⟩, rfl, rfl, by
    change permSignImpl ([] : List (TPsi ℝ)) [] [] = 1
    rw [C05_perm_sign_value [] [] [] rfl (by simp)]
    rfl⟩

/-! ### The acceptance in every state of the simulation -/

/-- If the new operators have different times, `update_operators` succeeds with them. -/
theorem updateOperators_success {T K R S : Type} [LinearOrder T] [Field K] [DecidableEq K] [Field R] [LinearOrder R]
    [IsStrictOrderedRing R] (D : DetOps T K S) (Sh : HybChange T → Prop)
    (cfg : Cfg T K S) (p : Proposal T R) (hc : Consistent D cfg) (hv : ValidProp D Sh cfg p)
    (cds cs : List (Psi T)) (h1 : IsChanged (D.cdagg cfg.M) p.ch.cdRem p.ch.cdAdd cds)
    (h2 : IsChanged (D.cs cfg.M) p.ch.cRem p.ch.cAdd cs) (ops' : OpSet T) (hs : ops'.Sorted)
    (hp : ops'.Perm (cds ++ cs ++ wormOps p.newWorm)) :
    ∃ rec, updateOperators cfg.ops (opChange cfg p).1 (opChange cfg p).2 = .success ops' rec := by
  obtain ⟨hm, hn⟩ := opChange_rem_mem D Sh cfg p hc hv
  have key := C03_update_operators cfg.ops (opChange cfg p).1 (opChange cfg p).2 hc.1 hm hn
  have em : (ops' : Multiset (Psi T)) = (cds : Multiset (Psi T)) + (cs : Multiset (Psi T)) +
      (wormOps p.newWorm : Multiset (Psi T)) := by
    rw [Multiset.coe_add, Multiset.coe_add]; exact Multiset.coe_eq_coe.2 hp
  unfold IsChanged at h1 h2
  rw [h1, h2] at em
  cases hu : updateOperators cfg.ops (opChange cfg p).1 (opChange cfg p).2 with
  | fatal o => rw [hu] at key; exact absurd key id
  | success o rec =>
    obtain ⟨a1, -, a3⟩ := updateOperators_multiset D Sh cfg p hc hv o rec hu
    have hperm : o.Perm ops' := Multiset.coe_eq_coe.1 (a3.trans em.symm)
    exact ⟨rec, by rw [OpSet.eq_of_mem_iff o ops' a1 hs fun x => hperm.mem_iff]⟩
  | duplicate o =>
    rw [hu] at key
    have hnops : (cfg.ops).Nodup := sorted_nodup _ hc.1
    have e1 : (ops' : Multiset (Psi T)) =
        (cfg.ops : Multiset (Psi T)) - ((opChange cfg p).1 : Multiset (Psi T)) +
          ((opChange cfg p).2 : Multiset (Psi T)) := by
      rw [em]
      unfold opChange
      rw [C46_net_effect _ _ _ _ _ (opChange_rem_le D Sh cfg p hc hv), hc.2]
      have g1 := Multiset.coe_le.2 hv.1
      have g2 := Multiset.coe_le.2 hv.2.1
      ext y
      have c1 := Multiset.count_le_of_le y g1
      have c2 := Multiset.count_le_of_le y g2
      simp only [Multiset.count_sub, Multiset.count_add, ← Multiset.coe_add] at c1 c2 ⊢
      omega
    have hnt : ((ops' : Multiset (Psi T)).map Psi.time).Nodup := by
      rw [Multiset.map_coe, Multiset.coe_nodup]
      exact List.pairwise_map.2 (hs.imp (fun h => ne_of_lt h))
    rw [e1, Multiset.map_add, Multiset.nodup_add] at hnt
    refine absurd ⟨?_, ?_⟩ key.2
    · simpa using hnt.2.1
    · intro x hx y hy hyr he
      exact Multiset.disjoint_left.1 hnt.2.2
        (Multiset.mem_map.2 ⟨y, (Multiset.mem_sub_of_nodup (by simpa using hnops)).2
          ⟨by simpa using hy, by simpa using hyr⟩, he⟩)
        (Multiset.mem_map.2 ⟨x, by simpa using hx, rfl⟩)

/-- The weight of a configuration: determinant of the time-ordered hybridization matrix times the
trace of the time-ordered operators. -/
noncomputable def CodeArgs.weight (A : CodeArgs 𝕜 N) (cds cs : List (TPsi ℝ)) (ops : OpSet (OpTime ℝ)) : 𝕜 :=
  timeDet A.G cs cds * fullTrace (ebEnv A.B A.p A.beta) ops

/-- **C60, acceptance.**  In every state of the simulation a local update whose new operators have
different times is accepted exactly if the random number is below the absolute value of the factor of the
proposal times the ratio of the weights, whatever the window and however the lazy evaluation stops.
For replacements the matrix without the removed operators must not be singular (see `C16_update`). -/
theorem C60_accept (A : CodeArgs 𝕜 N) (h : A.OK)
    {s : GState ℝ 𝕜 (CodeDet 𝕜) (BK 𝕜) (BK 𝕜) (Fin (ebBrakets A.B A.p).length)}
    (hs : SimInv A.env A.Inv (pmDet A.P) s) (p : Proposal (OpTime ℝ) ℝ)
    (hv : ValidProp A.env.D (HybChange.PShape A.P) s.cfg p) (hc : 0 < p.corr)
    (hin : ∀ o, o ∈ (opChange s.cfg p).1 ∨ o ∈ (opChange s.cfg p).2 →
      opT (tauEdge A.beta s.sw.n s.sw.posR) ≤ o.time ∧ o.time ≤ opT (tauEdge A.beta s.sw.n s.sw.posL))
    (cds cs : List (TPsi ℝ)) (h1 : IsChanged (A.env.D.cdagg s.cfg.M) p.ch.cdRem p.ch.cdAdd cds)
    (h2 : IsChanged (A.env.D.cs s.cfg.M) p.ch.cRem p.ch.cAdd cs) (ops' : OpSet (OpTime ℝ)) (hsort : ops'.Sorted)
    (hp : ops'.Perm (cds ++ cs ++ wormOps p.newWorm))
    (hrep : p.ch.cdRem = [] ∨ p.ch.cdAdd = [] ∨ p.ch.cRem = [] ∨ p.ch.cAdd = [] ∨
      ∃ cs0 cds0, IsChanged (A.env.D.cs s.cfg.M) p.ch.cRem [] cs0 ∧
        IsChanged (A.env.D.cdagg s.cfg.M) p.ch.cdRem [] cds0 ∧ timeDet A.G cs0 cds0 ≠ 0)
    (cnt : Counters) (r : ℝ) (hr : 0 ≤ r) :
    (localUpdate A.env.D (A.env.tr s.sw) A.env.permFn A.env.abv A.env.sgn A.env.emb (inWin A.beta s.sw)
        s.cfg cnt (some p) r).2.2 = .accepted ↔
      r < ‖((p.corr : ℝ) : 𝕜) * (A.weight cds cs ops' /
        A.weight (A.env.D.cdagg s.cfg.M) (A.env.D.cs s.cfg.M) s.cfg.ops)‖ := by
  obtain ⟨rec, hupd⟩ := updateOperators_success A.env.D _ s.cfg p hs.cons hv cds cs h1 h2 ops' hsort hp
  have hrange : (rangeCheck (inWin A.beta s.sw) (opChange s.cfg p).1 &&
      rangeCheck (inWin A.beta s.sw) (opChange s.cfg p).2) = true := by
    rw [Bool.and_eq_true]
    have : ∀ o, o ∈ (opChange s.cfg p).1 ∨ o ∈ (opChange s.cfg p).2 → inWin A.beta s.sw o = true := by
      intro o ho
      have := hin o ho
      unfold inWin
      rw [Bool.and_eq_true, decide_eq_true_eq, decide_eq_true_eq]
      exact ⟨opT_le_time this.1, time_le_opT this.2⟩
    exact ⟨List.all_eq_true.2 fun o ho => this o (Or.inl ho), List.all_eq_true.2 fun o ho => this o (Or.inr ho)⟩
  obtain ⟨hm, hn⟩ := opChange_rem_mem A.env.D _ s.cfg p hs.cons hv
  have key := C03_update_operators s.cfg.ops (opChange s.cfg p).1 (opChange s.cfg p).2 hs.cons.1 hm hn
  rw [hupd] at key
  have hw : SWInv (ebEnv A.B A.p A.beta) (s.sw, ops') :=
    window_change (V := ebEnv A.B A.p A.beta) h.beta hs.win key.2.1 key.2.2.1 hin
  obtain ⟨g1, g2⟩ := CodeArgs.window_exact h hw
  have hacc := C12_accept_iff A.env.D (A.env.tr s.sw) (fullTrace (ebEnv A.B A.p A.beta)) A.env.permFn A.env.abv
    A.env.sgn A.env.emb (inWin A.beta s.sw) (by
      intro x
      show ‖(algebraMap ℝ 𝕜) x‖ = |x|
      rw [norm_algebraMap', Real.norm_eq_abs]) s.cfg cnt p r hr hc.ne' hs.sign.2.2.1 hs.trace hrange ops' rec hupd
    (fun cut => (g1 cut).1) g2
  rw [hacc]
  obtain ⟨m, em, hmi⟩ := hs.inv
  obtain ⟨d, m1, e1, e2, -⟩ := C18_update A.P A.G h.blocks m hmi p.ch (by
    have := updateOperators_adm A.env.D _ s.cfg p hs.cons hv ops' rec hupd
    rw [em] at this; exact this) hv.2.2
  have etry : (A.env.D.tryUpdate s.cfg.M p.ch).1 = d := by
    rw [em]
    change ((pmOps A.P A.G).tryUpdate (.ok m) p.ch).1 = d
    simp only [pmOps, e1]
  have hrat := e2 (by
    rw [em] at hrep
    exact Or.inr hrep) cs cds (by rw [em] at h2; exact h2) (by rw [em] at h1; exact h1)
  have hd0 : timeDet A.G m.c.act m.cd.act ≠ 0 := by
    rw [← (C18_determinant A.P A.G h.blocks m hmi).1]; exact (C18_determinant A.P A.G h.blocks m hmi).2
  have ecd : A.env.D.cdagg s.cfg.M = m.cd.act := by rw [em]; rfl
  have ec : A.env.D.cs s.cfg.M = m.c.act := by rw [em]; rfl
  have htr : fullTrace (ebEnv A.B A.p A.beta) s.cfg.ops = s.cfg.trace := hs.trace.symm
  rw [etry, CodeArgs.weight, CodeArgs.weight, ecd, ec, hrat, htr]
  change r < ‖((p.corr : ℝ) : 𝕜) * d * (fullTrace (ebEnv A.B A.p A.beta) ops' / s.cfg.trace)‖ ↔ _
  rw [show ((p.corr : ℝ) : 𝕜) * d * (fullTrace (ebEnv A.B A.p A.beta) ops' / s.cfg.trace) =
    ((p.corr : ℝ) : 𝕜) * (d * timeDet A.G m.c.act m.cd.act * fullTrace (ebEnv A.B A.p A.beta) ops' /
      (timeDet A.G m.c.act m.cd.act * s.cfg.trace)) by field_simp]

/-- **C60, duplicate times.**  If the new operators do not have different times, the update is
not accepted and nothing is changed but the counters. -/
theorem C60_duplicate (A : CodeArgs 𝕜 N) (h : A.OK)
    {s : GState ℝ 𝕜 (CodeDet 𝕜) (BK 𝕜) (BK 𝕜) (Fin (ebBrakets A.B A.p).length)}
    (hs : SimInv A.env A.Inv (pmDet A.P) s) (p : Proposal (OpTime ℝ) ℝ)
    (hv : ValidProp A.env.D (HybChange.PShape A.P) s.cfg p)
    (cds cs : List (TPsi ℝ)) (h1 : IsChanged (A.env.D.cdagg s.cfg.M) p.ch.cdRem p.ch.cdAdd cds)
    (h2 : IsChanged (A.env.D.cs s.cfg.M) p.ch.cRem p.ch.cAdd cs)
    (hn : ¬ ((cds ++ cs ++ wormOps p.newWorm).map Psi.time).Nodup) (cnt : Counters) (r : ℝ) :
    let o := localUpdate A.env.D (A.env.tr s.sw) A.env.permFn A.env.abv A.env.sgn A.env.emb
      (inWin A.beta s.sw) s.cfg cnt (some p) r
    o.2.2 ≠ .accepted ∧ SameCfg A.env.D (pmDet A.P) o.1 s.cfg := by
  have hna : (localUpdate A.env.D (A.env.tr s.sw) A.env.permFn A.env.abv A.env.sgn A.env.emb
      (inWin A.beta s.sw) s.cfg cnt (some p) r).2.2 ≠ .accepted := by
    intro ha
    obtain ⟨q, ops', rec, e1, e2, -⟩ := localUpdate_ops _ _ _ _ _ _ _ _ _ _ _ ha
    obtain rfl := Option.some.inj e1
    obtain ⟨a1, -, a3⟩ := updateOperators_multiset A.env.D _ s.cfg p hs.cons hv ops' rec e2
    apply hn
    have hperm : ops'.Perm (cds ++ cs ++ wormOps p.newWorm) := by
      rw [← Multiset.coe_eq_coe, a3, ← Multiset.coe_add, ← Multiset.coe_add, h1, h2]
    exact (hperm.map Psi.time).nodup_iff.1 (List.pairwise_map.2 (a1.imp (fun h => ne_of_lt h)))
  exact ⟨hna, (C01_not_accepted_unchanged A.env.D (A.env.tr s.sw) A.env.permFn A.env.abv A.env.sgn A.env.emb
    (inWin A.beta s.sw) (HybChange.PShape A.P) A.Inv (pmDet A.P) (by convert (C60_lawful A h).dets) s.cfg cnt
    (some p) r hs.inv hs.cons (fun q e => by obtain rfl := Option.some.inj e; exact hv) hna).1⟩

/-! ### The whole simulation -/

/-- **C60, the start.**  The constructor of the code succeeds and its state satisfies the invariant. -/
theorem C60_start (A : CodeArgs 𝕜 N) (h : A.OK) {nMin : ℕ} (hn : 1 ≤ nMin) (pl pr nn : ℕ) (d : Bool) :
    ∃ s0, simInit A.env nMin pl pr nn d = some s0 ∧ SimInv A.env A.Inv (pmDet A.P) s0 ∧ s0.sw.posR = 0 := by
  obtain ⟨-, z, -, hz, ez, -⟩ := C60_partition_function h.base h.solver h.dim h.inner h.outer A.beta
  obtain ⟨s0, e0, i0, -, r0, -⟩ := C60_init (C60_lawful A h) (by
      change fullTrace (ebEnv A.B A.p A.beta) [] ≠ 0
      rw [ez]; exact_mod_cast hz.ne') (by
      change fullTrace (ebEnv A.B A.p A.beta) [] / ((‖fullTrace (ebEnv A.B A.p A.beta) []‖ : ℝ) : 𝕜) = 1
      rw [ez, RCLike.norm_ofReal, abs_of_pos hz]
      exact div_self (by exact_mod_cast hz.ne')) hn pl pr nn d
  exact ⟨s0, e0, i0, r0⟩

/-- **C60.**  The simulation of the code, from the constructor through any number of sweeps with local
updates, transitions between configuration spaces and global updates which meet their demands, does
not throw.  Afterwards the operators are in time order and are those of the determinant matrix and of
the worm; the stored matrix is the inverse of the hybridization matrix; the stored trace is the
trace of the time-ordered product in the (truncated) Fock space; neither determinant nor trace
vanishes; and the sign is the product of their signs and of the sign of the permutation. -/
theorem C60_simulation (A : CodeArgs 𝕜 N) (h : A.OK) (nMin : ℕ) (hn : 1 ≤ nMin) (pl pr nn : ℕ) (d : Bool)
    (nGlobal : ℕ) (as : List (SweepArgs ℝ 𝕜 (CodeDet 𝕜) (BK 𝕜) (BK 𝕜) (Fin (ebBrakets A.B A.p).length)))
    (has : ∀ s0, simInit A.env nMin pl pr nn d = some s0 → simOK A.env (HybChange.PShape A.P) nGlobal 0 as s0) :
    ∃ s0 s m, simInit A.env nMin pl pr nn d = some s0 ∧ runSim A.env nGlobal 0 as s0 = some s ∧
      SimInv A.env A.Inv (pmDet A.P) s ∧ s.cfg.M = .ok m ∧ AtEnd s.sw ∧
      s.cfg.ops.Sorted ∧ s.cfg.ops.Perm (m.cd.act ++ m.c.act ++ wormOps s.cfg.worm) ∧
      blk (m.inverse A.P) 0 0 m.cd.act.length m.cd.act.length *
        blk (gEntry A.G m.c.act m.cd.act) 0 0 m.cd.act.length m.cd.act.length = 1 ∧
      timeDet A.G m.c.act m.cd.act ≠ 0 ∧ s.cfg.trace ≠ 0 ∧
      (∃ (E0 : ℝ) (P Q : Matrix (Fin N) (Fin N) 𝕜), IsLeast (eigenvaluesOf A.B.H) E0 ∧
        IsSpectralProj A.B.H (E0 + A.p.inner) P ∧ IsSpectralProj A.B.H (E0 + min A.p.inner A.p.outer) Q ∧
        s.cfg.trace = trace (Q * timeOrderedMat (A.B.H - ((E0 : ℝ) : 𝕜) • 1)
          (fun y f => P * A.B.op y f * P) A.beta s.cfg.ops 0)) ∧
      s.cfg.permSign = permSignImpl m.cd.act m.c.act (wormOps s.cfg.worm) ∧
      s.cfg.sign = timeDet A.G m.c.act m.cd.act / ((‖timeDet A.G m.c.act m.cd.act‖ : ℝ) : 𝕜) *
        (s.cfg.trace / ((‖s.cfg.trace‖ : ℝ) : 𝕜)) * (s.cfg.permSign : 𝕜) := by
  have hE := C60_lawful A h
  obtain ⟨s0, e0, i0, r0⟩ := C60_start A h hn pl pr nn d
  obtain ⟨s, e1, i1, end1⟩ := C60_run hE nGlobal 0 as s0 i0 (has s0 e0)
  obtain ⟨m, em, hm⟩ := i1.inv
  have ecd : A.env.D.cdagg s.cfg.M = m.cd.act := by rw [em]; rfl
  have ec : A.env.D.cs s.cfg.M = m.c.act := by rw [em]; rfl
  obtain ⟨d1, d2⟩ := C18_determinant A.P A.G h.blocks m hm
  have hdet : pmDet A.P s.cfg.M = timeDet A.G m.c.act m.cd.act := by rw [em]; exact d1
  refine ⟨s0, s, m, e0, e1, i1, em, end1 (Or.inl r0), i1.cons.1, ?_, (C18_inverse A.P A.G h.blocks m hm _ rfl).2, d1 ▸ d2,
    i1.sign.2.2.1, ?_, ?_, ?_⟩
  · have := i1.cons.2
    rw [ecd, ec, Multiset.coe_add, Multiset.coe_add, Multiset.coe_eq_coe] at this
    exact this
  · obtain ⟨E0, P, Q, x1, x2, x3, x4⟩ := C57_trace (p := A.p) h.base h.solver h.dim h.inner
    exact ⟨E0, P, Q, x1, x2, x3, i1.trace.trans (x4 A.beta s.cfg.ops)⟩
  · have := i1.sign.1
    rwa [ecd, ec] at this
  · have := i1.sign.2.2.2
    rw [hdet] at this
    exact this

/-! ### Deviation -/

/-- **C60, range check.**  `range_check` compares the times without the small part: an operator at the lower
edge of the window with negative small part passes, although it belongs to the operators outside
the window, whose product is cached. -/
theorem C60_range_check_edge {Ket Bra ι : Type} (beta : ℝ) (hb : 0 ≤ beta) (w : SWState Ket Bra ι)
    (hw : w.posR ≤ w.posL) (f : ℕ) :
    inWin beta w ⟨⟨tauEdge beta w.n w.posR, -1⟩, .creation, f⟩ = true ∧
      (⟨tauEdge beta w.n w.posR, -1⟩ : OpTime ℝ) < opT (tauEdge beta w.n w.posR) := by
  constructor
  · unfold inWin
    simp only [le_refl, decide_true, Bool.true_and, decide_eq_true_eq]
    exact tauEdge_mono hb _ hw
  · rw [OpTime.lt_def]
    right
    exact ⟨rfl, by simp [opT]⟩

/-! ### A concrete case -/

/-- One level of energy 2 coupled to a bath with constant hybridization function. -/
noncomputable def exCode : CodeArgs ℝ (2 ^ 1) where
  B := twoSectors
  p := twoParams
  beta := 4
  lim := -354
  sortIdx := sortByBound
  P := ⟨1, 1, fun _ => 0⟩
  G := fun _ _ => 1 / 2
  lu := fun n M => match n with
    | 0 => []
    | k + 1 => M.det :: List.replicate k 1
  eps := 0

theorem exCode_ok : exCode.OK where
  base := twoSectors_lawful
  solver := exactSolve_ok
  norm := C59_operators 1 oneLevel 2 id
  dim := by norm_num
  inner := by norm_num [exCode, twoParams]
  outer := by norm_num [exCode, twoParams]
  beta := by norm_num [exCode]
  lim := by
    intro E0 h0 μ hμ _
    rw [h0.unique oneLevel_least]
    rcases (oneLevel_eig μ).1 hμ with rfl | rfl <;> norm_num [exCode]
  sort := fun b => sortByBound_ok b
  blocks := fun a b _ _ h => absurd rfl h
  sectors := fun f _ => Nat.one_pos
  lu_prod := by
    intro n M
    cases n with
    | zero => simp [exCode]
    | succ k => simp [exCode]
  lu_len := by
    intro n M
    cases n with
    | zero => rfl
    | succ k => simp [exCode]

/-- Insertion of a pair into the empty configuration, with the window over the whole interval. -/
noncomputable def exInsert : LocalCall ℝ ℝ (CodeDet ℝ) (BK ℝ) (BK ℝ) (Fin (ebBrakets exCode.B exCode.p).length) where
  propose := fun cfg w => if cfg.ops.isEmpty && w.n == 1 then
    some ⟨⟨[], [], [⟨⟨2, 0⟩, .creation, 0⟩], [⟨⟨1, 0⟩, .annihilation, 0⟩]⟩, none, 3⟩ else none
  r := 1 / 1000

theorem exInsert_ok (s : GState ℝ ℝ (CodeDet ℝ) (BK ℝ) (BK ℝ) (Fin (ebBrakets exCode.B exCode.p).length))
    (hs : SimInv exCode.env exCode.Inv (pmDet exCode.P) s) :
    exInsert.OK exCode.env (HybChange.PShape exCode.P) s := by
  refine ⟨by norm_num [exInsert], fun p hp => ?_⟩
  unfold exInsert at hp
  simp only at hp
  split_ifs at hp with hc
  rw [Bool.and_eq_true, List.isEmpty_iff, beq_iff_eq] at hc
  obtain rfl := Option.some.inj hp
  have hworm : wormOps s.cfg.worm = [] := by
    have := hs.cons.2
    rw [hc.1] at this
    have h0 : (wormOps s.cfg.worm : Multiset (Psi (OpTime ℝ))) = 0 := by
      rw [← Multiset.le_zero]
      calc (wormOps s.cfg.worm : Multiset (Psi (OpTime ℝ))) ≤ _ + (wormOps s.cfg.worm : Multiset (Psi (OpTime ℝ))) :=
            Multiset.le_add_left _ _
        _ = 0 := this.symm
    simpa using h0
  refine ⟨⟨by simp, by simp, ?_⟩, ?_, ?_, ?_⟩
  · refine C18_solver_requests _ _ ?_ ?_ (Or.inl ⟨rfl, rfl⟩) <;> simp [PEnv.Valid, exCode]
  · change (algebraMap ℝ ℝ 3) / ((‖(algebraMap ℝ ℝ 3)‖ : ℝ) : ℝ) = 1
    simp
  · change (algebraMap ℝ ℝ 3) ≠ 0
    simp
  · have hL : s.sw.posL ≤ 2 * s.sw.n := hs.win.caches.posL
    have hR : s.sw.posR = 0 := by have := hs.two; omega
    have hL2 : s.sw.posL = 2 * s.sw.n := by have := hs.two; omega
    have e1 : tauEdge exCode.env.V.beta s.sw.n s.sw.posR = 0 := by rw [hR]; exact tauEdge_zero _ _
    have e2 : tauEdge exCode.env.V.beta s.sw.n s.sw.posL = 4 := by
      rw [hL2]; exact tauEdge_top _ _ (by omega)
    rw [e1, e2]
    have hch : opChange s.cfg (⟨⟨[], [], [⟨⟨2, 0⟩, .creation, 0⟩], [⟨⟨1, 0⟩, .annihilation, 0⟩]⟩, none, 3⟩ :
        Proposal (OpTime ℝ) ℝ) = ([], [⟨⟨2, 0⟩, .creation, 0⟩, ⟨⟨1, 0⟩, .annihilation, 0⟩]) := by
      unfold opChange
      rw [hworm]
      simp [mergeDiff, mergeDiffImpl, mergeDiffStep, wormOps]
    rw [hch]
    intro o ho
    simp only [List.not_mem_nil, false_or, List.mem_cons, or_false] at ho
    rcases ho with rfl | rfl <;> (constructor <;> rw [OpTime.le_def] <;> left <;> norm_num [opT])

/-- A global update which changes nothing. -/
noncomputable def exGlobal : GlobalCall ℝ := ⟨id, id, 1 / 2⟩

theorem noSmall_of_ne {K R : Type} [Field K] [Field R] [LinearOrder R] [IsStrictOrderedRing R]
    (abv : AbsoluteValue K R) (G : TPsi R → TPsi R → K)
    (lu : (n : ℕ) → Matrix (Fin n) (Fin n) K → List K) (hlu : ∀ n A, (lu n A).prod = A.det)
    (hlen : ∀ n A, (lu n A).length = n) (blockOf : ℕ → ℕ) (nb : ℕ)
    (hG : ∀ a b : TPsi R, blockOf a.flavor < nb → blockOf b.flavor < nb →
      blockOf a.flavor ≠ blockOf b.flavor → G a b = 0)
    (cds cs : List (TPsi R)) (hb : ∀ o ∈ cds ++ cs, blockOf o.flavor < nb)
    (h1 : (cs.map Psi.time).Nodup) (h2 : (cds.map Psi.time).Nodup) (hd : timeDet G cs cds ≠ 0) :
    NoSmallFactor abv 0 (newFactors G lu blockOf nb cds cs) := by
  intro l hl x hx
  unfold newFactors at hl
  rw [Option.map_eq_some_iff] at hl
  obtain ⟨⟨new, d, c⟩, hbl, rfl⟩ := hl
  have hG' : ∀ a ∈ cs, ∀ b ∈ cds, blockOf a.flavor ≠ blockOf b.flavor → G a b = 0 := fun a ha b hb' =>
    hG a b (hb a (by simp [ha])) (hb b (by simp [hb']))
  obtain ⟨ed, ec, -, -, ep⟩ := blockLoop_some G lu hlu hlen blockOf cds cs hG' _ List.nodup_range new d c hbl
  have pd : d.Perm cds := ed ▸ flatMap_inBlock_perm blockOf nb cds (fun o ho => hb o (by simp [ho]))
  have pc : c.Perm cs := ec ▸ flatMap_inBlock_perm blockOf nb cs (fun o ho => hb o (by simp [ho]))
  have nc : (c.map Psi.time).Nodup := (pc.map Psi.time).nodup_iff.2 h1
  have nd : (d.map Psi.time).Nodup := (pd.map Psi.time).nodup_iff.2 h2
  have ht : new.prod ≠ 0 := by
    rw [← timeDet_congr G pc pd nc nd, timeDet_eq G c d nc nd, ← ep] at hd
    exact right_ne_zero_of_mul hd
  have hx0 : x ≠ 0 := by
    rintro rfl
    exact ht (List.prod_eq_zero hx)
  have hxp : 0 < abv x := abv.pos hx0
  refine div_pos hxp (lt_of_lt_of_le hxp (?_ : abv x ≤ maxAbs abv new))
  have key : ∀ (l : List K) (m : R), m ≤ l.foldl (fun m x => max m (abv x)) m ∧
      ∀ y ∈ l, abv y ≤ l.foldl (fun m x => max m (abv x)) m := by
    intro l
    induction l with
    | nil => intro m; simp
    | cons z l ih =>
      intro m
      obtain ⟨i1, i2⟩ := ih (max m (abv z))
      rw [List.foldl_cons]
      refine ⟨(le_max_left _ _).trans i1, fun y hy => ?_⟩
      rcases List.mem_cons.1 hy with rfl | hy
      · exact (le_max_right _ _).trans i1
      · exact i2 y hy
  exact (key new 0).2 x hx

theorem exGlobal_ok (s : GState ℝ ℝ (CodeDet ℝ) (BK ℝ) (BK ℝ) (Fin (ebBrakets exCode.B exCode.p).length))
    (hs : SimInv exCode.env exCode.Inv (pmDet exCode.P) s) : exGlobal.OK exCode.env s := by
  have hE := C60_lawful exCode exCode_ok
  have hperm : ((exCode.env.D.cdagg s.cfg.M).map id ++ (exCode.env.D.cs s.cfg.M).map id ++
      wormOps (s.cfg.worm.map id)).Perm s.cfg.ops := by
    rw [List.map_id, List.map_id, Option.map_id, id]
    refine Multiset.coe_eq_coe.1 ?_
    rw [hs.cons.2, ← Multiset.coe_add, ← Multiset.coe_add]
  have hnd := (hperm.map Psi.time).nodup_iff.2 (by
    have h1 := hs.win.ops.1
    refine List.pairwise_map.2 (h1.imp fun h => ?_)
    exact ne_of_lt h)
  refine ⟨by norm_num [exGlobal], hnd, fun o ho => hs.win.ops.2 o (hperm.mem_iff.1 ho), ?_, ?_⟩
  · intro o ho
    have ho' : o ∈ exCode.env.D.cdagg s.cfg.M ++ exCode.env.D.cs s.cfg.M := by
      simpa [exGlobal] using ho
    exact hE.blocks _ hs.inv o ho'
  · change NoSmallFactor _ 0 _
    have h1 : (((exCode.env.D.cdagg s.cfg.M).map id ++ (exCode.env.D.cs s.cfg.M).map id).map Psi.time).Nodup := by
      rw [List.map_append] at hnd
      exact (List.nodup_append.1 hnd).1
    rw [List.map_append] at h1
    refine noSmall_of_ne _ _ _ hE.glob.lu_prod hE.glob.lu_len _ _ hE.glob.blocks _ _ ?_
      (List.nodup_append.1 h1).2.1 (List.nodup_append.1 h1).1 ?_
    · intro o ho
      have ho' : o ∈ exCode.env.D.cdagg s.cfg.M ++ exCode.env.D.cs s.cfg.M := by
        simpa [exGlobal] using ho
      exact hE.blocks _ hs.inv o ho'
    · change timeDet _ (List.map id _) (List.map id _) ≠ 0
      rw [List.map_id, List.map_id, ← hE.det_eq _ hs.inv]
      exact hs.sign.2.1

/-- Two sweeps with an insertion at each position, a trial of the insertion and a global update after
each of them: the demands of `C60_simulation` are met. -/
example : ∃ s0 s m, simInit exCode.env 1 0 0 0 false = some s0 ∧
    runSim exCode.env 1 0 (List.replicate 2 ⟨1, 1, fun _ => [exInsert, exInsert], [exInsert], [exGlobal]⟩) s0 = some s ∧
    SimInv exCode.env exCode.Inv (pmDet exCode.P) s ∧ s.cfg.M = .ok m := by
  have hE := C60_lawful exCode exCode_ok
  have hA : ∀ a ∈ List.replicate 2 (⟨1, 1, fun _ => [exInsert, exInsert], [exInsert], [exGlobal]⟩ :
      SweepArgs ℝ ℝ (CodeDet ℝ) (BK ℝ) (BK ℝ) (Fin (ebBrakets exCode.B exCode.p).length)),
      a.Always exCode.env (HybChange.PShape exCode.P) exCode.Inv (pmDet exCode.P) := by
    intro a ha
    rw [List.eq_of_mem_replicate ha]
    refine ⟨fun n u hu s hs => ?_, fun u hu s hs => ?_, fun g hg s hs => ?_⟩
    · obtain rfl : u = exInsert := by simpa using hu
      exact exInsert_ok s hs
    · obtain rfl : u = exInsert := by simpa using hu
      exact exInsert_ok s hs
    · obtain rfl : g = exGlobal := by simpa using hg
      exact exGlobal_ok s hs
  obtain ⟨s0, s, m, e0, e1, i, em, -⟩ := C60_simulation exCode exCode_ok 1 le_rfl 0 0 0 false 1
    (List.replicate 2 ⟨1, 1, fun _ => [exInsert, exInsert], [exInsert], [exGlobal]⟩)
    (fun s0 e0 => simOK_of hE _ _ _ hA s0 (by
      obtain ⟨s1, e1, i1, -⟩ := C60_start exCode exCode_ok (nMin := 1) le_rfl 0 0 0 false
      rw [e0] at e1
      obtain rfl := Option.some.inj e1
      exact i1))
  exact ⟨s0, s, m, e0, e1, i, em⟩

end CTHyb