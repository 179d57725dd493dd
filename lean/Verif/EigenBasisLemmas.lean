import Verif.EigenBasis
import Verif.SectorsProps
import Verif.SlidingWindowProps
import Mathlib.LinearAlgebra.Matrix.Hermitian
import Mathlib.LinearAlgebra.Matrix.Trace
import Mathlib.LinearAlgebra.Matrix.NonsingularInverse
import Mathlib.Analysis.Normed.Algebra.MatrixExponential
import Mathlib.Analysis.SpecialFunctions.Exponential

/-! Auxiliary lemmas for `EigenBasisProps`. -/

namespace CTHyb

open Matrix

variable {𝕜 : Type} [RCLike 𝕜] {N : ℕ}

/-- What is assumed of the eigensolver: for a Hermitian matrix it returns eigenvalues and a unitary
matrix of eigenvectors. -/
structure SolverOK (solve : DMat 𝕜 → List ℝ × DMat 𝕜) : Prop where
  len : ∀ A : DMat 𝕜, A.rows = A.cols → (∀ i j, A.v i j = star (A.v j i)) →
    (solve A).1.length = A.rows
  rows : ∀ A : DMat 𝕜, A.rows = A.cols → (∀ i j, A.v i j = star (A.v j i)) →
    (solve A).2.rows = A.rows
  cols : ∀ A : DMat 𝕜, A.rows = A.cols → (∀ i j, A.v i j = star (A.v j i)) →
    (solve A).2.cols = A.rows
  orth : ∀ A : DMat 𝕜, A.rows = A.cols → (∀ i j, A.v i j = star (A.v j i)) →
    ∀ a < A.rows, ∀ b < A.rows,
      ∑ i ∈ Finset.range A.rows, star ((solve A).2.v i a) * (solve A).2.v i b = if a = b then 1 else 0
  eig : ∀ A : DMat 𝕜, A.rows = A.cols → (∀ i j, A.v i j = star (A.v j i)) →
    ∀ i < A.rows, ∀ a < A.rows,
      ∑ j ∈ Finset.range A.rows, A.v i j * (solve A).2.v j a =
        (((solve A).1.getD a 0 : ℝ) : 𝕜) * (solve A).2.v i a

/-- The base class in a proper state: every state has a sector, no sector is
empty, the Hamiltonian is Hermitian and
conserves sectors, and each operator maps sectors to sectors (see C31). -/
structure ImpBase.Lawful (B : ImpBase 𝕜 N) : Prop where
  bound : ∀ x < N, B.sec x < B.ns
  inhab : ∀ s < B.ns, ∃ x < N, B.sec x = s
  herm : B.H.IsHermitian
  diag : ∀ r c : Fin N, B.H r c ≠ 0 → B.sec r = B.sec c
  maps : ∀ y f, MapsSectors B.sec (storedEntries nz (B.op y f))
  adj : ∀ f, B.op .creation f = (B.op .annihilation f)ᴴ

theorem nz_false (x : 𝕜) : nz x = false ↔ x = 0 := by simp [nz]

theorem nz_true (x : 𝕜) : nz x = true ↔ x ≠ 0 := by simp [nz]

variable {B : ImpBase 𝕜 N} {p : EBParams 𝕜}

theorem mem_nzEntries {M : Matrix (Fin N) (Fin N) 𝕜} {r c : Fin N} :
    (r.val, c.val) ∈ storedEntries nz M ↔ M r c ≠ 0 := by
  rw [mem_storedEntries]
  constructor
  · rintro ⟨r', c', h, e⟩
    simp only [Prod.mk.injEq, Fin.val_inj] at e
    rw [e.1, e.2]; exact (nz_true _).1 h
  · intro h; exact ⟨r, c, (nz_true _).2 h, rfl⟩

/-- Sum over the states of a sector. -/
theorem sum_sector {M : Type} [AddCommMonoid M] (sec : ℕ → ℕ) (s : ℕ) (g : ℕ → M) :
    (∑ x : Fin N, if sec x = s then g (indexInSector sec x) else 0) =
      ∑ i ∈ Finset.range (dimSector N sec s), g i := by
  have hb := (C31_numbering N ((Finset.range N).sup sec + 1) sec (fun x hx =>
    Nat.lt_succ_of_le (Finset.le_sup (f := sec) (Finset.mem_range.2 hx)))).1 s
  rw [Finset.sum_ite, Finset.sum_const_zero, add_zero]
  refine Finset.sum_bij (fun (x : Fin N) _ => indexInSector sec x) ?_ ?_ ?_ ?_
  · intro x hx
    exact Finset.mem_range.2 (hb.mapsTo ⟨x.isLt, by simpa using hx⟩)
  · intro x hx y hy e
    exact Fin.ext (hb.injOn ⟨x.isLt, by simpa using hx⟩ ⟨y.isLt, by simpa using hy⟩ e)
  · intro i hi
    obtain ⟨x, ⟨h1, h2⟩, e⟩ := hb.surjOn (Finset.mem_range.1 hi)
    exact ⟨⟨x, h1⟩, by simpa using h2, e⟩
  · intro x _; rfl

theorem exists_state (sec : ℕ → ℕ) {s i : ℕ} (hi : i < dimSector N sec s) :
    ∃ x : Fin N, sec x = s ∧ indexInSector sec x = i := by
  have hb := (C31_numbering N ((Finset.range N).sup sec + 1) sec (fun x hx =>
    Nat.lt_succ_of_le (Finset.le_sup (f := sec) (Finset.mem_range.2 hx)))).1 s
  obtain ⟨x, ⟨h1, h2⟩, e⟩ := hb.surjOn hi
  exact ⟨⟨x, h1⟩, h2, e⟩

theorem index_lt {sec : ℕ → ℕ} {s : ℕ} {x : Fin N} (h : sec x = s) :
    indexInSector sec x < dimSector N sec s := h ▸ indexInSector_lt x.isLt

/-- The block of the Hamiltonian holds its elements. -/
theorem block_ham (hB : B.Lawful) {s : ℕ} {x y : Fin N} (hx : B.sec x = s) (hy : B.sec y = s) :
    (B.block B.H s s).v (indexInSector B.sec x) (indexInSector B.sec y) = B.H x y := by
  unfold ImpBase.block DMat.ofFn
  simp only [if_pos (⟨index_lt hx, index_lt hy⟩ : indexInSector B.sec x < dimSector N B.sec s ∧ _)]
  have hm : MapsSectors B.sec (storedEntries nz B.H) := by
    intro e he e' he' h
    obtain ⟨r, c, h1, rfl⟩ := mem_storedEntries.1 he
    obtain ⟨r', c', h2, rfl⟩ := mem_storedEntries.1 he'
    have a := hB.diag r c ((nz_true _).1 h1)
    have b := hB.diag r' c' ((nz_true _).1 h2)
    simp only at h ⊢
    rw [a, b, h]
  have k := C31_blocks nz nz_false B.sec B.H hm x y
  by_cases hd : dstSector B.sec (storedEntries nz B.H) (B.sec y) = some (B.sec x)
  · have := (k.1 hd).1
    rw [hy] at this
    exact this
  · rw [k.2 hd]
    have hno : ∀ r c : Fin N, B.sec c = s → B.H r c = 0 := by
      intro r c hc
      by_contra hne
      apply hd
      have := (dstSector_spec B.sec _ hm s).1 _ (mem_nzEntries.2 hne) hc
      rw [hy, this]
      simp only [hB.diag r c hne, hc, hx]
    unfold sectorBlock
    have : ∀ z : 𝕜, z ∈ ((((List.finRange N).flatMap fun c =>
      ((List.finRange N).filter fun r => nz (B.H r c)).map fun r => (r, c)).filter
    (fun e => decide (B.sec e.2 = s ∧ indexInSector B.sec e.1 = indexInSector B.sec x ∧
      indexInSector B.sec e.2 = indexInSector B.sec y))).map fun e => B.H e.1 e.2) → z = 0 := by
      intro z hz
      simp only [List.mem_map, List.mem_filter, decide_eq_true_eq] at hz
      obtain ⟨e, ⟨-, h, -⟩, rfl⟩ := hz
      exact hno _ _ h
    exact List.sum_eq_zero this

theorem block_herm (hB : B.Lawful) (s : ℕ) (i j : ℕ) :
    (B.block B.H s s).v i j = star ((B.block B.H s s).v j i) := by
  by_cases h : i < dimSector N B.sec s ∧ j < dimSector N B.sec s
  · obtain ⟨x, hx, rfl⟩ := exists_state (N := N) B.sec h.1
    obtain ⟨y, hy, rfl⟩ := exists_state (N := N) B.sec h.2
    rw [block_ham hB hx hy, block_ham hB hy hx]
    exact (hB.herm.apply x y).symm
  · rw [(B.block B.H s s).supp i j h, (B.block B.H s s).supp j i (fun h' => h ⟨h'.2, h'.1⟩), star_zero]

/-! ### The full eigenbasis -/

/-- Number of states of a sector. -/
noncomputable abbrev secDim (B : ImpBase 𝕜 N) (s : ℕ) : ℕ := dimSector N B.sec s

/-- Eigenvectors of a sector as vectors of the full space. -/
noncomputable def fullVecs (B : ImpBase 𝕜 N) (p : EBParams 𝕜) (s : ℕ) :
    Matrix (Fin N) (Fin (secDim B s)) 𝕜 :=
  of fun x a => if B.sec x = s then (ebVecs0 B p s).v (indexInSector B.sec x) a else 0

/-- Their eigenvalues. -/
noncomputable def fullVal (B : ImpBase 𝕜 N) (p : EBParams 𝕜) (s a : ℕ) : ℝ :=
  (p.solve (B.block B.H s s)).1.getD a 0

theorem ebVals0_length {s : ℕ} (hs : s < B.ns) : (ebVals0 B p s).length = secDim B s := by
  simp [ebVals0, hs]

theorem ebVals0_getD {s : ℕ} (hs : s < B.ns) {a : ℕ} (ha : a < secDim B s) :
    (ebVals0 B p s).getD a 0 = fullVal B p s a := by
  rw [List.getD_eq_getElem?_getD, List.getElem?_eq_getElem (by rw [ebVals0_length hs]; exact ha),
    Option.getD_some]
  simp [ebVals0, hs, fullVal]

theorem fullVecs_orth (hB : B.Lawful) (hp : SolverOK p.solve) (s : ℕ) :
    (fullVecs B p s)ᴴ * fullVecs B p s = 1 := by
  ext a b
  simp only [mul_apply, conjTranspose_apply, fullVecs, of_apply]
  have : ∀ x : Fin N, star (if B.sec x = s then (ebVecs0 B p s).v (indexInSector B.sec x) a else 0) *
      (if B.sec x = s then (ebVecs0 B p s).v (indexInSector B.sec x) b else 0) =
      if B.sec x = s then (fun i => star ((ebVecs0 B p s).v i a) * (ebVecs0 B p s).v i b)
        (indexInSector B.sec x) else 0 := by
    intro x; split <;> simp
  have h := hp.orth (B.block B.H s s) rfl (block_herm hB s) a a.isLt b b.isLt
  refine ((Finset.sum_congr rfl fun x _ => this x).trans (sum_sector B.sec s
    fun i => star ((ebVecs0 B p s).v i a) * (ebVecs0 B p s).v i b)).trans (Eq.trans h ?_)
  simp [Matrix.one_apply, Fin.ext_iff]

theorem fullVecs_disj {s s' : ℕ} (h : s ≠ s') : (fullVecs B p s)ᴴ * fullVecs B p s' = 0 := by
  ext a b
  simp only [mul_apply, conjTranspose_apply, fullVecs, of_apply, Matrix.zero_apply]
  refine Finset.sum_eq_zero fun x _ => ?_
  by_cases hx : B.sec x = s
  · rw [if_neg (c := B.sec x = s') (by rw [hx]; exact h), mul_zero]
  · rw [if_neg (c := B.sec x = s) hx, star_zero, zero_mul]

theorem fullVecs_complete (hB : B.Lawful) (hp : SolverOK p.solve) :
    ∑ s ∈ Finset.range B.ns, fullVecs B p s * (fullVecs B p s)ᴴ = 1 := by
  -- completeness inside a sector
  have hin : ∀ s i j, i < secDim B s → j < secDim B s →
      ∑ a : Fin (secDim B s), (ebVecs0 B p s).v i a * star ((ebVecs0 B p s).v j a) =
        if i = j then 1 else 0 := by
    intro s i j hi hj
    set U : Matrix (Fin (secDim B s)) (Fin (secDim B s)) 𝕜 :=
      of fun i a => (ebVecs0 B p s).v i a with hU
    have h1 : Uᴴ * U = 1 := by
      ext a b
      simp only [mul_apply, conjTranspose_apply, hU, of_apply]
      have h := hp.orth (B.block B.H s s) rfl (block_herm hB s) a a.isLt b b.isLt
      rw [Finset.sum_range] at h
      refine Eq.trans h ?_
      simp [Matrix.one_apply, Fin.ext_iff]
    have h2 : U * Uᴴ = 1 := mul_eq_one_comm.1 h1
    have := congrFun (congrFun h2 ⟨i, hi⟩) ⟨j, hj⟩
    simp only [mul_apply, conjTranspose_apply, hU, of_apply, Matrix.one_apply, Fin.mk.injEq] at this
    exact this
  ext x y
  rw [Matrix.sum_apply]
  simp only [mul_apply, conjTranspose_apply, fullVecs, of_apply]
  rw [Finset.sum_eq_single (B.sec x)]
  · simp only [if_true]
    by_cases hy : B.sec y = B.sec x
    · simp only [if_pos hy]
      rw [hin _ _ _ (index_lt rfl) (index_lt hy), Matrix.one_apply]
      by_cases e : x = y
      · simp [e]
      · rw [if_neg e, if_neg]
        intro h
        exact e (Fin.ext (indexInSector_inj hy.symm h))
    · simp only [if_neg hy, star_zero, mul_zero, Finset.sum_const_zero]
      rw [Matrix.one_apply_ne]
      rintro rfl; exact hy rfl
  · intro s _ hs
    refine Finset.sum_eq_zero fun a _ => ?_
    rw [if_neg (fun h => hs h.symm), zero_mul]
  · intro h
    exact absurd (Finset.mem_range.2 (hB.bound x x.isLt)) h

theorem ham_fullVecs (hB : B.Lawful) (hp : SolverOK p.solve) (s : ℕ) (x : Fin N) (a : Fin (secDim B s)) :
    (B.H * fullVecs B p s) x a = ((fullVal B p s a : ℝ) : 𝕜) * fullVecs B p s x a := by
  simp only [mul_apply, fullVecs, of_apply]
  by_cases hx : B.sec x = s
  · rw [if_pos hx]
    have h := hp.eig (B.block B.H s s) rfl (block_herm hB s) _ (index_lt hx) a a.isLt
    refine Eq.trans ?_ h
    have e : (B.block B.H s s).rows = dimSector N B.sec s := rfl
    rw [e, ← sum_sector]
    refine Finset.sum_congr rfl fun y _ => ?_
    by_cases hy : B.sec y = s
    · rw [if_pos hy, if_pos hy, block_ham hB hx hy]; rfl
    · rw [if_neg hy, if_neg hy, mul_zero]
  · rw [if_neg hx, mul_zero]
    refine Finset.sum_eq_zero fun y _ => ?_
    by_cases hy : B.sec y = s
    · have : B.H x y = 0 := by
        by_contra h
        exact hx ((hB.diag x y h).trans hy)
      rw [this, zero_mul]
    · rw [if_neg hy, mul_zero]

/-! ### The kept eigenvectors -/

theorem keptIdx_nodup (l : List ℝ) (c : ℝ) : (keptIdx l c).Nodup := List.nodup_range.filter _

theorem mem_keptIdx {l : List ℝ} {c : ℝ} {a : ℕ} :
    a ∈ keptIdx l c ↔ a < l.length ∧ l.getD a 0 ≤ c := by
  simp [keptIdx]

/-- Number of kept states. -/
noncomputable abbrev keptDim (B : ImpBase 𝕜 N) (p : EBParams 𝕜) (s : ℕ) : ℕ := (ebKept B p s).length

theorem ebVals1_length (s : ℕ) : (ebVals1 B p s).length = keptDim B p s := by simp [ebVals1]

theorem ebVals_length (s : ℕ) : (ebVals B p s).length = keptDim B p s := by simp [ebVals, ebVals1]

theorem kept_mem {s : ℕ} {i : ℕ} (hi : i < keptDim B p s) :
    s < B.ns ∧ (ebKept B p s)[i] < secDim B s ∧ fullVal B p s (ebKept B p s)[i] ≤ ebCut B p := by
  have h := mem_keptIdx.1 (List.getElem_mem hi : (ebKept B p s)[i] ∈ ebKept B p s)
  have hs : s < B.ns := by
    by_contra hs
    rw [show ebVals0 B p s = [] by simp [ebVals0, hs]] at h
    simp at h
  rw [ebVals0_length hs] at h
  rw [ebVals0_getD hs h.1] at h
  exact ⟨hs, h.1, h.2⟩

theorem ebVals_getD {s i : ℕ} (hi : i < keptDim B p s) :
    (ebVals B p s).getD i 0 = fullVal B p s (ebKept B p s)[i] - ebRef B p := by
  obtain ⟨hs, h1, -⟩ := kept_mem hi
  rw [List.getD_eq_getElem?_getD, List.getElem?_eq_getElem (by rw [ebVals_length]; exact hi),
    Option.getD_some]
  simp only [ebVals, ebVals1, List.getElem_map]
  rw [ebVals0_getD hs h1]

theorem ebActive_iff (s : ℕ) : ebActive B p s = true ↔ 0 < keptDim B p s := by
  simp [ebActive, ebVals_length, Nat.pos_iff_ne_zero]

/-- Kept eigenvectors as vectors of the full space. -/
noncomputable def keptVecs (B : ImpBase 𝕜 N) (p : EBParams 𝕜) (s : ℕ) :
    Matrix (Fin N) (Fin (keptDim B p s)) 𝕜 :=
  of fun x i => if B.sec x = s then (ebVecs B p s).v (indexInSector B.sec x) i else 0

theorem ebVecs0_rows (hB : B.Lawful) (hp : SolverOK p.solve) (s : ℕ) :
    (ebVecs0 B p s).rows = secDim B s := hp.rows _ rfl (block_herm hB s)

theorem ebVecs_v (hB : B.Lawful) (hp : SolverOK p.solve) {s i j : ℕ} (hi : i < secDim B s)
    (hj : j < keptDim B p s) : (ebVecs B p s).v i j = (ebVecs0 B p s).v i (ebKept B p s)[j] := by
  unfold ebVecs
  rw [if_neg (by show ¬ keptDim B p s = 0; omega)]
  unfold DMat.selectCols DMat.ofFn
  simp only
  rw [if_pos ⟨by rw [ebVecs0_rows hB hp]; exact hi, hj⟩, List.getD_eq_getElem?_getD,
    List.getElem?_eq_getElem hj, Option.getD_some]

theorem keptVecs_apply (hB : B.Lawful) (hp : SolverOK p.solve) (s : ℕ) (x : Fin N)
    (i : Fin (keptDim B p s)) :
    keptVecs B p s x i = fullVecs B p s x ⟨(ebKept B p s)[i], (kept_mem i.isLt).2.1⟩ := by
  simp only [keptVecs, fullVecs, of_apply]
  by_cases hx : B.sec x = s
  · rw [if_pos hx, if_pos hx, ebVecs_v hB hp (index_lt hx) i.isLt]; rfl
  · rw [if_neg hx, if_neg hx]

theorem keptVecs_orth (hB : B.Lawful) (hp : SolverOK p.solve) (s : ℕ) :
    (keptVecs B p s)ᴴ * keptVecs B p s = 1 := by
  ext i j
  have h := congrFun (congrFun (fullVecs_orth hB hp s) ⟨_, (kept_mem (B := B) (p := p) i.isLt).2.1⟩)
    ⟨_, (kept_mem (B := B) (p := p) j.isLt).2.1⟩
  simp only [mul_apply, conjTranspose_apply, Matrix.one_apply, Fin.mk.injEq] at h ⊢
  simp only [keptVecs_apply hB hp]
  refine h.trans ?_
  have : ((ebKept B p s)[i.val] = (ebKept B p s)[j.val]) ↔ i = j := by
    have hnd : (ebKept B p s).Nodup := keptIdx_nodup _ _
    rw [hnd.getElem_inj_iff, Fin.ext_iff]
  simp only [this]

theorem keptVecs_disj {s s' : ℕ} (h : s ≠ s') : (keptVecs B p s)ᴴ * keptVecs B p s' = 0 := by
  ext a b
  simp only [mul_apply, conjTranspose_apply, keptVecs, of_apply, Matrix.zero_apply]
  refine Finset.sum_eq_zero fun x _ => ?_
  by_cases hx : B.sec x = s
  · rw [if_neg (c := B.sec x = s') (by rw [hx]; exact h), mul_zero]
  · rw [if_neg (c := B.sec x = s) hx, star_zero, zero_mul]

theorem ham_keptVecs (hB : B.Lawful) (hp : SolverOK p.solve) (s : ℕ) (x : Fin N)
    (i : Fin (keptDim B p s)) :
    (B.H * keptVecs B p s) x i =
      (((ebVals B p s).getD i 0 + ebRef B p : ℝ) : 𝕜) * keptVecs B p s x i := by
  have h := ham_fullVecs hB hp s x ⟨(ebKept B p s)[i], (kept_mem i.isLt).2.1⟩
  rw [ebVals_getD i.isLt, sub_add_cancel]
  simp only [mul_apply, keptVecs_apply hB hp] at h ⊢
  exact h

/-- Projector onto the kept states. -/
noncomputable def keptProj (B : ImpBase 𝕜 N) (p : EBParams 𝕜) : Matrix (Fin N) (Fin N) 𝕜 :=
  ∑ s ∈ Finset.range B.ns, keptVecs B p s * (keptVecs B p s)ᴴ

theorem keptProj_mul (hB : B.Lawful) (hp : SolverOK p.solve) (s : ℕ) :
    keptProj B p * keptVecs B p s = keptVecs B p s := by
  unfold keptProj
  rw [Matrix.sum_mul]
  by_cases hs : s < B.ns
  · rw [Finset.sum_eq_single_of_mem s (Finset.mem_range.2 hs)]
    · rw [Matrix.mul_assoc, keptVecs_orth hB hp, Matrix.mul_one]
    · intro s' _ h
      rw [Matrix.mul_assoc, keptVecs_disj h, Matrix.mul_zero]
  · have : keptVecs B p s = 0 := by
      ext x i
      exact absurd (kept_mem i.isLt).1 hs
    rw [this]; simp

set_option backward.isDefEq.respectTransparency false in
theorem exp_mulVec_eigen {𝕜 : Type} [RCLike 𝕜] {n : ℕ} (A : Matrix (Fin n) (Fin n) 𝕜) (v : Fin n → 𝕜) (c : 𝕜)
    (h : A *ᵥ v = c • v) : NormedSpace.exp A *ᵥ v = NormedSpace.exp c • v := by
  have hpow : ∀ k : ℕ, (A ^ k) *ᵥ v = c ^ k • v := by
    intro k
    induction k with
    | zero => simp
    | succ k ih => rw [pow_succ, ← mulVec_mulVec, h, mulVec_smul, ih, smul_smul, pow_succ, mul_comm]
  have h1 : HasSum (fun k : ℕ => ((k.factorial : 𝕜)⁻¹ • A ^ k)) (NormedSpace.exp A) :=
    open scoped Norms.Operator in NormedSpace.exp_series_hasSum_exp' (𝕂 := 𝕜) A
  have h2 : HasSum (fun k : ℕ => ((k.factorial : 𝕜)⁻¹ • A ^ k) *ᵥ v) (NormedSpace.exp A *ᵥ v) :=
    h1.map ((mulVecBilin 𝕜 𝕜).flip v).toAddMonoidHom (by
      show Continuous fun M : Matrix (Fin n) (Fin n) 𝕜 => M *ᵥ v
      fun_prop)
  have h3 : HasSum (fun k : ℕ => ((k.factorial : 𝕜)⁻¹ • c ^ k) • v) (NormedSpace.exp c • v) :=
    (NormedSpace.exp_series_hasSum_exp' (𝕂 := 𝕜) c).smul_const v
  refine h2.unique ?_
  convert h3 using 2 with k
  rw [smul_mulVec, hpow, smul_smul, smul_eq_mul]

theorem exp_ofReal (x : ℝ) : NormedSpace.exp ((x : ℝ) : 𝕜) = ((Real.exp x : ℝ) : 𝕜) := by
  rw [Real.exp_eq_exp_ℝ]
  exact (NormedSpace.map_exp (RCLike.ofRealAm (K := 𝕜)) RCLike.continuous_ofReal x).symm

/-! ### Operators between sectors -/

theorem conn_supp (hB : B.Lawful) {y : OpType} {f s : ℕ} {x z : Fin N} (hz : B.sec z = s)
    (h : B.conn0 y f s ≠ some (B.sec x)) : B.op y f x z = 0 := by
  subst hz
  exact (C31_blocks nz nz_false B.sec (B.op y f) (hB.maps y f) x z).2 h

theorem block_op (hB : B.Lawful) {y : OpType} {f s d : ℕ} (hd : B.conn0 y f s = some d) {x z : Fin N}
    (hx : B.sec x = d) (hz : B.sec z = s) :
    (B.block (B.op y f) d s).v (indexInSector B.sec x) (indexInSector B.sec z) = B.op y f x z := by
  unfold ImpBase.block DMat.ofFn
  simp only [if_pos (⟨index_lt hx, index_lt hz⟩ : indexInSector B.sec x < dimSector N B.sec d ∧ _)]
  subst hz hx
  exact ((C31_blocks nz nz_false B.sec (B.op y f) (hB.maps y f) x z).1 hd).1

theorem ebVecs_rows (hB : B.Lawful) (hp : SolverOK p.solve) {s : ℕ} (h : 0 < keptDim B p s) :
    (ebVecs B p s).rows = secDim B s := by
  unfold ebVecs
  rw [if_neg (by show ¬ keptDim B p s = 0; omega)]
  exact ebVecs0_rows hB hp s

theorem ebVecs_cols {s : ℕ} : (ebVecs B p s).cols = keptDim B p s := by
  unfold ebVecs
  split
  · rename_i h; exact h.symm
  · rfl

theorem ebConn_eq_some {y : OpType} {f s d : ℕ} :
    ebConn B p y f s = some d ↔ B.conn0 y f s = some d ∧ 0 < keptDim B p d := by
  simp only [ebConn, Option.filter_eq_some_iff, ebVals1_length, bne_iff_ne, Nat.pos_iff_ne_zero]

theorem ebOp_cols {y : OpType} {f s d : ℕ} (h : ebConn B p y f s = some d) (hs : 0 < keptDim B p s) :
    (ebOp B p y f s).cols = keptDim B p s := by
  have hd := (ebConn_eq_some.1 h).2
  simp only [ebOp, h, (ebActive_iff d).2 hd, (ebActive_iff s).2 hs, Bool.and_self, if_true]
  exact ebVecs_cols

theorem ebOp_rows {y : OpType} {f s d : ℕ} (h : ebConn B p y f s = some d) (hs : 0 < keptDim B p s) :
    (ebOp B p y f s).rows = keptDim B p d := by
  have hd := (ebConn_eq_some.1 h).2
  simp only [ebOp, h, (ebActive_iff d).2 hd, (ebActive_iff s).2 hs, Bool.and_self, if_true]
  exact ebVecs_cols

/-- The operator in the eigenbasis. -/
theorem ebOp_v (hB : B.Lawful) (hp : SolverOK p.solve) {y : OpType} {f s d : ℕ}
    (h : ebConn B p y f s = some d) (i : Fin (keptDim B p d)) (j : Fin (keptDim B p s)) :
    (ebOp B p y f s).v i j = ((keptVecs B p d)ᴴ * B.op y f * keptVecs B p s) i j := by
  obtain ⟨hc, hd⟩ := ebConn_eq_some.1 h
  have hs : 0 < keptDim B p s := Nat.pos_of_ne_zero (fun e => by have := j.isLt; omega)
  simp only [ebOp, h, (ebActive_iff d).2 hd, (ebActive_iff s).2 hs, Bool.and_self, if_true]
  simp only [DMat.mul, DMat.adj, mul_apply, conjTranspose_apply, keptVecs, of_apply]
  rw [show (B.block (B.op y f) d s).cols = dimSector N B.sec s from rfl, ← sum_sector (N := N) B.sec s]
  refine Finset.sum_congr rfl fun z _ => ?_
  by_cases hz : B.sec z = s
  · rw [if_pos hz, if_pos hz]
    congr 1
    rw [ebVecs_rows hB hp hd]
    show ∑ m ∈ Finset.range (dimSector N B.sec d), _ = _
    rw [← sum_sector (N := N) B.sec d]
    refine Finset.sum_congr rfl fun x _ => ?_
    by_cases hx : B.sec x = d
    · rw [if_pos hx, if_pos hx, block_op hB hc hx hz]
    · rw [if_neg hx, if_neg hx, star_zero, zero_mul]
  · rw [if_neg hz, if_neg hz, mul_zero]

/-! ### States as vectors of the full space -/

/-- The vectors (one per column) represented by a ket. -/
noncomputable def emb (B : ImpBase 𝕜 N) (p : EBParams 𝕜) (k : BK 𝕜) : Matrix (Fin N) ℕ 𝕜 :=
  match k.sector with
  | none => 0
  | some s => keptVecs B p s * of fun (i : Fin (keptDim B p s)) (j : ℕ) => k.obj.v i j

theorem obj_zero_of_invalid {k : BK 𝕜} (h : k.invalid = true) (hs : k.sector ≠ none) (i j : ℕ) :
    k.obj.v i j = 0 := by
  apply k.obj.supp
  rintro ⟨h1, h2⟩
  simp only [BK.invalid, Bool.or_eq_true, Option.isNone_iff_eq_none, beq_iff_eq] at h
  rcases h with (h | h) | h
  · exact hs h
  · omega
  · omega

theorem emb_zero {k : BK 𝕜} (h : ∀ i j, k.obj.v i j = 0) : emb B p k = 0 := by
  unfold emb
  split
  · rfl
  · have : (of fun (i : Fin (keptDim B p ‹ℕ›)) (j : ℕ) => k.obj.v i j) = 0 := by
      ext i j; exact h _ _
    rw [this, Matrix.mul_zero]

theorem emb_invalid {k : BK 𝕜} (h : k.invalid = true) : emb B p k = 0 := by
  by_cases hs : k.sector = none
  · unfold emb; rw [hs]
  · exact emb_zero (obj_zero_of_invalid h hs)

theorem emb_normalize (k : BK 𝕜) : emb B p k.normalize = emb B p k := by
  unfold BK.normalize
  split
  · rfl
  · split
    · rename_i h
      rw [emb_zero h]; rfl
    · rfl

theorem valid_sector {k : BK 𝕜} (h : ¬ k.invalid = true) : ∃ s, k.sector = some s := by
  cases hs : k.sector with
  | none => exact absurd (by simp [BK.invalid, hs]) h
  | some s => exact ⟨s, rfl⟩

/-- The energy measured from the reference. -/
noncomputable def shiftedHam (B : ImpBase 𝕜 N) (E0 : ℝ) : Matrix (Fin N) (Fin N) 𝕜 :=
  B.H - ((E0 : ℝ) : 𝕜) • 1

theorem exp_keptVecs (hB : B.Lawful) (hp : SolverOK p.solve) (t : ℝ) (s : ℕ) (x : Fin N)
    (i : Fin (keptDim B p s)) :
    (NormedSpace.exp (((-t : ℝ) : 𝕜) • shiftedHam B (ebRef B p)) * keptVecs B p s) x i =
      keptVecs B p s x i * ebExp B p s t i := by
  have h := exp_mulVec_eigen (((-t : ℝ) : 𝕜) • shiftedHam B (ebRef B p)) (fun x => keptVecs B p s x i)
    (((-t * (ebVals B p s).getD i 0 : ℝ)) : 𝕜) (by
      ext x
      have hk := ham_keptVecs hB hp s x i
      simp only [mul_apply] at hk
      have hk' : (B.H *ᵥ fun x => keptVecs B p s x i) x = _ := hk
      rw [shiftedHam, smul_mulVec, sub_mulVec, smul_mulVec, one_mulVec]
      simp only [Pi.smul_apply, Pi.sub_apply, hk', smul_eq_mul]
      push_cast
      ring)
  have := congrFun h x
  simp only [mulVec, dotProduct, Pi.smul_apply, smul_eq_mul, exp_ofReal] at this
  simp only [mul_apply]
  rw [this, mul_comm]
  rfl

theorem emb_prop (hB : B.Lawful) (hp : SolverOK p.solve) (t : ℝ) (k : BK 𝕜) :
    emb B p (ebPropK B p t k) =
      NormedSpace.exp (((-t : ℝ) : 𝕜) • shiftedHam B (ebRef B p)) * emb B p k := by
  by_cases hk : k.invalid = true
  · rw [ebPropK, if_pos hk, emb_invalid hk, Matrix.mul_zero]
  · obtain ⟨s, hs⟩ := valid_sector hk
    simp only [ebPropK, if_neg hk, hs, emb]
    rw [← Matrix.mul_assoc]
    ext x j
    rw [mul_apply, mul_apply]
    refine Finset.sum_congr rfl fun i _ => ?_
    rw [exp_keptVecs hB hp]
    simp only [of_apply, DMat.scaleRows]
    ring

theorem emb_op (hB : B.Lawful) (hp : SolverOK p.solve) (y : OpType) (f : ℕ) (k : BK 𝕜) :
    emb B p (ebOpK B p y f k) = keptProj B p * B.op y f * keptProj B p * emb B p k := by
  by_cases hk : k.invalid = true
  · rw [ebOpK, if_pos hk, emb_invalid hk, Matrix.mul_zero]
  · obtain ⟨s, hs⟩ := valid_sector hk
    have hproj : keptProj B p * emb B p k = emb B p k := by
      simp only [emb, hs]
      rw [← Matrix.mul_assoc, keptProj_mul hB hp]
    rw [Matrix.mul_assoc _ (keptProj B p), hproj]
    -- the operator leads to one sector
    have hother : ∀ d, B.conn0 y f s ≠ some d → (keptVecs B p d)ᴴ * (B.op y f * keptVecs B p s) = 0 := by
      intro d hd
      ext a b
      simp only [mul_apply, conjTranspose_apply, keptVecs, of_apply, Matrix.zero_apply]
      refine Finset.sum_eq_zero fun x _ => ?_
      by_cases hx : B.sec x = d
      · rw [Finset.sum_eq_zero, mul_zero]
        intro z _
        by_cases hz : B.sec z = s
        · rw [conn_supp hB hz (by rw [hx]; exact hd), zero_mul]
        · rw [if_neg hz, mul_zero]
      · rw [if_neg hx, star_zero, zero_mul]
    have hnone : (∀ d, 0 < keptDim B p d → B.conn0 y f s ≠ some d) →
        keptProj B p * (B.op y f * keptVecs B p s) = 0 := by
      intro h
      unfold keptProj
      rw [Matrix.sum_mul]
      refine Finset.sum_eq_zero fun d _ => ?_
      by_cases hd : 0 < keptDim B p d
      · rw [Matrix.mul_assoc, hother d (h d hd), Matrix.mul_zero]
      · ext a b
        rw [Matrix.mul_assoc, mul_apply]
        refine Finset.sum_eq_zero fun i _ => ?_
        have := i.isLt
        omega
    simp only [ebOpK, if_neg hk, hs]
    cases hc : ebConn B p y f s with
    | none =>
      have h0 : keptProj B p * (B.op y f * keptVecs B p s) = 0 := by
        apply hnone
        intro d hd h
        have := ebConn_eq_some.2 ⟨h, hd⟩
        rw [hc] at this
        exact absurd this (by simp)
      simp only [emb, hs, BK.nirvana]
      rw [Matrix.mul_assoc, ← Matrix.mul_assoc (B.op y f), ← Matrix.mul_assoc, h0, Matrix.zero_mul]
    | some d =>
      obtain ⟨hc0, hd⟩ := ebConn_eq_some.1 hc
      simp only [emb_normalize]
      simp only [emb, hs]
      have h1 : keptProj B p * (B.op y f * keptVecs B p s) =
          keptVecs B p d * ((keptVecs B p d)ᴴ * B.op y f * keptVecs B p s) := by
        unfold keptProj
        rw [Matrix.sum_mul]
        have hdns : d < B.ns := (kept_mem hd).1
        rw [Finset.sum_eq_single_of_mem d (Finset.mem_range.2 hdns)]
        · simp only [Matrix.mul_assoc]
        · intro d' _ h
          rw [Matrix.mul_assoc, hother d' (by rw [hc0]; intro e; exact h (Option.some.inj e).symm),
            Matrix.mul_zero]
      rw [Matrix.mul_assoc, ← Matrix.mul_assoc (B.op y f), ← Matrix.mul_assoc, h1, Matrix.mul_assoc]
      congr 1
      ext i j
      rw [mul_apply]
      simp only [of_apply, DMat.mul]
      by_cases hs0 : 0 < keptDim B p s
      · rw [ebOp_cols hc hs0, Finset.sum_range]
        refine Finset.sum_congr rfl fun a _ => ?_
        rw [ebOp_v hB hp hc i a]
      · have h0 : (ebOp B p y f s).cols = 0 := by
          have : ebActive B p s = false := by
            rw [← Bool.not_eq_true, ebActive_iff]; exact hs0
          simp only [ebOp, hc, this, Bool.and_false]
          rfl
        rw [h0, Finset.range_zero, Finset.sum_empty]
        symm
        refine Finset.sum_eq_zero fun a _ => ?_
        have := a.isLt
        omega

end CTHyb
