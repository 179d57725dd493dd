import Verif.EigenBasisLemmas
import Mathlib.Analysis.Matrix.Spectrum

/-! C57: the impurity model in the eigenbasis computes the trace over the Fock space. -/

namespace CTHyb

open Matrix

variable {𝕜 : Type} [RCLike 𝕜] {N : ℕ}

/-! ### Specification -/

/-- The (real) eigenvalues of a matrix. -/
def eigenvaluesOf (H : Matrix (Fin N) (Fin N) 𝕜) : Set ℝ :=
  {μ | ∃ v : Fin N → 𝕜, v ≠ 0 ∧ H *ᵥ v = ((μ : ℝ) : 𝕜) • v}

/-- `P` projects onto the eigenvectors with eigenvalue at most `c`. -/
def IsSpectralProj (H : Matrix (Fin N) (Fin N) 𝕜) (c : ℝ) (P : Matrix (Fin N) (Fin N) 𝕜) : Prop :=
  ∀ (v : Fin N → 𝕜) (μ : ℝ), H *ᵥ v = ((μ : ℝ) : 𝕜) • v →
    (μ ≤ c → P *ᵥ v = v) ∧ (c < μ → P *ᵥ v = 0)

/-- The time-ordered product
`exp(-(c-t_m)H) O_m exp(-(t_m-t_{m-1})H) … O_1 exp(-(t_1-a)H)` in the full space. -/
noncomputable def timeOrderedMat (H : Matrix (Fin N) (Fin N) 𝕜)
    (O : OpType → ℕ → Matrix (Fin N) (Fin N) 𝕜) (c : ℝ) :
    List (TPsi ℝ) → ℝ → Matrix (Fin N) (Fin N) 𝕜
  | [], a => NormedSpace.exp (((-(c - a) : ℝ) : 𝕜) • H)
  | o :: rest, a => timeOrderedMat H O c rest o.time.time * O o.type o.flavor *
      NormedSpace.exp (((-(o.time.time - a) : ℝ) : 𝕜) • H)

variable {B : ImpBase 𝕜 N} {p : EBParams 𝕜}

/-! ### The functions of the model satisfy what the window expects -/

theorem BK.ext' {k k' : BK 𝕜} (h : k.sector = k'.sector) (hr : k.obj.rows = k'.obj.rows)
    (hc : k.obj.cols = k'.obj.cols) (hv : ∀ i j, k.obj.v i j = k'.obj.v i j) : k = k' := by
  obtain ⟨s, r, c, v, _⟩ := k
  obtain ⟨s', r', c', v', _⟩ := k'
  simp only at h hr hc hv
  subst h hr hc
  have : v = v' := funext fun i => funext fun j => hv i j
  subst this
  rfl

theorem product_none {b k : BK 𝕜} (h : b.invalid = true ∨ k.invalid = true) : bkProduct b k = 0 := by
  unfold bkProduct
  rw [if_pos]
  rcases h with h | h <;> simp [h]

/-- The product without the test of validity. -/
theorem product_raw {b k : BK 𝕜} (hb : b.sector ≠ none) : bkProduct b k =
    if b.sector = k.sector then
      ∑ i ∈ Finset.range b.obj.rows, ∑ a ∈ Finset.range b.obj.cols, b.obj.v i a * k.obj.v a i
    else 0 := by
  by_cases hs : b.sector = k.sector
  · rw [if_pos hs]
    by_cases hbi : b.invalid = true
    · rw [product_none (Or.inl hbi)]
      symm
      refine Finset.sum_eq_zero fun i _ => Finset.sum_eq_zero fun a _ => ?_
      rw [obj_zero_of_invalid hbi hb, zero_mul]
    · by_cases hki : k.invalid = true
      · rw [product_none (Or.inr hki)]
        symm
        refine Finset.sum_eq_zero fun i _ => Finset.sum_eq_zero fun a _ => ?_
        rw [obj_zero_of_invalid hki (by rw [← hs]; exact hb), mul_zero]
      · unfold bkProduct
        rw [if_neg]
        simp [hbi, hki, hs]
  · rw [if_neg hs]
    unfold bkProduct
    rw [if_pos]
    simp [hs]

theorem product_normalizeK (b k : BK 𝕜) : bkProduct b k.normalize = bkProduct b k := by
  unfold BK.normalize
  split
  · rfl
  · split
    · rename_i h
      rw [product_none (Or.inr (by rfl : (BK.nirvana : BK 𝕜).invalid = true))]
      unfold bkProduct
      split
      · rfl
      · simp [h]
    · rfl

theorem product_normalizeB (b k : BK 𝕜) : bkProduct b.normalize k = bkProduct b k := by
  unfold BK.normalize
  split
  · rfl
  · split
    · rename_i h
      rw [product_none (Or.inl (by rfl : (BK.nirvana : BK 𝕜).invalid = true))]
      unfold bkProduct
      split
      · rfl
      · simp [h]
    · rfl

theorem rev0_spec (hB : B.Lawful) {y : OpType} {f s d : ℕ} :
    B.rev0 y f d = some s ↔ B.conn0 y f s = some d := by
  -- the adjoint operator leads back
  have hadj : ∀ (y : OpType) (x z : Fin N), B.op y f x z ≠ 0 → ∃ y', B.op y' f z x ≠ 0 := by
    intro y x z h
    cases y with
    | creation =>
      refine ⟨.annihilation, fun h' => h ?_⟩
      rw [hB.adj, conjTranspose_apply, h', star_zero]
    | annihilation =>
      refine ⟨.creation, fun h' => h ?_⟩
      have := h'
      rw [hB.adj, conjTranspose_apply] at this
      exact star_eq_zero.1 this
  have hadj' : ∀ (x z : Fin N), B.op y f x z ≠ 0 →
      B.op (match y with | .creation => .annihilation | .annihilation => .creation) f z x ≠ 0 := by
    intro x z h
    cases y with
    | creation =>
      intro h'
      refine h ?_
      rw [hB.adj, conjTranspose_apply, h', star_zero]
    | annihilation =>
      intro h'
      refine h ?_
      have := h'
      simp only at this
      rw [hB.adj, conjTranspose_apply] at this
      exact star_eq_zero.1 this
  have hex : ∀ s d, B.conn0 y f s = some d → ∃ x z : Fin N, B.op y f x z ≠ 0 ∧ B.sec x = d ∧
      B.sec z = s := by
    intro s d h
    by_contra hno
    have hn : ∀ e ∈ storedEntries nz (B.op y f), B.sec e.2 ≠ s := by
      intro e he hs
      obtain ⟨r, c, h1, rfl⟩ := mem_storedEntries.1 he
      have := (dstSector_spec B.sec _ (hB.maps y f) s).1 _ he hs
      have h2 : B.conn0 y f s = some (B.sec r) := this
      rw [h] at h2
      exact hno ⟨r, c, (nz_true _).1 h1, (Option.some.inj h2).symm, hs⟩
    have := (dstSector_spec B.sec _ (hB.maps y f) s).2 hn
    have h2 : B.conn0 y f s = none := this
    rw [h] at h2
    exact absurd h2 (by simp)
  have hinj : ∀ s s' d, B.conn0 y f s = some d → B.conn0 y f s' = some d → s = s' := by
    intro s s' d h h'
    obtain ⟨x, z, h1, h2, h3⟩ := hex s d h
    obtain ⟨x', z', h1', h2', h3'⟩ := hex s' d h'
    have := hB.maps _ f _ (mem_nzEntries.2 (hadj' x z h1)) _ (mem_nzEntries.2 (hadj' x' z' h1'))
      (h2.trans h2'.symm)
    simp only at this
    rw [h3, h3'] at this
    exact this
  have hlt : ∀ s d, B.conn0 y f s = some d → s < B.ns := by
    intro s d h
    obtain ⟨x, z, -, -, h3⟩ := hex s d h
    rw [← h3]; exact hB.bound z z.isLt
  have gen : ∀ (l : List ℕ) (r0 : Option ℕ),
      (∀ s ∈ l, B.conn0 y f s ≠ some d) ∧
        l.foldl (fun r s => if B.conn0 y f s = some d then some s else r) r0 = r0 ∨
      ∃ s ∈ l, B.conn0 y f s = some d ∧
        l.foldl (fun r s => if B.conn0 y f s = some d then some s else r) r0 = some s := by
    intro l
    induction l with
    | nil => intro r0; exact Or.inl ⟨by simp, rfl⟩
    | cons a l ih =>
      intro r0
      rw [List.foldl_cons]
      rcases ih (if B.conn0 y f a = some d then some a else r0) with ⟨h1, h2⟩ | ⟨s, h1, h2, h3⟩
      · by_cases ha : B.conn0 y f a = some d
        · right
          rw [if_pos ha] at h2 ⊢
          exact ⟨a, by simp, ha, h2⟩
        · left
          rw [if_neg ha] at h2 ⊢
          refine ⟨?_, h2⟩
          intro s hs
          rcases List.mem_cons.1 hs with rfl | hs
          · exact ha
          · exact h1 s hs
      · right
        exact ⟨s, by simp [h1], h2, h3⟩
  unfold ImpBase.rev0
  rcases gen (List.range B.ns) none with ⟨h1, h2⟩ | ⟨s', h1, h2, h3⟩
  · rw [h2]
    constructor
    · intro h; exact absurd h (by simp)
    · intro h; exact absurd h (h1 s (List.mem_range.2 (hlt s d h)))
  · rw [h3]
    constructor
    · intro h; rw [← Option.some.inj h]; exact h2
    · intro h; rw [hinj s s' d h h2]

theorem ebRev_eq_some (hB : B.Lawful) {y : OpType} {f s d : ℕ} :
    ebRev B p y f d = some s ↔ B.conn0 y f s = some d ∧ 0 < keptDim B p s := by
  simp only [ebRev, Option.filter_eq_some_iff, ebVals1_length, bne_iff_ne, Nat.pos_iff_ne_zero,
    rev0_spec hB]

theorem ebOp_inactive {y : OpType} {f s : ℕ}
    (h : ∀ d, B.conn0 y f s = some d → ¬ (0 < keptDim B p s ∧ 0 < keptDim B p d)) (i j : ℕ) :
    (ebOp B p y f s).v i j = 0 := by
  have : ebOp B p y f s = DMat.empty := by
    unfold ebOp
    split
    · rfl
    · rename_i d hd
      obtain ⟨h1, h2⟩ := ebConn_eq_some.1 hd
      rw [if_neg]
      rw [Bool.and_eq_true, ebActive_iff, ebActive_iff]
      exact fun h' => h d h1 ⟨h'.2, h'.1⟩
  rw [this]
  simp [DMat.empty, DMat.ofFn]

/-- **C57, duality.**  The functions for bras and kets in the eigenbasis satisfy what the sliding
window expects: evolution by a sum of times, bras dual to kets, invalid states count as zero. -/
theorem C57_lawful (hB : B.Lawful) : (ebEvol B p).Lawful where
  prop_zero := by
    intro k
    show ebPropK B p 0 k = k
    by_cases hk : k.invalid = true
    · rw [ebPropK, if_pos hk]
    · obtain ⟨s, hs⟩ := valid_sector hk
      simp only [ebPropK, if_neg hk, hs]
      refine BK.ext' hs.symm rfl rfl fun i j => ?_
      simp [DMat.scaleRows, ebExp]
  prop_add := by
    intro a b k
    show ebPropK B p (a + b) k = ebPropK B p b (ebPropK B p a k)
    by_cases hk : k.invalid = true
    · simp only [ebPropK, if_pos hk]
    · obtain ⟨s, hs⟩ := valid_sector hk
      have hk' : ¬ (⟨some s, k.obj.scaleRows (ebExp B p s a)⟩ : BK 𝕜).invalid = true := by
        simpa [BK.invalid, hs, DMat.scaleRows] using hk
      simp only [ebPropK, if_neg hk, hs]
      rw [if_neg hk']
      refine BK.ext' rfl rfl rfl fun i j => ?_
      simp only [DMat.scaleRows, ebExp, mul_assoc]
      rw [← RCLike.ofReal_mul, ← Real.exp_add]
      ring_nf
  adj_prop := by
    intro t b k
    show bkProduct (ebPropB B p t b) k = bkProduct b (ebPropK B p t k)
    by_cases hb : b.invalid = true
    · rw [ebPropB, if_pos hb, product_none (Or.inl hb), product_none (Or.inl hb)]
    · by_cases hk : k.invalid = true
      · rw [ebPropK, if_pos hk, product_none (Or.inr hk), product_none (Or.inr hk)]
      · obtain ⟨s, hs⟩ := valid_sector hk
        obtain ⟨d, hd⟩ := valid_sector hb
        simp only [ebPropB, ebPropK, if_neg hk, if_neg hb, hs, hd]
        rw [product_raw (by simp), product_raw (by simp [hd])]
        simp only [hd, hs]
        by_cases e : d = s
        · subst e
          rw [if_pos rfl, if_pos rfl]
          refine Finset.sum_congr rfl fun i _ => Finset.sum_congr rfl fun a _ => ?_
          simp only [DMat.scaleRows, DMat.scaleCols]
          ring
        · rw [if_neg (by simpa using e), if_neg (by simpa using e)]
  adj_op := by
    intro y f b k
    show bkProduct (ebOpB B p y f b) k = bkProduct b (ebOpK B p y f k)
    by_cases hb : b.invalid = true
    · rw [ebOpB, if_pos hb, product_none (Or.inl hb), product_none (Or.inl hb)]
    · by_cases hk : k.invalid = true
      · rw [ebOpK, if_pos hk, product_none (Or.inr hk), product_none (Or.inr hk)]
      · obtain ⟨s, hs⟩ := valid_sector hk
        obtain ⟨d, hd⟩ := valid_sector hb
        -- both sides as one sum
        have key : ∀ s', s' = s → ∀ d', d' = d →
            bkProduct ⟨some s', b.obj.mul (ebOp B p y f s)⟩ k =
            bkProduct b ⟨some d', (ebOp B p y f s).mul k.obj⟩ := by
          rintro s' rfl d' rfl
          rw [product_raw (by simp), product_raw (by simp [hd])]
          simp only [hd, hs, if_true]
          refine Finset.sum_congr rfl fun i _ => ?_
          simp only [DMat.mul, Finset.sum_mul, Finset.mul_sum]
          rw [Finset.sum_comm]
          refine Finset.sum_congr rfl fun a _ => Finset.sum_congr rfl fun c _ => ?_
          ring
        simp only [ebOpB, ebOpK, if_neg hk, if_neg hb, hs, hd]
        by_cases hc : B.conn0 y f s = some d ∧ 0 < keptDim B p s ∧ 0 < keptDim B p d
        · rw [ebConn_eq_some.2 ⟨hc.1, hc.2.2⟩, (ebRev_eq_some hB).2 ⟨hc.1, hc.2.1⟩]
          simp only [product_normalizeB, product_normalizeK]
          exact key s rfl d rfl
        · have hz : B.conn0 y f s = some d → ∀ i j, (ebOp B p y f s).v i j = 0 := by
            intro h0
            apply ebOp_inactive
            intro d' hd' hh
            rw [h0] at hd'
            rw [← Option.some.inj hd'] at hh
            exact hc ⟨h0, hh⟩
          have hl : bkProduct (match ebRev B p y f d with
              | none => BK.nirvana
              | some s => BK.normalize ⟨some s, b.obj.mul (ebOp B p y f s)⟩) k = 0 := by
            cases hr : ebRev B p y f d with
            | none => exact product_none (Or.inl rfl)
            | some s' =>
              obtain ⟨h1, -⟩ := (ebRev_eq_some hB).1 hr
              simp only [product_normalizeB]
              rw [product_raw (by simp)]
              by_cases e : s' = s
              · subst e
                simp [DMat.mul, hz h1]
              · rw [if_neg]
                simpa [hs] using e
          have hrr : bkProduct b (match ebConn B p y f s with
              | none => BK.nirvana
              | some d => BK.normalize ⟨some d, (ebOp B p y f s).mul k.obj⟩) = 0 := by
            cases hr : ebConn B p y f s with
            | none => exact product_none (Or.inr rfl)
            | some d' =>
              obtain ⟨h1, -⟩ := ebConn_eq_some.1 hr
              simp only [product_normalizeK]
              rw [product_raw (by simp [hd])]
              by_cases e : d' = d
              · subst e
                simp [DMat.mul, hz h1]
              · rw [if_neg]
                simpa [hd] using fun h => e h.symm
          exact Eq.trans hl hrr.symm
  invK_prop := by
    intro t k h
    exact if_pos h
  invK_op := by
    intro y f k h
    exact if_pos h
  invK_zero := fun b k h => product_none (Or.inr h)
  invB_zero := fun b k h => product_none (Or.inl h)

/-! ### The spectrum -/

theorem fullVal_eigen (hB : B.Lawful) (hp : SolverOK p.solve) {s a : ℕ} (ha : a < secDim B s) :
    fullVal B p s a ∈ eigenvaluesOf B.H := by
  refine ⟨fun x => fullVecs B p s x ⟨a, ha⟩, ?_, ?_⟩
  · intro h
    have := congrFun (congrFun (fullVecs_orth hB hp s) ⟨a, ha⟩) ⟨a, ha⟩
    simp only [mul_apply, conjTranspose_apply, one_apply_eq] at this
    have h0 : ∀ x, fullVecs B p s x ⟨a, ha⟩ = 0 := fun x => congrFun h x
    simp [h0] at this
  · ext x
    have := ham_fullVecs hB hp s x ⟨a, ha⟩
    simp only [mul_apply] at this
    simpa [mulVec, dotProduct] using this

/-- Components of an eigenvector of `H`. -/
theorem component_eigen (hB : B.Lawful) (hp : SolverOK p.solve) {v : Fin N → 𝕜} {μ : ℝ}
    (hv : B.H *ᵥ v = ((μ : ℝ) : 𝕜) • v) (s : ℕ) (a : Fin (secDim B s))
    (h : ((fullVecs B p s)ᴴ *ᵥ v) a ≠ 0) : fullVal B p s a = μ := by
  have h1 : ((fullVecs B p s)ᴴ *ᵥ (B.H *ᵥ v)) a = ((μ : ℝ) : 𝕜) * ((fullVecs B p s)ᴴ *ᵥ v) a := by
    rw [hv, mulVec_smul]; rfl
  have h2 : (fullVecs B p s)ᴴ * B.H = (B.H * fullVecs B p s)ᴴ := by
    rw [conjTranspose_mul, hB.herm.eq]
  rw [mulVec_mulVec, h2] at h1
  have h3 : ((B.H * fullVecs B p s)ᴴ *ᵥ v) a =
      ((fullVal B p s a : ℝ) : 𝕜) * ((fullVecs B p s)ᴴ *ᵥ v) a := by
    simp only [mulVec, dotProduct, conjTranspose_apply, Finset.mul_sum]
    refine Finset.sum_congr rfl fun x _ => ?_
    rw [ham_fullVecs hB hp, star_mul']
    simp only [RCLike.star_def, RCLike.conj_ofReal]
    ring
  rw [h3] at h1
  have := mul_right_cancel₀ h h1
  exact_mod_cast this

theorem complete_vec (hB : B.Lawful) (hp : SolverOK p.solve) (v : Fin N → 𝕜) :
    ∑ s ∈ Finset.range B.ns, fullVecs B p s *ᵥ ((fullVecs B p s)ᴴ *ᵥ v) = v := by
  have := congrArg (· *ᵥ v) (fullVecs_complete hB hp)
  simp only [Matrix.sum_mulVec, one_mulVec, ← mulVec_mulVec] at this
  exact this

/-- Projector onto a set of eigenvectors. -/
noncomputable def selProj (B : ImpBase 𝕜 N) (p : EBParams 𝕜) (sel : ℕ → ℕ → Prop)
    [∀ s a, Decidable (sel s a)] : Matrix (Fin N) (Fin N) 𝕜 :=
  ∑ s ∈ Finset.range B.ns,
    fullVecs B p s * diagonal (fun a : Fin (secDim B s) => if sel s a then (1 : 𝕜) else 0) *
      (fullVecs B p s)ᴴ

theorem selProj_spectral (hB : B.Lawful) (hp : SolverOK p.solve) (c : ℝ) (sel : ℕ → ℕ → Prop)
    [∀ s a, Decidable (sel s a)]
    (h : ∀ s < B.ns, ∀ a < secDim B s, sel s a ↔ fullVal B p s a ≤ c) :
    IsSpectralProj B.H c (selProj B p sel) := by
  intro v μ hv
  have hexp : selProj B p sel *ᵥ v = ∑ s ∈ Finset.range B.ns,
      fullVecs B p s *ᵥ (fun a => (if sel s a then (1 : 𝕜) else 0) * ((fullVecs B p s)ᴴ *ᵥ v) a) := by
    unfold selProj
    rw [Matrix.sum_mulVec]
    refine Finset.sum_congr rfl fun s _ => ?_
    rw [← mulVec_mulVec, ← mulVec_mulVec]
    congr 1
    ext a
    rw [mulVec_diagonal]
  constructor
  · intro hc
    rw [hexp]
    refine Eq.trans (Finset.sum_congr rfl fun s hs => ?_) (complete_vec hB hp v)
    congr 1
    ext a
    by_cases h0 : ((fullVecs B p s)ᴴ *ᵥ v) a = 0
    · rw [h0, mul_zero]
    · have := component_eigen hB hp hv s a h0
      rw [if_pos ((h s (Finset.mem_range.1 hs) a a.isLt).2 (by rw [this]; exact hc)), one_mul]
  · intro hc
    rw [hexp]
    refine Finset.sum_eq_zero fun s hs => ?_
    rw [show (fun a : Fin (secDim B s) => (if sel s a then (1 : 𝕜) else 0) *
      ((fullVecs B p s)ᴴ *ᵥ v) a) = 0 from ?_, mulVec_zero]
    ext a
    by_cases h0 : ((fullVecs B p s)ᴴ *ᵥ v) a = 0
    · rw [h0, mul_zero]; rfl
    · have := component_eigen hB hp hv s a h0
      rw [if_neg (fun hsel => absurd ((h s (Finset.mem_range.1 hs) a a.isLt).1 hsel)
        (by rw [this]; exact not_le.2 hc)), zero_mul]
      rfl

theorem minElem_spec {l : List ℝ} (h : l ≠ []) : ∃ m ∈ l, minElem l = some m ∧ ∀ e ∈ l, m ≤ e := by
  obtain ⟨a, l, rfl⟩ := List.exists_cons_of_ne_nil h
  have gen : ∀ (l : List ℝ) (a : ℝ), l.foldl min a ∈ a :: l ∧ ∀ e ∈ a :: l, l.foldl min a ≤ e := by
    intro l
    induction l with
    | nil => intro a; simp
    | cons b l ih =>
      intro a
      obtain ⟨h1, h2⟩ := ih (min a b)
      rw [List.foldl_cons]
      constructor
      · rcases List.mem_cons.1 h1 with h | h
        · rw [h]
          rcases min_choice a b with h' | h' <;> rw [h'] <;> simp
        · simp [h]
      · intro e he
        have h0 := h2 (min a b) (by simp)
        rcases List.mem_cons.1 he with rfl | he
        · exact h0.trans (min_le_left _ _)
        · rcases List.mem_cons.1 he with rfl | he
          · exact h0.trans (min_le_right _ _)
          · exact h2 e (by simp [he])
  exact ⟨_, (gen l a).1, rfl, (gen l a).2⟩

theorem minEnergy_spec (ns : ℕ) (vals : ℕ → List ℝ) {s0 : ℕ} (h0 : s0 < ns) (hv : vals s0 ≠ []) :
    ∃ m, minEnergy ns vals = some m ∧ (∃ s < ns, m ∈ vals s) ∧ ∀ s < ns, ∀ e ∈ vals s, m ≤ e := by
  have gen : ∀ (l : List ℕ) (acc : Option ℝ),
      match l.foldl (fun acc s =>
        match minElem (vals s) with
        | none => acc
        | some m => match acc with
          | none => some m
          | some a => some (min a m)) acc with
      | none => acc = none ∧ ∀ s ∈ l, vals s = []
      | some m => (acc = some m ∨ ∃ s ∈ l, m ∈ vals s) ∧ (∀ a, acc = some a → m ≤ a) ∧
          ∀ s ∈ l, ∀ e ∈ vals s, m ≤ e := by
    intro l
    induction l with
    | nil => intro acc; cases acc <;> simp
    | cons s l ih =>
      intro acc
      rw [List.foldl_cons]
      by_cases hs : vals s = []
      · have hn : minElem (vals s) = none := by rw [hs]; rfl
        simp only [hn]
        have := ih acc
        split at this
        · rename_i h
          rw [h]
          refine ⟨this.1, ?_⟩
          intro s' hs'
          rcases List.mem_cons.1 hs' with rfl | hs'
          · exact hs
          · exact this.2 s' hs'
        · rename_i m h
          rw [h]
          obtain ⟨h1, h2, h3⟩ := this
          refine ⟨?_, h2, ?_⟩
          · rcases h1 with h1 | ⟨s', h1, h1'⟩
            · exact Or.inl h1
            · exact Or.inr ⟨s', by simp [h1], h1'⟩
          · intro s' hs'
            rcases List.mem_cons.1 hs' with rfl | hs'
            · rw [hs]; simp
            · exact h3 s' hs'
      · obtain ⟨m0, hm0, e0, hle⟩ := minElem_spec hs
        simp only [e0]
        set acc' : Option ℝ := (match acc with
          | none => some m0
          | some a => some (min a m0)) with hacc
        have := ih acc'
        have ha : ∃ a', acc' = some a' ∧ a' ≤ m0 ∧ (a' = m0 ∨ acc = some a') ∧
            ∀ a, acc = some a → a' ≤ a := by
          cases acc with
          | none => exact ⟨m0, rfl, le_refl _, Or.inl rfl, by simp⟩
          | some a =>
            refine ⟨min a m0, rfl, min_le_right _ _, ?_, ?_⟩
            · rcases min_choice a m0 with h | h
              · exact Or.inr (by rw [h])
              · exact Or.inl h
            · intro a1 h1; rw [← Option.some.inj h1]; exact min_le_left _ _
        obtain ⟨a', h1, h2, h3, h4⟩ := ha
        split at this
        · rw [h1] at this; exact absurd this.1 (by simp)
        · rename_i m h
          obtain ⟨k1, k2, k3⟩ := this
          have hma : m ≤ a' := k2 a' h1
          refine ⟨?_, fun a ha => hma.trans (h4 a ha), ?_⟩
          · rcases k1 with k1 | ⟨s', k1, k1'⟩
            · have : a' = m := by rw [h1] at k1; exact Option.some.inj k1
              subst this
              rcases h3 with h3 | h3
              · exact Or.inr ⟨s, by simp, by rw [h3]; exact hm0⟩
              · exact Or.inl h3
            · exact Or.inr ⟨s', by simp [k1], k1'⟩
          · intro s' hs'
            rcases List.mem_cons.1 hs' with rfl | hs'
            · intro e he; exact (hma.trans h2).trans (hle e he)
            · exact k3 s' hs'
  have := gen (List.range ns) none
  unfold minEnergy
  split at this
  · exact absurd (this.2 s0 (List.mem_range.2 h0)) hv
  · rename_i m h
    refine ⟨m, h, ?_, fun s hs => this.2.2 s (List.mem_range.2 hs)⟩
    rcases this.1 with h' | ⟨s, h', h''⟩
    · exact absurd h' (by simp)
    · exact ⟨s, List.mem_range.1 h', h''⟩

theorem mem_ebVals0 {s : ℕ} {e : ℝ} :
    e ∈ ebVals0 B p s ↔ s < B.ns ∧ ∃ a < secDim B s, e = fullVal B p s a := by
  by_cases hs : s < B.ns
  · simp only [ebVals0, hs, if_true, List.mem_map, List.mem_range, true_and, fullVal]
    constructor
    · rintro ⟨a, h, rfl⟩; exact ⟨a, h, rfl⟩
    · rintro ⟨a, h, rfl⟩; exact ⟨a, h, rfl⟩
  · simp [ebVals0, hs]

theorem mem_ebVals1 {s : ℕ} {e : ℝ} :
    e ∈ ebVals1 B p s ↔ s < B.ns ∧ ∃ a < secDim B s, e = fullVal B p s a ∧ e ≤ ebCut B p := by
  simp only [ebVals1, List.mem_map, ebKept, mem_keptIdx]
  constructor
  · rintro ⟨a, ⟨h1, h2⟩, rfl⟩
    have hs : s < B.ns := by
      by_contra hs
      rw [show ebVals0 B p s = [] by simp [ebVals0, hs]] at h1
      simp at h1
    rw [ebVals0_length hs] at h1
    rw [ebVals0_getD hs h1] at h2 ⊢
    exact ⟨hs, a, h1, rfl, h2⟩
  · rintro ⟨hs, a, h1, rfl, h2⟩
    exact ⟨a, ⟨by rw [ebVals0_length hs]; exact h1, by rw [ebVals0_getD hs h1]; exact h2⟩,
      ebVals0_getD hs h1⟩

theorem secDim_pos (hB : B.Lawful) {s : ℕ} (hs : s < B.ns) : 0 < secDim B s := by
  obtain ⟨x, hx, rfl⟩ := hB.inhab s hs
  exact lt_of_le_of_lt (Nat.zero_le _) (indexInSector_lt hx)

/-- The reference energy and both cutoffs. -/
theorem ref_spec (hB : B.Lawful) (hN : 0 < N) (hin : 0 ≤ p.inner) :
    (∃ s < B.ns, ∃ a < secDim B s, ebRef B p = fullVal B p s a) ∧
    (∀ s < B.ns, ∀ a < secDim B s, ebRef B p ≤ fullVal B p s a) ∧
    ebCut B p = ebRef B p + p.inner ∧ ebCutOuter B p = p.outer := by
  have hs0 : B.sec 0 < B.ns := hB.bound 0 hN
  have hd0 := secDim_pos hB hs0
  have hne : ebVals0 B p (B.sec 0) ≠ [] := by
    intro h
    have := ebVals0_length (p := p) hs0
    rw [h] at this
    simp at this
    omega
  obtain ⟨m, e, ⟨s1, hs1, hm1⟩, hle⟩ := minEnergy_spec B.ns (ebVals0 B p) hs0 hne
  have hcut : ebCut B p = m + p.inner := by rw [ebCut, e]; rfl
  obtain ⟨-, a1, ha1, hma1⟩ := mem_ebVals0.1 hm1
  have hm1' : m ∈ ebVals1 B p s1 :=
    mem_ebVals1.2 ⟨hs1, a1, ha1, hma1, by rw [hcut]; linarith⟩
  obtain ⟨m', e', ⟨s2, hs2, hm2⟩, hle'⟩ := minEnergy_spec B.ns (ebVals1 B p) hs1
    (List.ne_nil_of_mem hm1')
  have hmm : m' = m := by
    apply le_antisymm (hle' s1 hs1 m hm1')
    obtain ⟨-, a, ha, h1, -⟩ := mem_ebVals1.1 hm2
    exact hle s2 hs2 m' (mem_ebVals0.2 ⟨hs2, a, ha, h1⟩)
  have href : ebRef B p = m := by rw [ebRef, e', hmm]; rfl
  have hlow : ∀ s < B.ns, ∀ a < secDim B s, ebRef B p ≤ fullVal B p s a := by
    intro s hs a ha
    rw [href]
    exact hle s hs _ (mem_ebVals0.2 ⟨hs, a, ha, rfl⟩)
  refine ⟨⟨s1, hs1, a1, ha1, by rw [href, hma1]⟩, hlow, by rw [hcut, href], ?_⟩
  -- the lowest `min_eigenval_sector` is zero
  have hms : ∀ s < B.ns, ∃ a < secDim B s, ebMinSec B p s = fullVal B p s a - ebRef B p := by
    intro s hs
    unfold ebMinSec minSectors
    by_cases h1 : ebVals1 B p s = []
    · have h0 : ebVals0 B p s ≠ [] := by
        intro h
        have := ebVals0_length (p := p) hs
        have hd := secDim_pos hB hs
        rw [h] at this
        simp at this
        omega
      obtain ⟨z, hz, ez, -⟩ := minElem_spec h0
      rw [h1, ez]
      obtain ⟨-, a, ha, rfl⟩ := mem_ebVals0.1 hz
      exact ⟨a, ha, rfl⟩
    · obtain ⟨z, hz, ez, -⟩ := minElem_spec h1
      rw [ez]
      obtain ⟨-, a, ha, rfl, -⟩ := mem_ebVals1.1 hz
      exact ⟨a, ha, rfl⟩
  have hz1 : ebMinSec B p s1 = 0 := by
    obtain ⟨z, hz, ez, hzle⟩ := minElem_spec (List.ne_nil_of_mem hm1')
    unfold ebMinSec minSectors
    rw [ez, Option.getD_some, href]
    have h1 := hzle m hm1'
    have h2 := hle' s1 hs1 z hz
    rw [hmm] at h2
    linarith
  have hne2 : (List.range B.ns).map (ebMinSec B p) ≠ [] :=
    List.ne_nil_of_mem (List.mem_map.2 ⟨s1, List.mem_range.2 hs1, rfl⟩)
  obtain ⟨z, hz, ez, hzle⟩ := minElem_spec hne2
  have h1 : z ≤ 0 := by
    rw [← hz1]
    exact hzle _ (List.mem_map.2 ⟨s1, List.mem_range.2 hs1, rfl⟩)
  have h2 : 0 ≤ z := by
    obtain ⟨s, hs, rfl⟩ := List.mem_map.1 hz
    obtain ⟨a, ha, h⟩ := hms s (List.mem_range.1 hs)
    rw [h]
    have := hlow s (List.mem_range.1 hs) a ha
    linarith
  rw [ebCutOuter, ez, Option.getD_some, le_antisymm h1 h2, add_zero]

theorem ref_least (hB : B.Lawful) (hp : SolverOK p.solve) (hN : 0 < N) (hin : 0 ≤ p.inner) :
    IsLeast (eigenvaluesOf B.H) (ebRef B p) := by
  obtain ⟨⟨s, hs, a, ha, e⟩, hlow, -, -⟩ := ref_spec (p := p) hB hN hin
  refine ⟨by rw [e]; exact fullVal_eigen hB hp ha, ?_⟩
  rintro μ ⟨v, hv0, hv⟩
  by_contra hlt
  apply hv0
  rw [← complete_vec hB hp v]
  refine Finset.sum_eq_zero fun s hs => ?_
  rw [show (fullVecs B p s)ᴴ *ᵥ v = 0 from ?_, mulVec_zero]
  ext a
  by_contra h
  have := component_eigen hB hp hv s a h
  have h2 := hlow s (Finset.mem_range.1 hs) a a.isLt
  rw [this] at h2
  exact hlt h2

/-! ### The trace -/

theorem sum_sel {M : Type} [AddCommMonoid M] (l : List ℕ) (hl : l.Nodup) (n : ℕ) (hn : ∀ a ∈ l, a < n)
    (F : ℕ → M) : ∑ i : Fin l.length, F l[i] = ∑ a : Fin n, if a.val ∈ l then F a else 0 := by
  have h1 : ∑ i : Fin l.length, F l[i] = (l.map F).sum := by
    rw [← Fin.sum_univ_getElem]
    refine (Fin.sum_congr' (fun i => (l.map F)[i]) (List.length_map F).symm).symm.trans ?_ |>.symm
    simp
  rw [h1, ← List.sum_toFinset F hl, ← Fin.sum_univ_eq_sum_range (fun a => if a ∈ l then F a else 0) n |>.symm,
    Finset.sum_ite, Finset.sum_const_zero, add_zero]
  refine Finset.sum_congr ?_ fun _ _ => rfl
  ext a
  simp only [List.mem_toFinset, Finset.mem_filter, Finset.mem_range]
  exact ⟨fun h => ⟨hn a h, h⟩, fun h => h.2⟩

/-- Projectors onto some of the kept vectors in terms of the full basis. -/
theorem kept_diag (hB : B.Lawful) (hp : SolverOK p.solve) (s : ℕ) (q : ℕ → Prop) [DecidablePred q] :
    keptVecs B p s * diagonal (fun i : Fin (keptDim B p s) => if q (ebKept B p s)[i] then (1 : 𝕜) else 0) *
      (keptVecs B p s)ᴴ =
    fullVecs B p s * diagonal (fun a : Fin (secDim B s) =>
      if a.val ∈ ebKept B p s ∧ q a then (1 : 𝕜) else 0) * (fullVecs B p s)ᴴ := by
  ext x y
  rw [mul_apply, mul_apply]
  simp only [mul_diagonal, conjTranspose_apply, keptVecs_apply hB hp]
  simp only [fullVecs, of_apply]
  have h := sum_sel (ebKept B p s) (keptIdx_nodup _ _) (secDim B s)
    (fun a ha => by
      obtain ⟨i, hi, rfl⟩ := List.getElem_of_mem ha
      exact (kept_mem hi).2.1)
    (fun a => (if B.sec x = s then (ebVecs0 B p s).v (indexInSector B.sec x) a else 0) *
      (if q a then (1 : 𝕜) else 0) *
      star (if B.sec y = s then (ebVecs0 B p s).v (indexInSector B.sec y) a else 0))
  refine Eq.trans h (Finset.sum_congr rfl fun a _ => ?_)
  by_cases h1 : a.val ∈ ebKept B p s
  · by_cases h2 : q a <;> simp [h1, h2]
  · simp [h1]

open Classical in
theorem keptProj_eq (hB : B.Lawful) (hp : SolverOK p.solve) :
    keptProj B p = selProj B p (fun s a => a ∈ ebKept B p s) := by
  unfold keptProj selProj
  refine Finset.sum_congr rfl fun s _ => ?_
  have h := kept_diag hB hp s (fun _ => True)
  simp only [if_true, and_true, diagonal_one, Matrix.mul_one] at h
  exact h

theorem mem_ebKept {s a : ℕ} (hs : s < B.ns) (ha : a < secDim B s) :
    a ∈ ebKept B p s ↔ fullVal B p s a ≤ ebCut B p := by
  rw [ebKept, mem_keptIdx, ebVals0_length hs, ebVals0_getD hs ha]
  exact ⟨fun h => h.2, fun h => ⟨ha, h⟩⟩

theorem keptProj_spectral (hB : B.Lawful) (hp : SolverOK p.solve) :
    IsSpectralProj B.H (ebCut B p) (keptProj B p) := by
  classical
  rw [keptProj_eq hB hp]
  exact selProj_spectral hB hp _ _ fun s hs a ha => mem_ebKept hs ha

open Classical in
/-- Projector onto the outer states. -/
noncomputable def outerProj (B : ImpBase 𝕜 N) (p : EBParams 𝕜) : Matrix (Fin N) (Fin N) 𝕜 :=
  selProj B p (fun s a => a ∈ ebKept B p s ∧ fullVal B p s a - ebRef B p ≤ ebCutOuter B p)

theorem outerProj_spectral (hB : B.Lawful) (hp : SolverOK p.solve) (hN : 0 < N) (hin : 0 ≤ p.inner) :
    IsSpectralProj B.H (ebRef B p + min p.inner p.outer) (outerProj B p) := by
  classical
  obtain ⟨-, -, h1, h2⟩ := ref_spec (p := p) hB hN hin
  refine selProj_spectral hB hp _ _ fun s hs a ha => ?_
  rw [mem_ebKept hs ha, h1, h2, ← min_add_add_left, le_min_iff]
  constructor
  · rintro ⟨a, b⟩; exact ⟨a, by linarith⟩
  · rintro ⟨a, b⟩; exact ⟨a, by linarith⟩

theorem emb_timeOrdered (hB : B.Lawful) (hp : SolverOK p.solve) (c : ℝ) (l : List (TPsi ℝ)) (a : ℝ)
    (k : BK 𝕜) : emb B p (timeOrdered (ebEvol B p) c l a k) =
      timeOrderedMat (shiftedHam B (ebRef B p)) (fun y f => keptProj B p * B.op y f * keptProj B p)
        c l a * emb B p k := by
  induction l generalizing a k with
  | nil => exact emb_prop hB hp _ k
  | cons o l ih =>
    simp only [timeOrdered, timeOrderedMat]
    rw [ih]
    have h1 : emb B p ((ebEvol B p).opK o.type o.flavor ((ebEvol B p).propK (o.time.time - a) k)) =
        keptProj B p * B.op o.type o.flavor * keptProj B p *
          (NormedSpace.exp (((-(o.time.time - a) : ℝ) : 𝕜) • shiftedHam B (ebRef B p)) * emb B p k) := by
      rw [← emb_prop hB hp]
      exact emb_op hB hp _ _ _
    rw [h1]
    simp only [Matrix.mul_assoc]

/-- The outer states of a sector as columns. -/
noncomputable def outerMat (B : ImpBase 𝕜 N) (p : EBParams 𝕜) (s : ℕ) :
    Matrix (Fin (keptDim B p s)) (Fin (ebOuterIdx B p s).length) 𝕜 :=
  of fun i j => if (ebOuterIdx B p s)[j] = i.val then 1 else 0

theorem outerObj_v (s : ℕ) (i : Fin (keptDim B p s)) (j : Fin (ebOuterIdx B p s).length) :
    (ebOuterObj B p s).v i j = outerMat B p s i j := by
  simp only [ebOuterObj, DMat.ofFn, outerMat, of_apply]
  rw [if_pos ⟨by rw [ebVals_length]; exact i.isLt, j.isLt⟩, List.getD_eq_getElem?_getD,
    List.getElem?_eq_getElem j.isLt, Option.getD_some]
  rfl

theorem outerMat_mul (s : ℕ) : outerMat B p s * (outerMat B p s)ᵀ =
    diagonal (fun i : Fin (keptDim B p s) =>
      if fullVal B p s (ebKept B p s)[i] - ebRef B p ≤ ebCutOuter B p then (1 : 𝕜) else 0) := by
  have hnd : (ebOuterIdx B p s).Nodup := keptIdx_nodup _ _
  ext i i'
  simp only [mul_apply, transpose_apply, outerMat, of_apply]
  by_cases e : i = i'
  · subst e
    rw [diagonal_apply_eq]
    have hm : (i.val ∈ ebOuterIdx B p s) ↔
        fullVal B p s (ebKept B p s)[i] - ebRef B p ≤ ebCutOuter B p := by
      rw [ebOuterIdx, mem_keptIdx, ebVals_length, ebVals_getD i.isLt]
      exact ⟨fun h => h.2, fun h => ⟨i.isLt, h⟩⟩
    by_cases hi : i.val ∈ ebOuterIdx B p s
    · rw [if_pos (hm.1 hi)]
      obtain ⟨j, hj, ej⟩ := List.getElem_of_mem hi
      rw [Finset.sum_eq_single (⟨j, hj⟩ : Fin (ebOuterIdx B p s).length)]
      · simp [ej]
      · intro j' _ hne
        rw [if_neg, zero_mul]
        intro h
        apply hne
        have : (ebOuterIdx B p s)[j'.val] = (ebOuterIdx B p s)[j] := h.trans ej.symm
        exact Fin.ext ((hnd.getElem_inj_iff).1 this)
      · intro h; exact absurd (Finset.mem_univ _) h
    · rw [if_neg (fun h => hi (hm.2 h))]
      refine Finset.sum_eq_zero fun j _ => ?_
      rw [if_neg, zero_mul]
      intro h
      exact hi (by rw [← h]; exact List.getElem_mem _)
  · rw [diagonal_apply_ne _ e]
    refine Finset.sum_eq_zero fun j _ => ?_
    by_cases h : (ebOuterIdx B p s)[j] = i.val
    · rw [if_neg (c := (ebOuterIdx B p s)[j] = i'.val), mul_zero]
      rw [h]; exact fun h' => e (Fin.ext h')
    · rw [if_neg h, zero_mul]

/-- One outer bra with any ket. -/
theorem product_outer (hB : B.Lawful) (hp : SolverOK p.solve) (s : ℕ) (k : BK 𝕜) :
    bkProduct ⟨some s, (ebOuterObj B p s).transp⟩ k =
      ∑ j : Fin (ebOuterIdx B p s).length, ∑ a : Fin (keptDim B p s),
        outerMat B p s a j * ((keptVecs B p s)ᴴ * emb B p k) a j := by
  rw [product_raw (by simp)]
  cases hk : k.sector with
  | none =>
    rw [if_neg (by simp)]
    symm
    simp [emb, hk]
  | some s' =>
    by_cases e : s = s'
    · subst e
      rw [if_pos rfl]
      show ∑ j ∈ Finset.range (ebOuterIdx B p s).length, ∑ a ∈ Finset.range (ebVals B p s).length,
        (ebOuterObj B p s).v a j * k.obj.v a j = _
      rw [Finset.sum_range]
      refine Finset.sum_congr rfl fun j _ => ?_
      rw [ebVals_length, Finset.sum_range]
      refine Finset.sum_congr rfl fun a _ => ?_
      rw [outerObj_v]
      congr 1
      simp only [emb, hk]
      rw [← Matrix.mul_assoc, keptVecs_orth hB hp, Matrix.one_mul]
      rfl
    · rw [if_neg (by simpa using e)]
      symm
      simp only [emb, hk]
      rw [← Matrix.mul_assoc, keptVecs_disj e, Matrix.zero_mul]
      simp

theorem fullTrace_eq (hB : B.Lawful) (hp : SolverOK p.solve) (beta : ℝ) (ops : OpSet (OpTime ℝ)) :
    fullTrace (ebEnv B p beta) ops = trace (outerProj B p *
      timeOrderedMat (shiftedHam B (ebRef B p)) (fun y f => keptProj B p * B.op y f * keptProj B p)
        beta ops 0) := by
  classical
  set T := timeOrderedMat (shiftedHam B (ebRef B p))
    (fun y f => keptProj B p * B.op y f * keptProj B p) beta ops 0 with hT
  -- contribution of one sector
  have hone : ∀ s, bkProduct ⟨some s, (ebOuterObj B p s).transp⟩
      (timeOrdered (ebEvol B p) beta ops 0 ⟨some s, ebOuterObj B p s⟩) =
      trace (keptVecs B p s * (outerMat B p s * (outerMat B p s)ᵀ) * (keptVecs B p s)ᴴ * T) := by
    intro s
    rw [product_outer hB hp, emb_timeOrdered hB hp, ← hT]
    have he : ∀ (x : Fin N) (j : Fin (ebOuterIdx B p s).length),
        emb B p ⟨some s, ebOuterObj B p s⟩ x j = (keptVecs B p s * outerMat B p s) x j := by
      intro x j
      simp only [emb, mul_apply, of_apply, outerObj_v]
    have hm : ∀ (a : Fin (keptDim B p s)) (j : Fin (ebOuterIdx B p s).length),
        ((keptVecs B p s)ᴴ * (T * emb B p ⟨some s, ebOuterObj B p s⟩)) a j =
        ((keptVecs B p s)ᴴ * (T * (keptVecs B p s * outerMat B p s))) a j := by
      intro a j
      simp only [mul_apply (M := (keptVecs B p s)ᴴ), mul_apply (M := T), he]
    have hl : ∑ j : Fin (ebOuterIdx B p s).length, ∑ a : Fin (keptDim B p s),
        outerMat B p s a j * ((keptVecs B p s)ᴴ * (T * emb B p ⟨some s, ebOuterObj B p s⟩)) a j =
        trace ((outerMat B p s)ᵀ * ((keptVecs B p s)ᴴ * (T * (keptVecs B p s * outerMat B p s)))) := by
      simp only [trace, diag_apply, mul_apply (M := (outerMat B p s)ᵀ), transpose_apply, hm]
    rw [hl]
    have : (outerMat B p s)ᵀ * ((keptVecs B p s)ᴴ * (T * (keptVecs B p s * outerMat B p s))) =
        ((outerMat B p s)ᵀ * (keptVecs B p s)ᴴ * T) * (keptVecs B p s * outerMat B p s) := by
      simp only [Matrix.mul_assoc]
    rw [this, trace_mul_comm]
    simp only [Matrix.mul_assoc]
  have hsec : ∀ s, keptVecs B p s * (outerMat B p s * (outerMat B p s)ᵀ) * (keptVecs B p s)ᴴ =
      fullVecs B p s * diagonal (fun a : Fin (secDim B s) =>
        if a.val ∈ ebKept B p s ∧ fullVal B p s a - ebRef B p ≤ ebCutOuter B p then (1 : 𝕜) else 0) *
        (fullVecs B p s)ᴴ := by
    intro s
    rw [outerMat_mul]
    exact kept_diag hB hp s (fun a => fullVal B p s a - ebRef B p ≤ ebCutOuter B p)
  unfold fullTrace
  have h1 : ∀ i : Fin (ebBrakets B p).length,
      (ebEnv B p beta).E.product ((ebEnv B p beta).bra0 i)
        (timeOrdered (ebEnv B p beta).E (ebEnv B p beta).beta ops 0 ((ebEnv B p beta).ket0 i)) =
      (fun s => trace (keptVecs B p s * (outerMat B p s * (outerMat B p s)ᵀ) *
        (keptVecs B p s)ᴴ * T)) (ebBrakets B p)[i] := fun i => hone _
  rw [Finset.sum_congr rfl fun i _ => h1 i]
  have hnd : (ebBrakets B p).Nodup := List.nodup_range.filter _
  have hsum := sum_sel (ebBrakets B p) hnd B.ns (fun s hs => by
    have := (List.mem_filter.1 hs).1
    exact List.mem_range.1 this)
    (fun s => trace (keptVecs B p s * (outerMat B p s * (outerMat B p s)ᵀ) * (keptVecs B p s)ᴴ * T))
  rw [hsum, outerProj, selProj, Matrix.sum_mul, trace_sum, Finset.sum_range]
  refine Finset.sum_congr rfl fun s _ => ?_
  rw [← hsec]
  by_cases hs : s.val ∈ ebBrakets B p
  · rw [if_pos hs]
  · rw [if_neg hs]
    -- a sector without outer states
    have : ¬ (0 < keptDim B p s ∧ (ebOuterIdx B p s).length ≠ 0) := by
      intro h
      apply hs
      rw [ebBrakets, List.mem_filter, Bool.and_eq_true, ebActive_iff, bne_iff_ne]
      exact ⟨List.mem_range.2 s.isLt, h⟩
    have hz : outerMat B p s * (outerMat B p s)ᵀ = 0 := by
      ext a b
      rw [mul_apply]
      refine Finset.sum_eq_zero fun j _ => ?_
      have h1 := a.isLt
      have h2 := j.isLt
      exfalso
      exact this ⟨by omega, by omega⟩
    rw [hz]; simp

/-- **C57.**  The sum over outer states of the matrix elements of the time-ordered product computed in
the eigenbasis is the trace over the Fock space of the time-ordered product, energies measured from
the ground-state energy `E0`, with the outer states restricted to energies up to the smaller of the two
cutoffs and all operators restricted to energies up to the inner cutoff. -/
theorem C57_trace (hB : B.Lawful) (hp : SolverOK p.solve) (hN : 0 < N) (hin : 0 ≤ p.inner) :
    ∃ (E0 : ℝ) (P Q : Matrix (Fin N) (Fin N) 𝕜), IsLeast (eigenvaluesOf B.H) E0 ∧
      IsSpectralProj B.H (E0 + p.inner) P ∧ IsSpectralProj B.H (E0 + min p.inner p.outer) Q ∧
      ∀ (beta : ℝ) (ops : OpSet (OpTime ℝ)), fullTrace (ebEnv B p beta) ops =
        trace (Q * timeOrderedMat (B.H - ((E0 : ℝ) : 𝕜) • 1) (fun y f => P * B.op y f * P) beta ops 0) := by
  refine ⟨ebRef B p, keptProj B p, outerProj B p, ref_least hB hp hN hin, ?_,
    outerProj_spectral hB hp hN hin, fun beta ops => fullTrace_eq hB hp beta ops⟩
  rw [← (ref_spec (p := p) hB hN hin).2.2.1]
  exact keptProj_spectral hB hp

/-! ### Without truncation -/

theorem proj_one (hB : B.Lawful) (hp : SolverOK p.solve) {c : ℝ} {P : Matrix (Fin N) (Fin N) 𝕜}
    (hP : IsSpectralProj B.H c P) (hc : ∀ μ ∈ eigenvaluesOf B.H, μ ≤ c) : P = 1 := by
  have h1 : ∀ s, P * fullVecs B p s = fullVecs B p s := by
    intro s
    ext x a
    have hv : B.H *ᵥ (fun x => fullVecs B p s x a) =
        ((fullVal B p s a : ℝ) : 𝕜) • (fun x => fullVecs B p s x a) := by
      ext x
      have := ham_fullVecs hB hp s x a
      simp only [mul_apply] at this
      simpa [mulVec, dotProduct] using this
    have := congrFun ((hP _ _ hv).1 (hc _ (fullVal_eigen hB hp a.isLt))) x
    simpa [mulVec, dotProduct, mul_apply] using this
  calc P = P * 1 := (Matrix.mul_one P).symm
    _ = 1 := by
      rw [← fullVecs_complete hB hp (p := p), Matrix.mul_sum]
      refine Finset.sum_congr rfl fun s _ => ?_
      rw [← Matrix.mul_assoc, h1]

theorem exp_shift (H : Matrix (Fin N) (Fin N) 𝕜) (E0 t : ℝ) :
    NormedSpace.exp (((-t : ℝ) : 𝕜) • (H - ((E0 : ℝ) : 𝕜) • (1 : Matrix (Fin N) (Fin N) 𝕜))) =
      ((Real.exp (t * E0) : ℝ) : 𝕜) • NormedSpace.exp (((-t : ℝ) : 𝕜) • H) := by
  have h1 : ((-t : ℝ) : 𝕜) • (H - ((E0 : ℝ) : 𝕜) • (1 : Matrix (Fin N) (Fin N) 𝕜)) =
      diagonal (fun _ => (((t * E0 : ℝ)) : 𝕜)) + ((-t : ℝ) : 𝕜) • H := by
    ext i j
    simp only [Matrix.smul_apply, Matrix.sub_apply, Matrix.add_apply, smul_eq_mul]
    by_cases e : i = j
    · subst e
      rw [diagonal_apply_eq, one_apply_eq]
      push_cast; ring
    · rw [diagonal_apply_ne _ e, one_apply_ne e]
      ring
  rw [h1, Matrix.exp_add_of_commute, exp_diagonal]
  · ext i j
    rw [diagonal_mul, Matrix.smul_apply, smul_eq_mul, Pi.coe_exp, exp_ofReal]
  · show _ * _ = _ * _
    ext i j
    rw [diagonal_mul, mul_diagonal, mul_comm]

theorem timeOrderedMat_shift (H : Matrix (Fin N) (Fin N) 𝕜) (O : OpType → ℕ → Matrix (Fin N) (Fin N) 𝕜)
    (E0 c : ℝ) (l : List (TPsi ℝ)) (a : ℝ) :
    timeOrderedMat (H - ((E0 : ℝ) : 𝕜) • 1) O c l a =
      ((Real.exp ((c - a) * E0) : ℝ) : 𝕜) • timeOrderedMat H O c l a := by
  induction l generalizing a with
  | nil => exact exp_shift H E0 (c - a)
  | cons o l ih =>
    simp only [timeOrderedMat]
    rw [ih, exp_shift]
    simp only [Matrix.smul_mul, Matrix.mul_smul, smul_smul]
    congr 1
    rw [← RCLike.ofReal_mul, ← Real.exp_add]
    congr 2
    ring

/-- **C57, no truncation.**  If all energies are within both cutoffs, the trace is exactly
`e^{β E0} Tr[e^{-(β-t_m)H} O_m … O_1 e^{-t_1 H}]`. -/
theorem C57_exact (hB : B.Lawful) (hp : SolverOK p.solve) (hN : 0 < N) {E0 : ℝ}
    (hE : IsLeast (eigenvaluesOf B.H) E0)
    (hcut : ∀ μ ∈ eigenvaluesOf B.H, μ ≤ E0 + min p.inner p.outer) (beta : ℝ)
    (ops : OpSet (OpTime ℝ)) :
    fullTrace (ebEnv B p beta) ops =
      ((Real.exp (beta * E0) : ℝ) : 𝕜) * trace (timeOrderedMat B.H B.op beta ops 0) := by
  have hin : 0 ≤ p.inner := by
    have h1 := hcut E0 hE.1
    have h2 := min_le_left p.inner p.outer
    linarith
  obtain ⟨E1, P, Q, hE1, hP, hQ, h⟩ := C57_trace (p := p) hB hp hN hin
  have e : E1 = E0 := hE1.unique hE
  subst e
  have hP1 : P = 1 := proj_one hB hp hP fun μ hμ => (hcut μ hμ).trans (by
    have := min_le_left p.inner p.outer; linarith)
  have hQ1 : Q = 1 := proj_one hB hp hQ hcut
  rw [h beta ops, hP1, hQ1]
  simp only [Matrix.one_mul, Matrix.mul_one]
  rw [timeOrderedMat_shift, trace_smul, sub_zero, smul_eq_mul]

/-- **C57, with the window.**  The same value is what the sliding window returns after any allowed
history of moves of the window and changes of operators inside it. -/
theorem C57_window (hB : B.Lawful) (hp : SolverOK p.solve) (hN : 0 < N) {E0 : ℝ}
    (hE : IsLeast (eigenvaluesOf B.H) E0)
    (hcut : ∀ μ ∈ eigenvaluesOf B.H, μ ≤ E0 + min p.inner p.outer) {beta : ℝ} (hb : 0 ≤ beta)
    (n : ℕ) (hn : 1 ≤ n) (ops0 : OpSet (OpTime ℝ)) (ho : OpsOK beta ops0) (pl pr nn : ℕ) (d : Bool)
    (s0 : SWState (BK 𝕜) (BK 𝕜) (Fin (ebBrakets B p).length))
    (h0 : initStacks (ebEnv B p beta) n ops0 pl pr nn d = some s0)
    (s : SWState (BK 𝕜) (BK 𝕜) (Fin (ebBrakets B p).length)) (ops : OpSet (OpTime ℝ))
    (hr : Reach (ebEnv B p beta) (s0, ops0) (s, ops)) :
    computeTrace (ebEnv B p beta) ops s =
      some (((Real.exp (beta * E0) : ℝ) : 𝕜) * trace (timeOrderedMat B.H B.op beta ops 0)) := by
  rw [C22_trace_window_independent (V := ebEnv B p beta) (C57_lawful hB) hb n hn ops0 ho pl pr nn d s0 h0
    s ops hr, C57_exact hB hp hN hE hcut]

/-! ### The exponentials -/

theorem foldl_max_spec (l : List ℝ) (a : ℝ) : l.foldl max a ∈ a :: l ∧ ∀ e ∈ a :: l, e ≤ l.foldl max a := by
  induction l generalizing a with
  | nil => simp
  | cons b l ih =>
    obtain ⟨h1, h2⟩ := ih (max a b)
    rw [List.foldl_cons]
    constructor
    · rcases List.mem_cons.1 h1 with h | h
      · rw [h]
        rcases max_choice a b with h' | h' <;> rw [h'] <;> simp
      · simp [h]
    · intro e he
      have h0 := h2 (max a b) (by simp)
      rcases List.mem_cons.1 he with rfl | he
      · exact (le_max_left _ _).trans h0
      · rcases List.mem_cons.1 he with rfl | he
        · exact (le_max_right _ _).trans h0
        · exact h2 e (by simp [he])

/-- **C57, exponentials.**  `compute_exp_vector_safe` never divides or overflows relative to its
coefficient: all factors are between 0 and 1, the largest is 1, and coefficient times factor differs
from `exp(-τ E_i)` by at most `exp(-60)` times the coefficient, the largest of the exponentials. -/
theorem C57_exp (tau : ℝ) (es : List ℝ) (hne : es ≠ []) :
    ∃ c v, expSafe tau es = some (c, v) ∧ v.length = es.length ∧
      (∃ i < es.length, c = Real.exp (-tau * es.getD i 0) ∧ v.getD i 0 = 1) ∧
      ∀ i < es.length, Real.exp (-tau * es.getD i 0) ≤ c ∧ 0 ≤ v.getD i 0 ∧ v.getD i 0 ≤ 1 ∧
        |c * v.getD i 0 - Real.exp (-tau * es.getD i 0)| ≤ Real.exp (-60) * c := by
  obtain ⟨e0, es', rfl⟩ := List.exists_cons_of_ne_nil hne
  set a := -tau * e0 with ha
  set l := es'.map (fun e => -tau * e) with hl
  obtain ⟨hm, hle⟩ := foldl_max_spec l a
  set m := l.foldl max a with hmdef
  refine ⟨Real.exp m, (a :: l).map fun x => if x - m < -60 then 0 else Real.exp (x - m), rfl,
    by simp [hl], ?_, ?_⟩
  all_goals
    have hlen : (a :: l).length = (e0 :: es').length := by simp [hl]
    have hget : ∀ i (h : i < (e0 :: es').length), (a :: l)[i]'(by rw [hlen]; exact h) =
        -tau * (e0 :: es').getD i 0 := by
      intro i h
      rw [List.getD_eq_getElem?_getD, List.getElem?_eq_getElem h, Option.getD_some]
      cases i with
      | zero => rfl
      | succ i => simp [hl]
    have hv : ∀ i (h : i < (e0 :: es').length),
        ((a :: l).map fun x => if x - m < -60 then 0 else Real.exp (x - m)).getD i 0 =
        (fun x => if x - m < -60 then 0 else Real.exp (x - m)) (-tau * (e0 :: es').getD i 0) := by
      intro i h
      rw [List.getD_eq_getElem?_getD, List.getElem?_eq_getElem (by rw [List.length_map, hlen]; exact h),
        Option.getD_some, List.getElem_map, hget i h]
  · obtain ⟨i, hi, e⟩ := List.getElem_of_mem hm
    have hi' : i < (e0 :: es').length := by rw [← hlen]; exact hi
    refine ⟨i, hi', ?_, ?_⟩
    · rw [← hget i hi', e]
    · rw [hv i hi', ← hget i hi', e]
      simp
  · intro i hi
    rw [hv i hi]
    have hx := hle _ (List.getElem_mem (by rw [hlen]; exact hi : i < (a :: l).length))
    rw [hget i hi] at hx
    set x := -tau * (e0 :: es').getD i 0
    refine ⟨Real.exp_le_exp.2 hx, ?_, ?_, ?_⟩
    · simp only; split
      · exact le_refl _
      · exact (Real.exp_pos _).le
    · simp only; split
      · exact zero_le_one
      · rw [Real.exp_le_one_iff]; linarith
    · simp only; split
      · rename_i h
        rw [mul_zero, zero_sub, abs_neg, abs_of_pos (Real.exp_pos _), ← Real.exp_add]
        exact Real.exp_le_exp.2 (by linarith)
      · rw [← Real.exp_add, add_sub_cancel, sub_self, abs_zero]
        positivity

/-! ### The hypotheses can be met -/

open Classical in
/-- A solver as assumed, from the spectral theorem. -/
noncomputable def exactSolve (A : DMat 𝕜) : List ℝ × DMat 𝕜 :=
  if h : (of fun i j : Fin A.rows => A.v i j).IsHermitian then
    (List.ofFn h.eigenvalues,
      DMat.ofFn A.rows A.rows fun i a =>
        if h' : i < A.rows ∧ a < A.rows then
          (h.eigenvectorUnitary : Matrix (Fin A.rows) (Fin A.rows) 𝕜) ⟨i, h'.1⟩ ⟨a, h'.2⟩ else 0)
  else ([], DMat.empty)

theorem exactSolve_ok : SolverOK (𝕜 := 𝕜) exactSolve := by
  have hherm : ∀ A : DMat 𝕜, (∀ i j, A.v i j = star (A.v j i)) →
      (of fun i j : Fin A.rows => A.v i j).IsHermitian := by
    intro A h
    ext i j
    simp only [conjTranspose_apply, of_apply]
    exact (h i j).symm
  have hv : ∀ (A : DMat 𝕜) (h : ∀ i j, A.v i j = star (A.v j i)) (i a : Fin A.rows),
      (exactSolve A).2.v i a = ((hherm A h).eigenvectorUnitary : Matrix (Fin A.rows) (Fin A.rows) 𝕜) i a := by
    intro A h i a
    unfold exactSolve
    rw [dif_pos (hherm A h)]
    simp [DMat.ofFn]
  have he : ∀ (A : DMat 𝕜) (h : ∀ i j, A.v i j = star (A.v j i)) (a : Fin A.rows),
      (exactSolve A).1.getD a 0 = (hherm A h).eigenvalues a := by
    intro A h a
    unfold exactSolve
    rw [dif_pos (hherm A h)]
    simp [List.getD_eq_getElem?_getD]
  refine ⟨?_, ?_, ?_, ?_, ?_⟩
  · intro A _ h
    unfold exactSolve
    rw [dif_pos (hherm A h)]
    simp
  · intro A _ h
    unfold exactSolve
    rw [dif_pos (hherm A h)]
    rfl
  · intro A _ h
    unfold exactSolve
    rw [dif_pos (hherm A h)]
    rfl
  · intro A _ h a ha b hb
    rw [Finset.sum_range]
    have hu := Unitary.coe_star_mul_self (hherm A h).eigenvectorUnitary
    have := congrFun (congrFun hu ⟨a, ha⟩) ⟨b, hb⟩
    simp only [star_eq_conjTranspose, mul_apply, conjTranspose_apply, Matrix.one_apply, Fin.mk.injEq] at this
    rw [← this]
    refine Finset.sum_congr rfl fun i _ => ?_
    rw [← hv A h i ⟨a, ha⟩, ← hv A h i ⟨b, hb⟩]
  · intro A _ h i hi a ha
    rw [Finset.sum_range]
    have := congrFun ((hherm A h).mulVec_eigenvectorBasis ⟨a, ha⟩) ⟨i, hi⟩
    simp only [mulVec, dotProduct, of_apply, Pi.smul_apply] at this
    rw [← hv A h ⟨i, hi⟩ ⟨a, ha⟩ |>.symm, he A h ⟨a, ha⟩]
    rw [IsHermitian.eigenvectorUnitary_apply, ← RCLike.real_smul_eq_coe_mul]
    refine Eq.trans (Finset.sum_congr rfl fun j _ => ?_) this
    rw [hv A h j ⟨a, ha⟩]
    rfl

/-- The base class as built by the code from a (pruned) Hamiltonian: sectors by
`hilbert_space_partioning`, operators from `FermionOperator`. -/
noncomputable def impBaseOf (n : ℕ) (H : Matrix (Fin (2 ^ n)) (Fin (2 ^ n)) 𝕜) (ns : ℕ) (sec : ℕ → ℕ) :
    ImpBase 𝕜 (2 ^ n) where
  H := H
  op := fun y f => match y with
    | .creation => (cdagOp n f).map (Int.cast : ℤ → 𝕜)
    | .annihilation => (cOp n f).map (Int.cast : ℤ → 𝕜)
  ns := ns
  sec := sec

theorem cOp_large {n f : ℕ} (h : n ≤ f) : cOp n f = 0 := by
  have : cTriplets n f = [] := by
    unfold cTriplets
    rw [List.map_eq_nil_iff, List.filter_eq_nil_iff]
    intro s hs
    have hs' := List.mem_range.1 hs
    rw [Nat.testBit_lt_two_pow (lt_of_lt_of_le hs' (Nat.pow_le_pow_right (by norm_num) h))]
    simp
  ext r c
  simp [cOp, this, fromTriplets]

/-- **C57, hypotheses.**  For a Hermitian Hamiltonian the sectors computed by the code give a proper
base class as soon as every creation and annihilation operator maps sectors to sectors (C31). -/
theorem C57_base {n : ℕ} {H : Matrix (Fin (2 ^ n)) (Fin (2 ^ n)) 𝕜} (hH : H.IsHermitian) {ns : ℕ}
    {sec : ℕ → ℕ} (hs : sectorsOf (2 ^ n) (storedEntries nz H) (opEntries n) = some (ns, sec))
    (hm : ∀ o ∈ opEntries n, MapsSectors sec o) : (impBaseOf n H ns sec).Lawful := by
  have hb := storedEntries_bounds nz H
  obtain ⟨ns', sec', e, h1, h2, -⟩ := C31_sectors_exact (2 ^ n) (storedEntries nz H) (opEntries n) hb
    (opEntries_bounds n)
  rw [e] at hs
  simp only [Option.some.injEq, Prod.mk.injEq] at hs
  obtain ⟨rfl, rfl⟩ := hs
  refine ⟨h1, h2, hH, ?_, ?_, ?_⟩
  · intro r c h
    exact C31_hamiltonian (2 ^ n) _ _ hb (opEntries_bounds n) e (mem_nzEntries.2 h)
  · intro y f
    have hst : ∀ M : Matrix (Fin (2 ^ n)) (Fin (2 ^ n)) ℤ,
        storedEntries (nz (𝕜 := 𝕜)) (M.map (Int.cast : ℤ → 𝕜)) = storedEntries (fun x : ℤ => x != 0) M := by
      intro M
      unfold storedEntries
      congr 1
      funext c
      congr 2
      funext r
      rw [Bool.eq_iff_iff, nz_true, Matrix.map_apply, Int.cast_ne_zero, bne_iff_ne]
    by_cases hf : f < n
    · cases y with
      | creation =>
        show MapsSectors sec' (storedEntries nz ((cdagOp n f).map (Int.cast : ℤ → 𝕜)))
        rw [hst]
        exact hm _ (List.mem_flatMap.2 ⟨⟨f, hf⟩, List.mem_finRange _, by simp⟩)
      | annihilation =>
        show MapsSectors sec' (storedEntries nz ((cOp n f).map (Int.cast : ℤ → 𝕜)))
        rw [hst]
        exact hm _ (List.mem_flatMap.2 ⟨⟨f, hf⟩, List.mem_finRange _, by simp⟩)
    · have hz : ∀ x z, (impBaseOf n H ns' sec').op y f x z = 0 := by
        intro x z
        have h0 := cOp_large (Nat.le_of_not_lt hf)
        cases y with
        | creation => simp [impBaseOf, cdagOp, h0]
        | annihilation => simp [impBaseOf, h0]
      intro e he
      obtain ⟨r, c, hk, rfl⟩ := mem_storedEntries.1 he
      exact absurd (hz r c) ((nz_true _).1 hk)
  · intro f
    ext x z
    simp only [impBaseOf, cdagOp, conjTranspose_apply, Matrix.map_apply, transpose_apply]
    simp

/-- Concrete case: one flavor with energy 2, both cutoffs large enough. -/
noncomputable def oneLevel : Matrix (Fin (2 ^ 1)) (Fin (2 ^ 1)) ℝ := diagonal fun i => 2 * (i.val : ℝ)

theorem oneLevel_lawful : ∃ ns sec, (impBaseOf 1 oneLevel ns sec).Lawful := by
  have hb := storedEntries_bounds (nz (𝕜 := ℝ)) oneLevel
  obtain ⟨ns, sec, e, -⟩ := C31_sectors_exact (2 ^ 1) (storedEntries nz oneLevel) (opEntries 1) hb
    (opEntries_bounds 1)
  have hdiag : ∀ a b, Connected (storedEntries (nz (𝕜 := ℝ)) oneLevel) a b → a = b := by
    intro a b h
    induction h with
    | rel a b h =>
      obtain ⟨r, c, h1, h2⟩ := mem_storedEntries.1 h
      by_cases hrc : r = c
      · subst hrc; simp only [Prod.mk.injEq] at h2; rw [h2.1, h2.2]
      · exact absurd (diagonal_apply_ne _ hrc) ((nz_true _).1 h1)
    | refl => rfl
    | symm _ _ _ ih => exact ih.symm
    | trans _ _ _ _ _ i j => exact i.trans j
  have hops : ∀ o ∈ opEntries 1, o = [(0, 1)] ∨ o = [(1, 0)] := by decide +kernel
  have hm := (C31_no_merge_partial (2 ^ 1) _ (opEntries 1) hb (opEntries_bounds 1) e
    (by decide +kernel)
    (by
      intro o ho e he e' he' _
      rcases hops o ho with rfl | rfl <;> simp at he he' <;> subst he he' <;>
        exact Relation.EqvGen.refl _)).2
  exact ⟨ns, sec, C57_base (isHermitian_diagonal _) e hm⟩

theorem oneLevel_eig (μ : ℝ) : μ ∈ eigenvaluesOf oneLevel ↔ μ = 0 ∨ μ = 2 := by
  constructor
  · rintro ⟨v, hv, h⟩
    by_contra hne
    rw [not_or] at hne
    apply hv
    ext i
    have := congrFun h i
    simp only [oneLevel, mulVec_diagonal, Pi.smul_apply, smul_eq_mul, RCLike.ofReal_real_eq_id,
      id_eq] at this
    have h2 : (2 * (i.val : ℝ) - μ) * v i = 0 := by linarith
    rcases mul_eq_zero.1 h2 with h3 | h3
    · exfalso
      fin_cases i
      · simp at h3; exact hne.1 h3
      · simp at h3; exact hne.2 (by linarith)
    · exact h3
  · intro h
    have hh : ∀ j : Fin (2 ^ 1), 2 * (j.val : ℝ) = μ → μ ∈ eigenvaluesOf oneLevel := by
      intro j hj
      refine ⟨Pi.single j 1, by simp, ?_⟩
      ext i
      simp only [oneLevel, mulVec_diagonal, Pi.smul_apply, smul_eq_mul, RCLike.ofReal_real_eq_id, id_eq]
      by_cases e : i = j
      · subst e; rw [hj]
      · rw [Pi.single_eq_of_ne e]; ring
    rcases h with h | h
    · exact hh 0 (by simp [h])
    · exact hh 1 (by simp [h])

theorem oneLevel_least : IsLeast (eigenvaluesOf oneLevel) 0 := by
  refine ⟨(oneLevel_eig 0).2 (Or.inl rfl), ?_⟩
  intro μ h
  rcases (oneLevel_eig μ).1 h with rfl | rfl <;> norm_num

example : ∃ (B : ImpBase ℝ (2 ^ 1)) (p : EBParams ℝ), B.H = oneLevel ∧ B.Lawful ∧ SolverOK p.solve ∧
    IsLeast (eigenvaluesOf B.H) 0 ∧ ∀ μ ∈ eigenvaluesOf B.H, μ ≤ 0 + min p.inner p.outer := by
  obtain ⟨ns, sec, h⟩ := oneLevel_lawful
  refine ⟨impBaseOf 1 oneLevel ns sec, ⟨exactSolve, 2, 3⟩, rfl, h, exactSolve_ok, oneLevel_least, ?_⟩
  intro μ h
  rcases (oneLevel_eig μ).1 h with rfl | rfl <;> norm_num

end CTHyb
