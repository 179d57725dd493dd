import Verif.GMeas
import Verif.PermSignProps
import Verif.FastUpdateProps
import Mathlib.GroupTheory.Perm.Sign
import Mathlib.LinearAlgebra.Matrix.Determinant.Basic
import Mathlib.Data.Fin.Tuple.Basic

/-!
Lemmas for the measurement of the Green's functions: signs under the exchange of operators between bath and
worm, and Jacobi's identity for minors of the enlarged inverse matrix.
-/

namespace CTHyb
open Matrix Equiv

section signs
variable {T : Type} [LinearOrder T]

/-- The parity of the pairs out of order changes with the sign of a permutation of the list. -/
theorem outOfOrder_perm {N : ℕ} (f : Fin N → T) (hf : Function.Injective f) (σ : Perm (Fin N)) :
    (-1 : ℤ) ^ outOfOrder (List.ofFn (f ∘ σ)) = ((Perm.sign σ : ℤˣ) : ℤ) * (-1) ^ outOfOrder (List.ofFn f) := by
  have key : ∀ g : Fin N → T, Function.Injective g → ∀ ρ : Perm (Fin N),
      (∀ i j, i < j → ¬ g (ρ i) < g (ρ j)) → ((Perm.sign ρ : ℤˣ) : ℤ) = (-1) ^ outOfOrder (List.ofFn g) := by
    intro g hg ρ hρ
    have hlen : (List.ofFn g).length = N := by simp
    have := sign_of_sorting (List.ofFn g) (List.nodup_ofFn.2 hg) ((finCongr hlen).symm.permCongr ρ) (by
      intro i j hij
      have := hρ (i.cast hlen) (j.cast hlen) hij
      simpa using this)
    rw [← this]
    simp [Perm.sign_permCongr]
  obtain ⟨ρ, -, hρ⟩ := combSortSign_cases (List.ofFn f)
  have hlen : (List.ofFn f).length = N := by simp
  let ρ' : Perm (Fin N) := (finCongr hlen).permCongr ρ
  have h1 : ∀ i j, i < j → ¬ f (ρ' i) < f (ρ' j) := by
    intro i j hij
    have := hρ (i.cast hlen.symm) (j.cast hlen.symm) hij
    simp only [List.get_ofFn] at this
    exact this
  have e1 := key f hf ρ' h1
  have e2 := key (f ∘ σ) (hf.comp σ.injective) (σ⁻¹ * ρ') (by
    intro i j hij
    simpa using h1 i j hij)
  rw [← e1, ← e2, Perm.sign_mul, Perm.sign_inv]
  push_cast
  rfl

theorem invs_add_outOfOrder (l : List T) (hl : l.Nodup) : invs l + outOfOrder l = l.length.choose 2 := by
  induction l with
  | nil => rfl
  | cons x l ih =>
    rw [List.nodup_cons] at hl
    have := countP_lt_add l x hl.1
    have := ih hl.2
    rw [invs, outOfOrder, List.length_cons, Nat.choose_succ_succ' l.length 1, Nat.choose_one_right,
      show 1 + 1 = 2 from rfl]
    omega

omit [LinearOrder T] in
theorem interleave_append : ∀ (a b c d : List T), a.length = b.length →
    interleave (a ++ c) (b ++ d) = interleave a b ++ interleave c d
  | [], [], _, _, _ => rfl
  | x :: a, y :: b, c, d, h => by
    simp only [List.cons_append, interleave, interleave_append a b c d (by simpa using h)]
  | [], _ :: _, _, _, h => by simp at h
  | _ :: _, [], _, _, h => by simp at h

/-- The operators of a worm: annihilation and creation operators alternate. -/
def pairOps {r : ℕ} (a b : Fin r → Psi T) : List (Psi T) := interleave (List.ofFn a) (List.ofFn b)

omit [LinearOrder T] in
theorem interleave_map {β : Type} (f : T → β) : ∀ a b : List T,
    (interleave a b).map f = interleave (a.map f) (b.map f)
  | x :: a, y :: b => by simp only [interleave, List.map_cons, interleave_map f a b]
  | [], _ => by simp [interleave]
  | _ :: _, [] => by simp [interleave]

omit [LinearOrder T] in
theorem interleave_perm' : ∀ (c d : List T), c.length = d.length → (interleave c d).Perm (c ++ d)
  | [], [], _ => by simp [interleave]
  | a :: c, b :: d, h => by
    have ih := interleave_perm' c d (by simpa using h)
    simp only [interleave, List.cons_append]
    exact ((ih.cons b).trans List.perm_middle.symm).cons a
  | [], _ :: _, h => by simp at h
  | _ :: _, [], h => by simp at h

/-- Sign of the configuration and determinant of the hybridization matrix, in storage order. -/
theorem sign_mul_timeDet {K : Type} [CommRing K] (G : Psi T → Psi T → K) (cs cds wc wcd : List (Psi T))
    (h1 : cs.length = cds.length) (h2 : wc.length = wcd.length)
    (hn : ((cs ++ wc).map Psi.time ++ (cds ++ wcd).map Psi.time).Nodup) :
    ((permSignImpl cds cs (interleave wc wcd) : ℤ) : K) * timeDet G cs cds =
      (-1) ^ outOfOrder (interleave ((cs ++ wc).map Psi.time) ((cds ++ wcd).map Psi.time)) * listDet G cs cds := by
  have hn1 : (cs.map Psi.time ++ cds.map Psi.time ++ (interleave wc wcd).map Psi.time).Nodup := by
    refine (List.Perm.nodup_iff ?_).2 hn
    rw [interleave_map]
    refine ((interleave_perm _ _ (by simpa using h2)).append_left _).trans ?_
    simp only [List.map_append, List.append_assoc]
    refine List.Perm.append_left _ ?_
    rw [← List.append_assoc, ← List.append_assoc]
    exact List.perm_append_comm.append_right _
  have nc : (cs.map Psi.time).Nodup := List.Nodup.of_append_left (List.Nodup.of_append_left hn1)
  have ncd : (cds.map Psi.time).Nodup := List.Nodup.of_append_right (List.Nodup.of_append_left hn1)
  rw [timeDet_eq G cs cds nc ncd, C05_perm_sign_value cds cs _ h1 hn1, List.map_append, List.map_append,
    interleave_append _ _ _ _ (by simpa using h1), ← interleave_map Psi.time wc wcd, ← mul_assoc]
  congr 1
  have key : ∀ a b c : ℕ, ((a : ZMod 2) + b = c) → (((-1 : ℤ) ^ a : ℤ) : K) * (-1) ^ b = (-1) ^ c := by
    intro a b c h
    have := negOne_pow_congr (a := a + b) (b := c) (by push_cast; exact h)
    rw [pow_add] at this
    have h3 := congrArg (Int.cast (R := K)) this
    push_cast at h3 ⊢
    exact h3
  apply key
  have e1 := invs_add_outOfOrder _ nc
  have e2 := invs_add_outOfOrder _ ncd
  have hl : (cs.map Psi.time).length = (cds.map Psi.time).length := by simpa using h1
  rw [outOfOrder_append]
  push_cast
  rw [outOfOrder_interleave _ _ hl (List.Nodup.of_append_left hn1),
    crossCount_perm_left (interleave_perm _ _ hl)]
  rw [List.length_map] at e1 e2
  rw [← h1] at e2
  have e1' : ((invs (cs.map Psi.time) : ℕ) : ZMod 2) + outOfOrder (cs.map Psi.time) = (cs.length.choose 2 : ℕ) := by
    rw [← e1]; push_cast; rfl
  have e2' : ((invs (cds.map Psi.time) : ℕ) : ZMod 2) + outOfOrder (cds.map Psi.time) = (cs.length.choose 2 : ℕ) := by
    rw [← e2]; push_cast; rfl
  have h3 : (2 : ZMod 2) = 0 := by decide
  rw [List.length_map]
  linear_combination e1' + e2' + ((cs.length.choose 2 : ℕ) - (outOfOrder (cs.map Psi.time) : ZMod 2) - outOfOrder (cds.map Psi.time)) * h3

end signs

/-! ### Exchange of operators -/

section exchange
variable {T K : Type} [LinearOrder T] {n r : ℕ}

/-- Bath operators followed by those of the worm. -/
def allOps {α : Type} (f : Fin n ⊕ Fin r → α) : List α := List.ofFn (f ∘ .inl) ++ List.ofFn (f ∘ .inr)

theorem allOps_eq {α : Type} (f : Fin n ⊕ Fin r → α) : allOps f = List.ofFn (f ∘ finSumFinEquiv.symm) := by
  unfold allOps
  rw [← List.ofFn_fin_append]
  congr 1
  funext i
  refine Fin.addCases (fun i => ?_) (fun i => ?_) i <;> simp

theorem allOps_perm {α : Type} (f : Fin n ⊕ Fin r → α) (σ : Perm (Fin n ⊕ Fin r)) :
    (allOps (f ∘ σ)).Perm (allOps f) := by
  rw [allOps_eq, allOps_eq]
  have := Equiv.Perm.ofFn_comp_perm (finSumFinEquiv.permCongr σ) (f ∘ finSumFinEquiv.symm)
  refine List.Perm.trans (List.Perm.of_eq ?_) this
  congr 1
  funext i
  simp

theorem outOfOrder_allOps (f : Fin n ⊕ Fin r → T) (hf : Function.Injective f) (σ : Perm (Fin n ⊕ Fin r)) :
    (-1 : ℤ) ^ outOfOrder (allOps (f ∘ σ)) = ((Perm.sign σ : ℤˣ) : ℤ) * (-1) ^ outOfOrder (allOps f) := by
  rw [allOps_eq, allOps_eq]
  have := outOfOrder_perm (f ∘ finSumFinEquiv.symm) (hf.comp (Equiv.injective _)) (finSumFinEquiv.permCongr σ)
  rw [Perm.sign_permCongr] at this
  rw [← this]
  congr 2
  congr 1
  funext i
  simp

theorem allOps_map {α β : Type} (g : α → β) (f : Fin n ⊕ Fin r → α) : (allOps f).map g = allOps (g ∘ f) := by
  simp only [allOps, List.map_append, List.map_ofFn, Function.comp_assoc]

theorem length_allOps {α : Type} (f : Fin n ⊕ Fin r → α) : (allOps f).length = n + r := by
  simp [allOps]

theorem nodup_allOps {α : Type} (f : Fin n ⊕ Fin r → α) : (allOps f).Nodup ↔ Function.Injective f := by
  rw [allOps_eq, List.nodup_ofFn]
  constructor
  · intro h
    have := h.comp (finSumFinEquiv (m := n) (n := r)).injective
    rwa [Function.comp_assoc, Equiv.symm_comp_self, Function.comp_id] at this
  · intro h
    exact h.comp (Equiv.injective _)

theorem outOfOrder_exchange (f g : Fin n ⊕ Fin r → T) (hn : (allOps f ++ allOps g).Nodup)
    (σ τ : Perm (Fin n ⊕ Fin r)) :
    (-1 : ℤ) ^ outOfOrder (interleave (allOps (f ∘ σ)) (allOps (g ∘ τ))) =
      ((Perm.sign σ : ℤˣ) : ℤ) * ((Perm.sign τ : ℤˣ) : ℤ) *
        (-1) ^ outOfOrder (interleave (allOps f) (allOps g)) := by
  have hf := (nodup_allOps f).1 (List.Nodup.of_append_left hn)
  have hg := (nodup_allOps g).1 (List.Nodup.of_append_right hn)
  have hn' : (allOps (f ∘ σ) ++ allOps (g ∘ τ)).Nodup :=
    (((allOps_perm f σ).append (allOps_perm g τ)).nodup_iff).2 hn
  have e : ∀ a b : Fin n ⊕ Fin r → T, (allOps a ++ allOps b).Nodup →
      (-1 : ℤ) ^ outOfOrder (interleave (allOps a) (allOps b)) =
        (-1) ^ outOfOrder (allOps a) * (-1) ^ outOfOrder (allOps b) *
          (-1) ^ (crossCount (allOps a) (allOps b) + (n + r).choose 2) := by
    intro a b h
    rw [← pow_add, ← pow_add]
    apply negOne_pow_congr
    push_cast
    rw [outOfOrder_interleave _ _ (by rw [length_allOps, length_allOps]) h, length_allOps]
    ring
  rw [e _ _ hn', e _ _ hn, outOfOrder_allOps f hf, outOfOrder_allOps g hg,
    crossCount_perm_left (allOps_perm f σ), crossCount_perm_right _ (allOps_perm g τ)]
  ring

end exchange

/-! ### Minors of the enlarged inverse -/

section minors
variable {T K : Type} [Field K] {n r : ℕ}

/-- A permutation of bath and worm operators, extended to the auxiliary lines. -/
def gExt (σ : Perm (Fin n ⊕ Fin r)) : Perm (Fin n ⊕ (Fin r ⊕ Fin r)) :=
  (Equiv.sumAssoc _ _ _).permCongr (Equiv.sumCongr σ (Equiv.refl (Fin r)))

theorem sign_gExt (σ : Perm (Fin n ⊕ Fin r)) : Perm.sign (gExt σ) = Perm.sign σ := by
  unfold gExt
  rw [Perm.sign_permCongr]
  have := Perm.sign_sumCongr σ (1 : Perm (Fin r))
  rw [Perm.sign_one, mul_one] at this
  exact this

theorem gExt_pos (σ : Perm (Fin n ⊕ Fin r)) (i : Fin n ⊕ Fin r) : gExt σ (gPos i) = gPos (σ i) := by
  have e : ∀ j : Fin n ⊕ Fin r, (Equiv.sumAssoc (Fin n) (Fin r) (Fin r)) (.inl j) = gPos j := by
    rintro (j | j) <;> rfl
  have e2 : (Equiv.sumAssoc (Fin n) (Fin r) (Fin r)).symm (gPos i) = .inl i := by
    rw [← e, Equiv.symm_apply_apply]
  rw [gExt, Equiv.permCongr_apply, e2, ← e]
  rfl

theorem gExt_aux (σ : Perm (Fin n ⊕ Fin r)) (i : Fin r) : gExt σ (.inr (.inr i)) = .inr (.inr i) := rfl

/-- The coefficient for worms of any rank: `a`, `b` are the new annihilation and creation operators. -/
def gCoeff (d : K) (M : Matrix (Fin n ⊕ (Fin r ⊕ Fin r)) (Fin n ⊕ (Fin r ⊕ Fin r)) K)
    (a b : Fin r → Fin n ⊕ Fin r) : K :=
  d * (M.submatrix (Sum.elim (gPos ∘ b) (.inr ∘ .inr)) (Sum.elim (gPos ∘ a) (.inr ∘ .inr))).det

/-- The matrix of all operators and the auxiliary lines. -/
def gFull (G : Psi T → Psi T → K) (c cd : Fin n ⊕ Fin r → Psi T) (aux : Fin r ⊕ Fin r → Fin r ⊕ Fin r → K) :
    Matrix (Fin n ⊕ (Fin r ⊕ Fin r)) (Fin n ⊕ (Fin r ⊕ Fin r)) K :=
  fromBlocks (of fun i j => G (c (.inl i)) (cd (.inl j))) (gB G c cd) (gC G c cd) (gD G c cd aux)

theorem gFull_pos (G : Psi T → Psi T → K) (c cd : Fin n ⊕ Fin r → Psi T)
    (aux : Fin r ⊕ Fin r → Fin r ⊕ Fin r → K) (i j : Fin n ⊕ Fin r) :
    gFull G c cd aux (gPos i) (gPos j) = G (c i) (cd j) := by
  rcases i with i | i <;> rcases j with j | j <;> rfl

/-- Jacobi's identity for the exchange of operators between bath and worm. -/
theorem gCoeff_det [DecidableEq K] (G : Psi T → Psi T → K) (c cd : Fin n ⊕ Fin r → Psi T)
    (aux : Fin r ⊕ Fin r → Fin r ⊕ Fin r → K) (invA : Matrix (Fin n) (Fin n) K)
    (hA : invA * (of fun i j => G (c (.inl i)) (cd (.inl j))) = 1) (d : K)
    (M : Matrix (Fin n ⊕ (Fin r ⊕ Fin r)) (Fin n ⊕ (Fin r ⊕ Fin r)) K)
    (h : gEnlarge G c cd aux invA = some (d, M)) (σ τ : Perm (Fin n ⊕ Fin r)) :
    (of fun i j : Fin n => G (c (σ (.inl i))) (cd (τ (.inl j)))).det =
      ((Perm.sign σ : ℤˣ) : ℤ) * ((Perm.sign τ : ℤˣ) : ℤ) * gCoeff d M (σ ∘ .inr) (τ ∘ .inr) *
        (of fun i j : Fin n => G (c (.inl i)) (cd (.inl j))).det := by
  simp only [gEnlarge] at h
  split_ifs at h with h0
  obtain ⟨rfl, rfl⟩ := Prod.mk.injEq .. ▸ Option.some.inj h
  have hM := C13_inverse_up _ _ _ _ _ hA h0
  have hd := C13_det_ratio_up _ (gB G c cd) (gC G c cd) (gD G c cd aux) _ hA
  set M := inverseUp (gB G c cd) (gC G c cd) (gD G c cd aux) invA
  set d := detRatioUp (gB G c cd) (gC G c cd) (gD G c cd aux) invA
  change M * gFull G c cd aux = 1 at hM
  change (gFull G c cd aux).det = _ at hd
  have h2 : M.submatrix (gExt τ) (gExt σ) * (gFull G c cd aux).submatrix (gExt σ) (gExt τ) = 1 := by
    rw [Matrix.submatrix_mul_equiv, hM, Matrix.submatrix_one_equiv]
  have h3 := C14_det_ratio_down _ _ h2
  have e1 : ((gFull G c cd aux).submatrix (gExt σ) (gExt τ)).toBlocks₁₁ =
      of fun i j : Fin n => G (c (σ (.inl i))) (cd (τ (.inl j))) := by
    ext i j
    simp only [toBlocks₁₁, of_apply, submatrix_apply]
    have ei : ∀ i : Fin n, (Sum.inl i : Fin n ⊕ (Fin r ⊕ Fin r)) = gPos (.inl i) := fun _ => rfl
    rw [ei, ei, gExt_pos, gExt_pos, gFull_pos]
  have e2 : (M.submatrix (gExt τ) (gExt σ)).toBlocks₂₂ =
      M.submatrix (Sum.elim (gPos ∘ (τ ∘ .inr)) (.inr ∘ .inr)) (Sum.elim (gPos ∘ (σ ∘ .inr)) (.inr ∘ .inr)) := by
    have ei : ∀ (ρ : Perm (Fin n ⊕ Fin r)) (i : Fin r ⊕ Fin r), gExt ρ (.inr i) =
        Sum.elim (gPos ∘ (ρ ∘ .inr)) (.inr ∘ .inr) i := by
      rintro ρ (i | i)
      · exact gExt_pos ρ (.inr i)
      · rfl
    ext i j
    simp only [toBlocks₂₂, of_apply, submatrix_apply, ei]
  have e3 : ((gFull G c cd aux).submatrix (gExt σ) (gExt τ)).det =
      ((Perm.sign σ : ℤˣ) : ℤ) * ((Perm.sign τ : ℤˣ) : ℤ) * (gFull G c cd aux).det := by
    have := Matrix.det_permute' (gExt τ) ((gFull G c cd aux).submatrix (gExt σ) id)
    rw [Matrix.submatrix_submatrix] at this
    simp only [Function.comp_id, Function.id_comp] at this
    rw [this, Matrix.det_permute, sign_gExt, sign_gExt]
    ring
  rw [e1, detRatioDown, e2, e3, hd] at h3
  rw [h3, gCoeff]
  ring

end minors
end CTHyb
