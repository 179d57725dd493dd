import Verif.PermSignProps
import Mathlib.LinearAlgebra.Matrix.Determinant.Basic
import Mathlib.Data.Matrix.Block
import Mathlib.Order.OrderDual

/-!
Specification shared by the determinant matrices and the global updates: the determinant of the
matrix `G(c_i, c†_j)` for lists of operators, in a given order (`listDet`) and in time order
(`timeDet`), and the sign relating the two.
-/

namespace CTHyb

open Equiv

variable {α β T K : Type}

/-- Determinant of the matrix with entries `G(rows i, cols j)`; zero if it is not square. -/
def listDet [CommRing K] (G : α → β → K) (rows : List α) (cols : List β) : K :=
  if h : cols.length = rows.length then
    (Matrix.of fun i j : Fin rows.length => G (rows.get i) (cols.get (j.cast h.symm))).det
  else 0

/-- The operators in the order of increasing time. -/
def timeSort [LinearOrder T] (l : List (Psi T)) : List (Psi T) :=
  l.mergeSort (fun a b => decide (a.time ≤ b.time))

/-- Determinant of the matrix `G(c_i, c†_j)` with rows and columns in time order. -/
def timeDet [CommRing K] [LinearOrder T] (G : Psi T → Psi T → K) (cs cds : List (Psi T)) : K :=
  listDet G (timeSort cs) (timeSort cds)

/-- Number of pairs in decreasing order. -/
def invs [LinearOrder T] : List T → ℕ
  | [] => 0
  | x :: l => l.countP (fun y => decide (y < x)) + invs l

/-! ### Determinants of lists -/

section
variable [CommRing K]

theorem listDet_eq (G : α → β → K) (rows : List α) (cols : List β) (n : ℕ)
    (h1 : rows.length = n) (h2 : cols.length = n) :
    listDet G rows cols = (Matrix.of fun i j : Fin n =>
      G (rows.get (i.cast h1.symm)) (cols.get (j.cast h2.symm))).det := by
  subst h1
  unfold listDet
  rw [dif_pos h2]
  rfl

theorem listDet_ofFn {n : ℕ} (G : α → β → K) (f : Fin n → α) (g : Fin n → β) :
    listDet G (List.ofFn f) (List.ofFn g) = (Matrix.of fun i j => G (f i) (g j)).det := by
  rw [listDet_eq G _ _ n (by simp) (by simp)]
  congr 1
  ext i j
  simp

theorem listDet_swap (G : α → β → K) (rows : List α) (cols : List β) :
    listDet G rows cols = listDet (fun b a => G a b) cols rows := by
  by_cases h : cols.length = rows.length
  · rw [listDet_eq G rows cols rows.length rfl h, listDet_eq _ cols rows rows.length h rfl,
      ← Matrix.det_transpose]
    rfl
  · unfold listDet
    rw [dif_neg h, dif_neg (fun h' => h h'.symm)]

/-- Reordering the rows gives the sign of the permutation. -/
theorem listDet_perm_rows (G : α → β → K) (rows : List α) (cols : List β)
    (σ : Perm (Fin rows.length)) :
    listDet G (List.ofFn (fun i => rows.get (σ i))) cols =
      (((Perm.sign σ : ℤˣ) : ℤ) : K) * listDet G rows cols := by
  by_cases h : cols.length = rows.length
  · rw [listDet_eq G rows cols rows.length rfl h, listDet_eq G _ cols rows.length (by simp) h,
      ← Matrix.det_permute]
    congr 1
    ext i j
    simp
  · unfold listDet
    rw [dif_neg h, dif_neg (by simpa using h), mul_zero]

/-- Two groups of operators without matrix elements between them. -/
theorem listDet_append (G : α → β → K) (r1 r2 : List α) (c1 c2 : List β)
    (h1 : c1.length = r1.length)
    (h12 : ∀ a ∈ r1, ∀ b ∈ c2, G a b = 0) :
    listDet G (r1 ++ r2) (c1 ++ c2) = listDet G r1 c1 * listDet G r2 c2 := by
  by_cases h2 : c2.length = r2.length
  · rw [listDet_eq G r1 c1 r1.length rfl h1, listDet_eq G r2 c2 r2.length rfl h2,
      listDet_eq G (r1 ++ r2) (c1 ++ c2) (r1.length + r2.length) (by simp) (by simp [h1, h2]),
      ← Matrix.det_reindex_self finSumFinEquiv.symm, ← Matrix.fromBlocks_toBlocks
        (Matrix.reindex finSumFinEquiv.symm finSumFinEquiv.symm _)]
    rw [show (Matrix.toBlocks₁₂ (Matrix.reindex finSumFinEquiv.symm finSumFinEquiv.symm
        (Matrix.of fun i j : Fin (r1.length + r2.length) =>
          G ((r1 ++ r2).get (i.cast (by simp))) ((c1 ++ c2).get (j.cast (by simp [h1, h2])))))) = 0
        from ?_, Matrix.det_fromBlocks_zero₁₂]
    · congr 2
      · ext i j
        simp only [Matrix.toBlocks₁₁, Matrix.reindex_apply, Matrix.of_apply, Matrix.submatrix_apply,
          Equiv.symm_symm, finSumFinEquiv_apply_left, List.get_eq_getElem, Fin.val_cast,
          Fin.val_castAdd]
        rw [List.getElem_append_left, List.getElem_append_left]
      · ext i j
        simp only [Matrix.toBlocks₂₂, Matrix.reindex_apply, Matrix.of_apply, Matrix.submatrix_apply,
          Equiv.symm_symm, finSumFinEquiv_apply_right, List.get_eq_getElem, Fin.val_cast,
          Fin.val_natAdd]
        rw [List.getElem_append_right (by omega), List.getElem_append_right (by omega)]
        congr 2 <;> omega
    · ext i j
      simp only [Matrix.toBlocks₁₂, Matrix.reindex_apply, Matrix.of_apply, Matrix.submatrix_apply,
        Equiv.symm_symm, finSumFinEquiv_apply_right, finSumFinEquiv_apply_left,
        List.get_eq_getElem, Fin.val_cast, Fin.val_natAdd, Fin.val_castAdd, Matrix.zero_apply]
      rw [List.getElem_append_left (by omega), List.getElem_append_right (by omega)]
      exact h12 _ (List.getElem_mem _) _ (List.getElem_mem _)
  · have hz : listDet G r2 c2 = 0 := by unfold listDet; rw [dif_neg h2]
    rw [hz, mul_zero]
    unfold listDet
    rw [dif_neg (by simp; omega)]

end

/-! ### Sorting -/

section
variable [LinearOrder T]

theorem timeSort_perm (l : List (Psi T)) : (timeSort l).Perm l := List.mergeSort_perm _ _

theorem timeSort_sorted (l : List (Psi T)) :
    (timeSort l).Pairwise (fun a b => a.time ≤ b.time) := by
  have := List.pairwise_mergeSort (le := fun a b : Psi T => decide (a.time ≤ b.time))
    (by intro a b c; simpa using fun h1 h2 => le_trans h1 h2)
    (by intro a b; simpa using le_total a.time b.time) l
  exact this.imp (fun h => by simpa using h)

theorem time_sorted_unique {l l' : List (Psi T)} (hp : l.Perm l') (hn : (l.map Psi.time).Nodup)
    (h : l.Pairwise (fun a b => a.time ≤ b.time)) (h' : l'.Pairwise (fun a b => a.time ≤ b.time)) :
    l = l' := by
  refine List.Perm.eq_of_pairwise (le := fun a b : Psi T => a.time ≤ b.time) ?_ h h' hp
  intro a b ha hb hab hba
  have hinj := List.inj_on_of_nodup_map hn
  exact hinj ha (hp.mem_iff.2 hb) (le_antisymm hab hba)

theorem timeSort_congr {l l' : List (Psi T)} (hp : l.Perm l') (hn : (l.map Psi.time).Nodup) :
    timeSort l = timeSort l' := by
  refine time_sorted_unique ((timeSort_perm l).trans (hp.trans (timeSort_perm l').symm)) ?_
    (timeSort_sorted l) (timeSort_sorted l')
  exact ((timeSort_perm l).map Psi.time).nodup_iff.2 hn

theorem invs_eq (l : List T) : invs l = outOfOrder (T := Tᵒᵈ) (l.map OrderDual.toDual) := by
  induction l with
  | nil => rfl
  | cons x l ih =>
    rw [invs, List.map_cons, outOfOrder, ih, List.countP_map]
    rfl

/-- The sign of a permutation sorting `l` in increasing order is the parity of the inversions. -/
theorem sign_of_sorting_asc (l : List T) (hl : l.Nodup) (σ : Perm (Fin l.length))
    (hsort : ∀ i j : Fin l.length, i < j → ¬ l.get (σ j) < l.get (σ i)) :
    ((Perm.sign σ : ℤˣ) : ℤ) = (-1) ^ (invs l) := by
  have hlen : (l.map OrderDual.toDual).length = l.length := by simp
  have := sign_of_sorting (T := Tᵒᵈ) (l.map OrderDual.toDual)
    (hl.map OrderDual.toDual.injective)
    ((finCongr hlen).symm.permCongr σ) (by
      intro i j hij
      have := hsort (i.cast hlen) (j.cast hlen) hij
      simpa [OrderDual.toDual_lt_toDual] using this)
  rw [invs_eq, ← this]
  simp [Perm.sign_permCongr]

theorem exists_sorting (l : List (Psi T)) (hl : (l.map Psi.time).Nodup) :
    ∃ σ : Perm (Fin l.length), timeSort l = List.ofFn (fun i => l.get (σ i)) ∧
      ((Perm.sign σ : ℤˣ) : ℤ) = (-1) ^ (invs (l.map Psi.time)) := by
  have hinj : Function.Injective (fun i : Fin l.length => (l.get i).time) := by
    have := List.nodup_iff_injective_get.1 hl
    intro i j hij
    have h2 := this (a₁ := i.cast (by simp)) (a₂ := j.cast (by simp)) (by simpa using hij)
    simpa using h2
  obtain ⟨σ, hσ, -⟩ := C20_permutation _ hinj
  refine ⟨σ, ?_, ?_⟩
  · have hp : (List.ofFn (fun i => l.get (σ i))).Perm l := by
      have := (Equiv.Perm.ofFn_comp_perm σ l.get)
      rw [List.ofFn_get] at this
      exact this
    refine (time_sorted_unique (hp.trans (timeSort_perm l).symm)
      (((hp.map Psi.time)).nodup_iff.2 hl) ?_ (timeSort_sorted l)).symm
    rw [List.pairwise_ofFn]
    intro i j hij
    exact (hσ hij).le
  · have hlen : (l.map Psi.time).length = l.length := by simp
    have := sign_of_sorting_asc (l.map Psi.time) hl ((finCongr hlen).symm.permCongr σ) (by
      intro i j hij
      have := hσ (a := i.cast hlen) (b := j.cast hlen) hij
      simpa using this.le)
    rw [← this]
    simp [Perm.sign_permCongr]

/-- The determinant in time order and the one in an arbitrary storage order. -/
theorem timeDet_eq [CommRing K] (G : Psi T → Psi T → K) (cs cds : List (Psi T))
    (h1 : (cs.map Psi.time).Nodup) (h2 : (cds.map Psi.time).Nodup) :
    timeDet G cs cds = (-1) ^ (invs (cs.map Psi.time) + invs (cds.map Psi.time)) *
      listDet G cs cds := by
  obtain ⟨σ, e1, s1⟩ := exists_sorting cs h1
  obtain ⟨τ, e2, s2⟩ := exists_sorting cds h2
  unfold timeDet
  rw [e1, e2, listDet_perm_rows, s1, listDet_swap, listDet_perm_rows, s2, listDet_swap, pow_add]
  push_cast
  ring

/-- The time-ordered determinant does not depend on the storage order. -/
theorem timeDet_congr [CommRing K] (G : Psi T → Psi T → K) {cs cs' cds cds' : List (Psi T)}
    (hp1 : cs.Perm cs') (hp2 : cds.Perm cds') (h1 : (cs.map Psi.time).Nodup)
    (h2 : (cds.map Psi.time).Nodup) : timeDet G cs cds = timeDet G cs' cds' := by
  unfold timeDet
  rw [timeSort_congr hp1 h1, timeSort_congr hp2 h2]

end
end CTHyb
