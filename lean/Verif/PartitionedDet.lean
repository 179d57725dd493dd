import Verif.PartitionedLemmas

/-!
The determinant of a matrix which vanishes between sectors is a product over sectors and a sign.
-/

namespace CTHyb

open Matrix

variable {T K : Type} [LinearOrder T] [Field K]

theorem det_zero_of_rows {n : ℕ} (M : Matrix (Fin n) (Fin n) K) (S C : Finset (Fin n)) (h : C.card < S.card)
    (hM : ∀ i ∈ S, ∀ j, j ∉ C → M i j = 0) : M.det = 0 := by
  rw [Matrix.det_apply]
  apply Finset.sum_eq_zero
  intro σ _
  have hc : (C.image σ).card < S.card := lt_of_le_of_lt Finset.card_image_le h
  obtain ⟨x, hx, hx'⟩ := Finset.exists_mem_notMem_of_card_lt_card hc
  have : ∏ i, M (σ i) i = 0 := by
    apply Finset.prod_eq_zero (Finset.mem_univ (σ⁻¹ x))
    rw [show σ (σ⁻¹ x) = x by simp]
    apply hM x hx
    intro hmem
    apply hx'
    exact Finset.mem_image.2 ⟨σ⁻¹ x, hmem, by simp⟩
  rw [this, smul_zero]

theorem listDet_zero_of_lt {α β : Type} (G : α → β → K) (r1 r2 : List α) (c1 c2 : List β)
    (h : c1.length < r1.length) (h12 : ∀ a ∈ r1, ∀ b ∈ c2, G a b = 0) :
    listDet G (r1 ++ r2) (c1 ++ c2) = 0 := by
  by_cases hl : (c1 ++ c2).length = (r1 ++ r2).length
  · rw [listDet_eq G _ _ _ rfl hl]
    have hn : r1.length ≤ (r1 ++ r2).length := by simp
    apply det_zero_of_rows _ (Finset.univ.filter fun i : Fin (r1 ++ r2).length => (i : ℕ) < r1.length)
      (Finset.univ.filter fun i : Fin (r1 ++ r2).length => (i : ℕ) < c1.length)
    · have key : ∀ a, a ≤ (r1 ++ r2).length →
          (Finset.univ.filter fun i : Fin (r1 ++ r2).length => (i : ℕ) < a).card = a := by
        intro a ha
        rw [Fin.card_filter_val_lt]
        omega
      rw [key _ hn, key _ (by omega)]
      exact h
    · intro i hi j hj
      simp only [Finset.mem_filter, Finset.mem_univ, true_and, not_lt] at hi hj
      simp only [Matrix.of_apply, List.get_eq_getElem, Fin.val_cast]
      rw [List.getElem_append_left hi, List.getElem_append_right hj]
      exact h12 _ (List.getElem_mem _) _ (List.getElem_mem _)
  · rw [listDet, dif_neg hl]

/-- Two blocks, whatever their sizes. -/
theorem listDet_blocks {α β : Type} (G : α → β → K) (r1 r2 : List α) (c1 c2 : List β)
    (h12 : ∀ a ∈ r1, ∀ b ∈ c2, G a b = 0) (h21 : ∀ a ∈ r2, ∀ b ∈ c1, G a b = 0) :
    listDet G (r1 ++ r2) (c1 ++ c2) = listDet G r1 c1 * listDet G r2 c2 := by
  rcases lt_trichotomy c1.length r1.length with h | h | h
  · rw [listDet_zero_of_lt G r1 r2 c1 c2 h h12, listDet, dif_neg h.ne, zero_mul]
  · exact listDet_append G r1 r2 c1 c2 h h12
  · rw [listDet_swap, listDet_zero_of_lt (fun b a => G a b) c1 c2 r1 r2 h (fun b hb a ha => h21 a ha b hb),
      listDet, dif_neg h.ne', zero_mul]

theorem listDet_flatMap {α β : Type} (G : α → β → K) (r : ℕ → List α) (c : ℕ → List β) (n : ℕ)
    (h : ∀ i j, i < n → j < n → i ≠ j → ∀ a ∈ r i, ∀ b ∈ c j, G a b = 0) :
    listDet G ((List.range n).flatMap r) ((List.range n).flatMap c) =
      ∏ k ∈ Finset.range n, listDet G (r k) (c k) := by
  induction n with
  | zero =>
    have : listDet G ([] : List α) ([] : List β) = 1 := by
      rw [listDet_eq G _ _ 0 rfl rfl]
      exact Matrix.det_isEmpty (n := Fin 0)
    simpa using this
  | succ n ih =>
    rw [List.range_succ, List.flatMap_append, List.flatMap_append, Finset.prod_range_succ,
      ← ih (fun i j hi hj => h i j (by omega) (by omega))]
    simp only [List.flatMap_cons, List.flatMap_nil, List.append_nil]
    apply listDet_blocks
    · intro a ha b hb
      obtain ⟨i, hi, ha⟩ := List.mem_flatMap.1 ha
      rw [List.mem_range] at hi
      exact h i n (by omega) (by omega) (by omega) a ha b hb
    · intro a ha b hb
      obtain ⟨i, hi, hb⟩ := List.mem_flatMap.1 hb
      rw [List.mem_range] at hi
      exact h n i (by omega) (by omega) (by omega) a ha b hb

/-- A list of operators in the order of time within each sector, sector by sector. -/
def sectorSort (E : PEnv) (l : List (Psi T)) : List (Psi T) :=
  (List.range E.ns).flatMap fun k => timeSort (l.filter fun o => E.sector o.flavor = k)

theorem sectorSort_perm (E : PEnv) (l : List (Psi T)) (h : ∀ o ∈ l, E.Valid o) : (sectorSort E l).Perm l := by
  rw [← Multiset.coe_eq_coe]
  unfold sectorSort
  rw [flatMap_coe (l : Multiset (Psi T)) (fun o => E.sector o.flavor)
    (fun k => timeSort (l.filter fun o => E.sector o.flavor = k)) E.ns (fun k _ => by
      rw [Multiset.filter_coe, Multiset.coe_eq_coe]; exact timeSort_perm _)]
  exact Multiset.filter_eq_self.2 fun o ho => (h o ho).2

/-- **C18 (determinant by sectors).**  If `G` vanishes between different sectors, the determinant with all
operators in the order of time is the product of the determinants of the sectors, times the sign of the
permutation from the order by sectors to the order in time. -/
theorem C18_sector_determinants (E : PEnv) (G : Psi T → Psi T → K) (hG : E.BlockDiag G) (cs cds : List (Psi T))
    (h1 : (cs.map Psi.time).Nodup) (h2 : (cds.map Psi.time).Nodup) (v1 : ∀ o ∈ cs, E.Valid o)
    (v2 : ∀ o ∈ cds, E.Valid o) :
    timeDet G cs cds = (-1) ^ (invs ((sectorSort E cs).map Psi.time) + invs ((sectorSort E cds).map Psi.time)) *
      ∏ k ∈ Finset.range E.ns, timeDet G (cs.filter fun o => E.sector o.flavor = k)
        (cds.filter fun o => E.sector o.flavor = k) := by
  have p1 := sectorSort_perm E cs v1
  have p2 := sectorSort_perm E cds v2
  rw [timeDet_congr G p1.symm p2.symm h1 h2,
    timeDet_eq G _ _ ((p1.map Psi.time).nodup_iff.2 h1) ((p2.map Psi.time).nodup_iff.2 h2)]
  congr 1
  unfold sectorSort
  rw [listDet_flatMap G _ _ E.ns]
  · rfl
  · intro i j _ _ hij a ha b hb
    have ha' := List.mem_filter.1 ((timeSort_perm _).mem_iff.1 ha)
    have hb' := List.mem_filter.1 ((timeSort_perm _).mem_iff.1 hb)
    simp only [decide_eq_true_eq] at ha' hb'
    exact hG a b (v1 a ha'.1).1 (v2 b hb'.1).1 (by rw [ha'.2, hb'.2]; exact hij)

theorem Holds.eq_timeSort {s : OpSet T} {l : List (Psi T)} (h : Holds s l) : s = timeSort l := by
  have hp : s.Perm l := Multiset.coe_eq_coe.1 h.2
  refine time_sorted_unique (hp.trans (timeSort_perm l).symm) ?_ ?_ (timeSort_sorted l)
  · exact List.Pairwise.imp ne_of_lt (List.pairwise_map.2 h.1)
  · exact List.Pairwise.imp (fun h => le_of_lt h) h.1

theorem PSide.OK.order_eq {E : PEnv} {p : PSide T} {l : List (Psi T)} (h : p.OK E l) :
    p.order E = (sectorSort E l).map Psi.time := by
  unfold PSide.order sectorSort
  rw [List.map_flatMap]
  apply List.flatMap_congr
  intro k hk
  congr 1
  apply Holds.eq_timeSort
  have := h.sec k (List.mem_range.1 hk)
  unfold PEnv.inSector at this
  rwa [Multiset.filter_coe] at this

end CTHyb
