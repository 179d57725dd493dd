import Verif.GMeasStateLemmas

/-!
The bound below which elements of the inverse matrix are dropped.
-/

namespace CTHyb

variable {𝕜 : Type} [RCLike 𝕜] [DecidableEq 𝕜]

/-- **Specification.**  The rows (columns) of the reduced matrix: the operators kept and all auxiliary lines. -/
inductive InReduced {n r : ℕ} (l : List (Fin n ⊕ Fin r)) : Fin n ⊕ (Fin r ⊕ Fin r) → Prop
  | bath (i : Fin n) (h : Sum.inl i ∈ l) : InReduced l (.inl i)
  | worm (i : Fin r) (h : Sum.inr i ∈ l) : InReduced l (.inr (.inl i))
  | aux (i : Fin r) : InReduced l (.inr (.inr i))

theorem gKept_iff {n r : ℕ} (l : List (Fin n ⊕ Fin r)) (i : Fin n ⊕ (Fin r ⊕ Fin r)) : gKept l i = true ↔ InReduced l i := by
  rcases i with i | i | i
  · simp only [gKept, List.any_eq_true, decide_eq_true_eq]
    exact ⟨fun ⟨k, h, e⟩ => .bath i (e ▸ h), fun h => by cases h with | bath _ h => exact ⟨_, h, rfl⟩⟩
  · simp only [gKept, List.any_eq_true, decide_eq_true_eq]
    exact ⟨fun ⟨k, h, e⟩ => .worm i (e ▸ h), fun h => by cases h with | worm _ h => exact ⟨_, h, rfl⟩⟩
  · exact ⟨fun _ => .aux i, fun _ => rfl⟩

/-- **C66.**  The cutoff is 1e-10 times the largest absolute value of the reduced matrix; elements which
were removed do not matter. -/
theorem C66_cutoff {n r : ℕ} (M : Matrix (Fin n ⊕ (Fin r ⊕ Fin r)) (Fin n ⊕ (Fin r ⊕ Fin r)) 𝕜)
    (rows cols : List (Fin n ⊕ Fin r)) :
    (∀ i j, InReduced rows i → InReduced cols j → 1e-10 * ‖M i j‖ ≤ gCutoff M rows cols) ∧
    (0 < r → ∃ i j, InReduced rows i ∧ InReduced cols j ∧ gCutoff M rows cols = 1e-10 * ‖M i j‖) := by
  unfold gCutoff
  constructor
  · intro i j hi hj
    refine mul_le_mul_of_nonneg_left ?_ (by norm_num)
    have := Finset.le_sup (f := fun p : (Fin n ⊕ (Fin r ⊕ Fin r)) × (Fin n ⊕ (Fin r ⊕ Fin r)) => ‖M p.1 p.2‖₊)
      (s := Finset.univ.filter fun p : (Fin n ⊕ (Fin r ⊕ Fin r)) × (Fin n ⊕ (Fin r ⊕ Fin r)) =>
        gKept rows p.1 && gKept cols p.2) (b := (i, j))
      (by rw [Finset.mem_filter, (gKept_iff rows i).2 hi, (gKept_iff cols j).2 hj]; exact ⟨Finset.mem_univ _, rfl⟩)
    exact_mod_cast this
  · intro hr
    obtain ⟨p, hp, e⟩ := Finset.exists_mem_eq_sup
      (Finset.univ.filter fun p : (Fin n ⊕ (Fin r ⊕ Fin r)) × (Fin n ⊕ (Fin r ⊕ Fin r)) => gKept rows p.1 && gKept cols p.2)
      ⟨(.inr (.inr ⟨0, hr⟩), .inr (.inr ⟨0, hr⟩)), by simp [gKept]⟩ fun p => ‖M p.1 p.2‖₊
    rw [Finset.mem_filter, Bool.and_eq_true, gKept_iff, gKept_iff] at hp
    refine ⟨p.1, p.2, hp.2.1, hp.2.2, ?_⟩
    rw [e]; rfl

/-- One bath operator which is removed and one pair of the worm: the element of the bath does not count. -/
example (M : Matrix (Fin 1 ⊕ (Fin 1 ⊕ Fin 1)) (Fin 1 ⊕ (Fin 1 ⊕ Fin 1)) ℝ)
    (h : ∀ i j, M (.inr i) (.inr j) = 2) : gCutoff M [.inr 0] [.inr 0] = 2e-10 := by
  obtain ⟨i, j, hi, hj, e⟩ := (C66_cutoff M [.inr 0] [.inr 0]).2 one_pos
  have : M i j = 2 := by
    cases hi with
    | bath _ h => simp at h
    | worm i _ =>
      cases hj with
      | bath _ h => simp at h
      | worm j _ => exact h _ _
      | aux j => exact h _ _
    | aux i =>
      cases hj with
      | bath _ h => simp at h
      | worm j _ => exact h _ _
      | aux j => exact h _ _
  rw [e, this]; norm_num

end CTHyb
