import Verif.CombSort
import Mathlib.Algebra.BigOperators.Fin
import Mathlib.Algebra.Order.BigOperators.Group.Finset
import Mathlib.Tactic.Ring
import Mathlib.Tactic.Linarith

/-!
C20: comb sort sorts, terminates, and reports the parity of the permutation; the same for the
bubble sort `permutation`, which does not terminate on duplicates.
-/

namespace CTHyb

open Equiv

variable {α : Type} {N : ℕ}

/-! ### Helper lemmas -/

theorem exchSign_eq (n : ℕ) : exchSign n = (-1) ^ n := by
  unfold exchSign
  split
  · rename_i h; rw [Even.neg_one_pow (Nat.even_iff.2 h)]
  · rename_i h; rw [Odd.neg_one_pow (Nat.odd_iff.2 (by omega))]

/-- The vector is a rearrangement of `v0` by a permutation whose sign is given by the count. -/
def PermInv (v0 v : Fin N → α) (cnt : ℕ) : Prop :=
  ∃ σ : Perm (Fin N), v = v0 ∘ σ ∧ ((Perm.sign σ : ℤˣ) : ℤ) = (-1) ^ cnt

theorem PermInv.swap {v0 v : Fin N → α} {cnt : ℕ} (h : PermInv v0 v cnt) {a b : Fin N}
    (hab : a ≠ b) : PermInv v0 (v ∘ Equiv.swap a b) (cnt + 1) := by
  obtain ⟨σ, hv, hs⟩ := h
  refine ⟨σ * Equiv.swap a b, ?_, ?_⟩
  · rw [hv]; rfl
  · rw [Perm.sign_mul, Perm.sign_swap hab]
    push_cast
    rw [hs, pow_succ]

/-- Weighted rank sum: grows with each swap of an out-of-order pair. -/
def rankSum (ρ : α → ℕ) (v : Fin N → α) : ℕ := ∑ i : Fin N, (i : ℕ) * ρ (v i)

theorem rankSum_swap (ρ : α → ℕ) (v : Fin N → α) (a b : Fin N) (hab : a < b)
    (h : ρ (v b) < ρ (v a)) : rankSum ρ v < rankSum ρ (v ∘ Equiv.swap a b) := by
  unfold rankSum
  have hne : a ≠ b := ne_of_lt hab
  have e : ∀ f : Fin N → ℕ, ∑ i, f i = f a + (f b + ∑ i ∈ (Finset.univ.erase a).erase b, f i) := by
    intro f
    rw [← Finset.add_sum_erase Finset.univ f (Finset.mem_univ a),
      ← Finset.add_sum_erase (Finset.univ.erase a) f
        (Finset.mem_erase.2 ⟨hne.symm, Finset.mem_univ b⟩)]
  rw [e, e]
  have hrest : ∑ i ∈ (Finset.univ.erase a).erase b, (i : ℕ) * ρ ((v ∘ Equiv.swap a b) i) =
      ∑ i ∈ (Finset.univ.erase a).erase b, (i : ℕ) * ρ (v i) := by
    apply Finset.sum_congr rfl
    intro i hi
    simp only [Finset.mem_erase] at hi
    simp [Equiv.swap_apply_of_ne_of_ne hi.2.1 hi.1]
  rw [hrest]
  simp only [Function.comp, Equiv.swap_apply_left, Equiv.swap_apply_right]
  have hab' : (a : ℕ) < b := hab
  obtain ⟨d, hd⟩ := Nat.exists_eq_add_of_lt hab'
  obtain ⟨e', he⟩ := Nat.exists_eq_add_of_lt h
  rw [hd, he]
  nlinarith [Nat.zero_le (d * e')]

theorem rankSum_le (ρ : α → ℕ) (v0 : Fin N → α) (B : ℕ) (hB : ∀ i, ρ (v0 i) ≤ B)
    (σ : Perm (Fin N)) : rankSum ρ (v0 ∘ σ) ≤ N * (N * B) := by
  unfold rankSum
  calc ∑ i : Fin N, (i : ℕ) * ρ ((v0 ∘ σ) i) ≤ ∑ _i : Fin N, N * B := by
        apply Finset.sum_le_sum
        intro i _
        exact Nat.mul_le_mul i.2.le (hB _)
    _ = N * (N * B) := by simp

section comb
variable (r : α → α → Prop) [DecidableRel r]

/-- Invariant of a pass over a prefix of the indices. -/
structure PassInv (gap : ℕ) (v0 v1 : Fin N → α) (ρ : α → ℕ) (k : ℕ)
    (st : (Fin N → α) × ℕ × Bool) : Prop where
  perm : PermInv v0 st.1 st.2.1
  unch : st.2.2 = false → st.1 = v1 ∧
    ∀ i, i < k → ∀ h : i + gap < N,
      ¬ r (v1 ⟨i + gap, h⟩) (v1 ⟨i, lt_of_le_of_lt (Nat.le_add_right i gap) h⟩)
  mono : rankSum ρ v1 ≤ rankSum ρ st.1
  strict : st.2.2 = true → rankSum ρ v1 < rankSum ρ st.1

theorem passStep_inv [Std.Irrefl r] (gap : ℕ) (v0 v1 : Fin N → α) (ρ : α → ℕ)
    (hρ : ∀ i j, r (v0 i) (v0 j) → ρ (v0 i) < ρ (v0 j)) (k : ℕ)
    (st : (Fin N → α) × ℕ × Bool) (h : PassInv r gap v0 v1 ρ k st) :
    PassInv r gap v0 v1 ρ (k + 1) (passStep r gap st k) := by
  unfold passStep
  by_cases hk : k + gap < N
  · rw [dif_pos hk]
    simp only
    split_ifs with hr
    · obtain ⟨σ, hv, hs⟩ := h.perm
      have hgap : gap ≠ 0 := by
        rintro rfl
        exact Std.Irrefl.irrefl (r := r) _ hr
      have hlt : (⟨k, lt_of_le_of_lt (Nat.le_add_right k gap) hk⟩ : Fin N) < ⟨k + gap, hk⟩ := by
        rw [Fin.lt_def]; simp; omega
      have hrank := rankSum_swap ρ st.1 _ _ hlt (by
        rw [hv] at hr ⊢; exact hρ _ _ hr)
      refine ⟨h.perm.swap (ne_of_lt hlt), by simp, ?_, ?_⟩
      · exact le_trans h.mono hrank.le
      · intro _; exact lt_of_le_of_lt h.mono hrank
    · refine ⟨h.perm, ?_, h.mono, h.strict⟩
      intro hf
      obtain ⟨h1, h2⟩ := h.unch hf
      refine ⟨h1, ?_⟩
      intro i hi hN
      rcases Nat.lt_succ_iff_lt_or_eq.1 hi with hi | rfl
      · exact h2 i hi hN
      · rw [h1] at hr; exact hr
  · rw [dif_neg hk]
    refine ⟨h.perm, ?_, h.mono, h.strict⟩
    intro hf
    obtain ⟨h1, h2⟩ := h.unch hf
    refine ⟨h1, ?_⟩
    intro i hi hN
    rcases Nat.lt_succ_iff_lt_or_eq.1 hi with hi | rfl
    · exact h2 i hi hN
    · exact absurd hN hk

theorem combPass_inv [Std.Irrefl r] (gap : ℕ) (v0 v1 : Fin N → α) (cnt : ℕ) (ρ : α → ℕ)
    (hρ : ∀ i j, r (v0 i) (v0 j) → ρ (v0 i) < ρ (v0 j)) (hp : PermInv v0 v1 cnt) :
    PassInv r gap v0 v1 ρ (N - gap) (combPass r gap v1 cnt) := by
  unfold combPass
  generalize N - gap = m
  induction m with
  | zero => exact ⟨hp, fun _ => ⟨rfl, by simp⟩, le_rfl, by simp⟩
  | succ m ih =>
    rw [List.range_succ, List.foldl_append]
    exact passStep_inv r gap v0 v1 ρ hρ m _ ih

/-- What a finished comb sort has produced. -/
def CombResult (v0 : Fin N → α) (res : (Fin N → α) × ℕ) : Prop :=
  PermInv v0 res.1 res.2 ∧
  ∀ i, ∀ h : i + 1 < N, ¬ r (res.1 ⟨i + 1, h⟩) (res.1 ⟨i, by omega⟩)

theorem combLoop_gap1 [Std.Irrefl r] (shr : ℕ → ℕ) (hshr : ∀ n, 1 ≤ n → shr n < n)
    (v0 : Fin N → α) (ρ : α → ℕ) (B : ℕ) (hB : ∀ i, ρ (v0 i) ≤ B)
    (hρ : ∀ i j, r (v0 i) (v0 j) → ρ (v0 i) < ρ (v0 j)) (m : ℕ) :
    ∀ (v : Fin N → α) (cnt : ℕ), PermInv v0 v cnt → N * (N * B) - rankSum ρ v ≤ m →
    ∃ res, CombResult r v0 res ∧ ∀ f, m + 1 ≤ f → combLoop r shr f 1 v cnt = some res := by
  induction m with
  | zero =>
    intro v cnt hp hm
    have hinv := combPass_inv r 1 v0 v cnt ρ hρ hp
    cases hsw : (combPass r 1 v cnt).2.2 with
    | false =>
      obtain ⟨h1, h2⟩ := hinv.unch hsw
      refine ⟨((combPass r 1 v cnt).1, (combPass r 1 v cnt).2.1), ⟨hinv.perm, ?_⟩, ?_⟩
      · intro i h; simp only [h1]; exact h2 i (by omega) h
      · intro f hf
        obtain ⟨f', rfl⟩ : ∃ f', f = f' + 1 := ⟨f - 1, by omega⟩
        simp [combLoop, hsw]
    | true =>
      obtain ⟨σ, hv, _⟩ := hinv.perm
      have hb := rankSum_le ρ v0 B hB σ
      rw [← hv] at hb
      have := hinv.strict hsw
      omega
  | succ m ih =>
    intro v cnt hp hm
    have hinv := combPass_inv r 1 v0 v cnt ρ hρ hp
    cases hsw : (combPass r 1 v cnt).2.2 with
    | false =>
      obtain ⟨h1, h2⟩ := hinv.unch hsw
      refine ⟨((combPass r 1 v cnt).1, (combPass r 1 v cnt).2.1), ⟨hinv.perm, ?_⟩, ?_⟩
      · intro i h; simp only [h1]; exact h2 i (by omega) h
      · intro f hf
        obtain ⟨f', rfl⟩ : ∃ f', f = f' + 1 := ⟨f - 1, by omega⟩
        simp [combLoop, hsw]
    | true =>
      have hs := hinv.strict hsw
      obtain ⟨res, hres, hf0⟩ := ih (combPass r 1 v cnt).1 (combPass r 1 v cnt).2.1 hinv.perm
        (by omega)
      refine ⟨res, hres, ?_⟩
      intro f hf
      obtain ⟨f', rfl⟩ : ∃ f', f = f' + 1 := ⟨f - 1, by omega⟩
      have h1 : max (shr 1) 1 = 1 := by have := hshr 1 le_rfl; omega
      simp only [combLoop, hsw, h1]
      simpa using hf0 f' (by omega)

theorem combLoop_terminates [Std.Irrefl r] (shr : ℕ → ℕ) (hshr : ∀ n, 1 ≤ n → shr n < n)
    (v0 : Fin N → α) (ρ : α → ℕ) (B : ℕ) (hB : ∀ i, ρ (v0 i) ≤ B)
    (hρ : ∀ i j, r (v0 i) (v0 j) → ρ (v0 i) < ρ (v0 j)) (gap : ℕ) :
    ∀ (v : Fin N → α) (cnt : ℕ), PermInv v0 v cnt →
    ∃ res, CombResult r v0 res ∧
      ∀ f, N * (N * B) + gap + 1 ≤ f → combLoop r shr f (gap + 1) v cnt = some res := by
  induction gap using Nat.strong_induction_on with
  | _ gap ih =>
    intro v cnt hp
    rcases Nat.eq_zero_or_pos gap with rfl | hg
    · obtain ⟨res, hres, hf⟩ := combLoop_gap1 r shr hshr v0 ρ B hB hρ _ v cnt hp le_rfl
      exact ⟨res, hres, fun f hf' => hf f (by omega)⟩
    · have hinv := combPass_inv r (gap + 1) v0 v cnt ρ hρ hp
      have hs := hshr (gap + 1) (by omega)
      obtain ⟨res, hres, hf0⟩ := ih (max (shr (gap + 1)) 1 - 1) (by omega)
        (combPass r (gap + 1) v cnt).1 (combPass r (gap + 1) v cnt).2.1 hinv.perm
      refine ⟨res, hres, ?_⟩
      intro f hf
      obtain ⟨f', rfl⟩ : ∃ f', f = f' + 1 := ⟨f - 1, by omega⟩
      have hne : ¬ ((combPass r (gap + 1) v cnt).2.2 = false ∧ gap + 1 = 1) := by omega
      simp only [combLoop, hne, if_false]
      have := hf0 f' (by omega)
      rwa [show max (shr (gap + 1)) 1 - 1 + 1 = max (shr (gap + 1)) 1 by omega] at this

theorem combLoop_gap0 [Std.Irrefl r] (shr : ℕ → ℕ) (hshr0 : shr 0 = 0)
    (hshr : ∀ n, 1 ≤ n → shr n < n)
    (v0 : Fin N → α) (ρ : α → ℕ) (B : ℕ) (hB : ∀ i, ρ (v0 i) ≤ B)
    (hρ : ∀ i j, r (v0 i) (v0 j) → ρ (v0 i) < ρ (v0 j)) (v : Fin N → α) (cnt : ℕ)
    (hp : PermInv v0 v cnt) (gap : ℕ) :
    ∃ res, CombResult r v0 res ∧
      ∀ f, N * (N * B) + gap + 2 ≤ f → combLoop r shr f gap v cnt = some res := by
  cases gap with
  | succ g =>
    obtain ⟨res, hres, hf⟩ := combLoop_terminates r shr hshr v0 ρ B hB hρ g v cnt hp
    exact ⟨res, hres, fun f hf' => hf f (by omega)⟩
  | zero =>
    have hinv := combPass_inv r 0 v0 v cnt ρ hρ hp
    obtain ⟨res, hres, hf0⟩ := combLoop_terminates r shr hshr v0 ρ B hB hρ 0
      (combPass r 0 v cnt).1 (combPass r 0 v cnt).2.1 hinv.perm
    refine ⟨res, hres, ?_⟩
    intro f hf
    obtain ⟨f', rfl⟩ : ∃ f', f = f' + 1 := ⟨f - 1, by omega⟩
    simp only [combLoop, hshr0]
    simpa using hf0 f' (by omega)

end comb

/-- Adjacent order implies order for all pairs. -/
theorem sorted_of_adjacent (r : α → α → Prop) [IsStrictTotalOrder α r] (v : Fin N → α)
    (h : ∀ i, ∀ hi : i + 1 < N, ¬ r (v ⟨i + 1, hi⟩) (v ⟨i, by omega⟩)) :
    ∀ i j : Fin N, i < j → ¬ r (v j) (v i) := by
  intro i j hij
  obtain ⟨i, hi⟩ := i
  obtain ⟨j, hj⟩ := j
  have hij' : i < j := hij
  clear hij
  induction j, hij' using Nat.le_induction with
  | base => exact h i hj
  | succ j hle ih =>
    intro hr
    have h1 := ih (by omega)
    have h2 := h j hj
    -- v i ≤ v j ≤ v (j+1) < v i
    rcases trichotomous_of r (v ⟨j, by omega⟩) (v ⟨j + 1, hj⟩) with h3 | h3 | h3
    · exact h1 (_root_.trans h3 hr)
    · rw [h3] at h1; exact h1 hr
    · exact h2 h3

/-- A rank function for finitely many values. -/
theorem exists_rank (r : α → α → Prop) [DecidableRel r] [IsStrictTotalOrder α r]
    (v0 : Fin N → α) : ∃ ρ : α → ℕ, (∀ x, ρ x ≤ N) ∧
      ∀ i j, r (v0 i) (v0 j) → ρ (v0 i) < ρ (v0 j) := by
  refine ⟨fun x => (Finset.univ.filter (fun k => r (v0 k) x)).card, ?_, ?_⟩
  · intro x
    calc _ ≤ (Finset.univ : Finset (Fin N)).card := Finset.card_filter_le _ _
      _ = N := by simp
  · intro i j hij
    apply Finset.card_lt_card
    rw [Finset.ssubset_iff_of_subset]
    · exact ⟨i, by simpa using hij, by simpa using irrefl_of r (v0 i)⟩
    · intro k hk
      simp only [Finset.mem_filter, Finset.mem_univ, true_and] at hk ⊢
      exact _root_.trans hk hij

theorem shrink13_lt (n : ℕ) (h : 1 ≤ n) : shrink13 n < n := by
  unfold shrink13; omega

/-! ### C20 -/

/-- **C20.**  For every strict total order, every input and every way `shr` of rounding
`gap/1.3` (any function with `shr 0 = 0` and `shr n < n` for `n ≥ 1`), comb sort terminates
after at most `N³ + N + 2` passes; the result is a
rearrangement `v ∘ σ` of the input in which no later element precedes an earlier one, and the
returned value is the sign of that permutation `σ`. -/
theorem C20_comb_sort (r : α → α → Prop) [DecidableRel r] [IsStrictTotalOrder α r]
    (shr : ℕ → ℕ) (hshr0 : shr 0 = 0) (hshr : ∀ n, 1 ≤ n → shr n < n) (v : Fin N → α) :
    ∃ w s, (∀ f, N * (N * N) + N + 2 ≤ f → combSort r shr f v = some (w, s)) ∧
      ∃ σ : Perm (Fin N), w = v ∘ σ ∧ s = ((Perm.sign σ : ℤˣ) : ℤ) ∧
        ∀ i j : Fin N, i < j → ¬ r (w j) (w i) := by
  obtain ⟨ρ, hB, hρ⟩ := exists_rank r v
  obtain ⟨res, ⟨⟨σ, hw, hs⟩, hadj⟩, hf0⟩ :=
    combLoop_gap0 r shr hshr0 hshr v ρ N (fun i => hB _) hρ v 0 ⟨1, by simp, by simp⟩ (shr N)
  have hsN : shr N ≤ N := by
    rcases Nat.eq_zero_or_pos N with h | h
    · rw [h, hshr0]
    · exact (hshr N h).le
  refine ⟨res.1, exchSign res.2, ?_, σ, hw, ?_, sorted_of_adjacent r _ hadj⟩
  · intro f hf; simp [combSort, hf0 f (by omega)]
  · rw [exchSign_eq, hs]

/-- **C20 (uniqueness).**  If the input has no repeated elements, the sorting permutation is
unique, so the returned sign is *the* sign of the permutation which sorts the input, whatever
the rounding of the gap. -/
theorem C20_sign_unique (r : α → α → Prop) [IsStrictTotalOrder α r]
    (v : Fin N → α) (hv : Function.Injective v) (σ τ : Perm (Fin N))
    (hσ : ∀ i j : Fin N, i < j → ¬ r ((v ∘ σ) j) ((v ∘ σ) i))
    (hτ : ∀ i j : Fin N, i < j → ¬ r ((v ∘ τ) j) ((v ∘ τ) i)) : σ = τ := by
  -- both compositions are strictly increasing for `r`
  have up : ∀ ρ : Perm (Fin N), (∀ i j : Fin N, i < j → ¬ r ((v ∘ ρ) j) ((v ∘ ρ) i)) →
      ∀ i j : Fin N, i < j ↔ r (v (ρ i)) (v (ρ j)) := by
    intro ρ hρ i j
    constructor
    · intro hij
      rcases trichotomous_of r (v (ρ i)) (v (ρ j)) with h | h | h
      · exact h
      · exact absurd (ρ.injective (hv h)) (ne_of_lt hij)
      · exact absurd h (hρ i j hij)
    · intro h
      rcases lt_trichotomy i j with hij | hij | hij
      · exact hij
      · subst hij; exact absurd h (irrefl_of r _)
      · exact absurd h (hρ j i hij)
  -- the permutation τ⁻¹ * σ preserves the order of `Fin N`
  have hmono : StrictMono (fun i => τ⁻¹ (σ i)) := by
    intro i j hij
    rw [up τ hτ]
    simpa using (up σ hσ i j).1 hij
  have hid : (fun i => τ⁻¹ (σ i)) = id := by
    have := hmono.range_inj (strictMono_id (α := Fin N))
    apply this.1
    rw [Set.range_id]
    exact Set.range_eq_univ.2 ((τ⁻¹).surjective.comp σ.surjective)
  ext i
  have := congrFun hid i
  simp only [id] at this
  have h2 : σ i = τ i := by
    have h3 := congrArg τ this
    simpa using h3
  rw [h2]

section bubble
variable [LinearOrder α]

theorem bubbleStep_eq (st : (Fin N → α) × ℕ × Bool) (hinj : Function.Injective st.1) (i : ℕ) :
    bubbleStep st i = passStep (· < ·) 1 st i := by
  unfold bubbleStep passStep
  by_cases h : i + 1 < N
  · rw [dif_pos h, dif_pos h]
    simp only
    have hne : st.1 ⟨i, by omega⟩ ≠ st.1 ⟨i + 1, h⟩ := by
      intro he
      have := congrArg Fin.val (hinj he)
      simp at this
    have : (¬ st.1 ⟨i, by omega⟩ < st.1 ⟨i + 1, h⟩) ↔ st.1 ⟨i + 1, h⟩ < st.1 ⟨i, by omega⟩ := by
      rw [not_lt]
      exact ⟨fun hle => lt_of_le_of_ne hle hne.symm, le_of_lt⟩
    simp only [this]
  · rw [dif_neg h, dif_neg h]

theorem passStep_injective (st : (Fin N → α) × ℕ × Bool) (hinj : Function.Injective st.1)
    (i gap : ℕ) : Function.Injective (passStep (· < ·) gap st i).1 := by
  unfold passStep
  split_ifs with h
  · simp only
    split_ifs with h2
    · exact hinj.comp (Equiv.injective _)
    · exact hinj
  · exact hinj

theorem bubblePass_eq (v : Fin N → α) (hinj : Function.Injective v) (cnt : ℕ) :
    bubblePass v cnt = combPass (· < ·) 1 v cnt ∧
    Function.Injective (combPass (· < ·) 1 v cnt).1 := by
  unfold bubblePass combPass
  generalize N - 1 = m
  induction m with
  | zero => exact ⟨rfl, hinj⟩
  | succ m ih =>
    rw [List.range_succ, List.foldl_append, List.foldl_append]
    simp only [List.foldl_cons, List.foldl_nil]
    rw [ih.1]
    exact ⟨bubbleStep_eq _ ih.2 _, passStep_injective _ ih.2 _ _⟩

theorem bubbleLoop_eq (f : ℕ) : ∀ (v : Fin N → α), Function.Injective v → ∀ cnt : ℕ,
    bubbleLoop f v cnt = combLoop (· < ·) shrink13 f 1 v cnt := by
  induction f with
  | zero => intro v _ cnt; rfl
  | succ f ih =>
    intro v hinj cnt
    have h := bubblePass_eq v hinj cnt
    simp only [bubbleLoop, combLoop, h.1]
    have h1 : max (shrink13 1) 1 = 1 := by decide
    rw [h1, ih _ h.2]
    simp

/-- Invariant of a pass of the bubble sort: if nothing has been swapped, the processed part is
strictly increasing; the vector stays a rearrangement. -/
theorem bubblePass_inv (v0 v : Fin N → α) (cnt : ℕ) (hp : PermInv v0 v cnt) (m : ℕ) :
    let p := (List.range m).foldl bubbleStep (v, cnt, false)
    PermInv v0 p.1 p.2.1 ∧ (p.2.2 = false → p.1 = v ∧
      ∀ i, i < m → ∀ h : i + 1 < N, v ⟨i, by omega⟩ < v ⟨i + 1, h⟩) := by
  induction m with
  | zero => exact ⟨hp, fun _ => ⟨rfl, by simp⟩⟩
  | succ m ih =>
    rw [List.range_succ, List.foldl_append]
    simp only [List.foldl_cons, List.foldl_nil]
    revert ih
    generalize (List.range m).foldl bubbleStep (v, cnt, false) = st
    intro ih
    unfold bubbleStep
    by_cases h : m + 1 < N
    · rw [dif_pos h]
      simp only
      split_ifs with hlt
      · refine ⟨ih.1, fun hf => ⟨(ih.2 hf).1, ?_⟩⟩
        intro i hi hN
        rcases Nat.lt_succ_iff_lt_or_eq.1 hi with hi | rfl
        · exact (ih.2 hf).2 i hi hN
        · rw [(ih.2 hf).1] at hlt; exact hlt
      · refine ⟨ih.1.swap ?_, by simp⟩
        simp [Fin.ext_iff]
    · rw [dif_neg h]
      refine ⟨ih.1, fun hf => ⟨(ih.2 hf).1, ?_⟩⟩
      intro i hi hN
      rcases Nat.lt_succ_iff_lt_or_eq.1 hi with hi | rfl
      · exact (ih.2 hf).2 i hi hN
      · exact absurd hN h

theorem strictMono_of_adjacent (v : Fin N → α)
    (h : ∀ i, ∀ hi : i + 1 < N, v ⟨i, by omega⟩ < v ⟨i + 1, hi⟩) : StrictMono v := by
  intro i j hij
  obtain ⟨i, hi⟩ := i
  obtain ⟨j, hj⟩ := j
  have hij' : i < j := hij
  clear hij
  induction j, hij' using Nat.le_induction with
  | base => exact h i hj
  | succ j hle ih => exact lt_trans (ih (by omega)) (h j hj)

/-- **C20 (`permutation`).**  For pairwise different values the bubble sort `permutation` ends
after at most `N³ + 2` passes and returns the sign of the permutation which sorts the values
in ascending order. -/
theorem C20_permutation (v : Fin N → α) (hv : Function.Injective v) :
    ∃ σ : Perm (Fin N), StrictMono (v ∘ σ) ∧
      ∀ f, N * (N * N) + 2 ≤ f → bubblePermutation f v = some ((Perm.sign σ : ℤˣ) : ℤ) := by
  obtain ⟨ρ, hB, hρ⟩ := exists_rank (· < ·) v
  obtain ⟨res, ⟨⟨σ, hw, hs⟩, hadj⟩, hf0⟩ :=
    combLoop_terminates (· < ·) shrink13 shrink13_lt v ρ N (fun i => hB _) hρ 0 v 0
      ⟨1, by simp, by simp⟩
  refine ⟨σ, ?_, ?_⟩
  · rw [← hw]
    apply strictMono_of_adjacent
    intro i hi
    refine lt_of_le_of_ne (not_lt.1 (hadj i hi)) ?_
    rw [hw]
    intro he
    have := congrArg Fin.val (σ.injective (hv he))
    simp at this
  · intro f hf
    unfold bubblePermutation
    rw [bubbleLoop_eq f v hv, hf0 f (by omega)]
    simp [exchSign_eq, hs]

/-- **C20 (`permutation`, duplicates).**  If two values are equal, `permutation` never ends: no
number of passes is enough.  (`comb_sort` above ends for every input.) -/
theorem C20_permutation_duplicates_diverge (v : Fin N → α) (hv : ¬ Function.Injective v) (f : ℕ) :
    bubblePermutation f v = none := by
  unfold bubblePermutation
  have key : ∀ f (w : Fin N → α) (cnt : ℕ), PermInv v w cnt → bubbleLoop f w cnt = none := by
    intro f
    induction f with
    | zero => intro w cnt _; rfl
    | succ f ih =>
      intro w cnt hp
      have hinv := bubblePass_inv v w cnt hp (N - 1)
      simp only [bubbleLoop]
      by_cases hsw : (bubblePass w cnt).2.2 = false
      · exfalso
        obtain ⟨-, h2⟩ := hinv.2 hsw
        obtain ⟨σ, hw, -⟩ := hp
        have hm := strictMono_of_adjacent w (fun i hi => h2 i (by omega) hi)
        apply hv
        have h3 : v = w ∘ (σ.symm : Fin N → Fin N) := by
          rw [hw]; ext i; simp
        rw [h3]
        exact hm.injective.comp (Equiv.injective _)
      · rw [if_neg hsw]; exact ih _ _ hinv.1
  rw [key f v 0 ⟨1, by simp, by simp⟩]
  rfl

end bubble

/-- Non-vacuity: sorting (3,1,2) in ascending order is an even permutation (sign 1), sorting
(2,1,3) an odd one. -/
example : (combSort (· < ·) shrink13 10 ![3, 1, 2]).map (fun p => (List.ofFn p.1, p.2)) =
      some ([1, 2, 3], 1) ∧
    (combSort (· < ·) shrink13 10 ![2, 1, 3]).map (fun p => (List.ofFn p.1, p.2)) =
      some ([1, 2, 3], -1) ∧ Function.Injective ![3, 1, 2] := by
  decide

/-- Non-vacuity for `permutation`: an odd ordering of distinct values, and an input with a
duplicate. -/
example : bubblePermutation 10 ![2, 1, 3] = some (-1) ∧
    Function.Injective ![2, 1, 3] ∧ ¬ Function.Injective ![2, 2, 3] := by
  decide

end CTHyb
