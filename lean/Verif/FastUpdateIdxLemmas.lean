import Verif.FastUpdateIdx
import Verif.FastUpdateProps
import Mathlib.GroupTheory.Perm.Fin
import Mathlib.Order.Interval.Finset.Fin

/-! Lemmas for the removal of rows and columns at given positions. -/

namespace CTHyb

open Matrix

variable {K : Type} [Field K] {N M : ℕ}

/-- All positions: first the kept ones, then the removed ones. -/
noncomputable def splitEquiv (rem : Fin N → Fin (N + M)) (rows : Fin M → Fin (N + M))
    (h1 : Function.Injective rem) (h2 : Function.Injective rows) (hd : ∀ i j, rem i ≠ rows j) :
    Fin N ⊕ Fin M ≃ Fin (N + M) :=
  Equiv.ofBijective (Sum.elim rem rows) (by
    rw [Fintype.bijective_iff_injective_and_card]
    refine ⟨Function.Injective.sumElim h1 h2 hd, by simp⟩)

theorem count_gt (rem : Fin N → Fin (N + M)) (rows : Fin M → Fin (N + M))
    (h1 : StrictMono rem) (h2 : StrictMono rows) (hd : ∀ i j, rem i ≠ rows j) (j : Fin M) :
    (Finset.univ.filter (fun i => rows j < rem i)).card + (rows j : ℕ) = N + j := by
  have e : (Finset.Ioi (rows j)).card =
      (Finset.univ.filter (fun i => rows j < rem i)).card + (Finset.Ioi j).card := by
    have := Finset.card_map (splitEquiv rem rows h1.injective h2.injective hd).toEmbedding
      (s := (Finset.univ.filter (fun i => rows j < rem i)).disjSum (Finset.Ioi j))
    rw [Finset.card_disjSum] at this
    rw [← this]
    congr 1
    ext x
    simp only [Finset.mem_Ioi, Finset.mem_map_equiv]
    obtain ⟨y, rfl⟩ := (splitEquiv rem rows h1.injective h2.injective hd).surjective x
    rw [Equiv.symm_apply_apply]
    cases y with
    | inl i => simp [splitEquiv]
    | inr i => simp [splitEquiv, h2.lt_iff_lt]
  rw [Fin.card_Ioi, Fin.card_Ioi] at e
  have := (rows j).isLt
  have := j.isLt
  omega

theorem rows_le (rows : Fin M → Fin (N + M)) (h2 : StrictMono rows) (j : Fin M) :
    (rows j : ℕ) ≤ N + j := by
  have e : (Finset.Ioi j).card ≤ (Finset.Ioi (rows j)).card := by
    apply Finset.card_le_card_of_injOn rows
    · intro x hx
      have hx' : j < x := by simpa using hx
      simpa using h2 hx'
    · exact h2.injective.injOn
  rw [Fin.card_Ioi, Fin.card_Ioi] at e
  have := (rows j).isLt
  have := j.isLt
  omega

/-- Sign of the permutation which puts the removed positions at the end. -/
theorem sign_split (rem : Fin N → Fin (N + M)) (rows : Fin M → Fin (N + M))
    (h1 : StrictMono rem) (h2 : StrictMono rows) (hd : ∀ i j, rem i ≠ rows j) :
    ((Equiv.Perm.sign (finSumFinEquiv.symm.trans
      (splitEquiv rem rows h1.injective h2.injective hd)) : ℤˣ) : ℤ) =
      ∏ j : Fin M, (-1 : ℤ) ^ (N + j + (rows j : ℕ)) := by
  set π := finSumFinEquiv.symm.trans (splitEquiv rem rows h1.injective h2.injective hd) with hπ
  have pl : ∀ i : Fin N, π (Fin.castAdd M i) = rem i := by
    intro i; simp [hπ, splitEquiv]
  have pr : ∀ j : Fin M, π (Fin.natAdd N j) = rows j := by
    intro j; simp [hπ, splitEquiv]
  have e : (Equiv.Perm.sign π : ℤ) = ∏ j : Fin (N + M), ∏ i ∈ Finset.Iio j,
      (if π i < π j then (1 : ℤ) else -1) := by
    rw [Equiv.Perm.sign_eq_prod_prod_Iio]
    push_cast
    refine Finset.prod_congr rfl fun j _ => Finset.prod_congr rfl fun i _ => ?_
    split_ifs <;> rfl
  rw [e, Fin.prod_univ_add]
  have a1 : ∏ i : Fin N, ∏ x ∈ Finset.Iio (Fin.castAdd M i),
      (if π x < π (Fin.castAdd M i) then (1 : ℤ) else -1) = 1 := by
    refine Finset.prod_eq_one fun i _ => Finset.prod_eq_one fun x hx => ?_
    have hx' := Finset.mem_Iio.1 hx
    induction x using Fin.addCases with
    | left x =>
      rw [pl, pl, if_pos (h1 (show x < i from hx'))]
    | right x =>
      exfalso
      have hh := Fin.lt_def.1 hx'
      simp at hh
      have := i.isLt
      omega
  rw [a1, one_mul]
  refine Finset.prod_congr rfl fun j _ => ?_
  have a2 : ∏ x ∈ Finset.Iio (Fin.natAdd N j),
      (if π x < π (Fin.natAdd N j) then (1 : ℤ) else -1) =
      ∏ i : Fin N, (if rows j < rem i then (-1 : ℤ) else 1) := by
    have s : Finset.Iio (Fin.natAdd N j) =
        (Finset.univ : Finset (Fin N)).map (Fin.castAddEmb M) ∪
          (Finset.Iio j).map (Fin.natAddEmb N) := by
      ext x
      simp only [Finset.mem_union, Finset.mem_map, Finset.mem_univ, true_and, Finset.mem_Iio]
      induction x using Fin.addCases with
      | left x =>
        have := x.isLt
        constructor
        · intro _; exact Or.inl ⟨x, rfl⟩
        · intro _
          rw [Fin.lt_def]; simp; omega
      | right x =>
        constructor
        · intro h
          refine Or.inr ⟨x, Fin.lt_def.2 (by have := Fin.lt_def.1 h; simpa using this), rfl⟩
        · rintro (⟨y, hy⟩ | ⟨y, hy, hyx⟩)
          · exfalso
            have := congrArg Fin.val hy
            have := y.isLt
            simp at *
            omega
          · have := congrArg Fin.val hyx
            simp at this
            rw [Fin.lt_def] at *
            simp
            omega
    rw [s, Finset.prod_union]
    · rw [Finset.prod_map, Finset.prod_map]
      have b : ∏ x ∈ Finset.Iio j, (if π (Fin.natAddEmb N x) < π (Fin.natAdd N j) then (1 : ℤ)
          else -1) = 1 := by
        refine Finset.prod_eq_one fun x hx => ?_
        have hx' := Finset.mem_Iio.1 hx
        rw [show Fin.natAddEmb N x = Fin.natAdd N x from rfl, pr, pr, if_pos (h2 hx')]
      rw [b, mul_one]
      refine Finset.prod_congr rfl fun i _ => ?_
      rw [show Fin.castAddEmb M i = Fin.castAdd M i from rfl, pl, pr]
      by_cases hl : rows j < rem i
      · rw [if_pos hl, if_neg (not_lt.2 hl.le)]
      · rw [if_neg hl, if_pos (lt_of_le_of_ne (not_lt.1 hl) (hd i j))]
    · rw [Finset.disjoint_left]
      intro x hx hy
      simp only [Finset.mem_map, Finset.mem_univ, true_and] at hx hy
      obtain ⟨a, rfl⟩ := hx
      obtain ⟨b, _, hb⟩ := hy
      have := congrArg Fin.val hb
      have := a.isLt
      simp at *
      omega
  rw [a2, Finset.prod_ite, Finset.prod_const_one, mul_one, Finset.prod_const]
  have c := count_gt rem rows h1 h2 hd j
  rw [← c, show ∀ a b : ℕ, a + b + b = a + 2 * b by intros; omega, pow_add, pow_mul]
  simp

/-- The permutation of the positions after `k` turns of step 1. -/
def endPerm (rows : Fin M → Fin (N + M)) : ℕ → Equiv.Perm (Fin (N + M))
  | 0 => 1
  | k + 1 =>
    if h : k < M then
      endPerm rows k * Equiv.swap (rows ⟨M - 1 - k, by omega⟩) ⟨N + M - 1 - k, by omega⟩
    else endPerm rows k

omit [Field K] in
theorem moveToEnd_eq (rows cols : Fin M → Fin (N + M))
    (A : Matrix (Fin (N + M)) (Fin (N + M)) K) (k : ℕ) :
    moveToEnd rows cols A k = A.submatrix (endPerm cols k) (endPerm rows k) := by
  induction k with
  | zero => rfl
  | succ k ih =>
    unfold moveToEnd endPerm
    by_cases h : k < M
    · rw [dif_pos h, dif_pos h, dif_pos h, ih]
      rfl
    · rw [dif_neg h, dif_neg h, dif_neg h, ih]

theorem endPerm_spec (rows : Fin M → Fin (N + M)) (h2 : StrictMono rows) (k : ℕ) (hk : k ≤ M) :
    (∀ j : Fin M, M - k ≤ j → endPerm rows k (Fin.natAdd N j) = rows j) ∧
    (∀ p : Fin (N + M), (p : ℕ) < N + M - k → (∀ j : Fin M, M - k ≤ j → p ≠ rows j) →
      endPerm rows k p = p) := by
  induction k with
  | zero =>
    refine ⟨fun j hj => ?_, fun p _ _ => rfl⟩
    have := j.isLt
    omega
  | succ k ih =>
    obtain ⟨i1, i2⟩ := ih (by omega)
    have hkM : k < M := by omega
    have hb := rows_le rows h2 ⟨M - 1 - k, by omega⟩
    simp only at hb
    have u : endPerm rows (k + 1) = endPerm rows k *
        Equiv.swap (rows ⟨M - 1 - k, by omega⟩) ⟨N + M - 1 - k, by omega⟩ := by
      rw [endPerm, dif_pos hkM]
    rw [u]
    constructor
    · intro j hj
      rw [Equiv.Perm.mul_apply]
      by_cases hjk : (j : ℕ) = M - 1 - k
      · have e1 : Fin.natAdd N j = (⟨N + M - 1 - k, by omega⟩ : Fin (N + M)) :=
          Fin.ext (by simp; omega)
        have e2 : j = ⟨M - 1 - k, by omega⟩ := Fin.ext hjk
        rw [e1, Equiv.swap_apply_right, ← e2]
        refine i2 _ ?_ ?_
        · rw [e2]; omega
        · intro j' hj' he
          have := congrArg Fin.val (h2.injective he)
          omega
      · rw [Equiv.swap_apply_of_ne_of_ne]
        · exact i1 j (by omega)
        · intro he
          have := congrArg Fin.val he
          simp at this
          omega
        · intro he
          have := congrArg Fin.val he
          simp at this
          omega
    · intro p hp hpr
      rw [Equiv.Perm.mul_apply, Equiv.swap_apply_of_ne_of_ne]
      · exact i2 p (by omega) (fun j hj => hpr j (by omega))
      · exact hpr _ (by simp only; omega)
      · intro he
        have := congrArg Fin.val he
        simp at this
        omega

end CTHyb
