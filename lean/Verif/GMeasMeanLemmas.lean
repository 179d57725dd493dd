import Verif.GMeasCode
import Verif.GMeasProps
import Verif.WormNormMeanProps
import Mathlib.Data.Fintype.Perm
import Mathlib.Data.Finset.Powerset
import Mathlib.Logic.Equiv.Fintype

/-!
Lemmas for the measurement of the Green's functions in equilibrium: selection of rows and columns, average over the configurations
which the measurement does not distinguish.
-/

set_option linter.unusedSectionVars false

namespace CTHyb

open Matrix Rand

/-! ### The rows and columns kept -/

theorem shuffleFrom_map {α β : Type} (f : α → β) (js : List ℕ) : ∀ (i : ℕ) (l : List α),
    shuffleFrom i js (l.map f) = (shuffleFrom i js l).map f := by
  induction js with
  | nil => intro i l; rfl
  | cons j js ih =>
    intro i l
    have e : swapAt (l.map f) i j = (swapAt l i j).map f := by
      unfold swapAt
      rw [List.getElem?_map, List.getElem?_map]
      cases l[i]? <;> cases l[j]? <;> simp [List.map_set]
    rw [shuffleFrom, shuffleFrom, e, ih]

theorem shuffleResult_length (n : ℕ) (J : ∀ c : Fin (n - 1), Fin (c.1 + 2)) : (shuffleResult n J).length = n := by
  rw [shuffleResult, (shuffleFrom_perm _ _ _).length_eq, List.length_range]

/-- The permutation of a shuffle. -/
noncomputable def shuffleEquiv (n : ℕ) (J : ∀ c : Fin (n - 1), Fin (c.1 + 2)) : Equiv.Perm (Fin n) :=
  have hp : (shuffleResult n J).Perm (List.range n) := shuffleFrom_perm _ _ _
  Equiv.ofBijective (fun i => ⟨(shuffleResult n J)[i.1]'(by rw [hp.length_eq, List.length_range]; exact i.2),
    List.mem_range.1 (hp.mem_iff.1 (List.getElem_mem _))⟩) (by
      rw [Fintype.bijective_iff_injective_and_card]
      refine ⟨fun i j h => ?_, rfl⟩
      exact Fin.ext (((hp.nodup_iff.2 List.nodup_range).getElem_inj_iff).1 (Fin.mk.inj_iff.1 h)))

theorem shuffleEquiv_bijective (n : ℕ) : Function.Bijective (shuffleEquiv n) := by
  rw [Fintype.bijective_iff_injective_and_card]
  constructor
  · intro J J' h
    refine shuffleResult_injective n ?_
    have hp := shuffleResult_length n
    refine List.ext_getElem (by rw [hp, hp]) fun i h1 h2 => ?_
    have := congrArg (fun σ : Equiv.Perm (Fin n) => (σ ⟨i, by rw [hp] at h1; exact h1⟩).1) h
    exact this
  · rw [Fintype.card_perm, Fintype.card_fin, Fintype.card_pi]
    simp only [Fintype.card_fin]
    rw [Fin.prod_univ_eq_prod_range (fun c => c + 2) (n - 1)]
    rcases Nat.eq_zero_or_pos n with h0 | h0
    · subst h0; simp
    · conv_rhs => rw [show n = (n - 1) + 1 by omega]
      rw [← Finset.prod_range_add_one_eq_factorial, Finset.prod_range_succ']
      simp [add_assoc]

/-- Every set of `k` places is the preimage of the first `k` numbers under the same number of permutations. -/
theorem sum_perm_preimage (n k : ℕ) (hk : k ≤ n) (f : Finset (Fin n) → ℝ) :
    (∑ σ : Equiv.Perm (Fin n), f (Finset.univ.filter fun i => (σ i).1 < k)) / n.factorial =
      (∑ B ∈ Finset.powersetCard k Finset.univ, f B) / n.choose k := by
  classical
  let P : Equiv.Perm (Fin n) → Finset (Fin n) := fun σ => Finset.univ.filter fun i => (σ i).1 < k
  have hPm0 : ∀ σ i, i ∈ P σ ↔ (σ i).1 < k := fun σ i => by
    simp only [P, Finset.mem_filter, Finset.mem_univ, true_and]
  have hcard0 : (Finset.univ.filter fun i : Fin n => i.1 < k).card = k := by
    rw [Fin.card_filter_val_lt, min_eq_right hk]
  have hP : ∀ σ, P σ ∈ Finset.powersetCard k (Finset.univ : Finset (Fin n)) := by
    intro σ
    rw [Finset.mem_powersetCard]
    refine ⟨Finset.subset_univ _, ?_⟩
    rw [← hcard0]
    refine Finset.card_bij (fun i _ => σ i) (fun i hi => by simpa [P] using hi) (fun i _ j _ h => σ.injective h) ?_
    intro j hj
    exact ⟨σ.symm j, by simpa [P] using hj, by simp⟩
  have hc : ∀ B ∈ Finset.powersetCard k (Finset.univ : Finset (Fin n)), ∀ B' ∈ Finset.powersetCard k (Finset.univ : Finset (Fin n)),
      (Finset.univ.filter fun σ => P σ = B).card = (Finset.univ.filter fun σ => P σ = B').card := by
    intro B hB B' hB'
    have e : B'.card = B.card := by rw [(Finset.mem_powersetCard.1 hB).2, (Finset.mem_powersetCard.1 hB').2]
    let π : Equiv.Perm (Fin n) := (Finset.equivOfCardEq e).extendSubtype
    have hπ : ∀ i, π i ∈ B ↔ i ∈ B' := by
      intro i
      constructor
      · intro h
        by_contra hi
        exact Equiv.extendSubtype_not_mem (Finset.equivOfCardEq e) i hi h
      · intro h
        exact Equiv.extendSubtype_mem (Finset.equivOfCardEq e) i h
    have hPm : ∀ σ, P (σ * π) = (Finset.univ.filter fun i => π i ∈ P σ) := by
      intro σ; ext i; rw [hPm0, Finset.mem_filter, hPm0, Equiv.Perm.mul_apply]; simp
    refine Finset.card_bij (fun σ _ => σ * π) ?_ (fun σ _ τ _ h => mul_right_cancel h) ?_
    · intro σ hσ
      rw [Finset.mem_filter] at hσ ⊢
      refine ⟨Finset.mem_univ _, ?_⟩
      rw [hPm, hσ.2]
      ext i
      simp [hπ]
    · intro τ hτ
      rw [Finset.mem_filter] at hτ
      refine ⟨τ * π⁻¹, ?_, by simp⟩
      rw [Finset.mem_filter]
      refine ⟨Finset.mem_univ _, ?_⟩
      ext i
      have h2 : i ∈ P (τ * π⁻¹) ↔ π⁻¹ i ∈ P τ := by
        rw [hPm0, hPm0, Equiv.Perm.mul_apply]
      rw [h2, hτ.2, ← hπ]
      simp
  obtain ⟨B0, hB0⟩ : (Finset.powersetCard k (Finset.univ : Finset (Fin n))).Nonempty :=
    Finset.powersetCard_nonempty.2 (by simpa using hk)
  set c := (Finset.univ.filter fun σ => P σ = B0).card with hcdef
  have key : ∀ g : Finset (Fin n) → ℝ, ∑ σ, g (P σ) = c * ∑ B ∈ Finset.powersetCard k Finset.univ, g B := by
    intro g
    rw [← Finset.sum_fiberwise_of_maps_to (fun σ _ => hP σ), Finset.mul_sum]
    refine Finset.sum_congr rfl fun B hB => ?_
    rw [Finset.sum_congr rfl (g := fun _ => g B) (fun σ hσ => by rw [(Finset.mem_filter.1 hσ).2]), Finset.sum_const, nsmul_eq_mul,
      hc B hB B0 hB0]
  have h1 := key fun _ => 1
  rw [Finset.sum_const, Finset.sum_const, Finset.card_univ, Fintype.card_perm, Fintype.card_fin, Finset.card_powersetCard,
    Finset.card_univ, Fintype.card_fin, nsmul_eq_mul, nsmul_eq_mul, mul_one, mul_one] at h1
  have hC : (n.choose k : ℝ) ≠ 0 := by exact_mod_cast (Nat.choose_pos hk).ne'
  have hF : (n.factorial : ℝ) ≠ 0 := by exact_mod_cast n.factorial_ne_zero
  rw [key f, div_eq_div_iff hF hC, h1]
  ring

/-- The bath operators kept by a shuffle. -/
def keptSet (n r maxOps : ℕ) (js : List ℕ) : Finset (Fin n) :=
  Finset.univ.filter fun i => Sum.inl i ∈ (gRows n r maxOps js).toFinset

/-- The number of bath operators kept. -/
def keptNum (n r maxOps : ℕ) : ℕ := min maxOps (n + r) - r

theorem gRows_toFinset (n r maxOps : ℕ) (js : List ℕ) :
    (gRows n r maxOps js).toFinset = (keptSet n r maxOps js).disjSum Finset.univ := by
  ext k
  rcases k with k | k
  · simp [keptSet]
  · simp [gRows_worm]

theorem mean_keptSet (n r maxOps : ℕ) (hr : r ≤ maxOps) (f : Finset (Fin n) → ℝ) :
    mean (shuffleRand n) (fun js => f (keptSet n r maxOps js)) =
      (∑ B ∈ Finset.powersetCard (keptNum n r maxOps) Finset.univ, f B) / n.choose (keptNum n r maxOps) := by
  have hm : ∀ g : List ℕ → ℝ, mean (shuffleRand n) g =
      (∑ J : (∀ c : Fin (n - 1), Fin (c.1 + 2)), g (List.ofFn fun c => (J c).1)) / n.factorial := by
    intro g
    unfold mean shuffleRand
    rw [Multiset.map_map, prod_shuffle_weight]
    simp only [Function.comp_def]
    rw [Multiset.sum_map_mul_left]
    change 1 / (n.factorial : ℝ) * (∑ J : (∀ c : Fin (n - 1), Fin (c.1 + 2)), g (List.ofFn fun c => (J c).1)) = _
    ring
  rw [hm]
  unfold keptNum
  rcases Nat.lt_or_ge maxOps (n + r) with h | h
  · rw [min_eq_left h.le, ← sum_perm_preimage n (maxOps - r) (by omega) f]
    congr 1
    refine Fintype.sum_bijective (shuffleEquiv n) (shuffleEquiv_bijective n) _ _ fun J => ?_
    congr 1
    ext i
    have hp := shuffleResult_length n J
    have hg : (gMask n r maxOps (List.ofFn fun c => (J c).1)).getD i.1 false = decide ((shuffleEquiv n J i).1 < maxOps - r) := by
      unfold gMask
      rw [shuffleFrom_map]
      change ((shuffleResult n J).map _).getD i.1 false = _
      rw [List.getD_eq_getElem?_getD, List.getElem?_map, List.getElem?_eq_getElem (by rw [hp]; exact i.2)]
      rfl
    simp only [keptSet, List.mem_toFinset, gRows, if_pos h, gActive, Finset.mem_filter, Finset.mem_univ, true_and, List.mem_append, List.mem_map,
      List.mem_filter, List.mem_finRange, hg, decide_eq_true_eq, Sum.inl.injEq, exists_eq_right, reduceCtorEq, and_false,
      exists_false, or_false]
  · have e : ∀ js, keptSet n r maxOps js = Finset.univ := by
      intro js
      ext i
      simp [keptSet, gRows, if_neg (not_lt.2 h)]
    simp only [e]
    rw [min_eq_right h, Nat.add_sub_cancel, Nat.choose_self, Finset.sum_const, Finset.card_univ]
    have : Finset.powersetCard n (Finset.univ : Finset (Fin n)) = {Finset.univ} := by
      have := Finset.powersetCard_self (Finset.univ : Finset (Fin n))
      rwa [Finset.card_univ, Fintype.card_fin] at this
    rw [this, Finset.sum_singleton, (Fintype.card_of_bijective (shuffleEquiv_bijective n)), Fintype.card_perm, Fintype.card_fin,
      nsmul_eq_mul]
    have hF : (n.factorial : ℝ) ≠ 0 := by exact_mod_cast n.factorial_ne_zero
    field_simp
    simp

/-! ### Average over what is not distinguished -/

/-- Heat bath: if blocks are chosen with probabilities which are the same for all members, and in a block the mean of `h / W` is taken
with the weights `W`, then in the sum over all elements `h` remains. -/
theorem heat_bath {X B : Type} [Fintype X] (ℬ : Finset B) (mem : X → B → Prop) [∀ x b, Decidable (mem x b)] (p : B → ℝ) (W ρ h : X → ℝ)
    (hp : ∀ x, ρ x ≠ 0 → (∑ b ∈ ℬ, if mem x b then p b else 0) = 1) (hW : ∀ x b, mem x b → 0 < W x)
    (hρ : ∀ b ∈ ℬ, ∀ x y, mem x b → mem y b → ρ x = ρ y) :
    ∑ x, ρ x * (W x * ∑ b ∈ ℬ, if mem x b then p b * ((∑ y, if mem y b then h y else 0) / ∑ y, if mem y b then W y else 0) else 0) =
      ∑ x, ρ x * h x := by
  classical
  have e1 : ∀ x, ρ x * (W x * ∑ b ∈ ℬ, if mem x b then p b * ((∑ y, if mem y b then h y else 0) / ∑ y, if mem y b then W y else 0) else 0) =
      ∑ b ∈ ℬ, if mem x b then ρ x * W x * (p b * ((∑ y, if mem y b then h y else 0) / ∑ y, if mem y b then W y else 0)) else 0 := by
    intro x
    rw [Finset.mul_sum, Finset.mul_sum]
    refine Finset.sum_congr rfl fun b _ => ?_
    split_ifs <;> ring
  simp only [e1]
  rw [Finset.sum_comm]
  have e2 : ∀ b ∈ ℬ, (∑ x, if mem x b then ρ x * W x * (p b * ((∑ y, if mem y b then h y else 0) / ∑ y, if mem y b then W y else 0)) else 0) =
      ∑ x, if mem x b then p b * (ρ x * h x) else 0 := by
    intro b hb
    by_cases hx : ∃ x, mem x b
    · obtain ⟨x0, hx0⟩ := hx
      have hpos : 0 < ∑ y, if mem y b then W y else 0 := by
        refine lt_of_lt_of_le (hW x0 b hx0) (le_trans (le_of_eq (if_pos hx0).symm) (Finset.single_le_sum
          (f := fun y => if mem y b then W y else 0) (fun y _ => ?_) (Finset.mem_univ x0)))
        split_ifs with hy
        · exact (hW y b hy).le
        · exact le_rfl
      have a1 : ∀ q : ℝ, (∑ x, if mem x b then ρ x * W x * q else 0) = ρ x0 * q * ∑ y, if mem y b then W y else 0 := by
        intro q
        rw [Finset.mul_sum]
        refine Finset.sum_congr rfl fun x _ => ?_
        split_ifs with hx
        · rw [hρ b hb x x0 hx hx0]; ring
        · ring
      have a2 : (∑ x, if mem x b then p b * (ρ x * h x) else 0) = ρ x0 * p b * ∑ y, if mem y b then h y else 0 := by
        rw [Finset.mul_sum]
        refine Finset.sum_congr rfl fun x _ => ?_
        split_ifs with hx
        · rw [hρ b hb x x0 hx hx0]; ring
        · ring
      rw [a1, a2]
      field_simp
    · have hn : ∀ x, ¬ mem x b := fun x hx' => hx ⟨x, hx'⟩
      simp [hn]
  rw [Finset.sum_congr rfl e2, Finset.sum_comm]
  refine Finset.sum_congr rfl fun x _ => ?_
  by_cases h0 : ρ x = 0
  · simp [h0]
  conv_rhs => rw [← one_mul (ρ x * h x), ← hp x h0, Finset.sum_mul]
  refine Finset.sum_congr rfl fun b _ => ?_
  split_ifs
  · rfl
  · rw [zero_mul]

end CTHyb
