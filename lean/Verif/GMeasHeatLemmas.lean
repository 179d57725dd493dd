import Verif.GMeasBlockLemmas

/-!
Lemmas for the measurement of the Green's functions in equilibrium: the mean over the rows and columns kept is a mean over blocks of
configurations, and weighting with the distribution of the simulation removes the truncation.
-/

set_option linter.unusedSectionVars false

namespace CTHyb

open Matrix Rand

variable {𝕜 : Type} [RCLike 𝕜] [DecidableEq 𝕜] {N : ℕ} {A : CodeArgs 𝕜 N} {tau : ℤ → ℝ}

section defs

/-- Sets of operators which may be kept: those of the worm `w` and as many others as the truncation leaves. -/
def blockSets {r : ℕ} (maxOps : ℕ) (U : Finset (BOp ℤ)) (w : Fin r → BOp ℤ) : Finset (Finset (BOp ℤ)) :=
  (Finset.powersetCard (keptNum (U.card - r) r maxOps + r) U).filter fun C => ∀ i, w i ∈ C

variable {X : Type} [Fintype X]

/-- Sum over the configurations of a block. -/
def blockSum (r : ℕ) (c : X → WCfg ℤ) (h : X → ℝ)
    (b : Finset (BOp ℤ) × Finset (BOp ℤ) × Finset (BOp ℤ) × Finset (BOp ℤ)) : ℝ :=
  ∑ y, if InBlock r b (c y) then h y else 0

/-- Mean over the sets which may be kept of the mean over the blocks. -/
noncomputable def blockMean (r maxOps : ℕ) (c : X → WCfg ℤ) (W h : X → ℝ) (x : WCfg ℤ) : ℝ :=
  (∑ C ∈ blockSets maxOps (unionC r x) (gwc r x), ∑ R ∈ blockSets maxOps (unionD r x) (gwd r x),
    blockSum r c h (unionC r x, unionD r x, C, R) / blockSum r c W (unionC r x, unionD r x, C, R)) /
    (((unionC r x).card - r).choose (keptNum ((unionC r x).card - r) r maxOps) *
      ((unionD r x).card - r).choose (keptNum ((unionD r x).card - r) r maxOps))

end defs

theorem sum_blockSets {n r : ℕ} {γ : Fin n ⊕ Fin r → BOp ℤ} (hγ : Function.Injective γ) (k : ℕ) (F : Finset (BOp ℤ) → ℝ) :
    ∑ B ∈ Finset.powersetCard k (Finset.univ : Finset (Fin n)), F ((B.disjSum Finset.univ).image γ) =
      ∑ C ∈ (Finset.powersetCard (k + r) (Finset.univ.image γ)).filter (fun C => ∀ i, γ (.inr i) ∈ C), F C := by
  classical
  have hinj : Function.Injective fun B : Finset (Fin n) => (B.disjSum (Finset.univ : Finset (Fin r))).image γ := by
    intro B B' h
    have h1 := Finset.image_injective hγ h
    ext i
    have := Finset.ext_iff.1 h1 (.inl i)
    simpa using this
  refine Finset.sum_nbij (fun B => (B.disjSum (Finset.univ : Finset (Fin r))).image γ) ?_ hinj.injOn ?_ fun _ _ => rfl
  · intro B hB
    rw [Finset.mem_filter, Finset.mem_powersetCard]
    refine ⟨⟨Finset.image_subset_image (Finset.subset_univ _), ?_⟩, fun i => Finset.mem_image_of_mem _ (by simp)⟩
    rw [Finset.card_image_of_injective _ hγ, Finset.card_disjSum, (Finset.mem_powersetCard.1 hB).2]
    simp
  · intro C hC
    have hC := Finset.mem_filter.1 (Finset.mem_coe.1 hC)
    obtain ⟨hC1, hC2⟩ := hC
    obtain ⟨hC3, hC4⟩ := Finset.mem_powersetCard.1 hC1
    have e : ((Finset.univ.filter fun i : Fin n => γ (.inl i) ∈ C).disjSum (Finset.univ : Finset (Fin r))).image γ = C := by
      ext y
      rw [Finset.mem_image]
      constructor
      · rintro ⟨i | i, hi, rfl⟩
        · simpa using hi
        · exact hC2 i
      · intro hy
        obtain ⟨i, -, rfl⟩ := Finset.mem_image.1 (hC3 hy)
        refine ⟨i, ?_, rfl⟩
        rcases i with i | i
        · simpa using hy
        · simp
    refine ⟨Finset.univ.filter fun i : Fin n => γ (.inl i) ∈ C, ?_, e⟩
    rw [Finset.mem_coe, Finset.mem_powersetCard]
    refine ⟨Finset.subset_univ _, ?_⟩
    have h1 := congrArg Finset.card e
    rw [Finset.card_image_of_injective _ hγ, Finset.card_disjSum, hC4, Finset.card_univ, Fintype.card_fin] at h1
    omega

theorem card_list_union {r : ℕ} {l : List (BOp ℤ)} {w : Fin r → BOp ℤ} (hn : (l ++ List.ofFn w).Nodup) :
    (l ++ List.ofFn w).toFinset.card = l.length + r := by
  rw [List.toFinset_card_of_nodup hn, List.length_append, List.length_ofFn]

theorem card_blockSets {r : ℕ} (maxOps : ℕ) {l : List (BOp ℤ)} {w : Fin r → BOp ℤ} (hn : (l ++ List.ofFn w).Nodup) :
    (blockSets maxOps (l ++ List.ofFn w).toFinset w).card = l.length.choose (keptNum l.length r maxOps) := by
  classical
  let γ : Fin l.length ⊕ Fin r → BOp ℤ := Sum.elim l.get w
  have hall : allOps γ = l ++ List.ofFn w := by
    unfold allOps
    change List.ofFn l.get ++ List.ofFn w = _
    rw [List.ofFn_get]
  have hγ : Function.Injective γ := (nodup_allOps γ).1 (by rw [hall]; exact hn)
  have hU : (l ++ List.ofFn w).toFinset = Finset.univ.image γ := by
    ext y
    rw [List.mem_toFinset, ← hall, mem_allOps]
    simp
  have h := sum_blockSets hγ (keptNum l.length r maxOps) fun _ => 1
  simp only [Finset.sum_const, nsmul_eq_mul, mul_one, Finset.card_powersetCard, Finset.card_univ, Fintype.card_fin] at h
  unfold blockSets
  rw [card_list_union hn, Nat.add_sub_cancel, hU]
  exact_mod_cast h.symm

section heat
variable {X : Type} [Fintype X] {c : X → WCfg ℤ} {nf : ℕ} {G : Finset ℤ} {kinds : List WormKind}

/-- Weighting with the distribution of the simulation removes the mean over the blocks. -/
theorem block_heat (hR : Reprs A tau (codeWops tau) (OnGrid nf G kinds) c) (r maxOps : ℕ) (δ : ℝ) (h : X → ℝ) :
    wormSum δ (.green r) (fun j => cfgW A tau (codeWops tau) (c j) *
      blockMean r maxOps c (fun y => cfgW A tau (codeWops tau) (c y)) h (c j)) c = wormSum δ (.green r) h c := by
  classical
  let W : X → ℝ := fun y => cfgW A tau (codeWops tau) (c y)
  let K : Finset (BOp ℤ) → ℕ := fun U => keptNum (U.card - r) r maxOps
  let q : Finset (BOp ℤ) → ℝ := fun U => (U.card - r).choose (K U)
  let ℬ : Finset (Finset (BOp ℤ) × Finset (BOp ℤ) × Finset (BOp ℤ) × Finset (BOp ℤ)) :=
    Finset.univ.biUnion fun j : X => ({unionC r (c j)} : Finset _) ×ˢ ({unionD r (c j)} : Finset _) ×ˢ
      Finset.powersetCard (K (unionC r (c j)) + r) (unionC r (c j)) ×ˢ Finset.powersetCard (K (unionD r (c j)) + r) (unionD r (c j))
  let p : Finset (BOp ℤ) × Finset (BOp ℤ) × Finset (BOp ℤ) × Finset (BOp ℤ) → ℝ := fun b => 1 / (q b.1 * q b.2.1)
  let ρ : X → ℝ := fun j => if isGreen r (c j) = true then δ ^ bathDim (c j) else 0
  -- the blocks of a configuration
  have hsum : ∀ j, isGreen r (c j) = true → ∀ f : Finset (BOp ℤ) × Finset (BOp ℤ) × Finset (BOp ℤ) × Finset (BOp ℤ) → ℝ,
      (∑ b ∈ ℬ, if InBlock r b (c j) then f b else 0) =
        ∑ C ∈ blockSets maxOps (unionC r (c j)) (gwc r (c j)), ∑ R ∈ blockSets maxOps (unionD r (c j)) (gwd r (c j)),
          f (unionC r (c j), unionD r (c j), C, R) := by
    intro j hj f
    rw [← Finset.sum_filter, ← Finset.sum_product']
    symm
    refine Finset.sum_nbij (fun p => (unionC r (c j), unionD r (c j), p.1, p.2)) ?_ ?_ ?_ fun _ _ => rfl
    · rintro ⟨C, R⟩ hCR
      simp only [blockSets, Finset.mem_product, Finset.mem_filter] at hCR
      obtain ⟨⟨h1, h2⟩, h3, h4⟩ := hCR
      rw [Finset.mem_filter]
      refine ⟨Finset.mem_biUnion.2 ⟨j, Finset.mem_univ _, ?_⟩, hj, rfl, rfl, h2, h4⟩
      simp only [Finset.mem_product, Finset.mem_singleton, true_and]
      exact ⟨h1, h3⟩
    · rintro ⟨C, R⟩ - ⟨C', R'⟩ - h
      simp only [Prod.mk.injEq, true_and] at h
      exact Prod.ext h.1 h.2
    · rintro ⟨U, V, C, R⟩ hb
      have hb := Finset.mem_filter.1 (Finset.mem_coe.1 hb)
      obtain ⟨hb1, -, hb3, hb4, hb5, hb6⟩ := hb
      obtain ⟨j', -, hj'⟩ := Finset.mem_biUnion.1 hb1
      simp only [Finset.mem_product, Finset.mem_singleton] at hj'
      obtain ⟨e1, e2, h1, h2⟩ := hj'
      simp only at hb3 hb4 hb5 hb6
      subst hb3
      subst hb4
      rw [← e1] at h1
      rw [← e2] at h2
      refine ⟨(C, R), ?_, rfl⟩
      rw [Finset.mem_coe, Finset.mem_product]
      exact ⟨Finset.mem_filter.2 ⟨h1, hb5⟩, Finset.mem_filter.2 ⟨h2, hb6⟩⟩
  have hcard : ∀ j, isGreen r (c j) = true → (unionC r (c j)).card = (c j).c.length + r ∧ (unionD r (c j)).card = (c j).cd.length + r ∧
      (blockSets maxOps (unionC r (c j)) (gwc r (c j))).card = q (unionC r (c j)) ∧
      (blockSets maxOps (unionD r (c j)) (gwd r (c j))).card = q (unionD r (c j)) ∧
      q (unionC r (c j)) ≠ 0 ∧ q (unionD r (c j)) ≠ 0 := by
    intro j hj
    obtain ⟨n1, n2⟩ := green_nodup hj (hR.mem j).2.nodup
    have k1 := card_list_union n1
    have k2 := card_list_union n2
    have hk : ∀ n : ℕ, keptNum n r maxOps ≤ n := fun n => by unfold keptNum; omega
    have e1 : (unionC r (c j)).card - r = (c j).c.length := by unfold unionC; rw [k1, Nat.add_sub_cancel]
    have e2 : (unionD r (c j)).card - r = (c j).cd.length := by unfold unionD; rw [k2, Nat.add_sub_cancel]
    refine ⟨k1, k2, ?_, ?_, ?_, ?_⟩
    · simp only [q, K, e1]
      exact_mod_cast card_blockSets maxOps n1
    · simp only [q, K, e2]
      exact_mod_cast card_blockSets maxOps n2
    · simp only [q, K, e1]
      exact_mod_cast (Nat.choose_pos (hk _)).ne'
    · simp only [q, K, e2]
      exact_mod_cast (Nat.choose_pos (hk _)).ne'
  have hb := heat_bath ℬ (fun j b => InBlock r b (c j)) p W ρ h ?_ ?_ ?_
  · rw [wormSum, wormSum]
    refine Eq.trans (Finset.sum_congr rfl fun j _ => ?_) (hb.trans (Finset.sum_congr rfl fun j _ => ?_))
    · by_cases hj : isGreen r (c j) = true
      · have hj' : ((c j).worm.any fun w => decide (w.kind = .green r)) = true := hj
        rw [if_pos hj']
        simp only [ρ, if_pos hj]
        rw [hsum j hj fun b => p b * ((∑ y, if InBlock r b (c y) then h y else 0) / ∑ y, if InBlock r b (c y) then W y else 0)]
        unfold blockMean
        rw [Finset.sum_div, mul_comm (δ ^ _)]
        congr 2
        refine Finset.sum_congr rfl fun C _ => ?_
        rw [Finset.sum_div]
        refine Finset.sum_congr rfl fun R _ => ?_
        simp only [p, q, K]
        rw [div_eq_mul_one_div, mul_comm]
        rfl
      · have hj' : ¬ ((c j).worm.any fun w => decide (w.kind = .green r)) = true := hj
        rw [if_neg hj']
        simp only [ρ, if_neg hj, zero_mul]
    · by_cases hj : isGreen r (c j) = true
      · have hj' : ((c j).worm.any fun w => decide (w.kind = .green r)) = true := hj
        rw [if_pos hj']
        simp only [ρ, if_pos hj]
        ring
      · have hj' : ¬ ((c j).worm.any fun w => decide (w.kind = .green r)) = true := hj
        rw [if_neg hj']
        simp only [ρ, if_neg hj, zero_mul]
  · intro j hj
    have hg : isGreen r (c j) = true := by
      by_contra hg
      exact hj (if_neg hg)
    obtain ⟨-, -, k1, k2, k3, k4⟩ := hcard j hg
    rw [hsum j hg p]
    simp only [p, Finset.sum_const, nsmul_eq_mul]
    rw [k1, k2]
    field_simp
  · intro j b _
    exact cfgW_pos (hR.mem j).2
  · rintro b - j j' ⟨g1, h1, h2, -⟩ ⟨g2, h3, h4, -⟩
    obtain ⟨k1, k2, -⟩ := hcard j g1
    obtain ⟨k3, k4, -⟩ := hcard j' g2
    have e1 : (c j).c.length = (c j').c.length := by
      have := k1.symm.trans ((congrArg Finset.card (h1.trans h3.symm)).trans k3)
      omega
    have e2 : (c j).cd.length = (c j').cd.length := by
      have := k2.symm.trans ((congrArg Finset.card (h2.trans h4.symm)).trans k4)
      omega
    simp only [ρ, if_pos g1, if_pos g2]
    unfold bathDim
    rw [e1, e2]

end heat

end CTHyb
