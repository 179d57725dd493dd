import Verif.TwoTimeG2Props
import Verif.WormMove
import Mathlib.Data.Finset.Sort
import Mathlib.Data.Finset.Powerset

/-!
Property C64, second part: the mean of the estimator over the random times and flavors.
-/

namespace CTHyb

open Rand Matrix

variable {𝕜 : Type} [RCLike 𝕜]

/-! ### Distribution of the set of times -/

/-- Probability that a given set of `m` allowed times is completed in `n` draws when `k` of its times are there; `g` is the
number of values of the random number, `c` the number of values which give the time of an operator. -/
def fillProb (m g c : ℕ) : ℕ → ℕ → ℚ
  | 0, k => if k < m then 0 else 1
  | n + 1, k => if k < m then ((c + k) * fillProb m g c n k + (m - k) * fillProb m g c n (k + 1)) / g else 1

theorem fillProb_nonneg (m g c n : ℕ) : ∀ k, 0 ≤ fillProb m g c n k := by
  induction n with
  | zero => intro k; unfold fillProb; split_ifs <;> norm_num
  | succ n ih =>
    intro k
    unfold fillProb
    split_ifs with h
    · have h1 := ih k
      have h2 := ih (k + 1)
      have h3 : (0 : ℚ) ≤ m - k := by
        have : (k : ℚ) ≤ m := by exact_mod_cast h.le
        linarith
      positivity
    · norm_num

theorem fillProb_pos (m g c n : ℕ) (hg : 0 < g) : ∀ k, m ≤ n + k → 0 < fillProb m g c n k := by
  induction n with
  | zero => intro k hk; unfold fillProb; rw [if_neg (by omega)]; norm_num
  | succ n ih =>
    intro k hk
    unfold fillProb
    split_ifs with h
    · have h1 := fillProb_nonneg m g c n k
      have h2 := ih (k + 1) (by omega)
      have h3 : (0 : ℚ) < m - k := by
        have : (k : ℚ) < m := by exact_mod_cast h
        linarith
      have : (0 : ℚ) < g := by exact_mod_cast hg
      positivity
    · norm_num

theorem sort_insert (t : ℝ) (S : Finset ℝ) (h : t ∉ S) :
    (S.sort (· ≤ ·)).orderedInsert (· ≤ ·) t = (insert t S).sort (· ≤ ·) := by
  refine List.Perm.eq_of_pairwise (le := (· ≤ ·)) (fun a b _ _ h1 h2 => le_antisymm h1 h2)
    (List.Pairwise.orderedInsert t _ (Finset.pairwise_sort S _)) (Finset.pairwise_sort _ _) ?_
  refine (List.perm_orderedInsert (· ≤ ·) t _).trans ?_
  exact (Finset.sort_perm_toList _ _).cons t |>.trans ((Finset.toList_insert h).symm.trans (Finset.sort_perm_toList _ _).symm)

theorem mean_drawList_const {α : Type} (g : List α) (hg : g ≠ []) (n : ℕ) (c : 𝕜) :
    mean (drawList (unif g) n) (fun _ => c) = c := by
  induction n with
  | zero => exact mean_ret _ _
  | succ n ih =>
    unfold drawList
    rw [mean_bind]
    simp only [mean_bind, mean_ret, ih]
    rw [mean_unif, List.map_const', List.sum_replicate, nsmul_eq_mul]
    have : (g.length : 𝕜) ≠ 0 := by
      rw [Nat.cast_ne_zero]
      exact fun h => hg (List.length_eq_zero_iff.1 h)
    field_simp

theorem sum_map_grid (rg : List ℝ) (u : ℝ → ℝ) (hnd : (rg.map u).Nodup) (ψ : ℝ → 𝕜) :
    (rg.map fun a => ψ (u a)).sum = ∑ t ∈ (rg.map u).toFinset, ψ t := by
  rw [List.sum_toFinset _ hnd, List.map_map, Function.comp_def]

/-- Mean over the draws of a function of the set of times. -/
theorem mean_ttFill (m : ℕ) (rg : List ℝ) (hne : rg ≠ []) (u : ℝ → ℝ) (hnd : (rg.map u).Nodup) (X : Finset ℝ) (φ : Option (List ℝ) → 𝕜)
    (hφ : φ none = 0) (n : ℕ) : ∀ (dup : List ℝ) (F : Finset ℝ), (∀ t, t ∈ dup ↔ t ∈ X ∨ t ∈ F) →
      F ⊆ (rg.map u).toFinset \ X → F.card ≤ m →
      mean (drawList (unif rg) n) (fun rs => φ (ttFill m (rs.map u) dup (F.sort (· ≤ ·)))) =
        ((fillProb m rg.length ((rg.map u).toFinset ∩ X).card n F.card : ℚ) : 𝕜) *
          ∑ S ∈ ((rg.map u).toFinset \ X).powersetCard m with F ⊆ S, φ (some (S.sort (· ≤ ·))) := by
  set Gd := (rg.map u).toFinset with hGd
  have hfull : ∀ F : Finset ℝ, F ⊆ Gd \ X → F.card = m →
      ∑ S ∈ (Gd \ X).powersetCard m with F ⊆ S, φ (some (S.sort (· ≤ ·))) = φ (some (F.sort (· ≤ ·))) := by
    intro F hF hc
    have : ((Gd \ X).powersetCard m).filter (F ⊆ ·) = {F} := by
      ext S
      simp only [Finset.mem_filter, Finset.mem_powersetCard, Finset.mem_singleton]
      constructor
      · rintro ⟨⟨_, h2⟩, h3⟩
        exact (Finset.eq_of_subset_of_card_le h3 (by omega)).symm
      · rintro rfl
        exact ⟨⟨hF, hc⟩, subset_rfl⟩
    rw [this, Finset.sum_singleton]
  induction n with
  | zero =>
    intro dup F _ hF hc
    show mean (ret []) _ = _
    rw [mean_ret]
    simp only [List.map_nil]
    unfold ttFill fillProb
    rw [Finset.length_sort]
    by_cases hm : F.card < m
    · rw [if_pos hm, if_pos hm, hφ]; simp
    · rw [if_neg hm, if_neg hm, hfull F hF (by omega)]; simp
  | succ n ih =>
    intro dup F hd hF hc
    unfold drawList
    rw [mean_bind]
    simp only [mean_bind, mean_ret, List.map_cons]
    by_cases hm : F.card < m
    · have hstep : ∀ a : ℝ, mean (drawList (unif rg) n)
          (fun rs => φ (ttFill m (u a :: rs.map u) dup (F.sort (· ≤ ·)))) =
          if u a ∈ dup then mean (drawList (unif rg) n) (fun rs => φ (ttFill m (rs.map u) dup (F.sort (· ≤ ·))))
          else mean (drawList (unif rg) n) (fun rs => φ (ttFill m (rs.map u) (u a :: dup) ((insert (u a) F).sort (· ≤ ·)))) := by
        intro a
        by_cases ha : u a ∈ dup
        · rw [if_pos ha]
          refine mean_congr fun rs => ?_
          rw [ttFill, if_pos (by rw [Finset.length_sort]; exact hm), if_pos ha]
        · rw [if_neg ha]
          refine mean_congr fun rs => ?_
          rw [ttFill, if_pos (by rw [Finset.length_sort]; exact hm), if_neg ha,
            sort_insert _ _ (fun h => ha ((hd _).2 (Or.inr h)))]
      rw [mean_unif]
      simp only [hstep]
      rw [ih dup F hd hF hc]
      let ψ : ℝ → 𝕜 := fun t => if t ∈ X ∨ t ∈ F then ((fillProb m rg.length (Gd ∩ X).card n F.card : ℚ) : 𝕜) *
            ∑ S ∈ (Gd \ X).powersetCard m with F ⊆ S, φ (some (S.sort (· ≤ ·)))
            else ((fillProb m rg.length (Gd ∩ X).card n (F.card + 1) : ℚ) : 𝕜) *
            ∑ S ∈ (Gd \ X).powersetCard m with F ⊆ S, if t ∈ S then φ (some (S.sort (· ≤ ·))) else 0
      have hval : ∀ a ∈ rg, (if u a ∈ dup then
          ((fillProb m rg.length (Gd ∩ X).card n F.card : ℚ) : 𝕜) *
            ∑ S ∈ (Gd \ X).powersetCard m with F ⊆ S, φ (some (S.sort (· ≤ ·)))
          else mean (drawList (unif rg) n) (fun rs => φ (ttFill m (rs.map u) (u a :: dup) ((insert (u a) F).sort (· ≤ ·))))) =
          ψ (u a) := by
        intro a ha
        show _ = if u a ∈ X ∨ u a ∈ F then _ else _
        have hag : u a ∈ Gd := by rw [hGd, List.mem_toFinset]; exact List.mem_map_of_mem ha
        simp only [← hd]
        by_cases had : u a ∈ dup
        · rw [if_pos had, if_pos had]
        · rw [if_neg had, if_neg had]
          have hX : u a ∉ X := fun h => had ((hd _).2 (Or.inl h))
          have hFn : u a ∉ F := fun h => had ((hd _).2 (Or.inr h))
          rw [ih (u a :: dup) (insert (u a) F) ?_ ?_ ?_, Finset.card_insert_of_notMem hFn, ← Finset.sum_filter, Finset.filter_filter]
          · congr 1
            refine Finset.sum_congr (Finset.filter_congr fun S _ => ?_) fun _ _ => rfl
            rw [Finset.insert_subset_iff, and_comm]
          · intro t
            rw [List.mem_cons, hd, Finset.mem_insert]
            tauto
          · exact Finset.insert_subset (Finset.mem_sdiff.2 ⟨hag, hX⟩) hF
          · rw [Finset.card_insert_of_notMem hFn]; omega
      rw [List.map_congr_left hval, sum_map_grid rg u hnd ψ, ← hGd]
      simp only [ψ]
      rw [Finset.sum_ite, Finset.sum_const, ← Finset.mul_sum, Finset.sum_comm]
      have hc1 : (Gd.filter fun t => t ∈ X ∨ t ∈ F).card = (Gd ∩ X).card + F.card := by
        have : (Gd.filter fun t => t ∈ X ∨ t ∈ F) = (Gd ∩ X) ∪ F := by
          ext t
          simp only [Finset.mem_filter, Finset.mem_union, Finset.mem_inter]
          constructor
          · tauto
          · rintro (h | h)
            · exact ⟨h.1, Or.inl h.2⟩
            · exact ⟨(Finset.mem_sdiff.1 (hF h)).1, Or.inr h⟩
        rw [this, Finset.card_union_of_disjoint]
        rw [Finset.disjoint_left]
        intro t h1 h2
        exact (Finset.mem_sdiff.1 (hF h2)).2 (Finset.mem_inter.1 h1).2
      have hc2 : ∀ S ∈ ((Gd \ X).powersetCard m).filter (F ⊆ ·),
          (∑ t ∈ Gd.filter (fun t => ¬ (t ∈ X ∨ t ∈ F)), if t ∈ S then φ (some (S.sort (· ≤ ·))) else 0) =
            ((m : 𝕜) - F.card) * φ (some (S.sort (· ≤ ·))) := by
        intro S hS
        simp only [Finset.mem_filter, Finset.mem_powersetCard] at hS
        obtain ⟨⟨h1, h2⟩, h3⟩ := hS
        rw [← Finset.sum_filter, Finset.sum_const, nsmul_eq_mul, Finset.filter_filter]
        congr 1
        have : (Gd.filter fun t => ¬ (t ∈ X ∨ t ∈ F) ∧ t ∈ S) = S \ F := by
          ext t
          simp only [Finset.mem_filter, Finset.mem_sdiff]
          constructor
          · tauto
          · rintro ⟨h4, h5⟩
            have := Finset.mem_sdiff.1 (h1 h4)
            tauto
        rw [this, Finset.card_sdiff_of_subset h3, h2, Nat.cast_sub (by omega)]
      rw [Finset.sum_congr rfl hc2, ← Finset.mul_sum, hc1, nsmul_eq_mul]
      conv_rhs => rw [fillProb, if_pos hm]
      push_cast
      ring
    · have hF' : F.card = m := by omega
      have : ∀ (a : ℝ) (rs : List ℝ), φ (ttFill m (u a :: rs.map u) dup (F.sort (· ≤ ·))) = φ (some (F.sort (· ≤ ·))) := by
        intro a rs
        rw [ttFill, if_neg (by rw [Finset.length_sort]; exact hm)]
      simp only [this, mean_drawList_const rg hne]
      have e := mean_drawList_const (𝕜 := 𝕜) rg hne 1 (φ (some (F.sort (· ≤ ·))))
      unfold drawList at e
      rw [mean_bind] at e
      simp only [drawList, mean_bind, mean_ret] at e
      rw [e, fillProb, if_neg hm, hfull F hF hF']
      simp

theorem card_sets_through (m : ℕ) (T : Finset ℝ) (t : ℝ) (ht : t ∈ T) (hm : 1 ≤ m) :
    ((T.powersetCard m).filter (t ∈ ·)).card = (T.card - 1).choose (m - 1) := by
  obtain ⟨m', rfl⟩ : ∃ m', m = m' + 1 := ⟨m - 1, by omega⟩
  have hn : t ∉ T.erase t := Finset.notMem_erase t T
  conv_lhs => rw [← Finset.insert_erase ht]
  rw [Finset.powersetCard_succ_insert hn, Finset.filter_union]
  have h1 : ((T.erase t).powersetCard (m' + 1)).filter (t ∈ ·) = ∅ := by
    rw [Finset.filter_eq_empty_iff]
    intro S hS h
    exact hn ((Finset.mem_powersetCard.1 hS).1 h)
  have h2 : (((T.erase t).powersetCard m').image (insert t)).filter (t ∈ ·) = ((T.erase t).powersetCard m').image (insert t) := by
    rw [Finset.filter_eq_self]
    intro S hS
    obtain ⟨S', -, rfl⟩ := Finset.mem_image.1 hS
    exact Finset.mem_insert_self _ _
  rw [h1, h2, Finset.empty_union, Finset.card_image_of_injOn, Finset.card_powersetCard, Finset.card_erase_of_mem ht,
    Nat.add_sub_cancel]
  intro S hS S' hS' e
  have a1 : t ∉ S := fun h => hn ((Finset.mem_powersetCard.1 hS).1 h)
  have a2 : t ∉ S' := fun h => hn ((Finset.mem_powersetCard.1 hS').1 h)
  have : (insert t S).erase t = (insert t S').erase t := by
    have e' : insert t S = insert t S' := e
    rw [e']
  rwa [Finset.erase_insert a1, Finset.erase_insert a2] at this

/-! ### The mean of the estimator -/

/-- Choosing one of two candidate sets with its weight and averaging with the sum of the weights is exact in the mean. -/
theorem heatbath_pair {Φ : Type} [Fintype Φ] (N : Φ → ℝ) (hN : ∀ F, 0 ≤ N F) (a : Φ → 𝕜) (h0 : ∀ F, N F = 0 → a F = 0) :
    ∑ F, ((N F : ℝ) : 𝕜) * ∑ G, (a F + a G) / ((N F + N G : ℝ) : 𝕜) = Fintype.card Φ * ∑ F, a F := by
  set H := ∑ F, ((N F : ℝ) : 𝕜) * ∑ G, (a F + a G) / ((N F + N G : ℝ) : 𝕜) with hH
  have e1 : H = ∑ F, ∑ G, ((N F : ℝ) : 𝕜) * ((a F + a G) / ((N F + N G : ℝ) : 𝕜)) := by
    rw [hH]; exact Finset.sum_congr rfl fun F _ => Finset.mul_sum _ _ _
  have e2 : H = ∑ F, ∑ G, ((N G : ℝ) : 𝕜) * ((a F + a G) / ((N F + N G : ℝ) : 𝕜)) := by
    rw [e1, Finset.sum_comm]
    refine Finset.sum_congr rfl fun F _ => Finset.sum_congr rfl fun G _ => ?_
    rw [add_comm (a G), add_comm (N G)]
  have e3 : H + H = ∑ F, ∑ G, (a F + a G) := by
    nth_rewrite 1 [e1]
    rw [e2, ← Finset.sum_add_distrib]
    refine Finset.sum_congr rfl fun F _ => ?_
    rw [← Finset.sum_add_distrib]
    refine Finset.sum_congr rfl fun G _ => ?_
    by_cases hz : N F + N G = 0
    · have hF : N F = 0 := by linarith [hN F, hN G]
      have hG : N G = 0 := by linarith [hN F, hN G]
      rw [h0 F hF, h0 G hG]; simp
    · have hz' : ((N F + N G : ℝ) : 𝕜) ≠ 0 := by rw [RCLike.ofReal_ne_zero]; exact hz
      rw [← add_mul]
      push_cast at hz' ⊢
      field_simp
  have e4 : ∑ F, ∑ G, (a F + a G) = 2 * (Fintype.card Φ * ∑ F, a F) := by
    simp only [Finset.sum_add_distrib, Finset.sum_const, Finset.card_univ, nsmul_eq_mul, ← Finset.mul_sum]
    ring
  rw [e4, ← two_mul] at e3
  exact mul_left_cancel₀ two_ne_zero e3

theorem sort_sum {M : Type} [AddCommMonoid M] (S : Finset ℝ) (ψ : ℝ → M) :
    ((S.sort (· ≤ ·)).map ψ).sum = ∑ t ∈ S, ψ t := by
  conv_rhs => rw [← Finset.sort_toFinset S (· ≤ ·)]
  rw [List.sum_toFinset _ (Finset.sort_nodup S _)]

theorem openRandom_inj {beta : ℝ} (hb : 0 < beta) {a b : ℝ} (h : openRandom a 0 beta 1e-10 = openRandom b 0 beta 1e-10) : a = b := by
  unfold openRandom at h
  have h1 : beta * ((1 - 1e-10) * a) = beta * ((1 - 1e-10) * b) := by linarith
  have h2 := mul_left_cancel₀ hb.ne' h1
  exact mul_left_cancel₀ (by norm_num) h2

/-- **C64, mean.**  The present flavors `F` and time `t0` of the left pair have the probability of their weight; `T` are the
times on the grid of the random numbers at which no other operator is.  In the mean over the random times, the random flavors
and the present ones, the estimator from all candidates is the sum of `W x` over all flavors and times, times the probability
that `n` random numbers suffice for the loop, which does not depend on the present time. -/
theorem C64_mean_partial {Φ : Type} [Fintype Φ] [Nonempty Φ] {beta : ℝ} (hb : 0 < beta) (rg : List ℝ) (hrg : rg.Nodup) (hne : rg ≠ [])
    (X : Finset ℝ) (ops : ℝ → OpSet (OpTime ℝ)) (hops : ∀ t0 t, (∃ o ∈ ops t0, o.time.time = t) ↔ t ∈ X ∨ t = t0)
    (W x : Φ → ℝ → 𝕜) (avg n : ℕ) (T : Finset ℝ)
    (hT : T = (rg.map fun r => openRandom r 0 beta 1e-10).toFinset \ X) (t1 : ℝ) (ht1 : t1 ∈ T) :
    ∑ F, ∑ t0 ∈ T, ((‖W F t0‖ : ℝ) : 𝕜) * mean (drawList (unif rg) n) (fun rs => (ttTimes beta (ops t0) t0 avg rs).elim 0
        fun S => (∑ G, ttEst W x (fun _ => True) [F, G] S) / Fintype.card Φ) =
      mean (drawList (unif rg) n) (fun rs => (ttTimes beta (ops t1) t1 avg rs).elim 0 fun _ => 1) *
        ∑ F, ∑ t ∈ T, W F t * x F t := by
  have hnd : (rg.map fun r => openRandom r 0 beta 1e-10).Nodup := hrg.map fun a b h => openRandom_inj hb h
  have hm1 : 1 ≤ ttNum avg := by unfold ttNum; omega
  set p : 𝕜 := ((fillProb (ttNum avg) rg.length ((rg.map fun r => openRandom r 0 beta 1e-10).toFinset ∩ X).card n 1 : ℚ) : 𝕜)
    with hp
  have key : ∀ t0 ∈ T, ∀ φ : List ℝ → 𝕜, mean (drawList (unif rg) n) (fun rs => (ttTimes beta (ops t0) t0 avg rs).elim 0 φ) =
      p * ∑ S ∈ T.powersetCard (ttNum avg) with t0 ∈ S, φ (S.sort (· ≤ ·)) := by
    intro t0 ht0 φ
    have := mean_ttFill (𝕜 := 𝕜) (ttNum avg) rg hne (fun r => openRandom r 0 beta 1e-10) hnd X (fun o => o.elim 0 φ) rfl n
      ((ops t0).map fun o => o.time.time) {t0} (by
        intro t
        rw [List.mem_map, hops, Finset.mem_singleton]) (by
        rw [← hT]; exact Finset.singleton_subset_iff.2 ht0) (by simpa using hm1)
    rw [← hT, Finset.card_singleton, ← hp, Finset.sort_singleton] at this
    simp only [Finset.singleton_subset_iff, Option.elim_some] at this
    exact this
  have hS : ∀ S : Finset ℝ, ∑ F, ((∑ t ∈ S, ‖W F t‖ : ℝ) : 𝕜) *
      ((∑ G, ttEst W x (fun _ => True) [F, G] (S.sort (· ≤ ·))) / Fintype.card Φ) = ∑ F, ∑ t ∈ S, W F t * x F t := by
    intro S
    have hc : (Fintype.card Φ : 𝕜) ≠ 0 := Nat.cast_ne_zero.2 Fintype.card_ne_zero
    have := heatbath_pair (𝕜 := 𝕜) (fun F : Φ => ∑ t ∈ S, ‖W F t‖) (fun F => Finset.sum_nonneg fun _ _ => norm_nonneg _)
      (fun F => ∑ t ∈ S, W F t * x F t) (by
        intro F h0
        refine Finset.sum_eq_zero fun t ht => ?_
        have := (Finset.sum_eq_zero_iff_of_nonneg fun _ _ => norm_nonneg _).1 h0 t ht
        rw [norm_eq_zero.1 this, zero_mul])
    rw [← mul_right_inj' hc, ← this, Finset.mul_sum]
    refine Finset.sum_congr rfl fun F _ => ?_
    rw [mul_left_comm, mul_div_cancel₀ _ hc]
    congr 1
    refine Finset.sum_congr rfl fun G _ => ?_
    unfold ttEst
    simp only [if_true, List.map_cons, List.map_nil, List.sum_cons, List.sum_nil, add_zero, sort_sum]
  have hcount : ∀ t0 ∈ T, (((T.powersetCard (ttNum avg)).filter (t0 ∈ ·)).card : 𝕜) =
      ((T.card - 1).choose (ttNum avg - 1) : ℕ) := fun t0 h => by rw [card_sets_through _ T t0 h hm1]
  rw [key t1 ht1, Finset.sum_const, nsmul_eq_mul, mul_one, hcount t1 ht1]
  have hl : ∀ F : Φ, ∑ t0 ∈ T, ((‖W F t0‖ : ℝ) : 𝕜) * mean (drawList (unif rg) n) (fun rs => (ttTimes beta (ops t0) t0 avg rs).elim 0
        fun S => (∑ G, ttEst W x (fun _ => True) [F, G] S) / Fintype.card Φ) =
      p * ∑ S ∈ T.powersetCard (ttNum avg), ((∑ t ∈ S, ‖W F t‖ : ℝ) : 𝕜) *
        ((∑ G, ttEst W x (fun _ => True) [F, G] (S.sort (· ≤ ·))) / Fintype.card Φ) := by
    intro F
    have e1 : ∀ t0 ∈ T, ((‖W F t0‖ : ℝ) : 𝕜) * mean (drawList (unif rg) n) (fun rs => (ttTimes beta (ops t0) t0 avg rs).elim 0
        fun S => (∑ G, ttEst W x (fun _ => True) [F, G] S) / Fintype.card Φ) =
        ∑ S ∈ T.powersetCard (ttNum avg), if t0 ∈ S then p * (((‖W F t0‖ : ℝ) : 𝕜) *
          ((∑ G, ttEst W x (fun _ => True) [F, G] (S.sort (· ≤ ·))) / Fintype.card Φ)) else 0 := by
      intro t0 ht0
      rw [key t0 ht0, ← Finset.sum_filter, Finset.mul_sum, Finset.mul_sum]
      exact Finset.sum_congr rfl fun S _ => by ring
    rw [Finset.sum_congr rfl e1, Finset.sum_comm, Finset.mul_sum]
    refine Finset.sum_congr rfl fun S hS' => ?_
    rw [← Finset.sum_filter, ← Finset.mul_sum, ← Finset.sum_mul]
    have : T.filter (· ∈ S) = S := by
      ext t
      rw [Finset.mem_filter]
      exact ⟨fun h => h.2, fun h => ⟨(Finset.mem_powersetCard.1 hS').1 h, h⟩⟩
    rw [this]
    push_cast
    rfl
  rw [Finset.sum_congr rfl fun F _ => hl F, ← Finset.mul_sum, Finset.sum_comm, Finset.sum_congr rfl fun S _ => hS S,
    Finset.sum_comm, mul_assoc]
  congr 1
  rw [Finset.mul_sum]
  refine Finset.sum_congr rfl fun F _ => ?_
  have : ∀ S ∈ T.powersetCard (ttNum avg), ∑ t ∈ S, W F t * x F t = ∑ t ∈ T, if t ∈ S then W F t * x F t else 0 := by
    intro S hS'
    rw [← Finset.sum_filter]
    refine Finset.sum_congr ?_ fun _ _ => rfl
    ext t
    rw [Finset.mem_filter]
    exact ⟨fun h => ⟨(Finset.mem_powersetCard.1 hS').1 h, h⟩, fun h => h.2⟩
  rw [Finset.sum_congr rfl this, Finset.sum_comm, Finset.mul_sum]
  refine Finset.sum_congr rfl fun t ht => ?_
  rw [← Finset.sum_filter, Finset.sum_const, nsmul_eq_mul, hcount t ht]

/-- The factor of `C64_mean_partial` is not 0 if there are enough times and enough random numbers. -/
theorem C64_mean_factor {beta : ℝ} (hb : 0 < beta) (rg : List ℝ) (hrg : rg.Nodup)
    (X : Finset ℝ) (ops : OpSet (OpTime ℝ)) (t0 : ℝ) (hops : ∀ t, (∃ o ∈ ops, o.time.time = t) ↔ t ∈ X ∨ t = t0)
    (avg n : ℕ) (T : Finset ℝ) (hT : T = (rg.map fun r => openRandom r 0 beta 1e-10).toFinset \ X) (ht0 : t0 ∈ T)
    (hc : ttNum avg ≤ T.card) (hn : ttNum avg ≤ n + 1) :
    mean (drawList (unif rg) n) (fun rs => (ttTimes beta ops t0 avg rs).elim (0 : ℝ) fun _ => 1) ≠ 0 := by
  have hnd : (rg.map fun r => openRandom r 0 beta 1e-10).Nodup := hrg.map fun a b h => openRandom_inj hb h
  have hm1 : 1 ≤ ttNum avg := by unfold ttNum; omega
  have hne : rg ≠ [] := by
    rintro rfl
    rw [hT] at ht0
    simp at ht0
  have := mean_ttFill (𝕜 := ℝ) (ttNum avg) rg hne (fun r => openRandom r 0 beta 1e-10) hnd X (fun o => o.elim 0 fun _ => 1) rfl n
    (ops.map fun o => o.time.time) {t0} (by
      intro t
      rw [List.mem_map, hops, Finset.mem_singleton]) (by
      rw [← hT]; exact Finset.singleton_subset_iff.2 ht0) (by simpa using hm1)
  rw [← hT, Finset.card_singleton, Finset.sort_singleton] at this
  simp only [Finset.singleton_subset_iff, Option.elim_some] at this
  unfold ttTimes
  rw [this, Finset.sum_const, nsmul_eq_mul, mul_one, card_sets_through _ T t0 ht0 hm1]
  refine mul_ne_zero ?_ ?_
  · have := fillProb_pos (ttNum avg) rg.length ((rg.map fun r => openRandom r 0 beta 1e-10).toFinset ∩ X).card n
      (List.length_pos_iff.2 hne) 1 hn
    exact_mod_cast this.ne'
  · rw [Nat.cast_ne_zero]
    exact (Nat.choose_pos (by omega)).ne'

/-- **C64 is violated by the cutoff**: if one time has the weight 1 and the others `1e-40`, the cutoff `1e-30` relative to the
present weight makes the mean of the estimator differ from the sum over the times (here of the indicator of that time). -/
theorem C64_cutoff_violated (S : List ℝ) (hS : S.Nodup) (t1 : ℝ) (h1 : t1 ∈ S) (h2 : 2 ≤ S.length) (W : Unit → ℝ → ℝ)
    (hW : W = fun _ t => if t = t1 then 1 else 1e-40) (x : Unit → ℝ → ℝ) (hx : x = fun _ t => if t = t1 then 1 else 0) :
    (S.map fun t0 => ‖W () t0‖ * ttEst W x (fun y => 1e-30 * ‖W () t0‖ < ‖y‖) [(), ()] S).sum ≠
      (S.map fun t => W () t * x () t).sum := by
  have hn : ∀ t0, ‖W () t0‖ = if t0 = t1 then 1 else 1e-40 := by
    intro t0; rw [hW]; simp only; split_ifs <;> norm_num
  have hsum : ∀ a b : ℝ, (S.map fun t => if t = t1 then a else b).sum = a + (S.length - 1) * b := by
    intro a b
    have := List.perm_cons_erase h1
    rw [(this.map _).sum_eq, List.map_cons, List.sum_cons, if_pos rfl]
    have : (S.erase t1).map (fun t => if t = t1 then a else b) = (S.erase t1).map fun _ => b := by
      refine List.map_congr_left fun t ht => if_neg ?_
      rintro rfl
      exact (hS.not_mem_erase) ht
    rw [this, List.map_const', List.sum_replicate, List.length_erase_of_mem h1, nsmul_eq_mul, Nat.cast_sub (by omega)]
    push_cast
    ring
  set L : ℝ := S.length - 1 with hL
  have hLpos : 0 < L := by
    have : (2 : ℝ) ≤ S.length := by exact_mod_cast h2
    rw [hL]; linarith
  have est1 : ∀ t0, ttEst W x (fun y => 1e-30 * ‖W () t0‖ < ‖y‖) [(), ()] S = if t0 = t1 then 1 else 1 / (1 + L * 1e-40) := by
    intro t0
    have hnum : (S.map fun t => if 1e-30 * ‖W () t0‖ < ‖W () t‖ then W () t * x () t else 0).sum = 1 := by
      rw [show (fun t => if 1e-30 * ‖W () t0‖ < ‖W () t‖ then W () t * x () t else 0) = fun t => if t = t1 then (1 : ℝ) else 0 from ?_,
        hsum, mul_zero, add_zero]
      funext t
      rw [hn, hn, hW, hx]
      simp only
      by_cases e : t = t1
      · rw [if_pos e, if_pos e, if_pos (by split_ifs <;> norm_num), mul_one]
      · rw [if_neg e, if_neg e, mul_zero, ite_self]
    have hden : (S.map fun t => if 1e-30 * ‖W () t0‖ < ‖W () t‖ then ‖W () t‖ else 0).sum = if t0 = t1 then 1 else 1 + L * 1e-40 := by
      by_cases e0 : t0 = t1
      · rw [if_pos e0, show (fun t => if 1e-30 * ‖W () t0‖ < ‖W () t‖ then ‖W () t‖ else 0) = fun t => if t = t1 then (1 : ℝ) else 0 from ?_,
          hsum, mul_zero, add_zero]
        funext t
        rw [hn, hn, if_pos e0]
        split_ifs with a b c <;> first | rfl | (exfalso; norm_num at *)
      · rw [if_neg e0, show (fun t => if 1e-30 * ‖W () t0‖ < ‖W () t‖ then ‖W () t‖ else 0) = fun t => if t = t1 then (1 : ℝ) else 1e-40 from ?_,
          hsum]
        funext t
        rw [hn, hn, if_neg e0]
        split_ifs with a b c <;> first | rfl | (exfalso; norm_num at *)
    unfold ttEst
    simp only [List.map_cons, List.map_nil, List.sum_cons, List.sum_nil, add_zero, hnum, hden]
    split_ifs with e0
    · norm_num
    · simp only [RCLike.ofReal_real_eq_id, id]
      have : (1 + L * 1e-40) ≠ 0 := by positivity
      field_simp
  have hlhs : (S.map fun t0 => ‖W () t0‖ * ttEst W x (fun y => 1e-30 * ‖W () t0‖ < ‖y‖) [(), ()] S).sum =
      1 + L * (1e-40 * (1 / (1 + L * 1e-40))) := by
    rw [← hsum]
    refine congrArg List.sum (List.map_congr_left fun t0 _ => ?_)
    rw [est1, hn]
    split_ifs <;> norm_num
  have hrhs : (S.map fun t => W () t * x () t).sum = 1 := by
    have := hsum 1 0
    rw [mul_zero, add_zero] at this
    rw [← this]
    refine congrArg List.sum (List.map_congr_left fun t0 _ => ?_)
    rw [hW, hx]
    simp only
    split_ifs <;> norm_num
  rw [hlhs, hrhs]
  have : 0 < L * (1e-40 * (1 / (1 + L * 1e-40))) := by positivity
  intro h
  linarith

/-! ### A concrete case -/

/-- Enough fresh times complete the loop. -/
theorem ttFill_isSome {m : ℕ} (ts : List ℝ) : ∀ dup new : List ℝ, ts.Nodup → (∀ t ∈ ts, t ∉ dup) → m ≤ new.length + ts.length →
    ∃ S, ttFill m ts dup new = some S ∧ ∀ t ∈ S, t ∈ ts ∨ t ∈ new := by
  induction ts with
  | nil =>
    intro dup new _ _ h
    refine ⟨new, ?_, fun t ht => Or.inr ht⟩
    unfold ttFill
    rw [if_neg (by simpa using h)]
  | cons t ts ih =>
    intro dup new hnd hd h
    unfold ttFill
    by_cases hm : new.length < m
    · rw [if_pos hm, if_neg (hd t (by simp))]
      rw [List.nodup_cons] at hnd
      obtain ⟨S, e, hS⟩ := ih (t :: dup) (new.orderedInsert (· ≤ ·) t) hnd.2 (by
        intro u hu hc
        rcases List.mem_cons.1 hc with rfl | hc
        · exact hnd.1 hu
        · exact hd u (by simp [hu]) hc) (by rw [List.orderedInsert_length]; simp at h; omega)
      refine ⟨S, e, fun u hu => ?_⟩
      rcases hS u hu with h1 | h1
      · exact Or.inl (by simp [h1])
      · rcases (List.mem_orderedInsert (· ≤ ·)).1 h1 with rfl | h1
        · exact Or.inl (by simp)
        · exact Or.inr h1
    · rw [if_neg hm]
      exact ⟨new, rfl, fun u hu => Or.inr hu⟩

theorem oneLevel_trace4 (d1 d2 d3 d4 d5 : Fin (2 ^ 1) → ℝ) : trace (diagonal d1 *
    (cdagOp 1 0).map (Int.cast : ℤ → ℝ) * diagonal d2 * (cOp 1 0).map (Int.cast : ℤ → ℝ) * diagonal d3 *
    (cdagOp 1 0).map (Int.cast : ℤ → ℝ) * diagonal d4 * (cOp 1 0).map (Int.cast : ℤ → ℝ) * diagonal d5) =
    d1 0 * d2 1 * d3 0 * d4 1 * d5 0 := by
  rw [oneLevel_c, oneLevel_cdag]
  simp [trace, Matrix.mul_apply, Fin.sum_univ_two, diagonal]
  try ring

theorem exTT_trace (s t : ℝ) : fullTrace (ebEnv exCode.B exCode.p 4)
    [⟨⟨s, 0⟩, .annihilation, 0⟩, ⟨⟨s, 1⟩, .creation, 0⟩, ⟨⟨t, 0⟩, .annihilation, 0⟩, ⟨⟨t, 1⟩, .creation, 0⟩] ≠ 0 := by
  change fullTrace (ebEnv (impBaseOf 1 oneLevel 2 id) ⟨exactSolve, 2, 3⟩ 4) _ ≠ 0
  have hB : (impBaseOf 1 oneLevel 2 id).Lawful := twoSectors_lawful
  rw [C57_exact hB exactSolve_ok (by norm_num) oneLevel_least (by
    intro μ hμ
    rcases (oneLevel_eig μ).1 hμ with rfl | rfl <;> norm_num)]
  refine mul_ne_zero (by simp) ?_
  have h := oneLevel_trace4 (fun i : Fin (2 ^ 1) => Real.exp (-(4 - t) * (2 * (i.val : ℝ))))
    (fun i : Fin (2 ^ 1) => Real.exp (-(t - t) * (2 * (i.val : ℝ))))
    (fun i : Fin (2 ^ 1) => Real.exp (-(t - s) * (2 * (i.val : ℝ))))
    (fun i : Fin (2 ^ 1) => Real.exp (-(s - s) * (2 * (i.val : ℝ))))
    (fun i : Fin (2 ^ 1) => Real.exp (-(s - 0) * (2 * (i.val : ℝ))))
  have hm : timeOrderedMat oneLevel (impBaseOf 1 oneLevel 2 id).op 4
      [⟨⟨s, 0⟩, .annihilation, 0⟩, ⟨⟨s, 1⟩, .creation, 0⟩, ⟨⟨t, 0⟩, .annihilation, 0⟩, ⟨⟨t, 1⟩, .creation, 0⟩] 0 =
      diagonal (fun i : Fin (2 ^ 1) => Real.exp (-(4 - t) * (2 * (i.val : ℝ)))) *
        (cdagOp 1 0).map (Int.cast : ℤ → ℝ) *
      diagonal (fun i : Fin (2 ^ 1) => Real.exp (-(t - t) * (2 * (i.val : ℝ)))) *
        (cOp 1 0).map (Int.cast : ℤ → ℝ) *
      diagonal (fun i : Fin (2 ^ 1) => Real.exp (-(t - s) * (2 * (i.val : ℝ)))) *
        (cdagOp 1 0).map (Int.cast : ℤ → ℝ) *
      diagonal (fun i : Fin (2 ^ 1) => Real.exp (-(s - s) * (2 * (i.val : ℝ)))) *
        (cOp 1 0).map (Int.cast : ℤ → ℝ) *
      diagonal (fun i : Fin (2 ^ 1) => Real.exp (-(s - 0) * (2 * (i.val : ℝ)))) := by
    rw [← oneLevel_exp, ← oneLevel_exp, ← oneLevel_exp, ← oneLevel_exp, ← oneLevel_exp]; rfl
  rw [← hm] at h
  show trace (timeOrderedMat oneLevel (impBaseOf 1 oneLevel 2 id).op 4 _ 0) ≠ 0
  rw [h]
  simp [Real.exp_ne_zero]

/-- A two-time worm and no other operators. -/
def exTT : WCfg ℤ := ⟨[], [], some ⟨.corr 2, [5, 1], [0, 0, 0, 0]⟩⟩

/-- `exMoves` with the two-time worm. -/
noncomputable def exTTMoves : MoveArgs := { exMoves with kinds := [.corr 2] }

theorem exTTMoves_ok : exTTMoves.OK exCode 8 := { exMoves_ok with
  nodup := by simp [exTTMoves]
  ops := by
    intro k hk
    simp only [exTTMoves, List.mem_cons, List.not_mem_nil, or_false] at hk
    subst hk
    simp [WormKind.numFlavors] }

theorem exTT_ops : exTT.ops exTTMoves.tau (codeWops exTTMoves.tau) = ttWorm (11 / 4) (3 / 4) (fun _ => 0) := by
  have e1 : gridTau 4 8 5 = 11 / 4 := by unfold gridTau; norm_num
  have e2 : gridTau 4 8 1 = 3 / 4 := by unfold gridTau; norm_num
  simp [PCfg.ops, exTT, codeWops, wormOps, exTTMoves, exMoves, Worm.operators, mapOp, ttWorm, List.range_succ, e1, e2]

theorem exTT_good : OnGrid exCode.P.nf exTTMoves.G exTTMoves.kinds exTT ∧
    exTT.Good exCode exTTMoves.tau (codeWops exTTMoves.tau) := by
  have hnd : ((exTT.ops exTTMoves.tau (codeWops exTTMoves.tau)).map Psi.time).Nodup := by
    rw [exTT_ops, ttWorm_times]
    norm_num
  refine ⟨⟨by simp [exTT], by simp [exTT], by simp [exTT], by simp [exTT], rfl, ?_⟩, hnd, ?_⟩
  · intro w hw
    obtain rfl := Option.some.inj hw
    exact ⟨⟨rfl, rfl⟩, by simp [exTTMoves], by simp [exCode], by simp [exTTMoves, exMoves]⟩
  · have hs : exTT.sorted exTTMoves.tau (codeWops exTTMoves.tau) =
        [⟨⟨3 / 4, 0⟩, .annihilation, 0⟩, ⟨⟨3 / 4, 1⟩, .creation, 0⟩, ⟨⟨11 / 4, 0⟩, .annihilation, 0⟩, ⟨⟨11 / 4, 1⟩, .creation, 0⟩] := by
      refine sorted_unique (PCfg.sorted_sorted _ hnd) ?_ ((PCfg.sorted_perm _).trans ?_)
      · simp [OpSet.Sorted, OpTime.lt_def]; norm_num
      · rw [exTT_ops]
        unfold ttWorm
        exact (List.reverse_perm _).symm
    unfold cfgW CodeArgs.weight
    rw [hs, norm_ne_zero_iff]
    refine mul_ne_zero ?_ (exTT_trace _ _)
    rw [timeDet_eq _ _ _ (by simp [exTT]) (by simp [exTT]), listDet_eq _ _ _ 0 rfl rfl]
    simp

/-- All hypotheses of `C64_measure` can be met: a two-time worm at the times 11/4 and 3/4, with β = 4, and 19 further times. -/
example : ∃ (s : exCode.St) (rs times : List ℝ) (w : _) (data : TTData ℝ), SimInv exCode.env exCode.Inv (pmDet exCode.P) s ∧
    s.cfg.worm = some (ttWorm (11 / 4) (3 / 4) fun _ => 0) ∧ (∀ x ∈ rs, 0 ≤ x ∧ x < 1) ∧
    ttTimes exCode.beta s.cfg.ops (11 / 4) 0 rs = some times ∧ times.length = 20 ∧
    twoTimeMeasure exCode 3 0 rs [0, 0, 0, 0] s = some (w, data) := by
  obtain ⟨s, hs, hr, hw⟩ := C61_states exCode_ok exTTMoves_ok (n := 2) (by norm_num) exTT_good.1 exTT_good.2
  have hworm : s.1.cfg.worm = some (ttWorm (11 / 4) (3 / 4) fun _ => 0) := by
    have e := exTT_ops
    rw [hr.wops]
    unfold PCfg.ops at e
    simp only [exTT, List.map_nil, List.nil_append] at e
    have : codeWops exTTMoves.tau exTT.worm = some (wormOps (codeWops exTTMoves.tau exTT.worm)) := rfl
    rw [this]
    exact congrArg some e
  have hperm : List.Perm s.1.cfg.ops (ttWorm (11 / 4) (3 / 4) fun _ => 0) := by
    have hc : exCode.env.D.cdagg s.1.cfg.M = [] := List.perm_nil.1 (by simpa [exTT] using hr.cd)
    have hd : exCode.env.D.cs s.1.cfg.M = [] := List.perm_nil.1 (by simpa [exTT] using hr.c)
    have := hs.cons.2
    rw [hworm, hc, hd] at this
    simpa [wormOps] using Multiset.coe_eq_coe.1 this
  have htimes : ∀ t, t ∈ s.1.cfg.ops.map (fun o => o.time.time) → t = 11 / 4 ∨ t = 3 / 4 := by
    intro t ht
    rw [List.mem_map] at ht
    obtain ⟨o, ho, rfl⟩ := ht
    have := hperm.mem_iff.1 ho
    simp only [ttWorm, List.mem_cons, List.not_mem_nil, or_false] at this
    rcases this with rfl | rfl | rfl | rfl <;> simp
  set ts : List ℝ := (List.range 19).map fun i : ℕ => (3 * (i : ℝ) + 4) / 30 with hts
  set rs : List ℝ := (List.range 19).map fun i : ℕ => (1 - (3 * (i : ℝ) + 4) / 30 / 4 - 1e-10 / 2) / (1 - 1e-10) with hrs
  have hmap : rs.map (fun r => openRandom r 0 exCode.beta 1e-10) = ts := by
    rw [hrs, hts, List.map_map]
    refine List.map_congr_left fun i _ => ?_
    simp only [Function.comp, openRandom, exCode]
    have : (1 - 1e-10 : ℝ) ≠ 0 := by norm_num
    rw [mul_div_cancel₀ _ this]
    ring
  have hcmp : ∀ (i j : ℕ), (3 * (i : ℝ) + 4) / 30 ≠ (2 * j + 1) / 4 := by
    intro i j h
    have h1 : (2 * (3 * i + 4) : ℝ) = 15 * (2 * j + 1) := by linarith
    have h2 : 2 * (3 * i + 4) = 15 * (2 * j + 1) := by exact_mod_cast h1
    omega
  obtain ⟨times, e, hmem⟩ := ttFill_isSome (m := 20) ts (s.1.cfg.ops.map fun o => o.time.time) [11 / 4] (by
      rw [hts]
      refine List.nodup_range.map fun i j h => ?_
      have : (i : ℝ) = j := by linarith
      exact_mod_cast this) (by
      intro t ht hc
      obtain ⟨i, -, rfl⟩ := List.mem_map.1 ht
      rcases htimes _ hc with h | h
      · exact hcmp i 5 (by rw [h]; norm_num)
      · exact hcmp i 1 (by rw [h]; norm_num)) (by simp [hts])
  have ht : ttTimes exCode.beta s.1.cfg.ops (11 / 4) 0 rs = some times := by
    unfold ttTimes
    rw [hmap]
    exact e
  have hrs01 : ∀ x ∈ rs, 0 ≤ x ∧ x < 1 := by
    intro x hx
    obtain ⟨i, hi, rfl⟩ := List.mem_map.1 hx
    have hi' : (i : ℝ) ≤ 18 := by exact_mod_cast (Nat.lt_succ_iff.1 (List.mem_range.1 hi))
    have hi0 : (0 : ℝ) ≤ i := Nat.cast_nonneg i
    have hp : (0 : ℝ) < 1 - 1e-10 := by norm_num
    constructor
    · refine div_nonneg ?_ hp.le
      norm_num
      linarith
    · rw [div_lt_one hp]
      norm_num
      linarith
  have hn : s.1.sw.n = 2 := congrArg (fun q => q.n) hw
  obtain ⟨w, data, em, -⟩ := C64_measure exCode exCode_ok (by norm_num [exCode]) hs (11 / 4) (3 / 4) (fun _ => 0) (fun _ => 0) hworm
    (fun _ => by simp [exCode]) (fun _ => by simp [exCode]) 3 0 rs hrs01 times ht (by
      intro t htm p _
      rw [hn]
      unfold tauEdge
      norm_num [exCode]
      rcases hmem t htm with h | h
      · obtain ⟨i, -, rfl⟩ := List.mem_map.1 h
        intro h'
        have h1 : (3 * i + 4 : ℝ) = 3 * p := by linarith
        have h2 : 3 * i + 4 = 3 * p := by exact_mod_cast h1
        omega
      · rw [List.mem_singleton] at h
        rw [h]
        intro h'
        have h1 : (55 : ℝ) = 2 * p := by linarith
        have h2 : 55 = 2 * p := by exact_mod_cast h1
        omega)
  obtain ⟨-, -, hl, -⟩ := C64_times (by norm_num [exCode]) s.1.cfg.ops (11 / 4) ⟨⟨⟨11 / 4, 1⟩, .creation, 0⟩,
    hperm.mem_iff.2 (by simp [ttWorm]), rfl⟩ 0 rs hrs01 times ht
  exact ⟨s.1, rs, times, w, data, hs, hworm, hrs01, ht, by simpa using hl, em⟩

/-- `C64_mean_partial` for 40 values of the random number and the operators of the example above. -/
example : ∃ (rg : List ℝ) (T : Finset ℝ), rg.Nodup ∧
    T = (rg.map fun r => openRandom r 0 4 1e-10).toFinset \ {3 / 4} ∧ 20 ≤ T.card := by
  refine ⟨(List.range 40).map fun i : ℕ => (i : ℝ) / 40, _, ?_, rfl, ?_⟩
  · refine List.nodup_range.map fun i j h => ?_
    have : (i : ℝ) = j := by linarith
    exact_mod_cast this
  · refine le_trans ?_ (Finset.le_card_sdiff _ _)
    rw [Finset.card_singleton, List.toFinset_card_of_nodup]
    · simp
    · rw [List.map_map]
      refine List.nodup_range.map fun i j h => ?_
      have := openRandom_inj (by norm_num) h
      have : (i : ℝ) = j := by linarith
      exact_mod_cast this

end CTHyb
