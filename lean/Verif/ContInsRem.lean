import Verif.ContInsSym

/-!
The removal as a sum over the subsets of the labels.
-/

namespace CTHyb

open Rand MeasureTheory ENNReal

/-- Number of operators of block `b` in the window. -/
noncomputable def bcount (E : PEnv) (cw : CWin) (s : Multiset (BOp ℝ)) (b : ℕ) : ℕ :=
  (s.filter fun o => (cw.win.inWin o.1 && E.sector o.2 == b) = true).card

theorem blockOps_length (E : PEnv) (cw : CWin) (l : List (BOp ℝ)) (b : ℕ) :
    (blockOps E cw.win l b).length = bcount E cw (l : Multiset (BOp ℝ)) b := by
  rw [bcount, Multiset.filter_coe, Multiset.coe_card]; simp only [Bool.decide_eq_true, blockOps]

theorem bcount_add (E : PEnv) (cw : CWin) (s t : Multiset (BOp ℝ)) (b : ℕ) :
    bcount E cw (s + t) b = bcount E cw s b + bcount E cw t b := by
  rw [bcount, Multiset.filter_add, Multiset.card_add]; rfl

theorem Hit.bcount {E : PEnv} {cw : CWin} {bl : List ℕ} {s : Multiset (BOp ℝ)} (h : Hit E cw bl s) (b : ℕ) :
    bcount E cw s b = bl.count b := by
  rw [← h.2 b, CTHyb.bcount]
  congr 1
  refine Multiset.filter_congr fun o ho => ?_
  have := (h.1 o ho).1
  simp [CWin.win, this.1, this.2]

/-- Product of the factorials of the numbers of pairs. -/
def facs (E : PEnv) (bl : List ℕ) : ℕ := ∏ b ∈ Finset.range E.ns, (bl.count b).factorial

/-- Probability of picking given operators in a given order, if block `b` has `bcount b` operators
besides them. -/
noncomputable def pickP (E : PEnv) (cw : CWin) (bl : List ℕ) (s : Multiset (BOp ℝ)) : ℝ :=
  ∏ b ∈ Finset.range E.ns, (fallingFac ((bcount E cw s b + bl.count b : ℕ) : ℝ) (bl.count b))⁻¹

theorem pickP_pos (E : PEnv) (cw : CWin) (bl : List ℕ) (s : Multiset (BOp ℝ)) : 0 < pickP E cw bl s :=
  Finset.prod_pos fun _ _ => inv_pos.2 (fallingFac_pos (by omega))

open Classical in
/-- Probability of picking the operators `a` in any order. -/
theorem mean_pick_hit (E : PEnv) (cw : CWin) (hns : ∀ f, f < E.nf → E.sector f < E.ns) (bl : List ℕ)
    (hbl : ∀ b ∈ bl, b < E.ns) (l : List (BOp ℝ)) (hl : l.Nodup) (hfl : ∀ o ∈ l, o.2 < E.nf)
    (hen : ∀ b < E.ns, bl.count b ≤ (blockOps E cw.win l b).length)
    (a : List (BOp ℝ)) (ha : a.Nodup) (s : Multiset (BOp ℝ)) (hs : (l : Multiset (BOp ℝ)) = s + a) :
    mean (pickBlocks (blockOps E cw.win l) (bl.count ·) (List.range E.ns))
      (fun p => if p.Perm a then (1 : ℝ) else 0) =
      if Hit E cw bl a then (facs E bl : ℝ) * pickP E cw bl s else 0 := by
  have hsub : ∀ o ∈ a, o ∈ l := fun o ho => by
    rw [← Multiset.mem_coe, hs]; exact Multiset.mem_add.2 (Or.inr ho)
  rw [mean_pickBlocks E _ _ (blockOps_ok E cw.win hl) _ (List.nodup_range)
      (fun b hb => hen b (List.mem_range.1 hb)) a
      (fun o ho => List.mem_range.2 (hns _ (hfl o (hsub o ho))))]
  have hpick : ∀ b ∈ List.range E.ns, mean (pickOps (blockOps E cw.win l b) (bl.count b))
      (fun p => if p.Perm (blockPart E a b) then (1 : ℝ) else 0) =
      if (blockPart E a b).length = bl.count b ∧ ∀ o ∈ blockPart E a b, o ∈ blockOps E cw.win l b then
        ((bl.count b).factorial : ℝ) *
          (((blockOps E cw.win l b).length - bl.count b).factorial : ℝ) /
            ((blockOps E cw.win l b).length.factorial : ℝ) else 0 := by
    intro b hb
    rw [mean_pickOps _ (blockOps_ok E cw.win hl b).1 _ (hen b (List.mem_range.1 hb))]
    exact if_congr ⟨fun h => ⟨h.1, h.2.2⟩, fun h => ⟨h.1, ha.filter _, h.2⟩⟩ rfl rfl
  rw [List.map_congr_left hpick, ← List.prod_toFinset _ (List.nodup_range), List.toFinset_range]
  have hpart : ∀ b, ((a : Multiset (BOp ℝ)).filter fun o => E.sector o.2 = b).card = (blockPart E a b).length := by
    intro b
    rw [Multiset.filter_coe, Multiset.coe_card, blockPart]
    congr 1
  have hwin : ∀ o ∈ a, ∀ b, E.sector o.2 = b → (o ∈ blockOps E cw.win l b ↔ cw.lo ≤ o.1 ∧ o.1 ≤ cw.hi) := by
    intro o ho b hb
    rw [blockOps, List.mem_filter]
    simp [CWin.win, hb, hsub o ho]
  split_ifs with hh
  · have hc : ∀ b, (blockPart E a b).length = bl.count b := fun b => by rw [← hpart]; exact hh.2 b
    have hcond : ∀ b, (blockPart E a b).length = bl.count b ∧ ∀ o ∈ blockPart E a b, o ∈ blockOps E cw.win l b := by
      intro b
      refine ⟨hc b, fun o ho => ?_⟩
      rw [blockPart, List.mem_filter] at ho
      exact (hwin o ho.1 b (by simpa using ho.2)).2 (hh.1 o ho.1).1
    have hlen : ∀ b, (blockOps E cw.win l b).length = bcount E cw s b + bl.count b := by
      intro b
      rw [blockOps_length, hs, bcount_add, hh.bcount]
    rw [facs, pickP, Nat.cast_prod, ← Finset.prod_mul_distrib]
    refine Finset.prod_congr rfl fun b _ => ?_
    rw [if_pos (hcond b), hlen, Nat.add_sub_cancel, fallingFac_natCast]
    have hd : ((bcount E cw s b + bl.count b).factorial : ℝ) = ((bcount E cw s b).factorial : ℝ) *
        ((bcount E cw s b + bl.count b).descFactorial (bl.count b) : ℝ) := by
      rw [← Nat.cast_mul]
      congr 1
      have := Nat.factorial_mul_descFactorial (show bl.count b ≤ bcount E cw s b + bl.count b by omega)
      rw [Nat.add_sub_cancel] at this
      exact this.symm
    have h1 : ((bcount E cw s b).factorial : ℝ) ≠ 0 := by exact_mod_cast Nat.factorial_ne_zero _
    have h2 : ((bcount E cw s b + bl.count b).descFactorial (bl.count b) : ℝ) ≠ 0 := by
      exact_mod_cast (Nat.descFactorial_pos.2 (by omega)).ne'
    rw [hd]
    field_simp
  · by_contra hne
    refine hh ⟨fun o ho => ?_, fun b => ?_⟩
    · have hb := hns _ (hfl o (hsub o ho))
      have := Finset.prod_ne_zero_iff.1 hne _ (Finset.mem_range.2 hb)
      have hc := (ite_ne_right_iff.1 this).1
      refine ⟨(hwin o ho _ rfl).1 (hc.2 o ?_), hfl o (hsub o ho)⟩
      rw [blockPart, List.mem_filter]
      exact ⟨ho, by simp⟩
    · rw [hpart]
      by_cases hb : b < E.ns
      · have := Finset.prod_ne_zero_iff.1 hne _ (Finset.mem_range.2 hb)
        have hc := (ite_ne_right_iff.1 this).1
        exact hc.1
      · rw [List.count_eq_zero.2 (fun h => hb (hbl b h))]
        refine List.length_eq_zero_iff.2 (List.filter_eq_nil_iff.2 fun o ho h => hb ?_)
        rw [← (by simpa using h : E.sector o.2 = b)]
        exact hns _ (hfl o (hsub o ho))

theorem Hit.card {E : PEnv} {cw : CWin} {bl : List ℕ} {s : Multiset (BOp ℝ)} (h : Hit E cw bl s)
    (hns : ∀ f, f < E.nf → E.sector f < E.ns) (hbl : ∀ b ∈ bl, b < E.ns) : s.card = bl.length := by
  have h1 : (s.map fun o => E.sector o.2).card = ∑ b ∈ Finset.range E.ns, (s.map fun o => E.sector o.2).count b := by
    refine (Multiset.sum_count_eq_card fun b hb => ?_).symm
    obtain ⟨o, ho, rfl⟩ := Multiset.mem_map.1 hb
    exact Finset.mem_range.2 (hns _ (h.1 o ho).2)
  have h2 : (bl : Multiset ℕ).card = ∑ b ∈ Finset.range E.ns, (bl : Multiset ℕ).count b :=
    (Multiset.sum_count_eq_card fun b hb => Finset.mem_range.2 (hbl b hb)).symm
  rw [Multiset.card_map] at h1
  rw [Multiset.coe_card] at h2
  rw [h1, h2]
  refine Finset.sum_congr rfl fun b _ => ?_
  rw [Multiset.coe_count, ← h.2 b, Multiset.count_map]
  congr 1
  exact Multiset.filter_congr fun o _ => eq_comm

/-- The labels of the operators in `p`. -/
theorem exists_labels {n : ℕ} (y : Fin n → BOp ℝ) (p : List (BOp ℝ)) (hp : p.Nodup)
    (hsub : ∀ o ∈ p, o ∈ List.ofFn y) (hy : Function.Injective y) :
    ∃! S : Finset (Fin n), p.Perm (S.toList.map y) := by
  classical
  have hnd : ∀ S : Finset (Fin n), (S.toList.map y).Nodup := fun S => (Finset.nodup_toList S).map hy
  have hmem : ∀ (S : Finset (Fin n)) i, y i ∈ S.toList.map y ↔ i ∈ S := by
    intro S i
    rw [List.mem_map]
    exact ⟨fun ⟨j, hj, e⟩ => hy e ▸ Finset.mem_toList.1 hj, fun h => ⟨i, Finset.mem_toList.2 h, rfl⟩⟩
  refine ⟨Finset.univ.filter fun i => y i ∈ p, ?_, fun S hS => ?_⟩
  · refine (List.perm_ext_iff_of_nodup hp (hnd _)).2 fun o => ?_
    constructor
    · intro ho
      obtain ⟨i, rfl⟩ := (List.mem_ofFn' y o).1 (hsub o ho)
      rw [hmem]
      simpa using ho
    · intro ho
      obtain ⟨i, hi, rfl⟩ := List.mem_map.1 ho
      simpa using hi
  · ext i
    rw [← hmem, ← hS.mem_iff]
    simp

theorem map_compl_add {n : ℕ} (S : Finset (Fin n)) (y : Fin n → BOp ℝ) :
    ms y = Sᶜ.val.map y + S.val.map y := by
  classical
  rw [ms_eq, ← Multiset.map_add]
  congr 1
  rw [← Finset.disjUnion_val _ _ (disjoint_compl_left (a := S)), Finset.disjUnion_eq_union, Finset.union_comm,
    Finset.union_compl]

open Classical in
/-- The picks of the removal as a sum over all sets of labels. -/
theorem meanE_remDraws {W : Type} (E : PEnv) (cw : CWin) (hns : ∀ f, f < E.nf → E.sector f < E.ns) (bl : List ℕ)
    (hbl : ∀ b ∈ bl, b < E.ns) {n n' : ℕ} (y : Fin n → BOp ℝ) (y' : Fin n' → BOp ℝ) (ω : W)
    (hy : Function.Injective y) (hy' : Function.Injective y') (hf : ∀ i, (y i).2 < E.nf)
    (hf' : ∀ i, (y' i).2 < E.nf)
    (hen : ∀ b < E.ns, bl.count b ≤ (blockOps E cw.win (List.ofFn y) b).length ∧
      bl.count b ≤ (blockOps E cw.win (List.ofFn y') b).length)
    (G : Multiset (BOp ℝ) → Multiset (BOp ℝ) → ℝ≥0∞) :
    meanE (remDraws E cw.win (⟨List.ofFn y, List.ofFn y', ω⟩ : PCfg ℝ W) (bl.count ·) (List.range E.ns))
        (fun r => G r.1 r.2) =
      ∑ S : Finset (Fin n), ∑ S' : Finset (Fin n'),
        (if Hit E cw bl (S.val.map y) then ENNReal.ofReal (facs E bl * pickP E cw bl (Sᶜ.val.map y)) else 0) *
        (if Hit E cw bl (S'.val.map y') then ENNReal.ofReal (facs E bl * pickP E cw bl (S'ᶜ.val.map y')) else 0) *
        G (S.val.map y) (S'.val.map y') := by
  have hnd : ∀ {n : ℕ} (y : Fin n → BOp ℝ), Function.Injective y → (List.ofFn y).Nodup := fun y hy =>
    List.nodup_ofFn.2 hy
  have hfl : ∀ {n : ℕ} (y : Fin n → BOp ℝ), (∀ i, (y i).2 < E.nf) → ∀ o ∈ List.ofFn y, o.2 < E.nf := by
    intro n y hf o ho
    obtain ⟨i, rfl⟩ := (List.mem_ofFn' y o).1 ho
    exact hf i
  have hcoe : ∀ {n : ℕ} (y : Fin n → BOp ℝ) (S : Finset (Fin n)),
      ((S.toList.map y : List (BOp ℝ)) : Multiset (BOp ℝ)) = S.val.map y := by
    intro n y S
    rw [← Multiset.map_coe, Finset.coe_toList]
  -- pointwise
  have hpt : ∀ r ∈ (remDraws E cw.win (⟨List.ofFn y, List.ofFn y', ω⟩ : PCfg ℝ W) (bl.count ·) (List.range E.ns) :
      Rand ℝ _), G r.2.1 r.2.2 = ∑ S : Finset (Fin n), ∑ S' : Finset (Fin n'), G (S.val.map y) (S'.val.map y') *
        ENNReal.ofReal ((if r.2.1.Perm (S.toList.map y) then (1 : ℝ) else 0) *
          if r.2.2.Perm (S'.toList.map y') then (1 : ℝ) else 0) := by
    intro r hr
    obtain ⟨⟨s, hs, es⟩, t, ht, et⟩ := mem_remDraws (hnd y hy) (hnd y' hy') _ (List.nodup_range)
      (fun b hb => hen b (List.mem_range.1 hb)) hr
    have sub : ∀ {n : ℕ} (y : Fin n → BOp ℝ), Function.Injective y → ∀ {s : ℝ × List (BOp ℝ)},
        (∀ b < E.ns, bl.count b ≤ (blockOps E cw.win (List.ofFn y) b).length) →
        s ∈ (pickBlocks (blockOps E cw.win (List.ofFn y)) (bl.count ·) (List.range E.ns) : Rand ℝ _) →
        ∃! S : Finset (Fin n), s.2.Perm (S.toList.map y) := by
      intro n y hy s hle hs
      obtain ⟨h1, h2⟩ := mem_pickBlocks_sub (blockOps_ok E cw.win (hnd y hy)) _ (List.nodup_range)
        (fun b hb => hle b (List.mem_range.1 hb)) hs
      refine exists_labels y _ h1 (fun o ho => ?_) hy
      obtain ⟨b, _, hb⟩ := h2 o ho
      exact (List.mem_filter.1 hb).1
    obtain ⟨S, hS, uS⟩ := sub y hy (fun b hb => (hen b hb).1) hs
    obtain ⟨S', hS', uS'⟩ := sub y' hy' (fun b hb => (hen b hb).2) ht
    rw [es] at hS uS
    rw [et] at hS' uS'
    rw [Finset.sum_eq_single S, Finset.sum_eq_single S']
    · rw [if_pos hS, if_pos hS', mul_one, ENNReal.ofReal_one, mul_one, ← hcoe, ← hcoe,
        Multiset.coe_eq_coe.2 hS, Multiset.coe_eq_coe.2 hS']
    · intro T' _ hT'
      rw [if_neg fun h => hT' (uS' T' h)]; simp
    · intro h; exact absurd (Finset.mem_univ _) h
    · intro T _ hT
      refine Finset.sum_eq_zero fun T' _ => ?_
      rw [if_neg fun h => hT (uS T h)]; simp
    · intro h; exact absurd (Finset.mem_univ _) h
  rw [meanE_congr (g := fun r => ∑ S : Finset (Fin n), ∑ S' : Finset (Fin n'), G (S.val.map y) (S'.val.map y') *
        ENNReal.ofReal ((if r.1.Perm (S.toList.map y) then (1 : ℝ) else 0) *
          if r.2.Perm (S'.toList.map y') then (1 : ℝ) else 0)) hpt, meanE_sum]
  refine Finset.sum_congr rfl fun S _ => ?_
  rw [meanE_sum]
  refine Finset.sum_congr rfl fun S' _ => ?_
  rw [meanE_mul_left, meanE_ofReal (nonneg_remDraws _ _ _ _ _) (fun r : List (BOp ℝ) × List (BOp ℝ) =>
    (if r.1.Perm (S.toList.map y) then (1 : ℝ) else 0) * if r.2.Perm (S'.toList.map y') then (1 : ℝ) else 0)
    (fun r => by positivity),
    mean_remDraws E cw.win _ _ _ (fun p => if p.Perm (S.toList.map y) then (1 : ℝ) else 0)
      (fun p => if p.Perm (S'.toList.map y') then (1 : ℝ) else 0)]
  have hp : ∀ {n : ℕ} (y : Fin n → BOp ℝ), Function.Injective y → (∀ i, (y i).2 < E.nf) →
      (∀ b < E.ns, bl.count b ≤ (blockOps E cw.win (List.ofFn y) b).length) → ∀ S : Finset (Fin n),
      mean (pickBlocks (blockOps E cw.win (List.ofFn y)) (bl.count ·) (List.range E.ns))
        (fun p => if p.Perm (S.toList.map y) then (1 : ℝ) else 0) =
      if Hit E cw bl (S.val.map y) then (facs E bl : ℝ) * pickP E cw bl (Sᶜ.val.map y) else 0 := by
    intro n y hy hf hen S
    rw [mean_pick_hit E cw hns bl hbl _ (hnd y hy) (hfl y hf) hen _ ((Finset.nodup_toList S).map hy)
      (Sᶜ.val.map y) (by rw [hcoe]; exact map_compl_add S y), hcoe]
  rw [hp y hy hf (fun b hb => (hen b hb).1) S, hp y' hy' hf' (fun b hb => (hen b hb).2) S', mul_comm,
    ENNReal.ofReal_mul]
  · congr 2
    · split_ifs <;> simp
    · split_ifs <;> simp
  · split_ifs
    · exact mul_nonneg (Nat.cast_nonneg _) (pickP_pos _ _ _ _).le
    · exact le_rfl

end CTHyb
