import Verif.ProposalLemmas
import Mathlib.Tactic.NormNum
import Mathlib.Tactic.LinearCombination

/-!
Detailed balance of the proposals of `Verif.Proposal`.

Specification: `Balanced`.  A configuration with `n` free times on a grid of spacing `δ` has the
weight `w * δ^n`; the flow from `x` to `y` is this weight times the probability that a move leading
to `y` is proposed and passes the Metropolis test.
-/

set_option linter.unusedSectionVars false

namespace CTHyb

open Rand

section
variable {T W R : Type} [Field R] [LinearOrder R] [DecidableEq T] [DecidableEq W]

/-- Probability with which a proposed outcome brings `x` to `y`: zero if `propose` returned `false`
or the move leads elsewhere, else the probability of `rng() < |ratio * correction|`
(src/moves/moves.ipp:190). -/
def accFlow (w : PCfg T W → R) (x y : PCfg T W) : Option (Mv T W × R) → R
  | none => 0
  | some (mv, corr) => if Leads x mv y then min 1 (w y / w x * corr) else 0

/-- Probability of going from `x` to `y` in one update. -/
def flow (w : PCfg T W → R) (prop : PCfg T W → Rand R (Option (Mv T W × R))) (x y : PCfg T W) : R :=
  mean (prop x) (accFlow w x y)

/-- **Specification.**  Detailed balance on the grid with spacing `δ`, for every positive weight, between
any two configurations satisfying `ok`; `dim` is the number of free times. -/
def Balanced (δ : R) (dim : PCfg T W → ℕ) (ok : PCfg T W → Prop)
    (prop : PCfg T W → Rand R (Option (Mv T W × R))) : Prop :=
  ∀ w : PCfg T W → R, ∀ x y, ok x → ok y → 0 < w x → 0 < w y →
    w x * δ ^ dim x * flow w prop x y = w y * δ ^ dim y * flow w prop y x

/-- Configurations: no two equal operators, flavors in range, operators in the window are on the grid. -/
structure PCfg.OK (nf : ℕ) (win : Win T R) (x : PCfg T W) : Prop where
  cd_nodup : x.cd.Nodup
  c_nodup : x.c.Nodup
  cd_mem : ∀ o ∈ x.cd, o.2 < nf ∧ (win.inWin o.1 = true → o.1 ∈ win.grid)
  c_mem : ∀ o ∈ x.c, o.2 < nf ∧ (win.inWin o.1 = true → o.1 ∈ win.grid)

/-- Windows: a non-empty grid of distinct times inside a window of positive length. -/
structure Win.OK (win : Win T R) : Prop where
  nodup : win.grid.Nodup
  pos : 0 < win.grid.length
  mem : ∀ t ∈ win.grid, win.inWin t = true
  len_pos : 0 < win.len

/-- Grid spacing. -/
def Win.delta (win : Win T R) : R := win.len / win.grid.length

end

section
variable {T W R : Type} [Field R] [LinearOrder R] [IsStrictOrderedRing R] [DecidableEq T] [DecidableEq W]

omit [DecidableEq T] [DecidableEq W] in
/-- The Metropolis rule balances two flows if the correction is the ratio of the proposal
probabilities. -/
theorem metropolis_balance {wx wy a b P P' d : R} (hx : 0 < wx) (hy : 0 < wy) (ha : 0 < a)
    (hab : b = a⁻¹) (h : P * a = d * P') :
    wx * (min 1 (wy / wx * a) * P) = wy * d * (min 1 (wx / wy * b) * P') := by
  subst hab
  have e1 : wx * min 1 (wy / wx * a) = min wx (wy * a) := by
    rw [mul_min_of_nonneg _ _ hx.le, mul_one]; congr 1; field_simp
  have e2 : wy * a * min 1 (wx / wy * a⁻¹) = min (wy * a) wx := by
    rw [mul_min_of_nonneg _ _ (mul_pos hy ha).le, mul_one]; congr 1; field_simp
  calc wx * (min 1 (wy / wx * a) * P) = min wx (wy * a) * P := by rw [← e1]; ring
    _ = wy * a * min 1 (wx / wy * a⁻¹) * P := by rw [e2, min_comm]
    _ = wy * min 1 (wx / wy * a⁻¹) * (P * a) := by ring
    _ = _ := by rw [h]; ring

theorem foldl_factor {α : Type} (f : R → α → R) (g : α → R) (h : ∀ a b, f a b = a * g b) (l : List α) :
    ∀ init, l.foldl f init = init * (l.map g).prod := by
  induction l with
  | nil => intro init; simp
  | cons b l ih => intro init; rw [List.foldl_cons, ih, h, List.map_cons, List.prod_cons]; ring

theorem fallingFac_pos {n m : ℕ} (h : m ≤ n) : (0 : R) < fallingFac (n : R) m := by
  rw [fallingFac_natCast]; exact_mod_cast Nat.descFactorial_pos.2 h

/-- `insCorr` as a product. -/
theorem insCorr_eq (E : PEnv) (win : Win T R) (rank : ℕ) (x : PCfg T W) (m : ℕ → ℕ) :
    insCorr E win rank x m = win.len ^ (2 * rank) * ∏ b ∈ Finset.range E.ns,
      (((blockFlavors E b).length : R) ^ (2 * m b) /
        (fallingFac (((blockOps E win x.cd b).length + m b : ℕ) : R) (m b) *
          fallingFac (((blockOps E win x.c b).length + m b : ℕ) : R) (m b))) := by
  unfold insCorr
  rw [foldl_factor _ (fun b => ((blockFlavors E b).length : R) ^ (2 * m b) /
        (fallingFac (((blockOps E win x.cd b).length + m b : ℕ) : R) (m b) *
          fallingFac (((blockOps E win x.c b).length + m b : ℕ) : R) (m b)))]
  · rw [← List.toFinset_range, List.prod_toFinset _ (List.nodup_range)]
  · intro a b
    split_ifs with h
    · simp [h, fallingFac]
    · rw [div_div, mul_div_assoc]

/-- `remCorr` as a product. -/
theorem remCorr_eq (E : PEnv) (win : Win T R) (rank : ℕ) (x : PCfg T W) (m : ℕ → ℕ) :
    remCorr E win rank x m = (win.len ^ (2 * rank))⁻¹ * ∏ b ∈ Finset.range E.ns,
      ((fallingFac ((blockOps E win x.cd b).length : R) (m b) *
          fallingFac ((blockOps E win x.c b).length : R) (m b)) /
        ((blockFlavors E b).length : R) ^ (2 * m b)) := by
  unfold remCorr
  rw [foldl_factor _ (fun b => (fallingFac ((blockOps E win x.cd b).length : R) (m b) *
          fallingFac ((blockOps E win x.c b).length : R) (m b)) /
        ((blockFlavors E b).length : R) ^ (2 * m b))]
  · rw [← List.toFinset_range, List.prod_toFinset _ (List.nodup_range), one_div]
  · intro a b
    split_ifs with h
    · simp [h, fallingFac]
    · ring

theorem mem_blockDraws {ns k : ℕ} : ∀ {p : R × List ℕ}, p ∈ blockDraws R ns k →
    p.2.length = k ∧ ∀ b ∈ p.2, b < ns := by
  induction k with
  | zero => intro p hp; rw [mem_ret hp]; simp
  | succ k ih =>
    intro p hp
    obtain ⟨a, ha, q, hq, e⟩ := mem_bind hp
    obtain ⟨r, hr, q', hq', e'⟩ := mem_bind hq
    rw [e, e', mem_ret hq']
    obtain ⟨h1, h2⟩ := ih hr
    refine ⟨by simp [h1], fun b hb => ?_⟩
    rcases List.mem_cons.1 hb with rfl | h
    · exact List.mem_range.1 (mem_unif ha)
    · exact h2 b h

theorem mem_opsDraws {E : PEnv} {win : Win T R} {bl : List ℕ} : ∀ {p : R × List (BOp T)},
    p ∈ opsDraws E win bl → p.2.length = bl.length ∧ ∀ o ∈ p.2, o.1 ∈ win.grid := by
  induction bl with
  | nil => intro p hp; rw [mem_ret hp]; simp
  | cons b bl ih =>
    intro p hp
    obtain ⟨a, ha, q, hq, e⟩ := mem_bind hp
    obtain ⟨r, hr, q', hq', e'⟩ := mem_bind hq
    rw [e, e', mem_ret hq']
    obtain ⟨h1, h2⟩ := ih hr
    refine ⟨by simp [h1], fun o ho => ?_⟩
    rcases List.mem_cons.1 ho with rfl | h
    · obtain ⟨t, ht, q2, hq2, e2⟩ := mem_bind ha
      obtain ⟨f, hf, q3, hq3, e3⟩ := mem_bind hq2
      rw [e2, e3, mem_ret hq3]
      exact mem_unif ht
    · exact h2 o h

theorem mem_pickBlocks_sub {E : PEnv} {ops : ℕ → List (BOp T)} {m : ℕ → ℕ}
    (hops : ∀ b, (ops b).Nodup ∧ ∀ o ∈ ops b, E.sector o.2 = b) (bs : List ℕ) (hbs : bs.Nodup)
    (hm : ∀ b ∈ bs, m b ≤ (ops b).length) :
    ∀ {p : R × List (BOp T)}, p ∈ (pickBlocks ops m bs : Rand R _) →
      p.2.Nodup ∧ ∀ o ∈ p.2, ∃ b ∈ bs, o ∈ ops b := by
  induction bs with
  | nil => intro p hp; rw [mem_ret hp]; simp
  | cons b bs ih =>
    intro p hp
    have hm' := fun b' (hb' : b' ∈ bs) => hm b' (List.mem_cons_of_mem _ hb')
    obtain ⟨a, ha, q, hq, e⟩ := mem_bind hp
    obtain ⟨r, hr, q', hq', e'⟩ := mem_bind hq
    rw [e, e', mem_ret hq']
    obtain ⟨h1, h2⟩ := ih (List.nodup_cons.1 hbs).2 hm' hr
    obtain ⟨_, h4, h5⟩ := mem_pickOps (hm b (by simp)) (hops b).1 ha
    constructor
    · rw [List.nodup_append]
      refine ⟨h4, h1, fun o ho o' ho' heq => ?_⟩
      subst heq
      have := mem_pickBlocks hops bs hm' hr o ho'
      rw [(hops b).2 o (h5 o ho)] at this
      exact (List.nodup_cons.1 hbs).1 this
    · intro o ho
      rcases List.mem_append.1 ho with h | h
      · exact ⟨b, by simp, h5 o h⟩
      · obtain ⟨b', hb', h'⟩ := h2 o h
        exact ⟨b', List.mem_cons_of_mem _ hb', h'⟩

theorem blockOps_ok (E : PEnv) (win : Win T R) {l : List (BOp T)} (hl : l.Nodup) (b : ℕ) :
    (blockOps E win l b).Nodup ∧ ∀ o ∈ blockOps E win l b, E.sector o.2 = b := by
  refine ⟨hl.filter _, fun o ho => ?_⟩
  rw [blockOps, List.mem_filter] at ho
  exact beq_iff_eq.1 (Bool.and_eq_true _ _ ▸ ho.2).2

/-- Probability with which one kind of operators is drawn, and removed, for given blocks. -/
theorem draw_ratio (E : PEnv) (win : Win T R) (hw : win.OK) (hns : ∀ f, f < E.nf → E.sector f < E.ns)
    (bl : List ℕ) (hbl : ∀ b ∈ bl, b < E.ns) (x y a : List (BOp T)) (hy : y.Nodup)
    (hmem : ∀ o ∈ y, o.2 < E.nf ∧ (win.inWin o.1 = true → o.1 ∈ win.grid))
    (hperm : y.Perm (x ++ a)) (hen : ∀ b < E.ns, bl.count b ≤ (blockOps E win y b).length) :
    mean (opsDraws E win bl) (fun p => if p.Perm a then (1 : R) else 0) *
        ∏ b ∈ Finset.range E.ns, (((blockFlavors E b).length : R) ^ bl.count b /
          fallingFac (((blockOps E win x b).length + bl.count b : ℕ) : R) (bl.count b)) =
      (1 / (win.grid.length : R)) ^ bl.length *
        mean (pickBlocks (blockOps E win y) (bl.count ·) (List.range E.ns))
          (fun p => if p.Perm a then (1 : R) else 0) ∧
    (mean (opsDraws E win bl) (fun p => if p.Perm a then (1 : R) else 0) ≠ 0 →
      ∀ b, (blockOps E win y b).length = (blockOps E win x b).length + bl.count b) := by
  classical
  have hy' := hperm.nodup_iff.1 hy
  have hand : a.Nodup := (List.nodup_append.1 hy').2.1
  have hamem : ∀ o ∈ a, o ∈ y := fun o ho => hperm.mem_iff.2 (List.mem_append_right _ ho)
  by_cases hin : ∀ o ∈ a, win.inWin o.1 = true
  · have ha : ∀ o ∈ a, o.1 ∈ win.grid ∧ o.2 < E.nf := fun o ho =>
      ⟨(hmem o (hamem o ho)).2 (hin o ho), (hmem o (hamem o ho)).1⟩
    have hab : ∀ b, (blockOps E win y b).Perm (blockOps E win x b ++ blockPart E a b) := by
      intro b
      have := hperm.filter fun o => win.inWin o.1 && E.sector o.2 == b
      rw [List.filter_append] at this
      have e : (a.filter fun o => win.inWin o.1 && E.sector o.2 == b) = blockPart E a b :=
        List.filter_congr fun o ho => by simp [hin o ho]
      rwa [e] at this
    rw [mean_opsDraws E win hw.nodup (Finset.range E.ns) bl (fun b hb => Finset.mem_range.2 (hbl b hb)) a
      hand ha, mean_pickBlocks E _ _ (blockOps_ok E win hy) _ (List.nodup_range)
      (fun b hb => hen b (List.mem_range.1 hb)) a
      (fun o ho => List.mem_range.2 (hns _ (ha o ho).2))]
    have hpick : ∀ b ∈ List.range E.ns, mean (pickOps (blockOps E win y b) (bl.count b))
        (fun p => if p.Perm (blockPart E a b) then (1 : R) else 0) =
        if (blockPart E a b).length = bl.count b then ((bl.count b).factorial : R) *
          (((blockOps E win y b).length - bl.count b).factorial : R) /
            ((blockOps E win y b).length.factorial : R) else 0 := by
      intro b hb
      rw [mean_pickOps _ (blockOps_ok E win hy b).1 _ (hen b (List.mem_range.1 hb))]
      refine if_congr ⟨fun h => h.1, fun h => ⟨h, hand.filter _, fun o ho => ?_⟩⟩ rfl rfl
      exact (hab b).mem_iff.2 (List.mem_append_right _ ho)
    rw [List.map_congr_left hpick]
    by_cases hc : ∀ b, bl.count b = (blockPart E a b).length
    · have hlen : ∀ b, (blockOps E win y b).length = (blockOps E win x b).length + bl.count b := by
        intro b; rw [(hab b).length_eq, List.length_append, hc b]
      refine ⟨?_, fun _ => hlen⟩
      rw [if_pos hc]
      have h1 : (bl.map fun b => 1 / ((win.grid.length : R) * ((blockFlavors E b).length : R))).prod =
          (1 / (win.grid.length : R)) ^ bl.length *
            ∏ b ∈ Finset.range E.ns, (1 / ((blockFlavors E b).length : R)) ^ bl.count b := by
        have hsub : bl.toFinset ⊆ Finset.range E.ns := fun b hb =>
          Finset.mem_range.2 (hbl b (List.mem_toFinset.1 hb))
        have e1 : (bl.map fun b => 1 / ((win.grid.length : R) * ((blockFlavors E b).length : R))) =
            bl.map fun b => (1 / (win.grid.length : R)) * (1 / ((blockFlavors E b).length : R)) :=
          List.map_congr_left fun b _ => by rw [one_div_mul_one_div]
        rw [e1, List.prod_map_mul, List.map_const', List.prod_replicate]
        congr 1
        rw [Finset.prod_list_map_count]
        exact Finset.prod_subset hsub fun b _ hb => by
          rw [List.count_eq_zero.2 (fun h => hb (List.mem_toFinset.2 h)), pow_zero]
      rw [h1]
      have h2 : ((List.range E.ns).map fun b => if (blockPart E a b).length = bl.count b then
          ((bl.count b).factorial : R) * (((blockOps E win y b).length - bl.count b).factorial : R) /
            ((blockOps E win y b).length.factorial : R) else 0).prod =
          ∏ b ∈ Finset.range E.ns, ((bl.count b).factorial : R) *
            (((blockOps E win y b).length - bl.count b).factorial : R) /
            ((blockOps E win y b).length.factorial : R) := by
        rw [← List.toFinset_range, List.prod_toFinset _ (List.nodup_range)]
        congr 1
        exact List.map_congr_left fun b _ => if_pos (hc b).symm
      rw [h2, mul_assoc, mul_assoc, ← Finset.prod_mul_distrib, ← Finset.prod_mul_distrib]
      congr 1
      refine Finset.prod_congr rfl fun b hb => ?_
      rw [← hc b, hlen b, fallingFac_natCast, Nat.add_sub_cancel]
      have hd : (((blockOps E win x b).length + bl.count b).factorial : R) =
          ((blockOps E win x b).length.factorial : R) *
            (((blockOps E win x b).length + bl.count b).descFactorial (bl.count b) : R) := by
        rw [← Nat.cast_mul]
        congr 1
        have := Nat.factorial_mul_descFactorial
          (show bl.count b ≤ (blockOps E win x b).length + bl.count b by omega)
        rw [Nat.add_sub_cancel] at this
        exact this.symm
      rw [hd]
      have hf : ((blockOps E win x b).length.factorial : R) ≠ 0 := by
        exact_mod_cast Nat.factorial_ne_zero _
      have hD : ((((blockOps E win x b).length + bl.count b).descFactorial (bl.count b) : ℕ) : R) ≠ 0 := by
        exact_mod_cast (Nat.descFactorial_pos.2 (by omega)).ne'
      by_cases h0 : bl.count b = 0
      · rw [h0]; simp [hf]
      · have hnf : ((blockFlavors E b).length : R) ≠ 0 := by
          have : 0 < (blockPart E a b).length := by rw [← hc b]; omega
          obtain ⟨o, ho⟩ := List.exists_mem_of_length_pos this
          rw [blockPart, List.mem_filter] at ho
          have : o.2 ∈ blockFlavors E b := by
            rw [blockFlavors, List.mem_filter]
            exact ⟨List.mem_range.2 (ha o ho.1).2, ho.2⟩
          exact_mod_cast (List.length_pos_of_mem this).ne'
        rw [one_div, inv_pow]
        field_simp
    · rw [if_neg hc]
      refine ⟨?_, fun h => absurd rfl h⟩
      rw [zero_mul]
      obtain ⟨b, hb⟩ := not_forall.1 hc
      have hbn : b < E.ns := by
        by_contra hbn
        apply hb
        rw [List.count_eq_zero.2 (fun h => hbn (hbl b h))]
        refine (List.length_eq_zero_iff.2 (List.filter_eq_nil_iff.2 fun o ho h => hbn ?_)).symm
        rw [← (by simpa using h : E.sector o.2 = b)]
        exact hns _ (ha o ho).2
      rw [List.prod_eq_zero, mul_zero]
      exact List.mem_map.2 ⟨b, List.mem_range.2 hbn, if_neg (Ne.symm hb)⟩
  · push Not at hin
    obtain ⟨o, ho, hno⟩ := hin
    have h1 : mean (opsDraws E win bl) (fun p => if p.Perm a then (1 : R) else 0) = 0 := by
      refine mean_eq_zero fun p hp => if_neg fun hpa => hno ?_
      exact hw.mem _ ((mem_opsDraws hp).2 o (hpa.mem_iff.2 ho))
    have h2 : mean (pickBlocks (blockOps E win y) (bl.count ·) (List.range E.ns))
          (fun p => if p.Perm a then (1 : R) else 0) = 0 := by
      refine mean_eq_zero fun p hp => if_neg fun hpa => hno ?_
      obtain ⟨b, _, hb⟩ := (mem_pickBlocks_sub (blockOps_ok E win hy) _ (List.nodup_range)
        (fun b hb => hen b (List.mem_range.1 hb)) hp).2 o (hpa.mem_iff.2 ho)
      rw [blockOps, List.mem_filter] at hb
      exact (Bool.and_eq_true _ _ ▸ hb.2).1
    rw [h1, h2]
    exact ⟨by simp, fun h => absurd rfl h⟩

/-- Operators are drawn only if the drawn blocks account for them. -/
theorem draw_counts (E : PEnv) (win : Win T R) (hw : win.OK) (bl : List ℕ) (x y a : List (BOp T))
    (hy : y.Nodup) (hmem : ∀ o ∈ y, o.2 < E.nf ∧ (win.inWin o.1 = true → o.1 ∈ win.grid))
    (hperm : y.Perm (x ++ a))
    (h : mean (opsDraws E win bl) (fun p => if p.Perm a then (1 : R) else 0) ≠ 0) (b : ℕ) :
    (blockOps E win y b).length = (blockOps E win x b).length + bl.count b := by
  classical
  have hy' := hperm.nodup_iff.1 hy
  have hand : a.Nodup := (List.nodup_append.1 hy').2.1
  have hamem : ∀ o ∈ a, o ∈ y := fun o ho => hperm.mem_iff.2 (List.mem_append_right _ ho)
  have hin : ∀ o ∈ a, win.inWin o.1 = true := by
    by_contra hin
    push Not at hin
    obtain ⟨o, ho, hno⟩ := hin
    refine h (mean_eq_zero fun p hp => if_neg fun hpa => hno ?_)
    exact hw.mem _ ((mem_opsDraws hp).2 o (hpa.mem_iff.2 ho))
  rw [mean_opsDraws E win hw.nodup bl.toFinset bl (fun b hb => List.mem_toFinset.2 hb) a hand
    fun o ho => ⟨(hmem o (hamem o ho)).2 (hin o ho), (hmem o (hamem o ho)).1⟩] at h
  have hc : ∀ b, bl.count b = (blockPart E a b).length := by
    by_contra hc; exact h (if_neg hc)
  have := hperm.filter fun o => win.inWin o.1 && E.sector o.2 == b
  rw [List.filter_append] at this
  have e : (a.filter fun o => win.inWin o.1 && E.sector o.2 == b) = blockPart E a b :=
    List.filter_congr fun o ho => by simp [hin o ho]
  rw [e] at this
  rw [hc b, blockOps, this.length_eq, List.length_append, blockOps]

/-- The insertion of operators leads from `x` to `y` iff the new operators are the difference. -/
theorem leads_add (x y : PCfg T W) (a c : List (BOp T)) (ha : y.cd.Perm (x.cd ++ a))
    (hc : y.c.Perm (x.c ++ c)) (hworm : x.worm = y.worm) (p q : List (BOp T)) :
    Leads x ⟨[], [], p, q, x.worm⟩ y ↔ p.Perm a ∧ q.Perm c := by
  have key : ∀ u v s t : List (BOp T), v.Perm (u ++ s) →
      (((u : Multiset (BOp T)) - ([] : List (BOp T)) + t = v) ↔ t.Perm s) := by
    intro u v s t hv
    rw [Multiset.coe_nil, tsub_zero, Multiset.coe_add, Multiset.coe_eq_coe]
    exact ⟨fun h => (List.perm_append_left_iff u).1 (h.trans hv),
      fun h => ((List.perm_append_left_iff u).2 h).trans hv.symm⟩
  unfold Leads
  simp only [key _ _ _ _ ha, key _ _ _ _ hc, hworm, and_true]

/-- The removal of operators of `y` leads to `x` iff the removed operators are the difference. -/
theorem leads_rem (x y : PCfg T W) (a c : List (BOp T)) (ha : y.cd.Perm (x.cd ++ a))
    (hc : y.c.Perm (x.c ++ c)) (hworm : x.worm = y.worm) (p q : List (BOp T))
    (hp : p.Subperm y.cd) (hq : q.Subperm y.c) :
    Leads y ⟨p, q, [], [], y.worm⟩ x ↔ p.Perm a ∧ q.Perm c := by
  have key : ∀ u v s t : List (BOp T), v.Perm (u ++ s) → t.Subperm v →
      (((v : Multiset (BOp T)) - t + ([] : List (BOp T)) = u) ↔ t.Perm s) := by
    intro u v s t hv ht
    rw [Multiset.coe_nil, add_zero, tsub_eq_iff_eq_add_of_le (Multiset.coe_le.2 ht), Multiset.coe_add,
      Multiset.coe_eq_coe]
    exact ⟨fun h => (List.perm_append_left_iff u).1 (h.symm.trans hv),
      fun h => hv.trans ((List.perm_append_left_iff u).2 h.symm)⟩
  unfold Leads
  simp only [key _ _ _ _ ha hp, key _ _ _ _ hc hq, hworm, and_true]

theorem mem_remDraws {E : PEnv} {win : Win T R} {x : PCfg T W} (hcd : x.cd.Nodup) (hcn : x.c.Nodup)
    {m : ℕ → ℕ} (bs : List ℕ) (hbs : bs.Nodup)
    (hm : ∀ b ∈ bs, m b ≤ (blockOps E win x.cd b).length ∧ m b ≤ (blockOps E win x.c b).length) :
    ∀ {p : R × List (BOp T) × List (BOp T)}, p ∈ remDraws E win x m bs →
      (∃ q ∈ (pickBlocks (blockOps E win x.cd) m bs : Rand R _), q.2 = p.2.1) ∧
      ∃ q ∈ (pickBlocks (blockOps E win x.c) m bs : Rand R _), q.2 = p.2.2 := by
  induction bs with
  | nil =>
    intro p hp
    rw [mem_ret hp]
    exact ⟨⟨(1, []), by simp [pickBlocks, ret], rfl⟩, ⟨(1, []), by simp [pickBlocks, ret], rfl⟩⟩
  | cons b bs ih =>
    intro p hp
    obtain ⟨u, hu, q, hq, e⟩ := mem_bind hp
    obtain ⟨v, hv, q', hq', e'⟩ := mem_bind hq
    obtain ⟨r, hr, q'', hq'', e''⟩ := mem_bind hq'
    rw [e, e', e'', mem_ret hq'']
    obtain ⟨⟨s, hs, es⟩, t, ht, et⟩ := ih (List.nodup_cons.1 hbs).2
      (fun b hb => hm b (List.mem_cons_of_mem _ hb)) hr
    have mk : ∀ {ops : ℕ → List (BOp T)} {u s : R × List (BOp T)},
        u ∈ (pickOps (ops b) (m b) : Rand R _) → s ∈ (pickBlocks ops m bs : Rand R _) →
        ∃ q ∈ (pickBlocks ops m (b :: bs) : Rand R _), q.2 = u.2 ++ s.2 := by
      intro ops u s hu hs
      refine ⟨(u.1 * (s.1 * 1), u.2 ++ s.2), ?_, rfl⟩
      rw [pickBlocks, Rand.bind, Multiset.mem_bind]
      refine ⟨u, hu, Multiset.mem_map.2 ⟨(s.1 * 1, u.2 ++ s.2), ?_, rfl⟩⟩
      rw [Rand.bind, Multiset.mem_bind]
      exact ⟨s, hs, Multiset.mem_map.2 ⟨(1, u.2 ++ s.2), by simp [ret], rfl⟩⟩
    exact ⟨by rw [← es]; exact mk hu hs, by rw [← et]; exact mk hv ht⟩

/-- The flow by insertion from `x` to `y` and the flow by removal from `y` to `x`. -/
theorem ins_rem_flow (E : PEnv) (win : Win T R) (hw : win.OK) (hns : ∀ f, f < E.nf → E.sector f < E.ns)
    (rank : ℕ) (w : PCfg T W → R) (x y : PCfg T W) (hx : x.OK E.nf win) (hy : y.OK E.nf win)
    (hwx : 0 < w x) (hwy : 0 < w y) :
    w x * mean (insPropose E win rank x) (accFlow w x y) =
      w y * win.delta ^ (2 * rank) * mean (remPropose E win rank y) (accFlow w y x) := by
  classical
  have hN : (0 : R) < (win.grid.length : R) := Nat.cast_pos.2 hw.pos
  simp only [insPropose, remPropose, mean_bind, mean_ret, accFlow]
  have hins := mean_insDraws E win rank (fun bl p q =>
    if Leads x ⟨[], [], p, q, x.worm⟩ y then min 1 (w y / w x * insCorr E win rank x (bl.count ·)) else 0)
  rw [hins, ← mean_mul_left, ← mean_mul_left]
  refine mean_congr_mem fun bl hbl => ?_
  obtain ⟨hlen, hbn⟩ := mem_blockDraws hbl
  -- either the difference exists or nothing leads from one to the other
  by_cases hex : (∃ a c, y.cd.Perm (x.cd ++ a) ∧ y.c.Perm (x.c ++ c)) ∧ x.worm = y.worm
  · obtain ⟨⟨a, c, ha, hc⟩, hworm⟩ := hex
    simp only [leads_add x y a c ha hc hworm]
    set H1 := mean (opsDraws E win bl.2) (fun p => if p.Perm a then (1 : R) else 0) with hH1
    set H2 := mean (opsDraws E win bl.2) (fun p => if p.Perm c then (1 : R) else 0) with hH2
    have hL : mean (opsDraws E win bl.2) (fun p => mean (opsDraws E win bl.2) fun q =>
        if p.Perm a ∧ q.Perm c then min 1 (w y / w x * insCorr E win rank x (bl.2.count ·)) else 0) =
        min 1 (w y / w x * insCorr E win rank x (bl.2.count ·)) * (H1 * H2) := by
      rw [hH1, hH2, ← mean_prod, ← mean_mul_left]
      refine mean_congr fun p => ?_
      rw [← mean_mul_left]
      refine mean_congr fun q => ?_
      by_cases h1 : p.Perm a <;> by_cases h2 : q.Perm c <;> simp [h1, h2]
    rw [hL]
    split_ifs with hany
    · -- not enough operators in `y`
      have h0 : H1 * H2 = 0 := by
        by_contra hne
        have g1 := draw_counts E win hw bl.2 x.cd y.cd a hy.cd_nodup hy.cd_mem ha (left_ne_zero_of_mul hne)
        have g2 := draw_counts E win hw bl.2 x.c y.c c hy.c_nodup hy.c_mem hc (right_ne_zero_of_mul hne)
        simp only [List.any_eq_true, Bool.or_eq_true, decide_eq_true_eq] at hany
        obtain ⟨b, _, h | h⟩ := hany
        · have := g1 b; omega
        · have := g2 b; omega
      simp [h0, accFlow]
    · have hen : ∀ b < E.ns, bl.2.count b ≤ (blockOps E win y.cd b).length ∧
          bl.2.count b ≤ (blockOps E win y.c b).length := by
        simp only [List.any_eq_true, Bool.or_eq_true, decide_eq_true_eq, List.mem_range, not_exists,
          not_and, not_or, not_lt] at hany
        exact fun b hb => hany b hb
      simp only [mean_bind, mean_ret, accFlow]
      set G1 := mean (pickBlocks (blockOps E win y.cd) (bl.2.count ·) (List.range E.ns))
          (fun p => if p.Perm a then (1 : R) else 0) with hG1
      set G2 := mean (pickBlocks (blockOps E win y.c) (bl.2.count ·) (List.range E.ns))
          (fun p => if p.Perm c then (1 : R) else 0) with hG2
      have hR : mean (remDraws E win y (bl.2.count ·) (List.range E.ns)) (fun r =>
          if Leads y ⟨r.1, r.2, [], [], y.worm⟩ x then
            min 1 (w x / w y * remCorr E win rank y (bl.2.count ·)) else 0) =
          min 1 (w x / w y * remCorr E win rank y (bl.2.count ·)) * (G1 * G2) := by
        rw [hG1, hG2, ← mean_remDraws, ← mean_mul_left]
        refine mean_congr_mem fun r hr => ?_
        obtain ⟨⟨s, hs, es⟩, t, ht, et⟩ := mem_remDraws hy.cd_nodup hy.c_nodup _ (List.nodup_range)
          (fun b hb => hen b (List.mem_range.1 hb)) hr
        have sub : ∀ {l : List (BOp T)} (hl : l.Nodup) {s : R × List (BOp T)},
            (∀ b < E.ns, bl.2.count b ≤ (blockOps E win l b).length) →
            s ∈ (pickBlocks (blockOps E win l) (bl.2.count ·) (List.range E.ns) : Rand R _) →
            s.2.Subperm l := by
          intro l hl s hle hs
          obtain ⟨h1, h2⟩ := mem_pickBlocks_sub (blockOps_ok E win hl) _ (List.nodup_range)
            (fun b hb => hle b (List.mem_range.1 hb)) hs
          refine List.subperm_of_subset h1 fun o ho => ?_
          obtain ⟨b, _, hb⟩ := h2 o ho
          exact (List.mem_filter.1 hb).1
        have hiff := leads_rem x y a c ha hc hworm r.2.1 r.2.2
          (es ▸ sub hy.cd_nodup (fun b hb => (hen b hb).1) hs)
          (et ▸ sub hy.c_nodup (fun b hb => (hen b hb).2) ht)
        rw [if_congr hiff rfl rfl]
        by_cases h1 : r.2.1.Perm a <;> by_cases h2 : r.2.2.Perm c <;> simp [h1, h2]
      rw [hR]
      obtain ⟨e1, n1⟩ := draw_ratio E win hw hns bl.2 hbn x.cd y.cd a hy.cd_nodup hy.cd_mem ha
        (fun b hb => (hen b hb).1)
      obtain ⟨e2, n2⟩ := draw_ratio E win hw hns bl.2 hbn x.c y.c c hy.c_nodup hy.c_mem hc
        (fun b hb => (hen b hb).2)
      rw [← hH1, ← hG1] at e1
      rw [← hH2, ← hG2] at e2
      rw [← hH1] at n1
      rw [← hH2] at n2
      -- the product of the two relations
      have hprod : H1 * H2 * insCorr E win rank x (bl.2.count ·) =
          win.delta ^ (2 * rank) * (G1 * G2) := by
        have hsplit : insCorr E win rank x (bl.2.count ·) = win.len ^ (2 * rank) *
            ((∏ b ∈ Finset.range E.ns, (((blockFlavors E b).length : R) ^ bl.2.count b /
              fallingFac (((blockOps E win x.cd b).length + bl.2.count b : ℕ) : R) (bl.2.count b))) *
            ∏ b ∈ Finset.range E.ns, (((blockFlavors E b).length : R) ^ bl.2.count b /
              fallingFac (((blockOps E win x.c b).length + bl.2.count b : ℕ) : R) (bl.2.count b))) := by
          rw [insCorr_eq, ← Finset.prod_mul_distrib]
          congr 1
          refine Finset.prod_congr rfl fun b _ => ?_
          rw [div_mul_div_comm, ← pow_add, two_mul]
        rw [hsplit]
        rw [hlen] at e1 e2
        have hd : win.delta ^ (2 * rank) =
            win.len ^ (2 * rank) * ((1 / (win.grid.length : R)) ^ rank * (1 / (win.grid.length : R)) ^ rank) := by
          rw [Win.delta, div_eq_mul_one_div, mul_pow, two_mul, ← pow_add]
        rw [hd]
        linear_combination win.len ^ (2 * rank) *
          ((H2 * ∏ b ∈ Finset.range E.ns, (((blockFlavors E b).length : R) ^ bl.2.count b /
              fallingFac (((blockOps E win x.c b).length + bl.2.count b : ℕ) : R) (bl.2.count b))) * e1 +
            (1 / (win.grid.length : R)) ^ rank * G1 * e2)
      by_cases hzero : H1 * H2 = 0
      · have hG : G1 * G2 = 0 := by
          rw [hzero, zero_mul] at hprod
          rcases mul_eq_zero.1 hprod.symm with h | h
          · exact absurd h (pow_ne_zero _ (div_pos hw.len_pos hN).ne')
          · exact h
        rw [hzero, hG]; simp
      · have g1 := n1 (left_ne_zero_of_mul hzero)
        have g2 := n2 (right_ne_zero_of_mul hzero)
        have hnf : ∀ b ∈ Finset.range E.ns, bl.2.count b ≠ 0 → (0 : R) < ((blockFlavors E b).length : R) := by
          intro b _ h0
          have h1 : 0 < (blockOps E win y.cd b).length := by have := g1 b; omega
          obtain ⟨o, ho⟩ := List.exists_mem_of_length_pos h1
          rw [blockOps, List.mem_filter] at ho
          have : o.2 ∈ blockFlavors E b := by
            rw [blockFlavors, List.mem_filter]
            exact ⟨List.mem_range.2 (hy.cd_mem o ho.1).1, (Bool.and_eq_true _ _ ▸ ho.2).2⟩
          exact_mod_cast List.length_pos_of_mem this
        have hpow : ∀ b ∈ Finset.range E.ns, (0 : R) < ((blockFlavors E b).length : R) ^ (2 * bl.2.count b) := by
          intro b hb
          by_cases h0 : bl.2.count b = 0
          · rw [h0]; simp
          · exact pow_pos (hnf b hb h0) _
        refine metropolis_balance hwx hwy ?_ ?_ hprod
        · rw [insCorr_eq]
          refine mul_pos (pow_pos hw.len_pos _) (Finset.prod_pos fun b hb => div_pos (hpow b hb) ?_)
          exact mul_pos (fallingFac_pos (by omega)) (fallingFac_pos (by omega))
        · rw [insCorr_eq, remCorr_eq, mul_inv, ← Finset.prod_inv_distrib]
          congr 1
          refine Finset.prod_congr rfl fun b _ => ?_
          rw [inv_div, g1 b, g2 b]
  · -- no move leads from one to the other
    have h1 : ∀ p q, ¬ Leads x ⟨[], [], p, q, x.worm⟩ y := by
      rintro p q ⟨h1, h2, h3⟩
      refine hex ⟨⟨p, q, ?_, ?_⟩, h3⟩
      · rw [Multiset.coe_nil, tsub_zero, Multiset.coe_add, Multiset.coe_eq_coe] at h1; exact h1.symm
      · rw [Multiset.coe_nil, tsub_zero, Multiset.coe_add, Multiset.coe_eq_coe] at h2; exact h2.symm
    simp only [h1, if_false, mean_zero, mul_zero]
    symm
    rw [mul_eq_zero]
    right
    split_ifs with hany
    · simp [accFlow]
    · have hen : ∀ b < E.ns, bl.2.count b ≤ (blockOps E win y.cd b).length ∧
          bl.2.count b ≤ (blockOps E win y.c b).length := by
        simp only [List.any_eq_true, Bool.or_eq_true, decide_eq_true_eq, List.mem_range, not_exists,
          not_and, not_or, not_lt] at hany
        exact fun b hb => hany b hb
      simp only [mean_bind, mean_ret, accFlow]
      refine mean_eq_zero fun r hr => if_neg ?_
      obtain ⟨⟨s, hs, es⟩, t, ht, et⟩ := mem_remDraws hy.cd_nodup hy.c_nodup _ (List.nodup_range)
          (fun b hb => hen b (List.mem_range.1 hb)) hr
      have sub : ∀ {l : List (BOp T)} (hl : l.Nodup) {s : R × List (BOp T)},
            (∀ b < E.ns, bl.2.count b ≤ (blockOps E win l b).length) →
            s ∈ (pickBlocks (blockOps E win l) (bl.2.count ·) (List.range E.ns) : Rand R _) →
            s.2.Subperm l := by
          intro l hl s hle hs
          obtain ⟨h1, h2⟩ := mem_pickBlocks_sub (blockOps_ok E win hl) _ (List.nodup_range)
            (fun b hb => hle b (List.mem_range.1 hb)) hs
          refine List.subperm_of_subset h1 fun o ho => ?_
          obtain ⟨b, _, hb⟩ := h2 o ho
          exact (List.mem_filter.1 hb).1
      have s1 : r.2.1.Subperm y.cd := es ▸ sub hy.cd_nodup (fun b hb => (hen b hb).1) hs
      have s2 : r.2.2.Subperm y.c := et ▸ sub hy.c_nodup (fun b hb => (hen b hb).2) ht
      rintro ⟨k1, k2, k3⟩
      rw [Multiset.coe_nil, add_zero, tsub_eq_iff_eq_add_of_le (Multiset.coe_le.2 s1), Multiset.coe_add,
        Multiset.coe_eq_coe] at k1
      rw [Multiset.coe_nil, add_zero, tsub_eq_iff_eq_add_of_le (Multiset.coe_le.2 s2), Multiset.coe_add,
        Multiset.coe_eq_coe] at k2
      exact hex ⟨⟨_, _, k1, k2⟩, k3.symm⟩

/-- Number of free times of the bath operators. -/
def bathDim (x : PCfg T W) : ℕ := x.cd.length + x.c.length

theorem ins_dim (E : PEnv) (win : Win T R) (rank : ℕ) (w : PCfg T W → R) (x y : PCfg T W)
    (h : mean (insPropose E win rank x) (accFlow w x y) ≠ 0) : bathDim y = bathDim x + 2 * rank := by
  by_contra hne
  apply h
  simp only [insPropose, mean_bind, mean_ret, accFlow]
  have hins := mean_insDraws E win rank (fun bl p q =>
    if Leads x ⟨[], [], p, q, x.worm⟩ y then min 1 (w y / w x * insCorr E win rank x (bl.count ·)) else 0)
  rw [hins]
  refine mean_eq_zero fun bl hbl => mean_eq_zero fun p hp => mean_eq_zero fun q hq => if_neg ?_
  rintro ⟨h1, h2, _⟩
  apply hne
  have h1 := congrArg Multiset.card h1
  have h2 := congrArg Multiset.card h2
  simp only [Multiset.coe_nil, tsub_zero, Multiset.card_add, Multiset.coe_card] at h1 h2
  rw [(mem_opsDraws hp).1, (mem_blockDraws hbl).1] at h1
  rw [(mem_opsDraws hq).1, (mem_blockDraws hbl).1] at h2
  unfold bathDim
  omega

/-- **C06.**  Insertion and removal of `rank` pairs is in detailed balance, for every rank, every
division of the flavors into blocks, every window and every weight. -/
theorem C06_detailed_balance (E : PEnv) (win : Win T R) (hw : win.OK)
    (hns : ∀ f, f < E.nf → E.sector f < E.ns) (rank : ℕ) :
    Balanced (W := W) win.delta bathDim (PCfg.OK E.nf win) (irPropose E win rank) := by
  intro w x y hx hy hwx hwy
  have hN : (0 : R) < (win.grid.length : R) := Nat.cast_pos.2 hw.pos
  have hδ : win.delta ≠ 0 := (div_pos hw.len_pos hN).ne'
  have half : ∀ x y : PCfg T W, x.OK E.nf win → y.OK E.nf win → 0 < w x → 0 < w y →
      w x * win.delta ^ bathDim x * mean (insPropose E win rank x) (accFlow w x y) =
        w y * win.delta ^ bathDim y * mean (remPropose E win rank y) (accFlow w y x) := by
    intro x y hx hy hwx hwy
    have key := ins_rem_flow E win hw hns rank w x y hx hy hwx hwy
    by_cases h0 : mean (insPropose E win rank x) (accFlow w x y) = 0
    · rw [h0, mul_zero] at key
      rcases mul_eq_zero.1 key.symm with h | h
      · exact absurd h (mul_ne_zero hwy.ne' (pow_ne_zero _ hδ))
      · rw [h0, h, mul_zero, mul_zero]
    · rw [ins_dim E win rank w x y h0, pow_add]
      linear_combination win.delta ^ bathDim x * key
  unfold flow irPropose
  simp only [mean_bind, mean_coin, if_true]
  have h1 := half x y hx hy hwx hwy
  have h2 := half y x hy hx hwy hwx
  simp only [Bool.false_eq_true, if_false]
  linear_combination (1 / 2 : R) * h1 - (1 - 1 / 2 : R) * h2

/-- **C06.**  The factor of the removal is the inverse of the factor of the insertion, `m b` pairs
being inserted into block `b` and removed again. -/
theorem C06_inverse_factors (E : PEnv) (win : Win T R) (rank : ℕ) (x y : PCfg T W) (m : ℕ → ℕ)
    (hcd : ∀ b, (blockOps E win y.cd b).length = (blockOps E win x.cd b).length + m b)
    (hc : ∀ b, (blockOps E win y.c b).length = (blockOps E win x.c b).length + m b) :
    remCorr E win rank y m = (insCorr E win rank x m)⁻¹ := by
  rw [insCorr_eq, remCorr_eq, mul_inv, ← Finset.prod_inv_distrib]
  congr 1
  refine Finset.prod_congr rfl fun b _ => ?_
  rw [inv_div, hcd b, hc b]

/-! ### The proposals are probability distributions -/

theorem prob_unif {α : Type} (l : List α) (h : 0 < l.length) : mean (unif l : Rand R α) (fun _ => 1) = 1 := by
  rw [mean_unif]
  have : (l.length : R) ≠ 0 := Nat.cast_ne_zero.2 h.ne'
  simp [this]

theorem prob_pickRand (N n : ℕ) : mean (pickRand R N n) (fun _ => 1) = 1 := by
  unfold mean pickRand
  rw [Multiset.map_map]
  simp only [Function.comp_def, mul_one]
  rw [prod_shuffle_weight]
  change (∑ _J : (∀ c : Fin (N - 1), Fin (c.1 + 2)), 1 / (N.factorial : R)) = 1
  rw [Finset.sum_const, Finset.card_univ, Fintype.card_pi]
  simp only [Fintype.card_fin]
  have : (∏ c : Fin (N - 1), (c.1 + 2)) = N.factorial := by
    have h := prod_shuffle_weight (R := ℚ) N
    simp only [one_div] at h
    rw [Finset.prod_inv_distrib] at h
    have h' := inv_injective h
    exact_mod_cast h'
  rw [this, nsmul_eq_mul]
  have hne : (N.factorial : R) ≠ 0 := by exact_mod_cast Nat.factorial_ne_zero N
  field_simp

theorem prob_pickOps (l : List (BOp T)) (n : ℕ) : mean (pickOps l n : Rand R _) (fun _ => 1) = 1 := by
  simp only [pickOps, mean_bind, mean_ret]; exact prob_pickRand _ _

/-- **C06.**  The proposal is a probability distribution: nothing is lost, including the outcome
`false`. -/
theorem C06_normalized (E : PEnv) (win : Win T R) (hw : win.OK) (hns : 0 < E.ns)
    (hfl : ∀ b < E.ns, 0 < (blockFlavors E b).length) (rank : ℕ) (x : PCfg T W) :
    mean (irPropose E win rank x) (fun _ => 1) = 1 := by
  have hop : ∀ b < E.ns, mean (randOp win (blockFlavors E b)) (fun _ => 1) = (1 : R) := by
    intro b hb
    simp only [randOp, mean_bind, mean_ret, prob_unif _ (hfl b hb), prob_unif _ hw.pos]
  have hb1 : mean (unif (List.range E.ns)) (fun _ => 1) = (1 : R) := prob_unif _ (by simpa using hns)
  have hins : ∀ k, mean (insDraws E win k) (fun _ => 1) = (1 : R) := by
    intro k
    induction k with
    | zero => simp [insDraws]
    | succ k ih =>
      simp only [insDraws, mean_bind, mean_ret, ih]
      refine (mean_congr_mem fun b hb => ?_).trans hb1
      have := hop b.2 (List.mem_range.1 (mem_unif hb))
      simp only [this]
  have hbd : ∀ k, mean (blockDraws R E.ns k) (fun _ => 1) = (1 : R) := by
    intro k
    induction k with
    | zero => simp [blockDraws]
    | succ k ih => simp only [blockDraws, mean_bind, mean_ret, ih, hb1]
  have hrd : ∀ m bs, mean (remDraws E win x m bs) (fun _ => 1) = (1 : R) := by
    intro m bs
    induction bs with
    | nil => simp [remDraws]
    | cons b bs ih => simp only [remDraws, mean_bind, mean_ret, ih, prob_pickOps]
  simp only [irPropose, mean_bind, mean_coin, if_true, Bool.false_eq_true, if_false]
  have h1 : mean (insPropose E win rank x) (fun _ => 1) = 1 := by
    simp only [insPropose, mean_bind, mean_ret, hins]
  have h2 : mean (remPropose E win rank x) (fun _ => 1) = 1 := by
    simp only [remPropose, mean_bind]
    refine (mean_congr fun bl => ?_).trans (hbd rank)
    split_ifs
    · simp
    · simp only [mean_bind, mean_ret, hrd]
  rw [h1, h2]; ring

/-! ### Insertion and removal with a single flavor -/

/-- Division of the flavors into `f` and the others. -/
def onlyFlavor (nf f : ℕ) : PEnv := ⟨nf, 2, fun g => if g = f then 0 else 1⟩

theorem onlyFlavor_flavors {nf f : ℕ} (hf : f < nf) : blockFlavors (onlyFlavor nf f) 0 = [f] := by
  have h1 : (blockFlavors (onlyFlavor nf f) 0).Nodup := (List.nodup_range).filter _
  have h2 : ∀ g, g ∈ blockFlavors (onlyFlavor nf f) 0 ↔ g = f := by
    intro g
    simp only [blockFlavors, onlyFlavor, List.mem_filter, List.mem_range, beq_iff_eq]
    constructor
    · rintro ⟨_, h⟩; by_contra hg; rw [if_neg hg] at h; omega
    · rintro rfl; exact ⟨hf, if_pos rfl⟩
  exact List.perm_singleton.1 ((List.perm_ext_iff_of_nodup h1 (List.nodup_singleton f)).2
    (by simpa using h2))

theorem onlyFlavor_ops (nf f : ℕ) (win : Win T R) (l : List (BOp T)) :
    blockOps (onlyFlavor nf f) win l 0 = flavorOps win l f := by
  refine List.filter_congr fun o _ => ?_
  by_cases h : o.2 = f <;> simp [onlyFlavor, h]

theorem mean_diagDraws {nf : ℕ} (win : Win T R) {f : ℕ} (hf : f < nf) (k : ℕ) :
    ∀ F : List (BOp T) → List (BOp T) → R,
    mean (diagDraws win f k) (fun l => F (l.map (·.1)) (l.map (·.2))) =
      mean (opsDraws (onlyFlavor nf f) win (List.replicate k 0)) fun p =>
        mean (opsDraws (onlyFlavor nf f) win (List.replicate k 0)) fun q => F p q := by
  have hone : ∀ g : BOp T → R, mean (randOp win [f]) g = mean (unif win.grid) fun t => g (t, f) := by
    intro g
    simp only [randOp, mean_bind, mean_ret]
    refine mean_congr fun t => ?_
    rw [mean_unif]; simp
  induction k with
  | zero => intro F; simp [diagDraws, opsDraws]
  | succ k ih =>
    intro F
    simp only [diagDraws, List.replicate_succ, opsDraws, mean_bind, mean_ret, List.map_cons,
      onlyFlavor_flavors hf, hone]
    refine mean_congr fun t => ?_
    conv_rhs => rw [mean_comm]
    refine mean_congr fun t' => ?_
    exact ih fun p q => F ((t, f) :: p) ((t', f) :: q)

theorem mean_pickBlocks_single (ops : ℕ → List (BOp T)) (m : ℕ → ℕ) (h1 : m 1 = 0)
    (F : List (BOp T) → R) :
    mean (pickBlocks ops m (List.range 2)) F = mean (pickOps (ops 0) (m 0)) F := by
  rw [show List.range 2 = [0, 1] from rfl]
  simp only [pickBlocks, mean_bind, mean_ret]
  refine mean_congr fun p => ?_
  have : ∀ q ∈ (pickOps (ops 1) 0 : Rand R _), q.2 = [] := by
    intro q hq
    obtain ⟨a, ha, b, hb, hpb⟩ := mem_bind hq
    rw [mem_ret hb] at hpb
    have := (mem_pickRand (R := R) (Nat.zero_le _) ha).1
    rw [hpb, List.length_eq_zero_iff.1 this]; rfl
  rw [h1, mean_congr_mem (g := fun _ => F p) fun q hq => by rw [this q hq]; simp]
  have := mean_mul_left (pickOps (ops 1) 0 : Rand R _) (F p) (fun _ => 1)
  rw [prob_pickOps, mul_one] at this
  simpa using this

/-- The two parts of the diagonal update for a given flavor. -/
def diagIns (win : Win T R) (rank : ℕ) (x : PCfg T W) (f : ℕ) : Rand R (Option (Mv T W × R)) :=
  bind (diagDraws win f rank) fun l =>
    ret (some (⟨[], [], l.map (·.1), l.map (·.2), x.worm⟩,
      win.len ^ (2 * rank) / ((((flavorOps win x.cd f).length + rank).choose rank : R) *
        (((flavorOps win x.c f).length + rank).choose rank : R) * (rank.factorial : R))))

def diagRem (win : Win T R) (rank : ℕ) (x : PCfg T W) (f : ℕ) : Rand R (Option (Mv T W × R)) :=
  if (flavorOps win x.cd f).length < rank ∨ (flavorOps win x.c f).length < rank then ret none
  else
    bind (pickOps (flavorOps win x.cd f) rank) fun p =>
    bind (pickOps (flavorOps win x.c f) rank) fun q =>
      ret (some (⟨p, q, [], [], x.worm⟩,
        (((flavorOps win x.cd f).length.choose rank : R) * ((flavorOps win x.c f).length.choose rank : R)
          * (rank.factorial : R)) / win.len ^ (2 * rank)))

theorem diagPropose_eq (nf : ℕ) (win : Win T R) (rank : ℕ) (x : PCfg T W) :
    diagPropose nf win rank x = bind (unif (List.range nf)) fun f => bind (coin (1 / 2)) fun b =>
      if b then diagIns win rank x f else diagRem win rank x f := rfl

theorem diag_flow (nf : ℕ) (win : Win T R) (hw : win.OK) {f : ℕ} (hf : f < nf)
    (rank : ℕ) (w : PCfg T W → R) (x y : PCfg T W) (hy : y.OK nf win) (hwx : 0 < w x) (hwy : 0 < w y) :
    w x * mean (diagIns win rank x f) (accFlow w x y) =
      w y * ((rank.factorial : R) * win.delta ^ (2 * rank)) * mean (diagRem win rank y f) (accFlow w y x) := by
  classical
  set E := onlyFlavor nf f with hE
  set bl : List ℕ := List.replicate rank 0 with hbl
  have hns : ∀ g, g < E.nf → E.sector g < E.ns := by
    intro g _; simp only [hE, onlyFlavor]; split_ifs <;> omega
  have hbn : ∀ b ∈ bl, b < E.ns := fun b hb => by rw [List.eq_of_mem_replicate hb]; exact Nat.zero_lt_two
  have hN : (0 : R) < (win.grid.length : R) := Nat.cast_pos.2 hw.pos
  have hc0 : bl.count 0 = rank := by simp [hbl]
  have hc1 : bl.count 1 = 0 := by rw [hbl, List.count_replicate]; rfl
  have hops : ∀ l : List (BOp T), blockOps E win l 0 = flavorOps win l f := onlyFlavor_ops nf f win
  set corr := win.len ^ (2 * rank) / ((((flavorOps win x.cd f).length + rank).choose rank : R) *
        (((flavorOps win x.c f).length + rank).choose rank : R) * (rank.factorial : R)) with hcorr
  have hins := mean_diagDraws win hf rank (fun p q =>
    if Leads x ⟨[], [], p, q, x.worm⟩ y then min 1 (w y / w x * corr) else 0)
  simp only [diagIns, mean_bind, mean_ret, accFlow]
  rw [hins, ← hE, ← hbl]
  by_cases hex : (∃ a c, y.cd.Perm (x.cd ++ a) ∧ y.c.Perm (x.c ++ c)) ∧ x.worm = y.worm
  · obtain ⟨⟨a, c, ha, hc⟩, hworm⟩ := hex
    simp only [leads_add x y a c ha hc hworm]
    set H1 := mean (opsDraws E win bl) (fun p => if p.Perm a then (1 : R) else 0) with hH1
    set H2 := mean (opsDraws E win bl) (fun p => if p.Perm c then (1 : R) else 0) with hH2
    have hL : mean (opsDraws E win bl) (fun p => mean (opsDraws E win bl) fun q =>
        if p.Perm a ∧ q.Perm c then min 1 (w y / w x * corr) else 0) =
        min 1 (w y / w x * corr) * (H1 * H2) := by
      rw [hH1, hH2, ← mean_prod, ← mean_mul_left]
      refine mean_congr fun p => ?_
      rw [← mean_mul_left]
      refine mean_congr fun q => ?_
      by_cases h1 : p.Perm a <;> by_cases h2 : q.Perm c <;> simp [h1, h2]
    rw [hL]
    unfold diagRem
    split_ifs with hany
    · have h0 : H1 * H2 = 0 := by
        by_contra hne
        have g1 := draw_counts E win hw bl x.cd y.cd a hy.cd_nodup hy.cd_mem ha (left_ne_zero_of_mul hne) 0
        have g2 := draw_counts E win hw bl x.c y.c c hy.c_nodup hy.c_mem hc (right_ne_zero_of_mul hne) 0
        rw [hops, hops, hc0] at g1 g2
        omega
      simp [h0, accFlow]
    · have hle1 : rank ≤ (flavorOps win y.cd f).length := by omega
      have hle2 : rank ≤ (flavorOps win y.c f).length := by omega
      have hen : ∀ l : List (BOp T), rank ≤ (flavorOps win l f).length →
          ∀ b < E.ns, bl.count b ≤ (blockOps E win l b).length := by
        intro l hl b hb
        have : b = 0 ∨ b = 1 := by simp only [hE, onlyFlavor] at hb; omega
        rcases this with rfl | rfl
        · rw [hops, hc0]; exact hl
        · rw [hc1]; exact Nat.zero_le _
      simp only [mean_bind, mean_ret, accFlow]
      set corr' := (((flavorOps win y.cd f).length.choose rank : R) *
        ((flavorOps win y.c f).length.choose rank : R) * (rank.factorial : R)) / win.len ^ (2 * rank) with hcorr'
      set G1 := mean (pickOps (flavorOps win y.cd f) rank) (fun p => if p.Perm a then (1 : R) else 0) with hG1
      set G2 := mean (pickOps (flavorOps win y.c f) rank) (fun p => if p.Perm c then (1 : R) else 0) with hG2
      have hnd : ∀ {l : List (BOp T)}, l.Nodup → (flavorOps win l f).Nodup := fun h => h.filter _
      have hR : mean (pickOps (flavorOps win y.cd f) rank) (fun p =>
          mean (pickOps (flavorOps win y.c f) rank) fun q =>
          if Leads y ⟨p, q, [], [], y.worm⟩ x then min 1 (w x / w y * corr') else 0) =
          min 1 (w x / w y * corr') * (G1 * G2) := by
        rw [hG1, hG2, ← mean_prod, ← mean_mul_left]
        refine mean_congr_mem fun p hp => ?_
        rw [← mean_mul_left]
        refine mean_congr_mem fun q hq => ?_
        obtain ⟨_, p2, p3⟩ := mem_pickOps hle1 (hnd hy.cd_nodup) hp
        obtain ⟨_, q2, q3⟩ := mem_pickOps hle2 (hnd hy.c_nodup) hq
        have hiff := leads_rem x y a c ha hc hworm p.2 q.2
          (List.subperm_of_subset p2 fun o ho => (List.mem_filter.1 (p3 o ho)).1)
          (List.subperm_of_subset q2 fun o ho => (List.mem_filter.1 (q3 o ho)).1)
        rw [if_congr hiff rfl rfl]
        by_cases h1 : p.2.Perm a <;> by_cases h2 : q.2.Perm c <;> simp [h1, h2]
      rw [hR]
      obtain ⟨e1, n1⟩ := draw_ratio E win hw hns bl hbn x.cd y.cd a hy.cd_nodup hy.cd_mem ha
        (hen _ hle1)
      obtain ⟨e2, n2⟩ := draw_ratio E win hw hns bl hbn x.c y.c c hy.c_nodup hy.c_mem hc (hen _ hle2)
      have hns2 : E.ns = 2 := rfl
      have hfl0 : (blockFlavors E 0).length = 1 := by rw [hE, onlyFlavor_flavors hf]; rfl
      rw [← hH1, hns2, mean_pickBlocks_single _ _ hc1, hc0, hops, ← hG1] at e1
      rw [← hH2, hns2, mean_pickBlocks_single _ _ hc1, hc0, hops, ← hG2] at e2
      simp only [Finset.prod_range_succ, Finset.prod_range_zero, hc0, hc1, pow_zero, fallingFac, hfl0,
        one_mul, mul_one, div_one, hops, Nat.cast_one, one_pow] at e1 e2
      rw [← hH1] at n1
      rw [← hH2] at n2
      have hlenb : bl.length = rank := by simp [hbl]
      rw [hlenb] at e1 e2
      have hfact : (rank.factorial : R) ≠ 0 := by exact_mod_cast Nat.factorial_ne_zero rank
      have hch : ∀ n : ℕ, fallingFac ((n + rank : ℕ) : R) rank =
          (rank.factorial : R) * ((n + rank).choose rank : R) := by
        intro n
        rw [fallingFac_natCast, ← Nat.cast_mul, Nat.descFactorial_eq_factorial_mul_choose]
      rw [hch] at e1 e2
      have hcp : ∀ n : ℕ, (0 : R) < ((n + rank).choose rank : R) := fun n => by
        exact_mod_cast Nat.choose_pos (by omega)
      have hfp : (0 : R) < (rank.factorial : R) := by exact_mod_cast Nat.factorial_pos rank
      have hprod : H1 * H2 * corr = (rank.factorial : R) * win.delta ^ (2 * rank) * (G1 * G2) := by
        have hd : win.delta ^ (2 * rank) =
            win.len ^ (2 * rank) * ((1 / (win.grid.length : R)) ^ rank * (1 / (win.grid.length : R)) ^ rank) := by
          rw [Win.delta, div_eq_mul_one_div, mul_pow, two_mul, ← pow_add]
        have hcc : corr = win.len ^ (2 * rank) * (rank.factorial : R) *
            ((1 / ((rank.factorial : R) * (((flavorOps win x.cd f).length + rank).choose rank : R))) *
             (1 / ((rank.factorial : R) * (((flavorOps win x.c f).length + rank).choose rank : R)))) := by
          rw [hcorr]
          have := (hcp (flavorOps win x.cd f).length).ne'
          have := (hcp (flavorOps win x.c f).length).ne'
          field_simp
        rw [hcc, hd]
        linear_combination win.len ^ (2 * rank) * (rank.factorial : R) *
          ((H2 * (1 / ((rank.factorial : R) * (((flavorOps win x.c f).length + rank).choose rank : R)))) * e1 +
            (1 / (win.grid.length : R)) ^ rank * G1 * e2)
      by_cases hzero : H1 * H2 = 0
      · have hG : G1 * G2 = 0 := by
          rw [hzero, zero_mul] at hprod
          rcases mul_eq_zero.1 hprod.symm with h | h
          · exact absurd h (mul_ne_zero hfact (pow_ne_zero _ (div_pos hw.len_pos hN).ne'))
          · exact h
        rw [hzero, hG]; simp
      · have g1 := n1 (left_ne_zero_of_mul hzero) 0
        have g2 := n2 (right_ne_zero_of_mul hzero) 0
        rw [hops, hops, hc0] at g1 g2
        refine metropolis_balance hwx hwy ?_ ?_ hprod
        · exact div_pos (pow_pos hw.len_pos _) (mul_pos (mul_pos (hcp _) (hcp _)) hfp)
        · rw [hcorr, hcorr', inv_div, g1, g2]
  · have h1 : ∀ p q, ¬ Leads x ⟨[], [], p, q, x.worm⟩ y := by
      rintro p q ⟨h1, h2, h3⟩
      refine hex ⟨⟨p, q, ?_, ?_⟩, h3⟩
      · rw [Multiset.coe_nil, tsub_zero, Multiset.coe_add, Multiset.coe_eq_coe] at h1; exact h1.symm
      · rw [Multiset.coe_nil, tsub_zero, Multiset.coe_add, Multiset.coe_eq_coe] at h2; exact h2.symm
    simp only [h1, if_false, mean_zero, mul_zero]
    symm
    rw [mul_eq_zero]
    right
    unfold diagRem
    split_ifs with hany
    · simp [accFlow]
    · have hle1 : rank ≤ (flavorOps win y.cd f).length := by omega
      have hle2 : rank ≤ (flavorOps win y.c f).length := by omega
      simp only [mean_bind, mean_ret, accFlow]
      refine mean_eq_zero fun p hp => mean_eq_zero fun q hq => if_neg ?_
      obtain ⟨_, p2, p3⟩ := mem_pickOps hle1 (hy.cd_nodup.filter _) hp
      obtain ⟨_, q2, q3⟩ := mem_pickOps hle2 (hy.c_nodup.filter _) hq
      have s1 : p.2.Subperm y.cd := List.subperm_of_subset p2 fun o ho => (List.mem_filter.1 (p3 o ho)).1
      have s2 : q.2.Subperm y.c := List.subperm_of_subset q2 fun o ho => (List.mem_filter.1 (q3 o ho)).1
      rintro ⟨k1, k2, k3⟩
      rw [Multiset.coe_nil, add_zero, tsub_eq_iff_eq_add_of_le (Multiset.coe_le.2 s1), Multiset.coe_add,
        Multiset.coe_eq_coe] at k1
      rw [Multiset.coe_nil, add_zero, tsub_eq_iff_eq_add_of_le (Multiset.coe_le.2 s2), Multiset.coe_add,
        Multiset.coe_eq_coe] at k2
      exact hex ⟨⟨_, _, k1, k2⟩, k3.symm⟩

theorem diag_dim (nf : ℕ) (win : Win T R) {f : ℕ} (hf : f < nf) (rank : ℕ) (w : PCfg T W → R)
    (x y : PCfg T W) (h : mean (diagIns win rank x f) (accFlow w x y) ≠ 0) :
    bathDim y = bathDim x + 2 * rank := by
  by_contra hne
  apply h
  simp only [diagIns, mean_bind, mean_ret, accFlow]
  rw [mean_diagDraws (nf := nf) win hf rank (fun p q => if Leads x ⟨[], [], p, q, x.worm⟩ y then
    min 1 (w y / w x * (win.len ^ (2 * rank) / ((((flavorOps win x.cd f).length + rank).choose rank : R) *
        (((flavorOps win x.c f).length + rank).choose rank : R) * (rank.factorial : R)))) else 0)]
  refine mean_eq_zero fun p hp => mean_eq_zero fun q hq => if_neg ?_
  rintro ⟨h1, h2, _⟩
  apply hne
  have h1 := congrArg Multiset.card h1
  have h2 := congrArg Multiset.card h2
  simp only [Multiset.coe_nil, tsub_zero, Multiset.card_add, Multiset.coe_card] at h1 h2
  rw [(mem_opsDraws hp).1, List.length_replicate] at h1
  rw [(mem_opsDraws hq).1, List.length_replicate] at h2
  unfold bathDim
  omega

/-- Flow of the diagonal update from `x` to `y` with more operators, and back: the ratio is `rank!`
instead of one. -/
theorem C07_flow_ratio (nf : ℕ) (win : Win T R) (hw : win.OK) (rank : ℕ) (hrank : 0 < rank)
    (w : PCfg T W → R) (x y : PCfg T W) (hx : x.OK nf win) (hy : y.OK nf win) (hwx : 0 < w x)
    (hwy : 0 < w y) (hlt : bathDim x < bathDim y) :
    w x * win.delta ^ bathDim x * flow w (diagPropose nf win rank) x y =
      (rank.factorial : R) * (w y * win.delta ^ bathDim y * flow w (diagPropose nf win rank) y x) := by
  have hN : (0 : R) < (win.grid.length : R) := Nat.cast_pos.2 hw.pos
  have hδ : win.delta ≠ 0 := (div_pos hw.len_pos hN).ne'
  have hfact : (rank.factorial : R) ≠ 0 := by exact_mod_cast Nat.factorial_ne_zero rank
  simp only [flow, diagPropose_eq, mean_bind]
  rw [← mean_mul_left, ← mean_mul_left, ← mean_mul_left]
  refine mean_congr_mem fun f hf => ?_
  have hf : f.2 < nf := List.mem_range.1 (mem_unif hf)
  simp only [mean_coin, if_true, Bool.false_eq_true, if_false]
  -- insertion into `y` cannot lead to `x`, nor can removal from `x` lead to `y`
  have z1 : mean (diagIns win rank y f.2) (accFlow w y x) = 0 := by
    by_contra h
    have := diag_dim nf win hf rank w y x h
    omega
  have z2 : mean (diagRem win rank x f.2) (accFlow w x y) = 0 := by
    have := diag_flow nf win hw hf rank w y x hx hwy hwx
    rw [z1, mul_zero] at this
    rcases mul_eq_zero.1 this.symm with h | h
    · exact absurd h (mul_ne_zero hwx.ne' (mul_ne_zero hfact (pow_ne_zero _ hδ)))
    · exact h
  have key := diag_flow nf win hw hf rank w x y hy hwx hwy
  rw [z1, z2]
  by_cases h0 : mean (diagIns win rank x f.2) (accFlow w x y) = 0
  · rw [h0, mul_zero] at key
    rcases mul_eq_zero.1 key.symm with h | h
    · exact absurd h (mul_ne_zero hwy.ne' (mul_ne_zero hfact (pow_ne_zero _ hδ)))
    · rw [h0, h]; ring
  · rw [diag_dim nf win hf rank w x y h0, pow_add]
    linear_combination (1 / 2 : R) * win.delta ^ bathDim x * key

/-- **C07, rank 1.**  Inserting or removing a single pair of operators of the same flavor is in
detailed balance.  Missing for the full claim: higher ranks, where it is false (`C07_violated`). -/
theorem C07_rank_one_partial (nf : ℕ) (win : Win T R) (hw : win.OK) :
    Balanced (W := W) win.delta bathDim (PCfg.OK nf win) (diagPropose nf win 1) := by
  intro w x y hx hy hwx hwy
  have hN : (0 : R) < (win.grid.length : R) := Nat.cast_pos.2 hw.pos
  have hδ : win.delta ≠ 0 := (div_pos hw.len_pos hN).ne'
  rcases lt_trichotomy (bathDim x) (bathDim y) with h | h | h
  · have := C07_flow_ratio nf win hw 1 one_pos w x y hx hy hwx hwy h
    simpa using this
  · -- equal numbers of operators: no flow
    have zero : ∀ x y : PCfg T W, x.OK nf win → y.OK nf win → 0 < w x → 0 < w y → bathDim x = bathDim y →
        flow w (diagPropose nf win 1) x y = 0 := by
      intro x y hx hy hwx hwy h
      simp only [flow, diagPropose_eq, mean_bind]
      refine mean_eq_zero fun f hf => ?_
      have hf : f.2 < nf := List.mem_range.1 (mem_unif hf)
      have z1 : ∀ x y : PCfg T W, bathDim x = bathDim y →
          mean (diagIns win 1 x f.2) (accFlow w x y) = 0 := by
        intro x y h
        by_contra h'
        have := diag_dim nf win hf 1 w x y h'
        omega
      have z2 : mean (diagRem win 1 x f.2) (accFlow w x y) = 0 := by
        have := diag_flow nf win hw hf 1 w y x hx hwy hwx
        rw [z1 y x h.symm, mul_zero] at this
        rcases mul_eq_zero.1 this.symm with h | h
        · refine absurd h (mul_ne_zero hwx.ne' (mul_ne_zero ?_ (pow_ne_zero _ hδ)))
          simp
        · exact h
      simp only [mean_coin, if_true, Bool.false_eq_true, if_false, z1 x y h, z2]
      ring
    rw [zero x y hx hy hwx hwy h, zero y x hy hx hwy hwx h.symm]
    ring
  · have := C07_flow_ratio nf win hw 1 one_pos w y x hy hx hwy hwx h
    simp only [Nat.factorial_one, Nat.cast_one, one_mul] at this
    exact this.symm

end

/-! ### Concrete configurations -/

/-- Two blocks with one flavor each. -/
def exEnv : PEnv := ⟨2, 2, id⟩

/-- A window `[0, 3/2]` with three grid times `0, 1, 2`. -/
def exWin : Win ℕ ℚ := ⟨[0, 1, 2], 3 / 2, fun t => decide (t < 3)⟩

def exX : PCfg ℕ Unit := ⟨[(0, 1), (7, 0)], [(2, 1), (5, 0)], ()⟩
def exY : PCfg ℕ Unit := ⟨[(0, 1), (7, 0), (1, 1)], [(2, 1), (0, 1), (5, 0)], ()⟩

/-- The hypotheses of `C06_detailed_balance` hold for an example with operators inside and outside the
window, between two configurations connected by an insertion. -/
example : exWin.OK ∧ (∀ f, f < exEnv.nf → exEnv.sector f < exEnv.ns) ∧
    exX.OK exEnv.nf exWin ∧ exY.OK exEnv.nf exWin ∧ (∀ b < exEnv.ns, 0 < (blockFlavors exEnv b).length) := by
  refine ⟨⟨by decide, by decide, by decide, by norm_num [exWin]⟩, by decide, ⟨by decide, by decide, by decide,
    by decide⟩, ⟨by decide, by decide, by decide, by decide⟩, by decide⟩

/-- Both flows between the two configurations are non-zero. -/
example : flow (fun _ => (1 : ℚ)) (irPropose exEnv exWin 1) exX exY = 1 / 64 ∧
    flow (fun _ => (1 : ℚ)) (irPropose exEnv exWin 1) exY exX = 1 / 16 := by
  constructor <;> decide +kernel

/-- **C07 is violated for rank 2**: with constant weight the flow from the empty configuration to one
with two pairs is twice the flow back. -/
theorem C07_violated : ¬ Balanced (W := Unit) exWin.delta bathDim (PCfg.OK 1 exWin) (diagPropose 1 exWin 2) := by
  intro h
  have := h (fun _ => 1) ⟨[], [], ()⟩ ⟨[(0, 0), (1, 0)], [(0, 0), (2, 0)], ()⟩
    ⟨by decide, by decide, by decide, by decide⟩ ⟨by decide, by decide, by decide, by decide⟩
    one_pos one_pos
  revert this
  decide +kernel

end CTHyb
