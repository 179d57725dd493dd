import Verif.SamplingProps

/-!
A whole sequence of updates of the code: the weight of the configurations is stationary.

Specification.  `Fam` describes a class of configurations (for instance those with all times on a grid), `c i` are
representatives of those with weight different from zero.  The weight of a configuration is
`cfgW * eta * δ^dim` (`eta`: factor of the worm space, `δ`: spacing of the grid, `dim`: number of free times).
-/

set_option linter.unusedSectionVars false

namespace CTHyb

open Matrix Rand MeasureTheory

variable {𝕜 : Type} [RCLike 𝕜] [DecidableEq 𝕜] {N : ℕ} {T W X : Type} [DecidableEq T] [DecidableEq W]
  [Fintype X] [DecidableEq X]

section spec

/-- Representatives of the configurations of a class which can occur. -/
structure Reprs (A : CodeArgs 𝕜 N) (tau : T → ℝ) (wops : W → Option (List (TPsi ℝ))) (Fam : PCfg T W → Prop)
    (c : X → PCfg T W) : Prop where
  mem : ∀ i, Fam (c i) ∧ (c i).Good A tau wops
  inj : ∀ i j, (c i).Same (c j) → i = j
  all : ∀ x, Fam x → x.Good A tau wops → ∃ i, (c i).Same x
  same : ∀ x y, x.Same y → Fam x → Fam y

/-- What is demanded of an updater for a class of configurations and a window: admissible outcomes, detailed balance,
total probability one, and it does not leave the class. -/
structure PropOK (A : CodeArgs 𝕜 N) (tau : T → ℝ) (wops : W → Option (List (TPsi ℝ))) (Fam : PCfg T W → Prop)
    (δ : ℝ) (dim : PCfg T W → ℕ) (eta : PCfg T W → ℝ) (lo hi : ℝ)
    (prop : PCfg T W → Rand ℝ (Option (Mv T W × ℝ))) : Prop where
  adm : ∀ x, Fam x → x.Good A tau wops → RandOK A tau wops lo hi x (prop x)
  bal : BalancedW δ dim eta Fam prop
  one : ∀ x, Fam x → mean (prop x) (fun _ => 1) = 1
  closed : ∀ x, Fam x → ∀ p ∈ prop x, ∀ mv c, p.2 = some (mv, c) → ∀ y, Leads x mv y → y.Good A tau wops → Fam y

/-- The steps can be made one after the other, beginning with the window `st` (positions of the edges, direction, number of
windows). -/
def RunOK (A : CodeArgs 𝕜 N) (tau : T → ℝ) (wops : W → Option (List (TPsi ℝ))) (Fam : PCfg T W → Prop)
    (δ : ℝ) (dim : PCfg T W → ℕ) (eta : PCfg T W → ℝ) : SavedState → List (RStep A T W) → Prop
  | _, [] => True
  | st, a :: rest => ∃ st' : SavedState,
    (∀ s : CodeState A W, SimInv A.env A.Inv (pmDet A.P) s.1 → getState s.1.sw = st →
      ∃ s1, a.shift s.1 = some s1 ∧ SimInv A.env A.Inv (pmDet A.P) s1 ∧ s1.cfg = s.1.cfg ∧ getState s1.sw = st') ∧
    PropOK A tau wops Fam δ dim eta (tauEdge A.beta st'.n st'.posR) (tauEdge A.beta st'.n st'.posL)
      (a.prop (tauEdge A.beta st'.n st'.posR) (tauEdge A.beta st'.n st'.posL)) ∧
    RunOK A tau wops Fam δ dim eta st' rest

/-- Weight of a configuration on the grid. -/
noncomputable def gridW (A : CodeArgs 𝕜 N) (tau : T → ℝ) (wops : W → Option (List (TPsi ℝ))) (δ : ℝ)
    (dim : PCfg T W → ℕ) (eta : PCfg T W → ℝ) (x : PCfg T W) : ℝ := cfgW A tau wops x * eta x * δ ^ dim x

end spec

variable {A : CodeArgs 𝕜 N} {tau : T → ℝ} {wops : W → Option (List (TPsi ℝ))} {Fam : PCfg T W → Prop}
  {δ : ℝ} {dim : PCfg T W → ℕ} {eta : PCfg T W → ℝ} {c : X → PCfg T W}

omit [DecidableEq T] [DecidableEq W] in
theorem PCfg.Same.symm {x y : PCfg T W} (h : x.Same y) : y.Same x := ⟨h.1.symm, h.2.1.symm, h.2.2.symm⟩

omit [DecidableEq T] [DecidableEq W] in
theorem PCfg.Same.trans {x y z : PCfg T W} (h : x.Same y) (h' : y.Same z) : x.Same z :=
  ⟨h.1.trans h'.1, h.2.1.trans h'.2.1, h.2.2.trans h'.2.2⟩

omit [DecidableEq T] [DecidableEq W] in
theorem Reps.of_same {x y : PCfg T W} {s : CodeState A W} (h : Reps A tau wops x s) (e : x.Same y) :
    Reps A tau wops y s :=
  ⟨h.cd.trans (e.1.map _), h.c.trans (e.2.1.map _), h.worm.trans e.2.2, by rw [← e.2.2]; exact h.wops⟩

omit [DecidableEq T] [DecidableEq W] in
theorem PCfg.Same.ops_perm {x y : PCfg T W} (e : x.Same y) : (x.ops tau wops).Perm (y.ops tau wops) := by
  unfold PCfg.ops
  rw [e.2.2]
  exact ((e.1.map _).append (e.2.1.map _)).append_right _

omit [DecidableEq T] [DecidableEq W] in
theorem cfgW_same {x y : PCfg T W} (e : x.Same y) (hn : ((x.ops tau wops).map Psi.time).Nodup) :
    cfgW A tau wops x = cfgW A tau wops y := by
  have hn2 : ((y.ops tau wops).map Psi.time).Nodup := ((e.ops_perm).map Psi.time).nodup_iff.1 hn
  have es : x.sorted tau wops = y.sorted tau wops :=
    sorted_unique (x.sorted_sorted hn) (y.sorted_sorted hn2)
      ((x.sorted_perm.trans e.ops_perm).trans y.sorted_perm.symm)
  have hn' := hn
  rw [PCfg.ops, List.map_append, List.map_append] at hn'
  have n1 := (List.nodup_append.1 (List.nodup_append.1 hn').1).1
  have n2 := (List.nodup_append.1 (List.nodup_append.1 hn').1).2.1
  unfold cfgW CodeArgs.weight
  rw [es, timeDet_congr A.G (e.2.1.map _) (e.1.map _) n2 n1]

omit [DecidableEq T] [DecidableEq W] in
theorem PCfg.Good.of_same {x y : PCfg T W} (h : x.Good A tau wops) (e : x.Same y) : y.Good A tau wops :=
  ⟨((e.ops_perm).map Psi.time).nodup_iff.1 h.nodup, by rw [← cfgW_same e h.nodup]; exact h.weight⟩

omit [DecidableEq W] in
theorem leads_same {x y z : PCfg T W} {mv : Mv T W} (e : y.Same z) : Leads x mv y ↔ Leads x mv z := by
  unfold Leads
  rw [Multiset.coe_eq_coe.2 e.1, Multiset.coe_eq_coe.2 e.2.1, e.2.2]

theorem flow_same_right (w : PCfg T W → ℝ) (prop : PCfg T W → Rand ℝ (Option (Mv T W × ℝ))) {x y z : PCfg T W}
    (e : y.Same z) (hw : w y = w z) : flow w prop x y = flow w prop x z := by
  unfold flow
  refine mean_congr fun o => ?_
  cases o with
  | none => rfl
  | some q =>
    have := leads_same (x := x) (mv := q.1) e
    change (if Leads x q.1 y then min 1 (w y / w x * q.2) else 0) = if Leads x q.1 z then min 1 (w z / w x * q.2) else 0
    by_cases h : Leads x q.1 y
    · rw [if_pos h, if_pos (this.1 h), hw]
    · rw [if_neg h, if_neg fun h' => h (this.2 h')]

/-- The probability does not depend on the order of the lists. -/
theorem C61_order (hδ : 0 < δ) (he : ∀ x, 0 < eta x) (hsame : ∀ x y : PCfg T W, x.Same y → eta x = eta y ∧ dim x = dim y)
    {prop : PCfg T W → Rand ℝ (Option (Mv T W × ℝ))} (hb : BalancedW δ dim eta Fam prop) {x y z : PCfg T W}
    (e : x.Same y) (hx : Fam x) (hy : Fam y) (hz : Fam z) (gx : x.Good A tau wops) (gz : z.Good A tau wops) :
    flow (cfgW A tau wops) prop x z = flow (cfgW A tau wops) prop y z := by
  have gy := gx.of_same e
  have hw := cfgW_same (A := A) e gx.nodup
  have h1 := hb _ x z hx hz gx.pos gz.pos
  have h2 := hb _ y z hy hz gy.pos gz.pos
  rw [flow_same_right _ prop e hw, ← h2, hw, (hsame x y e).1, (hsame x y e).2] at h1
  have hpos : 0 < cfgW A tau wops y * eta y * δ ^ dim y :=
    mul_pos (mul_pos gy.pos (he y)) (pow_pos hδ _)
  exact mul_left_cancel₀ hpos.ne' h1

/-- Transition matrix of an updater. -/
noncomputable def stepK (w : PCfg T W → ℝ) (prop : PCfg T W → Rand ℝ (Option (Mv T W × ℝ))) (c : X → PCfg T W)
    (i j : X) : ℝ :=
  if i = j then 1 - ∑ z ∈ Finset.univ.erase i, flow w prop (c i) (c z) else flow w prop (c i) (c j)

theorem stepK_apply (w : PCfg T W → ℝ) (prop : PCfg T W → Rand ℝ (Option (Mv T W × ℝ))) (c : X → PCfg T W)
    (i : X) (Q : X → ℝ) : ∑ j, stepK w prop c i j * Q j =
      Q i + ∑ j ∈ Finset.univ.erase i, (Q j - Q i) * flow w prop (c i) (c j) := by
  rw [← Finset.add_sum_erase _ _ (Finset.mem_univ i)]
  have : ∑ j ∈ Finset.univ.erase i, stepK w prop c i j * Q j =
      ∑ j ∈ Finset.univ.erase i, flow w prop (c i) (c j) * Q j := by
    refine Finset.sum_congr rfl fun j hj => ?_
    rw [stepK, if_neg (Finset.ne_of_mem_erase hj).symm]
  rw [this, stepK, if_pos rfl, sub_mul, one_mul, Finset.sum_mul, sub_add_eq_add_sub, add_sub_assoc,
    ← Finset.sum_sub_distrib]
  congr 1
  exact Finset.sum_congr rfl fun j _ => by ring

theorem accFlow_bounds {x y : PCfg T W} {o : Option (Mv T W × ℝ)} (ho : ∀ mv c, o = some (mv, c) → 0 < c) :
    0 ≤ accFlow (cfgW A tau wops) x y o ∧ accFlow (cfgW A tau wops) x y o ≤ 1 := by
  unfold accFlow
  split
  · exact ⟨le_rfl, zero_le_one⟩
  · rename_i mv c
    split_ifs
    · exact ⟨le_min zero_le_one (mul_nonneg (div_nonneg (cfgW_nonneg _) (cfgW_nonneg _)) (ho mv c rfl).le), min_le_left _ _⟩
    · exact ⟨le_rfl, zero_le_one⟩

/-- One update: the expectation value of a function which depends only on the configuration. -/
theorem step_mean (hA : A.OK) (ht : Function.Injective tau) (hδ : 0 < δ) (he : ∀ x, 0 < eta x)
    (hsame : ∀ x y : PCfg T W, x.Same y → eta x = eta y ∧ dim x = dim y) (hR : Reprs A tau wops Fam c)
    {prop : PCfg T W → Rand ℝ (Option (Mv T W × ℝ))} {s : CodeState A W}
    (hP : PropOK A tau wops Fam δ dim eta (loEdge A s) (hiEdge A s) prop)
    (hs : SimInv A.env A.Inv (pmDet A.P) s.1) {i : X} (hi : Reps A tau wops (c i) s) {x : PCfg T W}
    (hx : Reps A tau wops x s) (F : CodeState A W → ℝ) (Q : X → ℝ)
    (hF : ∀ s' : CodeState A W, SimInv A.env A.Inv (pmDet A.P) s'.1 → s'.1.sw = s.1.sw →
      ∀ j, Reps A tau wops (c j) s' → F s' = Q j) :
    mean (prop x) (fun o => ∫ r in Set.Ico (0 : ℝ) 1, (codeStep A tau wops o r s).elim 0 F) =
      ∑ j, stepK (cfgW A tau wops) prop c i j * Q j := by
  have hsm : (c i).Same x := hi.same ht hx
  have gx := hx.good hA hs
  have fx : Fam x := hR.same _ _ hsm (hR.mem i).1
  have hnex : ∀ j, j ≠ i → ¬ x.Same (c j) := fun j hj e => hj (hR.inj _ _ (hsm.trans e)).symm
  have key : ∀ p ∈ prop x, (∫ r in Set.Ico (0 : ℝ) 1, (codeStep A tau wops p.2 r s).elim 0 F) =
      Q i + ∑ j ∈ Finset.univ.erase i, (Q j - Q i) * accFlow (cfgW A tau wops) x (c j) p.2 := by
    intro p hp
    have hm : ∀ mv c, p.2 = some (mv, c) → MvOK A tau wops (loEdge A s) (hiEdge A s) x mv c :=
      hP.adm x fx gx p hp
    have hpt : Set.EqOn (fun r => (codeStep A tau wops p.2 r s).elim 0 F)
        (fun r => Q i + ∑ j ∈ Finset.univ.erase i, (Q j - Q i) *
          (Set.Ico 0 (accFlow (cfgW A tau wops) x (c j) p.2)).indicator (fun _ => (1 : ℝ)) r) (Set.Ico 0 1) := by
      intro r hr
      have hst : ∃ s', codeStep A tau wops p.2 r s = some s' ∧ SimInv A.env A.Inv (pmDet A.P) s'.1 ∧
          s'.1.sw = s.1.sw ∧ ∃ j, Reps A tau wops (c j) s' := by
        rcases ho : p.2 with _ | ⟨mv, cc⟩
        · exact ⟨s, codeStep_none r s, hs, rfl, i, hi⟩
        · obtain ⟨s', e, i1, w1, ⟨y, hy, hy'⟩, -⟩ := C61_update hA ht hs hx (hm mv cc ho) r hr.1
          refine ⟨s', e, i1, w1, ?_⟩
          have gy := hy.good hA i1
          have fy : Fam y := by
            rcases hy' with h | h
            · exact hR.same _ _ h fx
            · exact hP.closed x fx p hp mv cc ho y h gy
          obtain ⟨j, hj⟩ := hR.all y fy gy
          exact ⟨j, hy.of_same hj.symm⟩
      obtain ⟨s', e, i1, w1, j, hj⟩ := hst
      have hind : ∀ k, k ≠ i → ((Set.Ico 0 (accFlow (cfgW A tau wops) x (c k) p.2)).indicator (fun _ => (1 : ℝ)) r =
          if k = j then 1 else 0) := by
        intro k hk
        have hset := accept_set hA ht hs hx (hR.mem k).2 (hnex k hk) p.2 hm
        have hmem : r ∈ Set.Ico 0 (accFlow (cfgW A tau wops) x (c k) p.2) ↔ k = j := by
          rw [← hset, Set.mem_ofPred_eq]
          constructor
          · rintro ⟨-, -, s2, e2, h2⟩
            rw [e, Option.some.injEq] at e2
            rw [← e2] at h2
            exact hR.inj _ _ (h2.same ht hj)
          · rintro rfl
            exact ⟨hr.1, hr.2, s', e, hj⟩
        by_cases hkj : k = j
        · rw [Set.indicator_of_mem (hmem.2 hkj), if_pos hkj]
        · rw [Set.indicator_of_notMem (fun h => hkj (hmem.1 h)), if_neg hkj]
      simp only [e, Option.elim_some, hF s' i1 w1 j hj]
      rw [Finset.sum_congr rfl fun k hk => by rw [hind k (Finset.ne_of_mem_erase hk)]]
      simp only [mul_ite, mul_one, mul_zero, Finset.sum_ite_eq', Finset.mem_erase, Finset.mem_univ, and_true]
      by_cases hji : j = i
      · rw [if_neg (not_not.2 hji), hji, add_zero]
      · rw [if_pos hji]; ring
    rw [setIntegral_congr_fun measurableSet_Ico hpt]
    have hb := fun k => accFlow_bounds (A := A) (tau := tau) (wops := wops) (x := x) (y := c k) (o := p.2)
      fun mv cc h => (hm mv cc h).corr
    have hint : ∀ k, IntegrableOn (fun r : ℝ => (Q k - Q i) *
        (Set.Ico 0 (accFlow (cfgW A tau wops) x (c k) p.2)).indicator (fun _ => (1 : ℝ)) r) (Set.Ico 0 1) := by
      intro k
      refine Integrable.const_mul ?_ _
      refine (integrable_indicator_iff measurableSet_Ico).2 ?_
      refine integrableOn_const ?_
      rw [Measure.restrict_apply measurableSet_Ico]
      exact ne_of_lt (lt_of_le_of_lt (measure_mono Set.inter_subset_right) (by simp))
    rw [integral_add (integrable_const _) (integrable_finsetSum _ fun k _ => hint k),
      integral_finsetSum _ fun k _ => hint k]
    congr 1
    · simp
    · refine Finset.sum_congr rfl fun k _ => ?_
      rw [integral_const_mul, integral_indicator measurableSet_Ico, Measure.restrict_restrict measurableSet_Ico,
        Set.Ico_inter_Ico]
      simp [(hb k).1, (hb k).2]
  rw [mean_congr_mem (g := fun o => Q i + ∑ j ∈ Finset.univ.erase i, (Q j - Q i) *
    accFlow (cfgW A tau wops) x (c j) o) key, mean_add, stepK_apply]
  have hone := hP.one x fx
  have e1 : mean (prop x) (fun _ => Q i) = Q i := by
    have := mean_mul_left (prop x) (Q i) (fun _ => 1)
    rw [hone, mul_one] at this
    simpa using this
  have e2 : mean (prop x) (fun o => ∑ j ∈ Finset.univ.erase i, (Q j - Q i) * accFlow (cfgW A tau wops) x (c j) o) =
      ∑ j ∈ Finset.univ.erase i, (Q j - Q i) * flow (cfgW A tau wops) prop x (c j) := by
    unfold flow
    generalize Finset.univ.erase i = S
    induction S using Finset.induction_on with
    | empty => simp
    | insert a S ha ih => simp only [Finset.sum_insert ha, mean_add, ih, mean_mul_left]
  rw [e1, e2]
  congr 1
  refine Finset.sum_congr rfl fun j _ => ?_
  rw [C61_order hδ he hsame hP.bal hsm.symm fx (hR.mem i).1 (hR.mem j).1 gx (hR.mem j).2]

theorem stepK_stationary (hR : Reprs A tau wops Fam c) {prop : PCfg T W → Rand ℝ (Option (Mv T W × ℝ))}
    (hb : BalancedW δ dim eta Fam prop) (j : X) :
    ∑ i, gridW A tau wops δ dim eta (c i) * stepK (cfgW A tau wops) prop c i j = gridW A tau wops δ dim eta (c j) := by
  have key : ∀ i, gridW A tau wops δ dim eta (c i) * stepK (cfgW A tau wops) prop c i j =
      gridW A tau wops δ dim eta (c j) * stepK (cfgW A tau wops) prop c j i := by
    intro i
    unfold stepK
    by_cases hij : i = j
    · rw [hij]
    · rw [if_neg hij, if_neg (Ne.symm hij)]
      exact hb _ _ _ (hR.mem i).1 (hR.mem j).1 (hR.mem i).2.pos (hR.mem j).2.pos
  rw [Finset.sum_congr rfl fun i _ => key i, ← Finset.mul_sum]
  have := stepK_apply (cfgW A tau wops) prop c j (fun _ => 1)
  simp only [mul_one, sub_self, zero_mul, Finset.sum_const_zero, add_zero] at this
  rw [this, mul_one]

/-- **C61, the random walk of the code.**  Whatever the order of the lists in the code: a sequence of updates and moves of the
window acts on the configurations as a Markov chain.  Expectation values of functions which depend only on the
configuration are given by a matrix `P` with row sums one, for which the weight is stationary. -/
theorem C61_run (hA : A.OK) (ht : Function.Injective tau) (hδ : 0 < δ) (he : ∀ x, 0 < eta x)
    (hsame : ∀ x y : PCfg T W, x.Same y → eta x = eta y ∧ dim x = dim y) (hR : Reprs A tau wops Fam c)
    (rd : CodeState A W → PCfg T W) (hrd : ∀ s x, Reps A tau wops x s → Reps A tau wops (rd s) s)
    (steps : List (RStep A T W)) (st : SavedState) (hok : RunOK A tau wops Fam δ dim eta st steps) :
    ∃ P : X → X → ℝ, (∀ i, ∑ j, P i j = 1) ∧
      (∀ j, ∑ i, gridW A tau wops δ dim eta (c i) * P i j = gridW A tau wops δ dim eta (c j)) ∧
      ∀ (F : CodeState A W → ℝ) (f : X → ℝ),
        (∀ s : CodeState A W, SimInv A.env A.Inv (pmDet A.P) s.1 → ∀ j, Reps A tau wops (c j) s → F s = f j) →
        ∀ (s : CodeState A W) (i : X), SimInv A.env A.Inv (pmDet A.P) s.1 → getState s.1.sw = st → Reps A tau wops (c i) s →
          codeRun A tau wops rd F steps s = ∑ j, P i j * f j := by
  induction steps generalizing st with
  | nil =>
    refine ⟨fun i j => if i = j then 1 else 0, by simp, by simp, fun F f hF s i hs _ h => ?_⟩
    simp [codeRun, hF s hs i h]
  | cons a rest ih =>
    obtain ⟨st', h1, h2, h3⟩ := hok
    obtain ⟨P, p1, p2, p3⟩ := ih st' h3
    set prop := a.prop (tauEdge A.beta st'.n st'.posR) (tauEdge A.beta st'.n st'.posL) with hprop
    refine ⟨fun i j => ∑ k, stepK (cfgW A tau wops) prop c i k * P k j, fun i => ?_, fun j => ?_,
      fun F f hF s i hs hst h => ?_⟩
    · rw [Finset.sum_comm]
      simp only [← Finset.mul_sum, p1]
      have := stepK_apply (cfgW A tau wops) prop c i (fun _ => 1)
      simpa using this
    · simp only [Finset.mul_sum]
      rw [Finset.sum_comm]
      calc _ = ∑ k, (∑ i, gridW A tau wops δ dim eta (c i) * stepK (cfgW A tau wops) prop c i k) * P k j := by
            refine Finset.sum_congr rfl fun k _ => ?_
            rw [Finset.sum_mul]
            exact Finset.sum_congr rfl fun i _ => by ring
        _ = ∑ k, gridW A tau wops δ dim eta (c k) * P k j := by
            exact Finset.sum_congr rfl fun k _ => by rw [stepK_stationary hR h2.bal]
        _ = _ := p2 j
    · obtain ⟨s1, e1, i1, c1, w1⟩ := h1 s hs hst
      have hr : Reps A tau wops (c i) (s1, s.2) :=
        ⟨by rw [c1]; exact h.cd, by rw [c1]; exact h.c, h.worm, by rw [c1]; exact h.wops⟩
      have l1 : loEdge A (s1, s.2) = tauEdge A.beta st'.n st'.posR := by rw [← w1]; rfl
      have u1 : hiEdge A (s1, s.2) = tauEdge A.beta st'.n st'.posL := by rw [← w1]; rfl
      rw [codeRun, e1, Option.elim_some, l1, u1]
      rw [← l1, ← u1] at h2
      rw [step_mean hA ht hδ he hsame hR h2 i1 hr (hrd _ _ hr) _ (fun k => ∑ j, P k j * f j) ?_]
      · simp only [Finset.sum_mul, Finset.mul_sum]
        rw [Finset.sum_comm]
        exact Finset.sum_congr rfl fun j _ => Finset.sum_congr rfl fun k _ => by ring
      · intro s' hs' hw j hj
        exact p3 F f hF s' j hs' (by rw [hw]; exact w1) hj

/-- **C61, stationarity.**  If the initial configuration is distributed according to its weight, then so is
the configuration after any sequence of updates and moves of the window: expectation values do not change. -/
theorem C61_stationary (hA : A.OK) (ht : Function.Injective tau) (hδ : 0 < δ) (he : ∀ x, 0 < eta x)
    (hsame : ∀ x y : PCfg T W, x.Same y → eta x = eta y ∧ dim x = dim y) (hR : Reprs A tau wops Fam c)
    (rd : CodeState A W → PCfg T W) (hrd : ∀ s x, Reps A tau wops x s → Reps A tau wops (rd s) s)
    (F : CodeState A W → ℝ) (f : X → ℝ)
    (hF : ∀ s : CodeState A W, SimInv A.env A.Inv (pmDet A.P) s.1 → ∀ j, Reps A tau wops (c j) s → F s = f j)
    (steps : List (RStep A T W)) (st : SavedState) (hok : RunOK A tau wops Fam δ dim eta st steps)
    (s : X → CodeState A W) (hs : ∀ i, SimInv A.env A.Inv (pmDet A.P) (s i).1) (hst : ∀ i, getState (s i).1.sw = st)
    (h : ∀ i, Reps A tau wops (c i) (s i)) :
    ∑ i, gridW A tau wops δ dim eta (c i) * codeRun A tau wops rd F steps (s i) =
      ∑ j, gridW A tau wops δ dim eta (c j) * f j := by
  obtain ⟨P, -, p2, p3⟩ := C61_run hA ht hδ he hsame hR rd hrd steps st hok
  calc _ = ∑ i, ∑ j, gridW A tau wops δ dim eta (c i) * P i j * f j := by
        refine Finset.sum_congr rfl fun i _ => ?_
        rw [p3 F f hF (s i) i (hs i) (hst i) (h i), Finset.mul_sum]
        exact Finset.sum_congr rfl fun j _ => by ring
    _ = ∑ j, (∑ i, gridW A tau wops δ dim eta (c i) * P i j) * f j := by
        rw [Finset.sum_comm]
        exact Finset.sum_congr rfl fun j _ => by rw [Finset.sum_mul]
    _ = _ := Finset.sum_congr rfl fun j _ => by rw [p2]

end CTHyb
