import Verif.SamplingGlobalLemmas

/-!
Global updates of the code leave the weight of the configurations stationary, and so does the whole loop of `update`.

Specification.  `GMove.act` as in `Verif.SamplingGlobalLemmas`.  `GDraw`: a random global update whose inverse is drawn with the same
probability.
-/

set_option linter.unusedSectionVars false

namespace CTHyb

open Matrix Rand MeasureTheory

variable {𝕜 : Type} [RCLike 𝕜] [DecidableEq 𝕜] {N : ℕ}

section spec

/-- No factor of the determinant of the configuration is negligible, whatever the order of the lists; see `C54_singular_accepted`
for what happens otherwise. -/
def NoSmall (A : CodeArgs 𝕜 N) (tau : ℤ → ℝ) (x : WCfg ℤ) : Prop :=
  ∀ cds cs, cds.Perm (x.cd.map (mkOp tau .creation)) → cs.Perm (x.c.map (mkOp tau .annihilation)) →
    NoSmallFactor (normAbs 𝕜) A.eps (newFactors A.G A.lu A.blockOf A.P.ns cds cs)

/-- What holds between global updates. -/
structure GlobInv (A : CodeArgs 𝕜 N) (s : CodeState A (Option (Worm ℤ))) : Prop where
  inv : SimInv A.env A.Inv (pmDet A.P) s.1
  vec : s.1.detVec.prod = pmDet A.P s.1.cfg.M
  n : s.1.sw.n = 1
  posR : s.1.sw.posR = 0

/-- A random global update: `inv m` undoes `m` and is drawn as often as `m`. -/
structure GDraw (A : CodeArgs 𝕜 N) (a : MoveArgs) (M : ℕ) (g : Rand ℝ GMove) (inv : GMove → GMove) : Prop where
  ok : ∀ p ∈ g, p.2.OK A.P.nf M
  left : ∀ p ∈ g, ∀ x, OnGrid A.P.nf a.G a.kinds x → ((inv p.2).act M (p.2.act M x)).Same x
  right : ∀ p ∈ g, ∀ x, OnGrid A.P.nf a.G a.kinds x → (p.2.act M ((inv p.2).act M x)).Same x
  sym : ∀ h : GMove → ℝ, mean g (fun m => h (inv m)) = mean g h
  one : mean g (fun _ => 1) = 1
  small : ∀ p ∈ g, ∀ x, OnGrid A.P.nf a.G a.kinds x → x.Good A a.tau (codeWops a.tau) → NoSmall A a.tau (p.2.act M x)

/-- Probability that the global update `m` leads from `x` to `y`. -/
noncomputable def gFlow (A : CodeArgs 𝕜 N) (tau : ℤ → ℝ) (M : ℕ) (x y : WCfg ℤ) (m : GMove) : ℝ :=
  open Classical in
  if x.cd ≠ [] ∧ (m.act M x).Same y then min 1 (cfgW A tau (codeWops tau) y / cfgW A tau (codeWops tau) x) else 0

end spec

variable {A : CodeArgs 𝕜 N} {a : MoveArgs} {M : ℕ}

theorem cfgW_of_perm {tau : ℤ → ℝ} {wops : Option (Worm ℤ) → Option (List (TPsi ℝ))} {y : WCfg ℤ}
    (hn : ((y.ops tau wops).map Psi.time).Nodup) {cds cs wo : List (TPsi ℝ)}
    (p1 : cds.Perm (y.cd.map (mkOp tau .creation))) (p2 : cs.Perm (y.c.map (mkOp tau .annihilation)))
    (p3 : wo = wormOps (wops y.worm)) : ‖weightOf A.env.V A.env.G cds cs wo‖ = cfgW A tau wops y := by
  have e : y.sorted tau wops = timeSort (cds ++ cs ++ wo) := by
    refine sorted_eq_timeSort _ _ (y.sorted_sorted hn) (y.sorted_perm.trans ?_)
    rw [PCfg.ops, p3]
    exact ((p1.append p2).append_right _).symm
  have hn' := hn
  rw [PCfg.ops, List.map_append, List.map_append] at hn'
  have n1 := (List.nodup_append.1 (List.nodup_append.1 hn').1).1
  have n2 := (List.nodup_append.1 (List.nodup_append.1 hn').1).2.1
  unfold cfgW CodeArgs.weight weightOf
  rw [e, timeDet_congr A.env.G p2 p1 ((p2.map Psi.time).nodup_iff.2 n2) ((p1.map Psi.time).nodup_iff.2 n1)]
  rfl

/-- **C61, a global update.**  In every state a global update with transformation `m` does not throw; it is accepted exactly
if the random number is below the ratio of the weights of the transformed and of the present configuration, and the
state then holds the transformed configuration, otherwise the old one. -/
theorem C61_global_update (hA : A.OK) (ha : a.OK A M) {m : GMove} (hm : m.OK A.P.nf M) {x : WCfg ℤ}
    (hx : OnGrid A.P.nf a.G a.kinds x) (hsm : NoSmall A a.tau (m.act M x)) {s : CodeState A (Option (Worm ℤ))}
    (hs : GlobInv A s) (hr : Reps A a.tau (codeWops a.tau) x s) {nwin : ℕ} (hw : 1 ≤ nwin) (r : ℝ) (h0 : 0 ≤ r) :
    ∃ s', codeGlobal A M m nwin r s = some s' ∧ GlobInv A s' ∧
      (x.cd ≠ [] ∧ r < cfgW A a.tau (codeWops a.tau) (m.act M x) / cfgW A a.tau (codeWops a.tau) x →
        Reps A a.tau (codeWops a.tau) (m.act M x) s') ∧
      (¬ (x.cd ≠ [] ∧ r < cfgW A a.tau (codeWops a.tau) (m.act M x) / cfgW A a.tau (codeWops a.tau) x) →
        Reps A a.tau (codeWops a.tau) x s') := by
  have hE := C60_lawful A hA
  obtain ⟨e1, e2, e3⟩ := GMove.act_ops ha hm hx
  set f := m.op A.beta M with hf
  have p1 : ((A.env.D.cdagg s.1.cfg.M).map f).Perm ((m.act M x).cd.map (mkOp a.tau .creation)) := by
    rw [e1]; exact hr.cd.map f
  have p2 : ((A.env.D.cs s.1.cfg.M).map f).Perm ((m.act M x).c.map (mkOp a.tau .annihilation)) := by
    rw [e2]; exact hr.c.map f
  have p3 : s.1.cfg.worm.map (List.map f) = codeWops a.tau (m.act M x).worm := by
    rw [e3, hr.wops]
  have hnx := hr.nodup hs.inv
  have hny := GMove.act_nodup ha hm hx hnx
  have hgy := GMove.act_grid ha hm hx
  have pall : ((A.env.D.cdagg s.1.cfg.M).map f ++ (A.env.D.cs s.1.cfg.M).map f ++
      wormOps (s.1.cfg.worm.map (List.map f))).Perm ((m.act M x).ops a.tau (codeWops a.tau)) := by
    rw [PCfg.ops, p3]; exact (p1.append p2).append_right _
  have g2 := (pall.map Psi.time).nodup_iff.2 hny
  have g3 : ∀ o ∈ (A.env.D.cdagg s.1.cfg.M).map f ++ (A.env.D.cs s.1.cfg.M).map f ++
      wormOps (s.1.cfg.worm.map (List.map f)), opT 0 ≤ o.time ∧ o.time ≤ opT A.env.V.beta := by
    intro o ho
    obtain ⟨t, ht, e⟩ := hgy.time o (pall.mem_iff.1 ho)
    rw [ha.G] at ht
    have := grid_times ha.beta ha.grid ht
    rw [← ha.tau, ← e] at this
    constructor
    · rw [OpTime.le_def]; exact Or.inl this.1
    · rw [OpTime.le_def]; exact Or.inl this.2
  have g4 : ∀ o ∈ (A.env.D.cdagg s.1.cfg.M).map f ++ (A.env.D.cs s.1.cfg.M).map f,
      A.env.blockOf o.flavor < A.env.nb := by
    intro o ho
    have : o.flavor < A.P.nf := by
      rcases List.mem_append.1 ho with h | h
      · obtain ⟨b, hb, rfl⟩ := List.mem_map.1 (p1.mem_iff.1 h); exact (hgy.cd_mem b hb).2
      · obtain ⟨b, hb, rfl⟩ := List.mem_map.1 (p2.mem_iff.1 h); exact (hgy.c_mem b hb).2
    change A.blockOf o.flavor < A.P.ns
    rw [CodeArgs.blockOf, if_pos this]; exact hA.sectors _ this
  have g5 : NoSmallFactor A.env.abv A.env.eps (newFactors A.env.G A.env.lu A.env.blockOf A.env.nb
      ((A.env.D.cdagg s.1.cfg.M).map f) ((A.env.D.cs s.1.cfg.M).map f)) := hsm _ _ p1 p2
  obtain ⟨s1, acc, q1, q2, q3, q4, q5⟩ := globalStep_ok hE ⟨f, List.map f, r⟩ hw s.1 hs.inv hs.vec hs.n hs.posR
    ⟨h0, g2, g3, g4, g5⟩
  obtain ⟨s2, acc2, r1, -, r3, r4⟩ := C54_global_update A.env.toGEnv (pmDet A.P) hE.glob f (List.map f) r h0 nwin hw s.1
    (hs.inv.toGInv hE hs.vec hs.n hs.posR) g2 g3 g4 g5
  rw [r1, Option.some.injEq, Prod.mk.injEq] at q1
  obtain ⟨rfl, rfl⟩ := q1
  have hcd : A.env.D.cdagg s.1.cfg.M = [] ↔ x.cd = [] := by
    rw [← List.length_eq_zero_iff, ← List.length_eq_zero_iff, hr.cd.length_eq, List.length_map]
  have wnew : ‖weightOf A.env.V A.env.G ((A.env.D.cdagg s.1.cfg.M).map f) ((A.env.D.cs s.1.cfg.M).map f)
      (wormOps (s.1.cfg.worm.map (List.map f)))‖ = cfgW A a.tau (codeWops a.tau) (m.act M x) :=
    cfgW_of_perm hny p1 p2 (by rw [p3])
  have wold : ‖weightOf A.env.V A.env.G (A.env.D.cdagg s.1.cfg.M) (A.env.D.cs s.1.cfg.M)
      (wormOps s.1.cfg.worm)‖ = cfgW A a.tau (codeWops a.tau) x := cfgW_of_perm hnx hr.cd hr.c (by rw [hr.wops])
  have hacc : A.env.D.cdagg s.1.cfg.M ≠ [] → (acc2 = true ↔
      r < cfgW A a.tau (codeWops a.tau) (m.act M x) / cfgW A a.tau (codeWops a.tau) x) := by
    intro h
    rw [← wnew, ← wold, ← norm_div]
    exact (r4 h).1
  have hcode : codeGlobal A M m nwin r s = if acc2 = true ∧ A.env.D.cdagg s.1.cfg.M ≠ [] then
      (match s.2 with
      | none => some (s2, none)
      | some w => (m.worm M w).map fun w' => (s2, some w'))
    else some (s2, s.2) := by
    unfold codeGlobal
    rw [r1]
    rfl
  by_cases hc : acc2 = true ∧ A.env.D.cdagg s.1.cfg.M ≠ []
  · refine ⟨(s2, (m.act M x).worm), ?_, ⟨q2, q3, q4, q5⟩, fun _ => ?_, fun h => ?_⟩
    · rw [hcode, if_pos hc, hr.worm]
      rcases hxw : x.worm with _ | w
      · simp [GMove.act, hxw]
      · obtain ⟨v1, -, -, v4⟩ := hx.worm w hxw
        rw [ha.G] at v4
        simp only [GMove.worm_eq hm w v1 v4, GMove.act, hxw, Option.map_some]
    · obtain ⟨t1, t2, t3⟩ := (r4 hc.2).2.1 hc.1
      exact ⟨t1.trans p1, t2.trans p2, rfl, t3.trans p3⟩
    · exact absurd ⟨fun h' => hc.2 (hcd.2 h'), (hacc hc.2).1 hc.1⟩ h
  · have hcfg : s2.cfg = s.1.cfg := by
      by_cases h : A.env.D.cdagg s.1.cfg.M = []
      · rw [(r3 h).1]
      · exact (r4 h).2.2 (by
          rcases hb : acc2 with _ | _
          · rfl
          · exact absurd ⟨hb, h⟩ hc)
    refine ⟨(s2, s.2), by rw [hcode, if_neg hc], ⟨q2, q3, q4, q5⟩, fun h => ?_, fun _ => ?_⟩
    · have hne : A.env.D.cdagg s.1.cfg.M ≠ [] := fun h' => h.1 (hcd.1 h')
      exact absurd ⟨(hacc hne).2 h.2, hne⟩ hc
    · exact ⟨by rw [hcfg]; exact hr.cd, by rw [hcfg]; exact hr.c, hr.worm, by rw [hcfg]; exact hr.wops⟩

section chain
variable {X : Type} [Fintype X] [DecidableEq X] {c : X → WCfg ℤ}

/-- Transition matrix made of the probabilities of transitions to other configurations. -/
noncomputable def flowK (fl : X → X → ℝ) (i j : X) : ℝ :=
  if i = j then 1 - ∑ z ∈ Finset.univ.erase i, fl i z else fl i j

theorem flowK_apply (fl : X → X → ℝ) (i : X) (Q : X → ℝ) :
    ∑ j, flowK fl i j * Q j = Q i + ∑ j ∈ Finset.univ.erase i, (Q j - Q i) * fl i j := by
  rw [← Finset.add_sum_erase _ _ (Finset.mem_univ i)]
  have : ∑ j ∈ Finset.univ.erase i, flowK fl i j * Q j = ∑ j ∈ Finset.univ.erase i, fl i j * Q j := by
    refine Finset.sum_congr rfl fun j hj => ?_
    rw [flowK, if_neg (Finset.ne_of_mem_erase hj).symm]
  rw [this, flowK, if_pos rfl, sub_mul, one_mul, Finset.sum_mul, sub_add_eq_add_sub, add_sub_assoc,
    ← Finset.sum_sub_distrib]
  congr 1
  exact Finset.sum_congr rfl fun j _ => by ring

theorem flowK_one (fl : X → X → ℝ) (i : X) : ∑ j, flowK fl i j = 1 := by
  have := flowK_apply fl i (fun _ => 1)
  simpa using this

theorem flowK_stationary {fl : X → X → ℝ} {w : X → ℝ} (h : ∀ i j, i ≠ j → w i * fl i j = w j * fl j i) (j : X) :
    ∑ i, w i * flowK fl i j = w j := by
  have key : ∀ i, w i * flowK fl i j = w j * flowK fl j i := by
    intro i
    by_cases hij : i = j
    · rw [hij]
    · unfold flowK
      rw [if_neg hij, if_neg (Ne.symm hij)]
      exact h i j hij
  rw [Finset.sum_congr rfl fun i _ => key i, ← Finset.mul_sum, flowK_one, mul_one]

theorem gFlow_bounds (x y : WCfg ℤ) (m : GMove) :
    0 ≤ gFlow A a.tau M x y m ∧ gFlow A a.tau M x y m ≤ 1 := by
  unfold gFlow
  split_ifs
  · exact ⟨le_min zero_le_one (div_nonneg (cfgW_nonneg _) (cfgW_nonneg _)), min_le_left _ _⟩
  · exact ⟨le_rfl, zero_le_one⟩

/-- One global update: the expectation value of a function which depends only on the configuration. -/
theorem global_mean (hA : A.OK) (ha : a.OK A M) (hR : Reprs A a.tau (codeWops a.tau) (OnGrid A.P.nf a.G a.kinds) c)
    {g : Rand ℝ GMove} {inv : GMove → GMove} (hg : GDraw A a M g inv) {nwin : ℕ} (hw : 1 ≤ nwin)
    {s : CodeState A (Option (Worm ℤ))} (hs : GlobInv A s) {i : X} (hi : Reps A a.tau (codeWops a.tau) (c i) s)
    (F : CodeState A (Option (Worm ℤ)) → ℝ) (Q : X → ℝ)
    (hF : ∀ s', GlobInv A s' → ∀ j, Reps A a.tau (codeWops a.tau) (c j) s' → F s' = Q j) :
    mean g (fun m => ∫ r in Set.Ico (0 : ℝ) 1, (codeGlobal A M m nwin r s).elim 0 F) =
      ∑ j, flowK (fun i j => mean g (gFlow A a.tau M (c i) (c j))) i j * Q j := by
  have ht : Function.Injective a.tau := by rw [ha.tau]; exact gridTau_inj ha.beta ha.grid
  have fx := (hR.mem i).1
  have gx := (hR.mem i).2
  have key : ∀ p ∈ g, (∫ r in Set.Ico (0 : ℝ) 1, (codeGlobal A M p.2 nwin r s).elim 0 F) =
      Q i + ∑ j ∈ Finset.univ.erase i, (Q j - Q i) * gFlow A a.tau M (c i) (c j) p.2 := by
    intro p hp
    have hm := hg.ok p hp
    set m := p.2 with hmdef
    have hpt : Set.EqOn (fun r => (codeGlobal A M m nwin r s).elim 0 F)
        (fun r => Q i + ∑ j ∈ Finset.univ.erase i, (Q j - Q i) *
          (Set.Ico 0 (gFlow A a.tau M (c i) (c j) m)).indicator (fun _ => (1 : ℝ)) r) (Set.Ico 0 1) := by
      intro r hr
      obtain ⟨s', e, i1, h1, h2⟩ := C61_global_update hA ha hm fx (hg.small p hp _ fx gx) hs hi hw r hr.1
      simp only [e, Option.elim_some]
      by_cases hc : (c i).cd ≠ [] ∧
          r < cfgW A a.tau (codeWops a.tau) (m.act M (c i)) / cfgW A a.tau (codeWops a.tau) (c i)
      · have hy := h1 hc
        have gy := hy.good hA i1.inv
        obtain ⟨j, hj⟩ := hR.all _ (GMove.act_grid ha hm fx) gy
        have hyj : Reps A a.tau (codeWops a.tau) (c j) s' := hy.of_same hj.symm
        rw [hF s' i1 j hyj]
        have hind : ∀ k, (Set.Ico 0 (gFlow A a.tau M (c i) (c k) m)).indicator (fun _ => (1 : ℝ)) r =
            if k = j then 1 else 0 := by
          intro k
          by_cases hkj : k = j
          · rw [hkj, if_pos rfl]
            have hmem : r ∈ Set.Ico 0 (gFlow A a.tau M (c i) (c j) m) := by
              refine ⟨hr.1, ?_⟩
              rw [gFlow, if_pos ⟨hc.1, hj.symm⟩, cfgW_same hj (hR.mem j).2.nodup]
              exact lt_min hr.2 hc.2
            exact Set.indicator_of_mem hmem _
          · rw [if_neg hkj]
            refine Set.indicator_of_notMem (fun h => ?_) _
            rw [gFlow, if_neg fun h' => hkj (hR.inj _ _ (hj.trans h'.2)).symm] at h
            exact absurd h.2 (not_lt.2 h.1)
        simp only [hind, mul_ite, mul_one, mul_zero, Finset.sum_ite_eq', Finset.mem_erase, Finset.mem_univ, and_true]
        by_cases hji : j = i
        · rw [if_neg (not_not.2 hji), hji, add_zero]
        · rw [if_pos hji]; ring
      · rw [hF s' i1 i (h2 hc)]
        have hind : ∀ k, (Set.Ico 0 (gFlow A a.tau M (c i) (c k) m)).indicator (fun _ => (1 : ℝ)) r = 0 := by
          intro k
          refine Set.indicator_of_notMem (fun h => ?_) _
          unfold gFlow at h
          split_ifs at h with h'
          · have hlt := h.2.trans_le (min_le_right _ _)
            have e2 := cfgW_same (A := A) h'.2 (GMove.act_nodup ha hm fx gx.nodup)
            rw [← e2] at hlt
            exact hc ⟨h'.1, hlt⟩
          · exact absurd h.2 (not_lt.2 h.1)
        simp only [hind, mul_zero, Finset.sum_const_zero, add_zero]
    rw [setIntegral_congr_fun measurableSet_Ico hpt]
    have hb := fun k => gFlow_bounds (A := A) (a := a) (M := M) (c i) (c k) m
    have hint : ∀ k, IntegrableOn (fun r : ℝ => (Q k - Q i) *
        (Set.Ico 0 (gFlow A a.tau M (c i) (c k) m)).indicator (fun _ => (1 : ℝ)) r) (Set.Ico 0 1) := by
      intro k
      refine Integrable.const_mul ?_ _
      refine (integrable_indicator_iff measurableSet_Ico).2 ?_
      refine integrableOn_const ?_
      rw [Measure.restrict_apply measurableSet_Ico]
      exact ne_of_lt (lt_of_le_of_lt (measure_mono Set.inter_subset_right) (by simp))
    rw [integral_add (integrable_const _) (integrable_finsetSum _ fun k _ => hint k),
      integral_finsetSum _ fun k _ => hint k]
    congr 1
    · simp
    · refine Finset.sum_congr rfl fun k _ => ?_
      rw [integral_const_mul, integral_indicator measurableSet_Ico, Measure.restrict_restrict measurableSet_Ico,
        Set.Ico_inter_Ico]
      simp [(hb k).1, (hb k).2]
  rw [mean_congr_mem (g := fun m => Q i + ∑ j ∈ Finset.univ.erase i, (Q j - Q i) * gFlow A a.tau M (c i) (c j) m) key,
    mean_add, flowK_apply]
  have e1 : mean g (fun _ => Q i) = Q i := by
    have := mean_mul_left g (Q i) (fun _ => 1)
    rw [hg.one, mul_one] at this
    simpa using this
  have e2 : mean g (fun m => ∑ j ∈ Finset.univ.erase i, (Q j - Q i) * gFlow A a.tau M (c i) (c j) m) =
      ∑ j ∈ Finset.univ.erase i, (Q j - Q i) * mean g (gFlow A a.tau M (c i) (c j)) := by
    generalize Finset.univ.erase i = S
    induction S using Finset.induction_on with
    | empty => simp
    | insert b S hb ih => simp only [Finset.sum_insert hb, mean_add, ih, mean_mul_left]
  rw [e1, e2]

theorem eta_act {sw : WormKind → ℝ} (m : GMove) (x y : WCfg ℤ) (h : (m.act M x).Same y) :
    spaceEta sw x = spaceEta sw y ∧ wormDim x = wormDim y := by
  obtain ⟨h1, h2, h3⟩ := h
  have l1 := h1.length_eq
  have l2 := h2.length_eq
  have hk : ∀ w, (m.wact M w).kind = w.kind := by intro w; cases m <;> rfl
  unfold spaceEta wormDim bathDim
  rw [← h3]
  simp only [GMove.act, List.length_map] at l1 l2 ⊢
  rw [l1, l2]
  rcases x.worm with _ | w
  · exact ⟨rfl, rfl⟩
  · simp [hk]

/-- **C61, detailed balance of global updates.**  A global update whose inverse is drawn with the same probability obeys detailed
balance with respect to the weight. -/
theorem C61_global_balance (hR : Reprs A a.tau (codeWops a.tau) (OnGrid A.P.nf a.G a.kinds) c)
    {g : Rand ℝ GMove} {inv : GMove → GMove} (hg : GDraw A a M g inv) (δ : ℝ) (i j : X) :
    gridW A a.tau (codeWops a.tau) δ wormDim (spaceEta a.sw) (c i) * mean g (gFlow A a.tau M (c i) (c j)) =
      gridW A a.tau (codeWops a.tau) δ wormDim (spaceEta a.sw) (c j) * mean g (gFlow A a.tau M (c j) (c i)) := by
  rw [← hg.sym (gFlow A a.tau M (c j) (c i)), ← mean_mul_left, ← mean_mul_left]
  refine mean_congr_mem fun p hp => ?_
  have hiff : ((c i).cd ≠ [] ∧ (p.2.act M (c i)).Same (c j)) ↔ ((c j).cd ≠ [] ∧ ((inv p.2).act M (c j)).Same (c i)) := by
    have hlen : ∀ (m : GMove) (x y : WCfg ℤ), (m.act M x).Same y → x.cd ≠ [] → y.cd ≠ [] := by
      intro m x y h hx hy
      have := h.1.length_eq
      rw [hy] at this
      simp [GMove.act] at this
      exact hx this
    constructor
    · rintro ⟨h1, h2⟩
      exact ⟨hlen _ _ _ h2 h1, (GMove.act_same _ h2.symm).trans (hg.left p hp _ (hR.mem i).1)⟩
    · rintro ⟨h1, h2⟩
      exact ⟨hlen _ _ _ h2 h1, (GMove.act_same _ h2.symm).trans (hg.right p hp _ (hR.mem j).1)⟩
  unfold gFlow
  by_cases h : (c i).cd ≠ [] ∧ (p.2.act M (c i)).Same (c j)
  · rw [if_pos h, if_pos (hiff.1 h)]
    obtain ⟨e1, e2⟩ := eta_act (sw := a.sw) _ _ _ h.2
    have w1 := (hR.mem i).2.pos
    have w2 := (hR.mem j).2.pos
    unfold gridW
    rw [e1, e2]
    have k : ∀ u v : ℝ, 0 < u → 0 < v → u * min 1 (v / u) = min u v := by
      intro u v hu hv
      rw [mul_min_of_nonneg _ _ hu.le, mul_one, mul_div_cancel₀ _ hu.ne']
    have k1 := k _ _ w1 w2
    have k2 := k _ _ w2 w1
    calc _ = (cfgW A a.tau (codeWops a.tau) (c i) *
          min 1 (cfgW A a.tau (codeWops a.tau) (c j) / cfgW A a.tau (codeWops a.tau) (c i))) *
            (spaceEta a.sw (c j) * δ ^ wormDim (c j)) := by ring
      _ = (cfgW A a.tau (codeWops a.tau) (c j) *
          min 1 (cfgW A a.tau (codeWops a.tau) (c i) / cfgW A a.tau (codeWops a.tau) (c j))) *
            (spaceEta a.sw (c j) * δ ^ wormDim (c j)) := by
          rw [k1, k2, min_comm]
      _ = _ := by ring
  · rw [if_neg h, if_neg fun h' => h (hiff.2 h'), mul_zero, mul_zero]

/-- A number of global updates. -/
theorem globRun_chain (hA : A.OK) (ha : a.OK A M) (hR : Reprs A a.tau (codeWops a.tau) (OnGrid A.P.nf a.G a.kinds) c)
    {nwin : ℕ} (hw : 1 ≤ nwin) (δ : ℝ) (gs : List (Rand ℝ GMove)) (hgs : ∀ g ∈ gs, ∃ inv, GDraw A a M g inv) :
    ∃ P : X → X → ℝ, (∀ i, ∑ j, P i j = 1) ∧
      (∀ j, ∑ i, gridW A a.tau (codeWops a.tau) δ wormDim (spaceEta a.sw) (c i) * P i j =
        gridW A a.tau (codeWops a.tau) δ wormDim (spaceEta a.sw) (c j)) ∧
      ∀ (F : CodeState A (Option (Worm ℤ)) → ℝ) (f : X → ℝ),
        (∀ s, GlobInv A s → ∀ j, Reps A a.tau (codeWops a.tau) (c j) s → F s = f j) →
        ∀ (s : CodeState A (Option (Worm ℤ))) (i : X), GlobInv A s → Reps A a.tau (codeWops a.tau) (c i) s →
          globRun A M nwin F gs s = ∑ j, P i j * f j := by
  induction gs with
  | nil =>
    refine ⟨fun i j => if i = j then 1 else 0, by simp, by simp, fun F f hF s i hs h => ?_⟩
    simp [globRun, hF s hs i h]
  | cons g gs ih =>
    obtain ⟨P, p1, p2, p3⟩ := ih fun g' hg' => hgs g' (List.mem_cons_of_mem _ hg')
    obtain ⟨inv, hg⟩ := hgs g (by simp)
    set K := flowK (fun i j => mean g (gFlow A a.tau M (c i) (c j))) with hK
    refine ⟨fun i j => ∑ k, K i k * P k j, fun i => ?_, fun j => ?_, fun F f hF s i hs h => ?_⟩
    · rw [Finset.sum_comm]
      simp only [← Finset.mul_sum, p1, mul_one]
      exact flowK_one _ i
    · simp only [Finset.mul_sum]
      rw [Finset.sum_comm]
      calc _ = ∑ k, (∑ i, gridW A a.tau (codeWops a.tau) δ wormDim (spaceEta a.sw) (c i) * K i k) * P k j := by
            refine Finset.sum_congr rfl fun k _ => ?_
            rw [Finset.sum_mul]
            exact Finset.sum_congr rfl fun i _ => by ring
        _ = ∑ k, gridW A a.tau (codeWops a.tau) δ wormDim (spaceEta a.sw) (c k) * P k j := by
            refine Finset.sum_congr rfl fun k _ => ?_
            rw [hK, flowK_stationary (w := fun i => gridW A a.tau (codeWops a.tau) δ wormDim (spaceEta a.sw) (c i))
              fun i j _ => C61_global_balance hR hg δ i j]
        _ = _ := p2 j
    · rw [globRun, global_mean hA ha hR hg hw hs h _ (fun k => ∑ j, P k j * f j)
        fun s' hs' j hj => p3 F f hF s' j hs' hj]
      simp only [Finset.sum_mul, Finset.mul_sum]
      rw [Finset.sum_comm]
      exact Finset.sum_congr rfl fun j _ => Finset.sum_congr rfl fun k _ => by rw [hK]; ring

end chain

end CTHyb
