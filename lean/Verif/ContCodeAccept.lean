import Verif.ContCodeProps

/-!
The acceptance test of the code in continuous time: an update of the actual simulation (`codeStep`) in a state with the
configuration `x` does what `accE` says, with the weight `codeW`.
-/

namespace CTHyb

open Rand MeasureTheory ENNReal

variable {𝕜 : Type} [RCLike 𝕜] {N : ℕ}

/-- `rng() < q`. -/
theorem lintegral_step (q : ℝ) (hq : 0 ≤ q) (a b : ℝ≥0∞) :
    ∫⁻ r in Set.Ico (0 : ℝ) 1, (if r < q then a else b) =
      ENNReal.ofReal (min 1 q) * a + (1 - ENNReal.ofReal (min 1 q)) * b := by
  have h0 : 0 ≤ min 1 q := le_min zero_le_one hq
  have h1 : min 1 q ≤ 1 := min_le_left _ _
  rw [← Set.Ico_union_Ico_eq_Ico h0 h1, lintegral_union measurableSet_Ico
    (Set.disjoint_left.2 fun r h h' => absurd h.2 (not_lt.2 h'.1))]
  have e1 : ∫⁻ r in Set.Ico 0 (min 1 q), (if r < q then a else b) = ∫⁻ _ in Set.Ico 0 (min 1 q), a :=
    setLIntegral_congr_fun measurableSet_Ico fun r hr => if_pos (lt_of_lt_of_le hr.2 (min_le_right _ _))
  have e2 : ∫⁻ r in Set.Ico (min 1 q) 1, (if r < q then a else b) = ∫⁻ _ in Set.Ico (min 1 q) 1, b :=
    setLIntegral_congr_fun measurableSet_Ico fun r hr => if_neg fun h =>
      absurd (lt_min hr.2 h) (not_lt.2 hr.1)
  rw [e1, e2, setLIntegral_const, setLIntegral_const, Real.volume_Ico, Real.volume_Ico, sub_zero,
    ENNReal.ofReal_sub _ h0, ENNReal.ofReal_one, mul_comm a, mul_comm b]

/-- The configuration after the move. -/
noncomputable def moved (x : WCfg ℝ) (mv : Mv ℝ (Option (Worm ℝ))) : WCfg ℝ :=
  ⟨((x.cd : Multiset (BOp ℝ)) - mv.cdRem + mv.cdAdd).toList, ((x.c : Multiset (BOp ℝ)) - mv.cRem + mv.cAdd).toList, mv.worm⟩

theorem moved_at {B : Type} (F : CfgFun (Option (Worm ℝ)) B) (x : WCfg ℝ) (mv : Mv ℝ (Option (Worm ℝ))) :
    F.at (moved x mv) = F.after x mv := by
  unfold CfgFun.at CfgFun.after moved
  rw [Multiset.coe_toList, Multiset.coe_toList]

theorem moved_leads (x : WCfg ℝ) (mv : Mv ℝ (Option (Worm ℝ))) : Leads x mv (moved x mv) := by
  unfold Leads moved
  rw [Multiset.coe_toList, Multiset.coe_toList]
  exact ⟨rfl, rfl, rfl⟩

theorem same_moved {x y : WCfg ℝ} {mv : Mv ℝ (Option (Worm ℝ))} (h : Leads x mv y) : (moved x mv).Same y := by
  obtain ⟨h1, h2, h3⟩ := h
  unfold moved
  rw [h1, h2, h3]
  exact ⟨Multiset.coe_eq_coe.1 (Multiset.coe_toList _), Multiset.coe_eq_coe.1 (Multiset.coe_toList _), rfl⟩

theorem at_same {B : Type} (F : CfgFun (Option (Worm ℝ)) B) {x y : WCfg ℝ} (h : x.Same y) : F.at x = F.at y := by
  unfold CfgFun.at
  rw [Multiset.coe_eq_coe.2 h.1, Multiset.coe_eq_coe.2 h.2.1, h.2.2]

variable {A : CodeArgs 𝕜 N} {x : WCfg ℝ} {s : CodeState A (Option (Worm ℝ))}

/-- The flavors of the operators in a state exist. -/
theorem Reps.codeCfg (hs : SimInv A.env A.Inv (pmDet A.P) s.1) (h : Reps A id (codeWops id) x s) : CodeCfg A.P.nf x := by
  obtain ⟨p, hp, hi⟩ := hs.inv
  have h1 := h.cd
  have h2 := h.c
  rw [hp] at h1 h2
  refine ⟨h.nodup hs, fun o ho => ?_, fun o ho => ?_⟩
  · exact (hi.cdOK.valid (mkOp id .creation o) (Multiset.mem_coe.2 (h1.mem_iff.2 (List.mem_map_of_mem ho)))).1
  · exact (hi.cOK.valid (mkOp id .annihilation o) (Multiset.mem_coe.2 (h2.mem_iff.2 (List.mem_map_of_mem ho)))).1

theorem Reps.codeW (hs : SimInv A.env A.Inv (pmDet A.P) s.1) (h : Reps A id (codeWops id) x s) :
    (codeW A).at x = cfgW A id (codeWops id) x := by
  classical
  rw [codeW_at, if_pos (h.codeCfg hs)]

theorem moved_flavors {nf : ℕ} {a b c : List (BOp ℝ)} (ha : ∀ o ∈ a, o.2 < nf) (hc : ∀ o ∈ c, o.2 < nf) :
    ∀ o ∈ ((a : Multiset (BOp ℝ)) - b + c).toList, o.2 < nf := by
  intro o ho
  rw [Multiset.mem_toList, Multiset.mem_add] at ho
  rcases ho with ho | ho
  · exact ha o (Multiset.mem_of_le (Multiset.sub_le_self _ _) ho)
  · exact hc o ho

/-- **Specification.**  In the states with the window of `s` and a configuration from the class `R`, `F` is the function `ψ` of the
configuration. -/
def ReadsCfg (A : CodeArgs 𝕜 N) (R : WCfg ℝ → Prop) (s : CodeState A (Option (Worm ℝ))) (ψ : CfgFun (Option (Worm ℝ)) ℝ≥0∞)
    (F : CodeState A (Option (Worm ℝ)) → ℝ≥0∞) : Prop :=
  ∀ s' : CodeState A (Option (Worm ℝ)), SimInv A.env A.Inv (pmDet A.P) s'.1 → s'.1.sw = s.1.sw →
    ∀ y, R y → Reps A id (codeWops id) y s' → F s' = ψ.at y

/-- **C83** (acceptance).  In a state `s` of the simulation with the configuration `x`, an update with an admissible proposal: the
expectation value over the random number of the acceptance test of a function of the configuration afterwards is what `accE` gives
with the weight of the code, the configuration staying if the proposal is rejected; no exception occurs. -/
theorem C83_accept (hA : A.OK) (hs : SimInv A.env A.Inv (pmDet A.P) s.1) (h : Reps A id (codeWops id) x s)
    {mv : Mv ℝ (Option (Worm ℝ))} {corr : ℝ} (hm : MvOK A id (codeWops id) (loEdge A s) (hiEdge A s) x mv corr)
    {R : WCfg ℝ → Prop} (hR : ∀ x y : WCfg ℝ, x.Same y → R x → R y) (hx' : R x) (hmv : R (moved x mv))
    {ψ : CfgFun (Option (Worm ℝ)) ℝ≥0∞} {F : CodeState A (Option (Worm ℝ)) → ℝ≥0∞} (hF : ReadsCfg A R s ψ F) :
    (∀ r, 0 ≤ r → (codeStep A id (codeWops id) (some (mv, corr)) r s).isSome) ∧
    ∫⁻ r in Set.Ico (0 : ℝ) 1, (codeStep A id (codeWops id) (some (mv, corr)) r s).elim 0 F =
      accE (codeW A) ψ x mv corr + (1 - accE (codeW A) (fun _ _ _ => 1) x mv corr) * ψ.at x := by
  classical
  have hu := fun r hr => C61_update hA Function.injective_id hs h hm r hr
  refine ⟨fun r hr => by obtain ⟨s', e, -⟩ := hu r hr; rw [e]; rfl, ?_⟩
  have hx := h.codeW hs
  have gx := h.good hA hs
  have hleads := moved_leads x mv
  unfold accE
  rw [← moved_at (codeW A), ← moved_at ψ, ← moved_at (fun _ _ _ => (1 : ℝ≥0∞)),
    show CfgFun.at (fun _ _ _ => (1 : ℝ≥0∞)) (moved x mv) = 1 from rfl, mul_one]
  by_cases hsame : x.Same (moved x mv)
  · have hle : ENNReal.ofReal (min 1 ((codeW A).at (moved x mv) / (codeW A).at x * corr)) ≤ 1 := by
      rw [← ENNReal.ofReal_one]
      exact ENNReal.ofReal_le_ofReal (min_le_left _ _)
    rw [← at_same ψ hsame, ← add_mul, add_tsub_cancel_of_le hle, one_mul]
    have e : ∫⁻ r in Set.Ico (0 : ℝ) 1, (codeStep A id (codeWops id) (some (mv, corr)) r s).elim 0 F =
        ∫⁻ _ in Set.Ico (0 : ℝ) 1, ψ.at x := by
      refine setLIntegral_congr_fun measurableSet_Ico fun r hr => ?_
      obtain ⟨s', e, i1, w1, ⟨y, hy, hy'⟩, -⟩ := hu r hr.1
      simp only [e, Option.elim_some]
      rw [hF s' i1 w1 y (hy'.elim (fun h => hR _ _ h hx') fun h => hR _ _ (same_moved h) hmv) hy]
      rcases hy' with hy' | hy'
      · exact (at_same ψ hy').symm
      · exact (at_same ψ (hsame.trans (same_moved hy'))).symm
    rw [e, setLIntegral_const, Real.volume_Ico]
    simp
  · by_cases hg : (moved x mv).Good A id (codeWops id)
    · have hc : (codeW A).at (moved x mv) = cfgW A id (codeWops id) (moved x mv) := by
        have hcx := h.codeCfg hs
        rw [codeW_at, if_pos ⟨hg.nodup, moved_flavors hcx.2.1 hm.cdAdd, moved_flavors hcx.2.2 hm.cAdd⟩]
      rw [hx, hc, ← lintegral_step _ (mul_nonneg (div_nonneg (cfgW_nonneg _) (cfgW_nonneg _)) hm.corr.le)]
      refine setLIntegral_congr_fun measurableSet_Ico fun r hr => ?_
      obtain ⟨s', e, i1, w1, ⟨y, hy, hy'⟩, hiff⟩ := hu r hr.1
      simp only [e, Option.elim_some]
      have hk := hiff _ hg hsame
      split_ifs with hlt
      · exact hF s' i1 w1 _ hmv (hk.2 ⟨hleads, hlt⟩)
      · rw [hF s' i1 w1 y (hy'.elim (fun h => hR _ _ h hx') fun h => hR _ _ (same_moved h) hmv) hy]
        rcases hy' with hy' | hy'
        · exact (at_same ψ hy').symm
        · exact absurd (hk.1 (hy.of_same (same_moved hy').symm)).2 hlt
    · have hc : (codeW A).at (moved x mv) = 0 := by
        rw [codeW_at]
        split_ifs with hcc
        · by_contra h0
          exact hg ⟨hcc.1, h0⟩
        · rfl
      rw [hc, zero_div, zero_mul, min_eq_right zero_le_one, ENNReal.ofReal_zero, zero_mul, zero_add, tsub_zero, one_mul]
      have e : ∫⁻ r in Set.Ico (0 : ℝ) 1, (codeStep A id (codeWops id) (some (mv, corr)) r s).elim 0 F =
          ∫⁻ _ in Set.Ico (0 : ℝ) 1, ψ.at x := by
        refine setLIntegral_congr_fun measurableSet_Ico fun r hr => ?_
        obtain ⟨s', e, i1, w1, ⟨y, hy, hy'⟩, -⟩ := hu r hr.1
        simp only [e, Option.elim_some]
        rw [hF s' i1 w1 y (hy'.elim (fun h => hR _ _ h hx') fun h => hR _ _ (same_moved h) hmv) hy]
        rcases hy' with hy' | hy'
        · exact (at_same ψ hy').symm
        · exact absurd ((hy.good hA i1).of_same (same_moved hy').symm) hg
      rw [e, setLIntegral_const, Real.volume_Ico]
      simp

end CTHyb
