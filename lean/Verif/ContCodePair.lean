import Verif.ContCodeAccept
import Verif.SamplingMovesProps

/-!
The pair updates of the code in continuous time.
-/

namespace CTHyb

open Rand MeasureTheory ENNReal

/-! ### Draws -/

/-- **Specification.**  No operator at the times `Z`; a worm has as many times and flavors as its kind demands. -/
def Reg (nf : ℕ) (Z : Set ℝ) (x : WCfg ℝ) : Prop :=
  (∀ o ∈ x.cd ++ x.c, o.1 ∉ Z) ∧ ∀ u, x.worm = some u → u.Valid ∧ (∀ f ∈ u.flavors, f < nf) ∧ ∀ t ∈ u.times, t ∉ Z

theorem reg_same {nf : ℕ} {Z : Set ℝ} (x y : WCfg ℝ) (h : x.Same y) (hx : Reg nf Z x) : Reg nf Z y :=
  ⟨fun o ho => hx.1 o ((h.1.append h.2.1).mem_iff.2 ho), fun u hu => hx.2 u (h.2.2.trans hu)⟩

/-- The changes of the bath keep a regular configuration regular if the new operators are. -/
theorem reg_moved {nf : ℕ} {Z : Set ℝ} {x : WCfg ℝ} {mv : Mv ℝ (Option (Worm ℝ))} (hx : Reg nf Z x)
    (ha : ∀ o ∈ mv.cdAdd ++ mv.cAdd, o.1 ∉ Z)
    (hw : ∀ u, mv.worm = some u → u.Valid ∧ (∀ f ∈ u.flavors, f < nf) ∧ ∀ t ∈ u.times, t ∉ Z) : Reg nf Z (moved x mv) := by
  refine ⟨fun o ho => ?_, hw⟩
  simp only [moved, List.mem_append, Multiset.mem_toList, Multiset.mem_add, Multiset.mem_coe] at ho
  rcases ho with (ho | ho) | (ho | ho)
  · exact hx.1 o (List.mem_append_left _ (Multiset.mem_of_le (Multiset.sub_le_self _ _) ho))
  · exact ha o (List.mem_append_left _ ho)
  · exact hx.1 o (List.mem_append_right _ (Multiset.mem_of_le (Multiset.sub_le_self _ _) ho))
  · exact ha o (List.mem_append_right _ ho)

theorem ae_preimage {Z : Set ℝ} (hZ : Z.Countable) {f : ℝ → ℝ} (hf : Function.Injective f) :
    ∀ᵐ u ∂(volume.restrict (Set.Ico (0 : ℝ) 1)), f u ∉ Z :=
  ae_restrict_of_ae ((hZ.preimage_of_injOn hf.injOn).ae_notMem volume)

theorem openRandomU_inj {cw : CWin} (hlt : cw.lo < cw.hi) (he : cw.eps = 0) :
    Function.Injective (openRandomU cw.lo cw.hi cw.eps) := by
  intro u v h
  unfold openRandomU openRandom at h
  rw [he] at h
  have hne : cw.hi - cw.lo ≠ 0 := (sub_pos.2 hlt).ne'
  apply mul_left_cancel₀ hne
  linarith

theorem randOpC_congr {cw : CWin} (hlt : cw.lo < cw.hi) (he : cw.eps = 0) (fl : List ℕ) {G G' : BOp ℝ → ℝ≥0∞}
    {Z : Set ℝ} (hZ : Z.Countable) (h : ∀ o, cw.lo < o.1 → o.1 < cw.hi → o.1 ∉ Z → o.2 ∈ fl → G o = G' o) : randOpC cw fl G = randOpC cw fl G' := by
  unfold randOpC
  refine lintegral_congr_ae ?_
  have h0 : ∀ᵐ u ∂(volume.restrict (Set.Ico (0 : ℝ) 1)), u ≠ 0 :=
    ae_restrict_of_ae (Measure.ae_ne volume 0)
  filter_upwards [h0, ae_restrict_mem measurableSet_Ico, ae_preimage hZ (openRandomU_inj hlt he)] with u hu hm hz
  refine meanE_congr fun p hp => h _ ?_ ?_ hz (show p.2 ∈ fl from mem_unif hp)
  · show cw.lo < openRandomU cw.lo cw.hi cw.eps u
    unfold openRandomU openRandom
    rw [he]
    nlinarith [hm.2]
  · show openRandomU cw.lo cw.hi cw.eps u < cw.hi
    unfold openRandomU openRandom
    rw [he]
    have : 0 < u := lt_of_le_of_ne hm.1 (Ne.symm hu)
    nlinarith

/-- The triples the loop of `propose_insertion` draws almost surely. -/
def DrawOK (E : PEnv) (cw : CWin) (Z : Set ℝ) (l : List (ℕ × BOp ℝ × BOp ℝ)) : Prop :=
  ∀ e ∈ l, e.1 < E.ns ∧ (cw.lo < e.2.1.1 ∧ e.2.1.1 < cw.hi ∧ e.2.1.2 < E.nf) ∧
    (cw.lo < e.2.2.1 ∧ e.2.2.1 < cw.hi ∧ e.2.2.2 < E.nf) ∧ e.2.1.1 ∉ Z ∧ e.2.2.1 ∉ Z

theorem insDrawsC_congr_ae {cw : CWin} (hlt : cw.lo < cw.hi) (he : cw.eps = 0) (E : PEnv) {Z : Set ℝ}
    (hZ : Z.Countable) (k : ℕ) :
    ∀ G G' : List (ℕ × BOp ℝ × BOp ℝ) → ℝ≥0∞, (∀ l, l.length = k → DrawOK E cw Z l → G l = G' l) →
      insDrawsC E cw k G = insDrawsC E cw k G' := by
  induction k with
  | zero => exact fun G G' h => h [] rfl (by simp [DrawOK])
  | succ k ih =>
    intro G G' h
    refine meanE_congr fun b hb => ?_
    have hfl : ∀ {f}, f ∈ blockFlavors E b.2 → f < E.nf := fun hf => List.mem_range.1 (List.mem_filter.1 hf).1
    refine randOpC_congr hlt he _ hZ fun p p1 p2 pz p3 => randOpC_congr hlt he _ hZ fun q q1 q2 qz q3 => ih _ _ fun l hl hd => ?_
    refine h _ (by rw [List.length_cons, hl]) fun e he' => ?_
    rcases List.mem_cons.1 he' with rfl | he'
    · exact ⟨List.mem_range.1 (mem_unif hb), ⟨p1, p2, hfl p3⟩, ⟨q1, q2, hfl q3⟩, pz, qz⟩
    · exact hd e he'

theorem meanE_unif_one {α : Type} {l : List α} (h : 0 < l.length) : meanE (unif l) (fun _ => 1) = 1 := by
  rw [meanE_unif]
  have hl : (l.map fun _ => (1 : ℝ≥0∞)).sum = ENNReal.ofReal (l.length : ℝ) := by simp
  have h' : (0 : ℝ) < l.length := by exact_mod_cast h
  rw [hl, ← ENNReal.ofReal_mul (by positivity), one_div, inv_mul_cancel₀ h'.ne', ENNReal.ofReal_one]

theorem insDrawsC_one (E : PEnv) (cw : CWin) (hns : 0 < E.ns) (hfl : ∀ b < E.ns, 0 < (blockFlavors E b).length) (k : ℕ) :
    insDrawsC E cw k (fun _ => 1) = 1 := by
  induction k with
  | zero => rfl
  | succ k ih =>
    have : ∀ p ∈ (unif (List.range E.ns) : Rand ℝ ℕ), (randOpC cw (blockFlavors E p.2) fun _ => randOpC cw (blockFlavors E p.2) fun _ =>
        insDrawsC E cw k fun _ => 1) = 1 := by
      intro p hp
      have hb := hfl p.2 (List.mem_range.1 (mem_unif hp))
      simp only [ih, randOpC, meanE_unif_one hb, lintegral_const, Measure.restrict_apply_univ, Real.volume_Ico, sub_zero,
        ENNReal.ofReal_one, mul_one]
    refine (meanE_congr (g := fun _ => 1) this).trans ?_
    exact meanE_unif_one (by rwa [List.length_range])

theorem meanE_add {α : Type} (m : Rand ℝ α) (f g : α → ℝ≥0∞) : meanE m (fun a => f a + g a) = meanE m f + meanE m g := by
  unfold meanE
  rw [← Multiset.sum_map_add]
  refine congrArg _ (Multiset.map_congr rfl fun p _ => ?_)
  rw [mul_add]

/-- Accepted and rejected moves of the insertion. -/
theorem insDrawsC_split {β : ℝ} {cw : CWin} (hcw : cw.OK β) (E : PEnv) (hns : 0 < E.ns)
    (hfl : ∀ b < E.ns, 0 < (blockFlavors E b).length) (k : ℕ) (f g : List ℕ → List (BOp ℝ) → List (BOp ℝ) → ℝ≥0∞)
    (hf : ∀ bl : List ℕ, Measurable fun z : (Fin bl.length → BOp ℝ) × (Fin bl.length → BOp ℝ) =>
      f bl (List.ofFn z.1) (List.ofFn z.2))
    (hg : ∀ bl : List ℕ, Measurable fun z : (Fin bl.length → BOp ℝ) × (Fin bl.length → BOp ℝ) =>
      g bl (List.ofFn z.1) (List.ofFn z.2)) (h1 : ∀ bl a b, g bl a b ≤ 1) (c : ℝ≥0∞) :
    insDrawsC E cw k (fun l => f (l.map (·.1)) (l.map (·.2.1)) (l.map (·.2.2)) +
        (1 - g (l.map (·.1)) (l.map (·.2.1)) (l.map (·.2.2))) * c) =
      insDrawsC E cw k (fun l => f (l.map (·.1)) (l.map (·.2.1)) (l.map (·.2.2))) +
        (1 - insDrawsC E cw k (fun l => g (l.map (·.1)) (l.map (·.2.1)) (l.map (·.2.2)))) * c := by
  have add : ∀ f g : List ℕ → List (BOp ℝ) → List (BOp ℝ) → ℝ≥0∞,
      (∀ bl : List ℕ, Measurable fun z : (Fin bl.length → BOp ℝ) × (Fin bl.length → BOp ℝ) => f bl (List.ofFn z.1) (List.ofFn z.2)) →
      (∀ bl : List ℕ, Measurable fun z : (Fin bl.length → BOp ℝ) × (Fin bl.length → BOp ℝ) => g bl (List.ofFn z.1) (List.ofFn z.2)) →
      insDrawsC E cw k (fun l => f (l.map (·.1)) (l.map (·.2.1)) (l.map (·.2.2)) + g (l.map (·.1)) (l.map (·.2.1)) (l.map (·.2.2))) =
        insDrawsC E cw k (fun l => f (l.map (·.1)) (l.map (·.2.1)) (l.map (·.2.2))) +
          insDrawsC E cw k (fun l => g (l.map (·.1)) (l.map (·.2.1)) (l.map (·.2.2))) := by
    intro f g hf hg
    rw [insDrawsC_lintegral hcw E k f hf, insDrawsC_lintegral hcw E k g hg,
      insDrawsC_lintegral hcw E k (fun bl p q => f bl p q + g bl p q) fun bl => (hf bl).add (hg bl), ← meanE_add]
    refine meanE_congr fun bl _ => ?_
    rw [← mul_add, ← lintegral_add_left (hf bl.2).lintegral_prod_right']
    congr 1
    refine lintegral_congr fun p => ?_
    rw [← lintegral_add_left]
    exact (hf bl.2).comp (measurable_const.prodMk measurable_id)
  have hg' : ∀ bl : List ℕ, Measurable fun z : (Fin bl.length → BOp ℝ) × (Fin bl.length → BOp ℝ) =>
      (1 - g bl (List.ofFn z.1) (List.ofFn z.2)) := fun bl => measurable_const.sub (hg bl)
  have scale : insDrawsC E cw k (fun l => (1 - g (l.map (·.1)) (l.map (·.2.1)) (l.map (·.2.2))) * c) =
      insDrawsC E cw k (fun l => 1 - g (l.map (·.1)) (l.map (·.2.1)) (l.map (·.2.2))) * c := by
    rw [insDrawsC_lintegral hcw E k (fun bl p q => 1 - g bl p q) hg',
      insDrawsC_lintegral hcw E k (fun bl p q => (1 - g bl p q) * c) fun bl => (hg' bl).mul_const c, mul_comm _ c, ← meanE_mul_left]
    refine meanE_congr fun bl _ => ?_
    rw [mul_left_comm, ← lintegral_const_mul c (hg' bl.2).lintegral_prod_right']
    congr 1
    refine lintegral_congr fun p => ?_
    have hq : Measurable fun q : Fin bl.2.length → BOp ℝ => 1 - g bl.2 (List.ofFn p) (List.ofFn q) :=
      (hg' bl.2).comp (measurable_const.prodMk measurable_id)
    exact (lintegral_congr fun q => mul_comm _ _).trans (lintegral_const_mul c hq)
  rw [add f (fun bl p q => (1 - g bl p q) * c) hf fun bl => (hg' bl).mul_const c, scale]
  congr 2
  have e1 := add (fun bl p q => 1 - g bl p q) g hg' hg
  have e2 : (fun l : List (ℕ × BOp ℝ × BOp ℝ) => (1 - g (l.map (·.1)) (l.map (·.2.1)) (l.map (·.2.2))) +
      g (l.map (·.1)) (l.map (·.2.1)) (l.map (·.2.2))) = fun _ => 1 := by
    funext l
    exact tsub_add_cancel_of_le (h1 _ _ _)
  rw [e2, insDrawsC_one E cw hns hfl k] at e1
  have hfin : insDrawsC E cw k (fun l => g (l.map (·.1)) (l.map (·.2.1)) (l.map (·.2.2))) ≠ ∞ :=
    ne_top_of_le_ne_top one_ne_top (insDrawsC_le E cw k _ fun l => h1 _ _ _)
  exact ENNReal.eq_sub_of_add_eq hfin e1.symm

/-! ### The updates of the code -/

variable {𝕜 : Type} [RCLike 𝕜] {N : ℕ} {A : CodeArgs 𝕜 N} {x : WCfg ℝ} {s : CodeState A (Option (Worm ℝ))}

theorem lm_const {Ω : Type} [MeasurableSpace Ω] (L : List (TPsi ℝ)) : LM fun _ : Ω => L := by
  induction L with
  | nil => exact LM.nil
  | cons o L ih => exact LM.cons measurable_const ih

theorem codeW_meas (hA : A.OK) (hG : Measurable fun q : TPsi ℝ × TPsi ℝ => A.G q.1 q.2) (ω : Option (Worm ℝ)) :
    (codeW A).Meas ω :=
  fun _ _ => measurable_cfgW hA hG measurable_id (lm_const _)

/-- Admissible changes of the bath. -/
theorem mvOK_bath {lo hi corr : ℝ} {mv : Mv ℝ (Option (Worm ℝ))} (hw : mv.worm = x.worm) (h1 : mv.cdRem.Subperm x.cd)
    (h2 : mv.cRem.Subperm x.c) (h3 : ∀ o ∈ mv.cdAdd, o.2 < A.P.nf) (h4 : ∀ o ∈ mv.cAdd, o.2 < A.P.nf)
    (h5 : (mv.cdRem = [] ∧ mv.cRem = []) ∨ (mv.cdAdd = [] ∧ mv.cAdd = [])) (h6 : 0 < corr)
    (h7 : ∀ o ∈ mv.cdRem ++ mv.cRem ++ (mv.cdAdd ++ mv.cAdd), lo < o.1 ∧ o.1 < hi) :
    MvOK A id (codeWops id) lo hi x mv corr := by
  refine ⟨h1, h2, h3, h4, h5.elim Or.inl fun h => Or.inr (Or.inl h), h6, fun o ho => ?_⟩
  rw [hw, List.count_append, List.count_append (l₁ := _ ++ _) (l₂ := wormOps _)] at ho
  have hex : o ∈ (mv.cdRem.map (mkOp id .creation) ++ mv.cRem.map (mkOp id .annihilation)) ∨
      o ∈ (mv.cdAdd.map (mkOp id .creation) ++ mv.cAdd.map (mkOp id .annihilation)) := by
    by_contra hn
    rw [not_or] at hn
    rw [List.count_eq_zero_of_not_mem hn.1, List.count_eq_zero_of_not_mem hn.2] at ho
    exact ho rfl
  simp only [List.mem_append, List.mem_map] at hex h7
  rcases hex with (⟨b, hb, rfl⟩ | ⟨b, hb, rfl⟩) | (⟨b, hb, rfl⟩ | ⟨b, hb, rfl⟩)
  · exact h7 b (Or.inl (Or.inl hb))
  · exact h7 b (Or.inl (Or.inr hb))
  · exact h7 b (Or.inr (Or.inl hb))
  · exact h7 b (Or.inr (Or.inr hb))

/-- Expectation value of `F` over the random number of the acceptance test. -/
noncomputable def codeAcc (A : CodeArgs 𝕜 N) (s : CodeState A (Option (Worm ℝ))) (F : CodeState A (Option (Worm ℝ)) → ℝ≥0∞)
    (o : Option (Mv ℝ (Option (Worm ℝ)) × ℝ)) : ℝ≥0∞ :=
  ∫⁻ r in Set.Ico (0 : ℝ) 1, (codeStep A id (codeWops id) o r s).elim 0 F

/-- Updates which draw no times. -/
theorem codeAcc_finite (hA : A.OK) (hs : SimInv A.env A.Inv (pmDet A.P) s.1) (h : Reps A id (codeWops id) x s)
    {m : Rand ℝ (Option (Mv ℝ (Option (Worm ℝ)) × ℝ))} (hm1 : meanE m (fun _ => 1) = 1)
    {R : WCfg ℝ → Prop} (hR : ∀ x y : WCfg ℝ, x.Same y → R x → R y) (hx : R x)
    (hm : ∀ p ∈ m, ∀ mv c, p.2 = some (mv, c) → MvOK A id (codeWops id) (loEdge A s) (hiEdge A s) x mv c ∧ R (moved x mv))
    {ψ : CfgFun (Option (Worm ℝ)) ℝ≥0∞} {F : CodeState A (Option (Worm ℝ)) → ℝ≥0∞} (hF : ReadsCfg A R s ψ F) :
    meanE m (codeAcc A s F) =
      propE (codeW A) ψ x m + (1 - propE (codeW A) (fun _ _ _ => 1) x m) * ψ.at x := by
  let g : Option (Mv ℝ (Option (Worm ℝ)) × ℝ) → ℝ≥0∞ := fun o => match o with
    | none => 0
    | some (mv, c) => accE (codeW A) (fun _ _ _ => 1) x mv c
  let f : Option (Mv ℝ (Option (Worm ℝ)) × ℝ) → ℝ≥0∞ := fun o => match o with
    | none => 0
    | some (mv, c) => accE (codeW A) ψ x mv c
  have hg1 : ∀ o, g o ≤ 1 := by
    rintro (_ | ⟨mv, c⟩)
    · exact zero_le
    · exact accE_one_le _ _ _ _
  have key : ∀ p ∈ m, codeAcc A s F p.2 = f p.2 + ψ.at x * (1 - g p.2) := by
    intro p hp
    rcases ho : p.2 with _ | ⟨mv, c⟩
    · show ∫⁻ r in Set.Ico (0 : ℝ) 1, (codeStep A id (codeWops id) none r s).elim 0 F = 0 + ψ.at x * (1 - 0)
      simp only [codeStep_none, Option.elim_some]
      rw [setLIntegral_const, Real.volume_Ico, hF s hs rfl x hx h]
      simp
    · have := (C83_accept hA hs h (hm p hp mv c ho).1 hR hx (hm p hp mv c ho).2 hF).2
      rw [mul_comm (1 - _)] at this
      exact this
  rw [meanE_congr (g := fun a => f a + ψ.at x * (1 - g a)) key, meanE_add, meanE_mul_left, mul_comm (ψ.at x)]
  have ef : propE (codeW A) ψ x m = meanE m f := meanE_congr fun p _ => by
    rcases p.2 with _ | ⟨mv, c⟩ <;> rfl
  have eg : propE (codeW A) (fun _ _ _ => 1) x m = meanE m g := meanE_congr fun p _ => by
    rcases p.2 with _ | ⟨mv, c⟩ <;> rfl
  rw [ef, eg]
  congr 2
  have e1 := meanE_add m (fun a => 1 - g a) g
  have e2 : (fun a => 1 - g a + g a) = fun _ => (1 : ℝ≥0∞) := funext fun a => tsub_add_cancel_of_le (hg1 a)
  rw [e2, hm1] at e1
  refine ENNReal.eq_sub_of_add_eq ?_ e1.symm
  refine ne_top_of_le_ne_top one_ne_top ?_
  rw [← hm1]
  exact meanE_mono fun p _ => hg1 p.2

/-- **C83** (insertion).  `propose_insertion` and the acceptance test of the code, in a state with the configuration `x`: the
expectation value of a function of the configuration afterwards, over all random numbers, is the one of `insE` with the weight of the
code; with the probability of rejection the configuration stays. -/
theorem C83_insertion (hA : A.OK) (hG : Measurable fun q : TPsi ℝ × TPsi ℝ => A.G q.1 q.2)
    (hs : SimInv A.env A.Inv (pmDet A.P) s.1) (h : Reps A id (codeWops id) x s) {cw : CWin} (hcw : cw.OK A.beta)
    (hlo : cw.lo = loEdge A s) (hhi : cw.hi = hiEdge A s) (hns : 0 < A.P.ns)
    (hfl : ∀ b < A.P.ns, 0 < (blockFlavors A.P b).length) (rank : ℕ) {Z : Set ℝ} (hZ : Z.Countable) (hx : Reg A.P.nf Z x)
    {ψ : CfgFun (Option (Worm ℝ)) ℝ≥0∞} (hψ : ψ.Meas x.worm) {F : CodeState A (Option (Worm ℝ)) → ℝ≥0∞}
    (hF : ReadsCfg A (Reg A.P.nf Z) s ψ F) :
    insDrawsC A.P cw rank (fun l => codeAcc A s F (some (⟨[], [], l.map (·.2.1), l.map (·.2.2), x.worm⟩,
        insCorr A.P cw.win rank x fun b => (l.map (·.1)).count b))) =
      insE A.P cw rank (codeW A) ψ x + (1 - insE A.P cw rank (codeW A) (fun _ _ _ => 1) x) * ψ.at x := by
  have hlen : (0 : ℝ) < cw.win.len ^ (2 * rank) := pow_pos (sub_pos.2 hcw.lt) _
  have hacc : ∀ (ψ : CfgFun (Option (Worm ℝ)) ℝ≥0∞) (l : List (ℕ × BOp ℝ × BOp ℝ)), l.length = rank →
      accE (codeW A) ψ x ⟨[], [], l.map (·.2.1), l.map (·.2.2), x.worm⟩ (insCorr A.P cw.win rank x fun b => (l.map (·.1)).count b) =
      insTerm A.P cw (codeW A) ψ x.worm (l.map (·.1)) x.cd x.c (l.map (·.2.1) : List (BOp ℝ)) (l.map (·.2.2) : List (BOp ℝ)) := by
    intro ψ l hl
    have hlen : (l.map (·.1)).length = rank := by rw [List.length_map, hl]
    rw [accE, insTerm, CfgFun.after, CfgFun.after, CfgFun.at, ← insCorr_corrM, hlen]
    simp only [Multiset.coe_nil, tsub_zero]
  have hmeas : ∀ ψ : CfgFun (Option (Worm ℝ)) ℝ≥0∞, ψ.Meas x.worm → ∀ bl : List ℕ,
      Measurable fun z : (Fin bl.length → BOp ℝ) × (Fin bl.length → BOp ℝ) =>
        insTerm A.P cw (codeW A) ψ x.worm bl x.cd x.c (List.ofFn z.1 : List (BOp ℝ)) (List.ofFn z.2 : List (BOp ℝ)) := by
    intro ψ hψ bl
    have := measurable_insTerm_right A.P cw (codeW_meas hA hG x.worm) hψ bl (x.cd.get, x.c.get) bl.length
    simpa only [ms, List.ofFn_get] using this
  have e1 : ∀ ψ : CfgFun (Option (Worm ℝ)) ℝ≥0∞, insE A.P cw rank (codeW A) ψ x = insDrawsC A.P cw rank fun l =>
      insTerm A.P cw (codeW A) ψ x.worm (l.map (·.1)) x.cd x.c (l.map (·.2.1) : List (BOp ℝ)) (l.map (·.2.2) : List (BOp ℝ)) :=
    fun ψ => insDrawsC_congr A.P cw rank _ _ fun l hl => hacc ψ l hl
  rw [e1 ψ, e1 fun _ _ _ => 1]
  rw [← insDrawsC_split hcw A.P hns hfl rank
    (fun bl p q => insTerm A.P cw (codeW A) ψ x.worm bl x.cd x.c p q)
    (fun bl p q => insTerm A.P cw (codeW A) (fun _ _ _ => 1) x.worm bl x.cd x.c p q) (hmeas ψ hψ)
    (hmeas _ fun _ _ => measurable_const) (fun bl p q => ?_) (ψ.at x)]
  · refine insDrawsC_congr_ae hcw.lt hcw.eps A.P hZ rank _ _ fun l hl hd => ?_
    have hm : MvOK A id (codeWops id) (loEdge A s) (hiEdge A s) x
        ⟨[], [], l.map (·.2.1), l.map (·.2.2), x.worm⟩ (insCorr A.P cw.win rank x fun b => (l.map (·.1)).count b) := by
      refine mvOK_bath rfl List.nil_subperm List.nil_subperm ?_ ?_ (Or.inl ⟨rfl, rfl⟩) ?_ ?_
      · intro o ho
        obtain ⟨e, he, rfl⟩ := List.mem_map.1 ho
        exact (hd e he).2.1.2.2
      · intro o ho
        obtain ⟨e, he, rfl⟩ := List.mem_map.1 ho
        exact (hd e he).2.2.1.2.2
      · rw [insCorr_eq]
        refine mul_pos hlen (Finset.prod_pos fun b hb => ?_)
        have h1 : (0 : ℝ) < ((blockFlavors A.P b).length : ℝ) := Nat.cast_pos.2 (hfl b (Finset.mem_range.1 hb))
        exact div_pos (pow_pos h1 _) (mul_pos (fallingFac_pos (Nat.le_add_left _ _)) (fallingFac_pos (Nat.le_add_left _ _)))
      · rw [← hlo, ← hhi]
        intro o ho
        simp only [List.nil_append, List.mem_append, List.mem_map] at ho
        rcases ho with ⟨e, he, rfl⟩ | ⟨e, he, rfl⟩
        · exact ⟨(hd e he).2.1.1, (hd e he).2.1.2.1⟩
        · exact ⟨(hd e he).2.2.1.1, (hd e he).2.2.1.2.1⟩
    rw [← hacc ψ l hl, ← hacc (fun _ _ _ => 1) l hl]
    refine (C83_accept hA hs h hm reg_same hx (reg_moved hx (fun o ho => ?_) hx.2) hF).2
    simp only [List.mem_append, List.mem_map] at ho
    rcases ho with ⟨e, he, rfl⟩ | ⟨e, he, rfl⟩
    · exact (hd e he).2.2.2.1
    · exact (hd e he).2.2.2.2
  · show ENNReal.ofReal _ * 1 ≤ 1
    rw [mul_one]
    exact (ENNReal.ofReal_le_ofReal (min_le_left _ _)).trans_eq ENNReal.ofReal_one

theorem probE_bind {α γ : Type} {m : Rand ℝ α} {k : α → Rand ℝ γ} (h0 : NonnegR m) (hm : meanE m (fun _ => 1) = 1)
    (hk : ∀ a, meanE (k a) (fun _ => 1) = 1) : meanE (Rand.bind m k) (fun _ => 1) = 1 := by
  rw [meanE_bind h0]
  simp only [hk, hm]

theorem probE_blockDraws {ns : ℕ} (hns : 0 < ns) (k : ℕ) : meanE (blockDraws ℝ ns k) (fun _ => 1) = 1 := by
  induction k with
  | zero => exact meanE_ret _ _
  | succ k ih =>
    exact probE_bind (nnr_unif _) (meanE_unif_one (by rwa [List.length_range])) fun _ =>
      probE_bind (nonneg_blockDraws _ _) ih fun _ => meanE_ret _ _

theorem probE_pickOps (l : List (BOp ℝ)) (n : ℕ) : meanE (pickOps l n) (fun _ => 1) = 1 := by
  have := meanE_ofReal (nonneg_pickOps l n) (fun _ => 1) fun _ => zero_le_one
  rw [prob_pickOps, ENNReal.ofReal_one] at this
  exact this

theorem probE_remPropose {W : Type} {E : PEnv} (hns : 0 < E.ns) (win : Win ℝ ℝ) (rank : ℕ) (x : PCfg ℝ W) :
    meanE (remPropose E win rank x) (fun _ => 1) = 1 := by
  refine probE_bind (nonneg_blockDraws _ _) (probE_blockDraws hns _) fun bl => ?_
  split_ifs
  · exact meanE_ret _ _
  · refine probE_bind (nonneg_remDraws _ _ _ _ _) ?_ fun _ => meanE_ret _ _
    generalize List.range E.ns = bs
    induction bs with
    | nil => exact meanE_ret _ _
    | cons b bs ih =>
      exact probE_bind (nonneg_pickOps _ _) (probE_pickOps _ _) fun _ =>
        probE_bind (nonneg_pickOps _ _) (probE_pickOps _ _) fun _ =>
        probE_bind (nonneg_remDraws _ _ _ _ _) ih fun _ => meanE_ret _ _

/-- **C83** (removal).  The same for `propose_removal` if no operator lies at the times `Z`, among which are the edges of the window. -/
theorem C83_removal (hA : A.OK) (hs : SimInv A.env A.Inv (pmDet A.P) s.1) (h : Reps A id (codeWops id) x s) {cw : CWin}
    (hcw : cw.OK A.beta) (hlo : cw.lo = loEdge A s) (hhi : cw.hi = hiEdge A s) (hns : 0 < A.P.ns)
    (hfl : ∀ b < A.P.ns, 0 < (blockFlavors A.P b).length) (rank : ℕ)
    {Z : Set ℝ} (hx : Reg A.P.nf Z x) (hzl : cw.lo ∈ Z) (hzh : cw.hi ∈ Z)
    {ψ : CfgFun (Option (Worm ℝ)) ℝ≥0∞} {F : CodeState A (Option (Worm ℝ)) → ℝ≥0∞} (hF : ReadsCfg A (Reg A.P.nf Z) s ψ F) :
    meanE (remPropose A.P cw.win rank x) (codeAcc A s F) =
      remE A.P cw rank (codeW A) ψ x + (1 - remE A.P cw rank (codeW A) (fun _ _ _ => 1) x) * ψ.at x := by
  have hedge : ∀ o ∈ x.cd ++ x.c, o.1 ≠ cw.lo ∧ o.1 ≠ cw.hi := fun o ho =>
    ⟨fun e => hx.1 o ho (e ▸ hzl), fun e => hx.1 o ho (e ▸ hzh)⟩
  refine codeAcc_finite hA hs h (probE_remPropose hns cw.win rank x) reg_same hx ?_ hF
  have hlen : (0 : ℝ) < cw.win.len ^ (2 * rank) := pow_pos (sub_pos.2 hcw.lt) _
  have hn := (h.codeCfg hs).1
  rw [PCfg.ops, List.map_append, List.map_append] at hn
  have hcd : x.cd.Nodup := ((List.nodup_append.1 (List.nodup_append.1 hn).1).1.of_map _).of_map _
  have hc : x.c.Nodup := ((List.nodup_append.1 (List.nodup_append.1 hn).1).2.1.of_map _).of_map _
  intro q hq mv c ho
  obtain ⟨bl, hbl, q1, hq1, e1⟩ := mem_bind hq
  split_ifs at hq1 with hany
  · rw [e1, mem_ret hq1] at ho; simp at ho
  · obtain ⟨r, hr, q2, hq2, e2⟩ := mem_bind hq1
    rw [e1, e2, mem_ret hq2, Option.some.injEq, Prod.mk.injEq] at ho
    obtain ⟨rfl, rfl⟩ := ho
    have hen : ∀ b ∈ List.range A.P.ns, bl.2.count b ≤ (blockOps A.P cw.win x.cd b).length ∧
        bl.2.count b ≤ (blockOps A.P cw.win x.c b).length := by
      intro b hb
      have := fun hc => hany (List.any_eq_true.2 ⟨b, hb, hc⟩)
      rw [Bool.or_eq_true, decide_eq_true_eq, decide_eq_true_eq] at this
      exact ⟨not_lt.1 fun h => this (Or.inl h), not_lt.1 fun h => this (Or.inr h)⟩
    obtain ⟨⟨s1, hs1, es1⟩, s2, hs2, es2⟩ := mem_remDraws hcd hc _ List.nodup_range hen hr
    obtain ⟨n1, m1⟩ := mem_pickBlocks_sub (fun b => blockOps_ok A.P _ hcd b) _ List.nodup_range (fun b hb => (hen b hb).1) hs1
    obtain ⟨n2, m2⟩ := mem_pickBlocks_sub (fun b => blockOps_ok A.P _ hc b) _ List.nodup_range (fun b hb => (hen b hb).2) hs2
    rw [es1] at n1 m1
    rw [es2] at n2 m2
    have k1 : ∀ o ∈ r.2.1, o ∈ x.cd ∧ cw.win.inWin o.1 = true := by
      intro o ho
      obtain ⟨b, -, hb⟩ := m1 o ho
      rw [blockOps, List.mem_filter, Bool.and_eq_true] at hb
      exact ⟨hb.1, hb.2.1⟩
    have k2 : ∀ o ∈ r.2.2, o ∈ x.c ∧ cw.win.inWin o.1 = true := by
      intro o ho
      obtain ⟨b, -, hb⟩ := m2 o ho
      rw [blockOps, List.mem_filter, Bool.and_eq_true] at hb
      exact ⟨hb.1, hb.2.1⟩
    refine ⟨?_, reg_moved hx (by simp) hx.2⟩
    refine mvOK_bath rfl (List.subperm_of_subset n1 fun o ho => (k1 o ho).1) (List.subperm_of_subset n2 fun o ho => (k2 o ho).1)
      (by simp) (by simp) (Or.inr ⟨rfl, rfl⟩) ?_ ?_
    · rw [remCorr_eq]
      refine mul_pos (inv_pos.2 hlen) (Finset.prod_pos fun b hb => ?_)
      have h1 : (0 : ℝ) < ((blockFlavors A.P b).length : ℝ) := Nat.cast_pos.2 (hfl b (Finset.mem_range.1 hb))
      have hb' := hen b (List.mem_range.2 (Finset.mem_range.1 hb))
      exact div_pos (mul_pos (fallingFac_pos hb'.1) (fallingFac_pos hb'.2)) (pow_pos h1 _)
    · rw [← hlo, ← hhi]
      have hw : ∀ o, o ∈ x.cd ++ x.c → cw.win.inWin o.1 = true → cw.lo < o.1 ∧ o.1 < cw.hi := by
        intro o ho hin
        simp only [CWin.win, Bool.and_eq_true, decide_eq_true_eq] at hin
        exact ⟨lt_of_le_of_ne hin.1 (hedge o ho).1.symm, lt_of_le_of_ne hin.2 (hedge o ho).2⟩
      intro o ho
      simp only [List.append_nil, List.mem_append] at ho
      rcases ho with ho | ho
      · exact hw o (List.mem_append_left _ (k1 o ho).1) (k1 o ho).2
      · exact hw o (List.mem_append_right _ (k2 o ho).1) (k2 o ho).2

/-- `InsertionRemovalUpdater::update` of the code: insertion or removal is chosen at random, `F` is evaluated in the state afterwards. -/
noncomputable def codePair (A : CodeArgs 𝕜 N) (cw : CWin) (rank : ℕ) (x : WCfg ℝ) (s : CodeState A (Option (Worm ℝ)))
    (F : CodeState A (Option (Worm ℝ)) → ℝ≥0∞) : ℝ≥0∞ :=
  meanE (coin (1 / 2)) fun b =>
    if b then insDrawsC A.P cw rank (fun l => codeAcc A s F (some (⟨[], [], l.map (·.2.1), l.map (·.2.2), x.worm⟩,
        insCorr A.P cw.win rank x fun b => (l.map (·.1)).count b)))
    else meanE (remPropose A.P cw.win rank x) (codeAcc A s F)

/-- **C83** (pair update).  `InsertionRemovalUpdater::update` in a state of the simulation is the update `irE` of the
configurations with the weight of the code. -/
theorem C83_pair_update (hA : A.OK) (hG : Measurable fun q : TPsi ℝ × TPsi ℝ => A.G q.1 q.2)
    (hs : SimInv A.env A.Inv (pmDet A.P) s.1) (h : Reps A id (codeWops id) x s) {cw : CWin} (hcw : cw.OK A.beta)
    (hlo : cw.lo = loEdge A s) (hhi : cw.hi = hiEdge A s) (hns : 0 < A.P.ns)
    (hfl : ∀ b < A.P.ns, 0 < (blockFlavors A.P b).length) (rank : ℕ)
    {Z : Set ℝ} (hZ : Z.Countable) (hx : Reg A.P.nf Z x) (hzl : cw.lo ∈ Z) (hzh : cw.hi ∈ Z)
    {ψ : CfgFun (Option (Worm ℝ)) ℝ≥0∞} (hψ : ψ.Meas x.worm) {F : CodeState A (Option (Worm ℝ)) → ℝ≥0∞}
    (hF : ReadsCfg A (Reg A.P.nf Z) s ψ F) :
    codePair A cw rank x s F =
      irE A.P cw rank (codeW A) ψ x + (1 - irE A.P cw rank (codeW A) (fun _ _ _ => 1) x) * ψ.at x := by
  have i1 := insDrawsC_le A.P cw rank (fun l => accE (codeW A) (fun _ _ _ => 1) x ⟨[], [], l.map (·.2.1), l.map (·.2.2), x.worm⟩
      (insCorr A.P cw.win rank x fun b => (l.map (·.1)).count b)) fun l => accE_one_le _ _ _ _
  change insE A.P cw rank (codeW A) (fun _ _ _ => 1) x ≤ 1 at i1
  have i2 : remE A.P cw rank (codeW A) (fun _ _ _ => 1) x ≤ 1 :=
    propE_le _ _ (subProb_remPropose A.P cw.win rank x)
  unfold codePair irE
  simp only [meanE_coin_half, if_true, Bool.false_eq_true, if_false]
  rw [C83_insertion hA hG hs h hcw hlo hhi hns hfl rank hZ hx hψ hF,
    C83_removal hA hs h hcw hlo hhi hns hfl rank hx hzl hzh hF]
  generalize insE A.P cw rank (codeW A) (fun _ _ _ => 1) x = a at *
  generalize remE A.P cw rank (codeW A) (fun _ _ _ => 1) x = b at *
  have hh : ENNReal.ofReal (1 / 2) + ENNReal.ofReal (1 / 2) = 1 := by
    rw [← ENNReal.ofReal_add (by norm_num) (by norm_num)]
    norm_num
  have key : ENNReal.ofReal (1 / 2) * (1 - a) + ENNReal.ofReal (1 / 2) * (1 - b) =
      1 - (ENNReal.ofReal (1 / 2) * a + ENNReal.ofReal (1 / 2) * b) := by
    refine ENNReal.eq_sub_of_add_eq ?_ ?_
    · exact ENNReal.add_ne_top.2 ⟨ENNReal.mul_ne_top ENNReal.ofReal_ne_top (ne_top_of_le_ne_top one_ne_top i1),
        ENNReal.mul_ne_top ENNReal.ofReal_ne_top (ne_top_of_le_ne_top one_ne_top i2)⟩
    · have e : ENNReal.ofReal (1 / 2) * (1 - a) + ENNReal.ofReal (1 / 2) * (1 - b) +
          (ENNReal.ofReal (1 / 2) * a + ENNReal.ofReal (1 / 2) * b) =
          ENNReal.ofReal (1 / 2) * (1 - a + a) + ENNReal.ofReal (1 / 2) * (1 - b + b) := by ring
      rw [e, tsub_add_cancel_of_le i1, tsub_add_cancel_of_le i2, mul_one, hh]
  rw [← key]
  ring

end CTHyb
