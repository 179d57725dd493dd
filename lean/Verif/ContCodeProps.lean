import Verif.ContCodeLemmas

/-!
# The weight of the code in continuous time

Specification.  `codeW`: absolute value of the determinant of the hybridization functions times the trace of the
operators in time order (`cfgW`, Verif/SamplingProps.lean), as a function of the set of operators; zero if two operators
have the same time (`updateOperators` refuses such configurations, `C60_duplicate`) or a flavor does not exist.
-/

namespace CTHyb

open Rand MeasureTheory ENNReal

variable {𝕜 : Type} [RCLike 𝕜] {N : ℕ}

/-- **Specification.**  All times are different, all flavors of the bath exist. -/
def CodeCfg (nf : ℕ) (x : WCfg ℝ) : Prop :=
  ((x.ops id (codeWops id)).map Psi.time).Nodup ∧ (∀ o ∈ x.cd, o.2 < nf) ∧ ∀ o ∈ x.c, o.2 < nf

open Classical in
/-- **Specification.**  The weight of a configuration as a function of the sets of operators. -/
noncomputable def codeW (A : CodeArgs 𝕜 N) : CfgFun (Option (Worm ℝ)) ℝ := fun X X' ω =>
  if CodeCfg A.P.nf ⟨X.toList, X'.toList, ω⟩ then cfgW A id (codeWops id) (⟨X.toList, X'.toList, ω⟩ : WCfg ℝ) else 0

/-! ### Independence of the order -/

theorem CodeCfg.of_same {nf : ℕ} {x y : WCfg ℝ} (h : CodeCfg nf x) (e : x.Same y) : CodeCfg nf y :=
  ⟨((e.ops_perm (tau := id) (wops := codeWops id)).map Psi.time).nodup_iff.1 h.1,
    fun o ho => h.2.1 o (e.1.mem_iff.2 ho), fun o ho => h.2.2 o (e.2.1.mem_iff.2 ho)⟩

theorem same_toList (x : WCfg ℝ) :
    x.Same ⟨(x.cd : Multiset (BOp ℝ)).toList, (x.c : Multiset (BOp ℝ)).toList, x.worm⟩ :=
  ⟨Multiset.coe_eq_coe.1 (Multiset.coe_toList _).symm, Multiset.coe_eq_coe.1 (Multiset.coe_toList _).symm, rfl⟩

open Classical in
theorem codeW_at (A : CodeArgs 𝕜 N) (x : WCfg ℝ) :
    (codeW A).at x = if CodeCfg A.P.nf x then cfgW A id (codeWops id) x else 0 := by
  have e := same_toList x
  unfold CfgFun.at codeW
  by_cases h : CodeCfg A.P.nf x
  · rw [if_pos h, if_pos (h.of_same e), cfgW_same e h.1]
  · rw [if_neg h, if_neg fun h' => h (h'.of_same e.symm)]

theorem codeW_nonneg (A : CodeArgs 𝕜 N) (X X' : Multiset (BOp ℝ)) (ω : Option (Worm ℝ)) : 0 ≤ codeW A X X' ω := by
  unfold codeW
  split_ifs
  · exact norm_nonneg _
  · exact le_rfl

theorem codeW_good (A : CodeArgs 𝕜 N) {X X' : Multiset (BOp ℝ)} {ω : Option (Worm ℝ)} (h : codeW A X X' ω ≠ 0) :
    GoodCfg A.P.nf X X' := by
  unfold codeW at h
  split_ifs at h with hc
  · obtain ⟨hn, h1, h2⟩ := hc
    rw [PCfg.ops, List.map_append, List.map_append] at hn
    have n1 := (List.nodup_append.1 (List.nodup_append.1 hn).1).1
    have n2 := (List.nodup_append.1 (List.nodup_append.1 hn).1).2.1
    refine ⟨⟨?_, fun o ho => h1 o (Multiset.mem_toList.2 ho)⟩, ⟨?_, fun o ho => h2 o (Multiset.mem_toList.2 ho)⟩⟩
    · rw [← Multiset.coe_toList X, Multiset.coe_nodup]
      exact (n1.of_map _).of_map _
    · rw [← Multiset.coe_toList X', Multiset.coe_nodup]
      exact (n2.of_map _).of_map _
  · exact absurd rfl h

theorem timeDet_length {K T : Type} [CommRing K] [LinearOrder T] (G : Psi T → Psi T → K) {cs cds : List (Psi T)}
    (h : timeDet G cs cds ≠ 0) : cs.length = cds.length := by
  by_contra hl
  refine h ?_
  unfold timeDet listDet
  rw [dif_neg]
  rw [(timeSort_perm cs).length_eq, (timeSort_perm cds).length_eq]
  exact fun h => hl h.symm

theorem codeW_card (A : CodeArgs 𝕜 N) {X X' : Multiset (BOp ℝ)} {ω : Option (Worm ℝ)} (h : codeW A X X' ω ≠ 0) :
    X.card = X'.card := by
  unfold codeW at h
  split_ifs at h with hc
  · unfold cfgW CodeArgs.weight at h
    have := timeDet_length A.G (left_ne_zero_of_mul (norm_ne_zero_iff.1 h))
    simp only [List.length_map, Multiset.length_toList] at this
    exact this.symm
  · exact absurd rfl h

/-! ### Measurability -/

section
variable {Ω : Type} [MeasurableSpace Ω]

theorem measurable_mkOp (ty : OpType) {o : Ω → BOp ℝ} (ho : Measurable o) : Measurable fun z => mkOp id ty (o z) := by
  rw [measurable_tpsi]
  show Measurable fun z => ((o z).1, (0 : ℤ), decide (ty = .creation), (o z).2)
  exact (measurable_fst.comp ho).prodMk (measurable_const.prodMk (measurable_const.prodMk (measurable_snd.comp ho)))

theorem lm_bath (ty : OpType) {m : ℕ} {o : Ω → Fin m → BOp ℝ} (ho : Measurable o) :
    LM fun z => (List.ofFn (o z)).map (mkOp id ty) := by
  simp only [List.map_ofFn]
  exact LM.ofFn fun i => measurable_mkOp ty ((measurable_pi_apply i).comp ho)

theorem measurable_wop (ty : OpType) (f : ℕ) (s : ℤ) {t : Ω → ℝ} (ht : Measurable t) :
    Measurable fun z => (⟨⟨t z, s⟩, ty, f⟩ : TPsi ℝ) := by
  rw [measurable_tpsi]
  show Measurable fun z => (t z, s, decide (ty = .creation), f)
  exact ht.prodMk measurable_const

theorem measurable_getD {k : ℕ} {ts : Ω → Fin k → ℝ} (ht : Measurable ts) (i : ℕ) :
    Measurable fun z => (List.ofFn (ts z)).getD i default := by
  by_cases h : i < k
  · have : (fun z => (List.ofFn (ts z)).getD i default) = fun z => ts z ⟨i, h⟩ := by
      funext z
      rw [List.getD_eq_getElem?_getD, List.getElem?_ofFn, dif_pos h, Option.getD_some]
    rw [this]
    exact (measurable_pi_apply _).comp ht
  · have : (fun z => (List.ofFn (ts z)).getD i default) = fun _ => default := by
      funext z
      rw [List.getD_eq_getElem?_getD, List.getElem?_ofFn, dif_neg h, Option.getD_none]
    rw [this]
    exact measurable_const

theorem lm_worm {nf : ℕ} (k : WormKind) (fs : Fin k.numFlavors → Fin nf) {ts : Ω → Fin k.numTimes → ℝ} (ht : Measurable ts) :
    LM fun z => wormOps (codeWops id (some (mkW k (ts z) fs))) := by
  have e : ∀ z, wormOps (codeWops id (some (mkW k (ts z) fs))) = (mkW k (ts z) fs).operators := fun z => by
    show ((mkW k (ts z) fs).operators.map (mapOp id)) = _
    conv_rhs => rw [← List.map_id (mkW k (ts z) fs).operators]
    rfl
  simp only [e]
  rcases k with r | r | r
  · refine LM.flatMap (List.range r) fun i _ => ?_
    exact LM.cons (measurable_wop .creation ((flavList fs).getD (2 * i) 0) 1 (measurable_getD ht i))
      (LM.cons (measurable_wop .annihilation ((flavList fs).getD (2 * i + 1) 0) 0 (measurable_getD ht i)) LM.nil)
  · refine LM.flatMap (List.range r) fun i _ => ?_
    exact LM.cons (measurable_wop .annihilation ((flavList fs).getD (2 * i) 0) 0 (measurable_getD ht (2 * i)))
      (LM.cons (measurable_wop .creation ((flavList fs).getD (2 * i + 1) 0) 0 (measurable_getD ht (2 * i + 1))) LM.nil)
  · refine LM.flatMap (List.range r) fun i _ => ?_
    exact LM.cons (measurable_wop .creation ((flavList fs).getD (2 * i) 0) _ (measurable_getD ht 0))
      (LM.cons (measurable_wop .annihilation ((flavList fs).getD (2 * i + 1) 0) _ (measurable_getD ht 0)) LM.nil)

open Classical in
/-- The weight as a function of measurable operators. -/
theorem measurable_cfgW {A : CodeArgs 𝕜 N} (hA : A.OK) (hG : Measurable fun q : TPsi ℝ × TPsi ℝ => A.G q.1 q.2) {m n : ℕ}
    {z : Ω → Lab m n} (hz : Measurable z) {ω : Ω → Option (Worm ℝ)} (hω : LM fun y => wormOps (codeWops id (ω y))) :
    Measurable fun y => (codeW A).at ((z y).cfg (ω y)) := by
  have hL : LM fun y => ((z y).cfg (ω y)).ops id (codeWops id) :=
    ((lm_bath .creation (measurable_fst.comp hz)).append (lm_bath .annihilation (measurable_snd.comp hz))).append hω
  have htr := measurable_timeSort (fun L => fullTrace (ebEnv A.B A.p A.beta) L) (fun L h => measurable_fullTrace hA h) hL
  have hfl : MeasurableSet {y | (∀ i, ((z y).1 i).2 < A.P.nf) ∧ ∀ i, ((z y).2 i).2 < A.P.nf} := by
    have h1 : ∀ i, MeasurableSet {y | ((z y).1 i).2 < A.P.nf} := fun i =>
      (measurable_snd.comp ((measurable_pi_apply i).comp (measurable_fst.comp hz))) (MeasurableSet.of_discrete (s := {a : ℕ | a < A.P.nf}))
    have h2 : ∀ i, MeasurableSet {y | ((z y).2 i).2 < A.P.nf} := fun i =>
      (measurable_snd.comp ((measurable_pi_apply i).comp (measurable_snd.comp hz))) (MeasurableSet.of_discrete (s := {a : ℕ | a < A.P.nf}))
    have e : {y | (∀ i, ((z y).1 i).2 < A.P.nf) ∧ ∀ i, ((z y).2 i).2 < A.P.nf} =
        (⋂ i, {y | ((z y).1 i).2 < A.P.nf}) ∩ ⋂ i, {y | ((z y).2 i).2 < A.P.nf} := by
      ext y
      simp only [Set.mem_inter_iff, Set.mem_iInter, Set.mem_ofPred_eq]
    rw [e]
    exact (MeasurableSet.iInter h1).inter (MeasurableSet.iInter h2)
  have hdet : Measurable fun y => ‖listDet A.G ((List.ofFn (z y).2).map (mkOp id .annihilation))
      ((List.ofFn (z y).1).map (mkOp id .creation))‖ := by
    by_cases hmn : m = n
    · subst hmn
      simp only [List.map_ofFn, listDet_ofFn, Matrix.det_apply, Matrix.of_apply]
      refine (Finset.measurable_sum _ fun σ _ => Measurable.const_smul (Finset.measurable_prod _ fun i _ => ?_) _).norm
      exact hG.comp ((measurable_mkOp .annihilation ((measurable_pi_apply (σ i)).comp (measurable_snd.comp hz))).prodMk
        (measurable_mkOp .creation ((measurable_pi_apply i).comp (measurable_fst.comp hz))))
    · have : ∀ y, listDet A.G ((List.ofFn (z y).2).map (mkOp id .annihilation))
          ((List.ofFn (z y).1).map (mkOp id .creation)) = 0 := fun y => by
        unfold listDet
        rw [dif_neg]
        simpa using hmn
      simp only [this]
      exact measurable_const
  have key : (fun y => (codeW A).at ((z y).cfg (ω y))) =
      {y | (∀ i, ((z y).1 i).2 < A.P.nf) ∧ ∀ i, ((z y).2 i).2 < A.P.nf}.indicator fun y =>
        ‖listDet A.G ((List.ofFn (z y).2).map (mkOp id .annihilation)) ((List.ofFn (z y).1).map (mkOp id .creation))‖ *
          ‖if ((((z y).cfg (ω y)).ops id (codeWops id)).map Psi.time).Nodup then
            fullTrace (ebEnv A.B A.p A.beta) (timeSort (((z y).cfg (ω y)).ops id (codeWops id))) else 0‖ := by
    funext y
    rw [codeW_at]
    by_cases hf : (∀ i, ((z y).1 i).2 < A.P.nf) ∧ ∀ i, ((z y).2 i).2 < A.P.nf
    · rw [Set.indicator_of_mem (show y ∈ {y | (∀ i, ((z y).1 i).2 < A.P.nf) ∧ ∀ i, ((z y).2 i).2 < A.P.nf} from hf)]
      by_cases hn : ((((z y).cfg (ω y)).ops id (codeWops id)).map Psi.time).Nodup
      · rw [if_pos ⟨hn, (List.forall_mem_ofFn_iff).2 hf.1, (List.forall_mem_ofFn_iff).2 hf.2⟩, if_pos hn]
        have hn' := hn
        rw [PCfg.ops, List.map_append, List.map_append] at hn'
        have n1 := (List.nodup_append.1 (List.nodup_append.1 hn').1).1
        have n2 := (List.nodup_append.1 (List.nodup_append.1 hn').1).2.1
        unfold cfgW CodeArgs.weight
        rw [norm_mul, timeDet_eq A.G _ _ n2 n1, norm_mul, norm_pow, norm_neg, norm_one, one_pow, one_mul]
        rfl
      · rw [if_neg fun h => hn h.1, if_neg hn, norm_zero, mul_zero]
    · rw [Set.indicator_of_notMem (show y ∉ {y | (∀ i, ((z y).1 i).2 < A.P.nf) ∧ ∀ i, ((z y).2 i).2 < A.P.nf} from hf)]
      exact if_neg fun h => hf ⟨(List.forall_mem_ofFn_iff).1 h.2.1, (List.forall_mem_ofFn_iff).1 h.2.2⟩
  rw [key]
  exact (hdet.mul htr.norm).indicator hfl

end

/-- **C83** (conditions).  If the hybridization function is measurable, the weight of the code is a measurable function of the
times of the operators in every configuration space, is not negative, and vanishes if an operator of the bath occurs twice, if a
flavor does not exist, or if the numbers of creation and annihilation operators of the bath differ. -/
theorem C83_weight {A : CodeArgs 𝕜 N} (hA : A.OK) (hG : Measurable fun q : TPsi ℝ × TPsi ℝ => A.G q.1 q.2) :
    (codeW A).WMeas A.P.nf ∧ (∀ X X' ω, 0 ≤ codeW A X X' ω) ∧ (∀ X X' ω, codeW A X X' ω ≠ 0 → GoodCfg A.P.nf X X') ∧
      ∀ X X' ω, codeW A X X' ω ≠ 0 → X.card = X'.card :=
  ⟨⟨fun _ _ => measurable_cfgW hA hG measurable_id LM.nil, fun k fs _ _ => measurable_cfgW hA hG measurable_snd (lm_worm k fs measurable_fst)⟩,
    codeW_nonneg A, fun _ _ _ => codeW_good A, fun _ _ _ => codeW_card A⟩

/-- **C83** (runs).  A run of the updates of `C82_run_partial` with the weight of the code: it leaves the distribution over all
configuration spaces invariant. -/
theorem C83_run_partial {A : CodeArgs 𝕜 N} (hA : A.OK) (hG : Measurable fun q : TPsi ℝ × TPsi ℝ => A.G q.1 q.2) (hnf : 0 < A.P.nf)
    (kinds : List WormKind) (hkf : ∀ k ∈ kinds, 0 < k.numFlavors) (sw : WormKind → ℝ) (hsw : ∀ k ∈ kinds, 0 < sw k)
    {ψ : CfgFun (Option (Worm ℝ)) ℝ≥0∞} (hψ : ψ.WMeas A.P.nf) (L : List WStep) (hL : ∀ s ∈ L, s.OK A.beta A.P kinds) :
    wFlow A.beta A.P.nf kinds sw (fun _ _ _ => 1) (codeW A) (sweepE A.P kinds sw (codeW A) ψ L) =
      wFlow A.beta A.P.nf kinds sw (fun _ _ _ => 1) (codeW A) ψ.at := by
  obtain ⟨h1, h2, h3, h4⟩ := C83_weight hA hG
  exact C82_run_partial A.P hA.sectors hnf kinds hkf sw hsw h1 hψ h2 h3 L hL fun _ _ => h4

end CTHyb
