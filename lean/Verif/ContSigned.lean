import Verif.ContCodeLoop
import Verif.ContCodeFinite
import Mathlib.MeasureTheory.Integral.Bochner.Basic

/-!
# Signed integrals over the configurations

The term of a configuration with its sign is a measurable function of the times; integrals over all configurations of functions which are
not positive.
-/

namespace CTHyb

open Rand MeasureTheory ENNReal

variable {𝕜 : Type} [RCLike 𝕜] {N : ℕ}

/-! ### Specification -/

/-- **Specification.**  Term of a configuration: sign of the permutation times determinant times trace. -/
noncomputable def signedR (A : CodeArgs 𝕜 N) (x : WCfg ℝ) : 𝕜 :=
  ((permSignImpl (x.cd.map (mkOp id .creation)) (x.c.map (mkOp id .annihilation)) (wormOps (codeWops id x.worm)) : ℤ) : 𝕜) *
    A.weight (x.cd.map (mkOp id .creation)) (x.c.map (mkOp id .annihilation)) (x.sorted id (codeWops id))

open Classical in
/-- **Specification.**  The term as a function of the sets of operators, zero where two operators have the same time. -/
noncomputable def signedC (A : CodeArgs 𝕜 N) : CfgFun (Option (Worm ℝ)) 𝕜 := fun X X' ω =>
  if CodeCfg A.P.nf ⟨X.toList, X'.toList, ω⟩ then signedR A ⟨X.toList, X'.toList, ω⟩ else 0

/-- **Specification.**  Integral of `g` over all configurations of the bath with the worm `ω`. -/
noncomputable def cfgInt {W : Type} (β : ℝ) (nf : ℕ) (ω : W) (g : CfgFun W ℝ) : ℝ :=
  ∑' p : ℕ × ℕ, ((p.1.factorial * p.2.factorial : ℕ) : ℝ)⁻¹ * ∫ z, g.at (Lab.cfg z ω) ∂(labMeasure β nf p.1 p.2)

/-- **Specification.**  Integral of `g` over all configurations with a worm of type `k`. -/
noncomputable def kindInt (β : ℝ) (nf : ℕ) (k : WormKind) (g : CfgFun (Option (Worm ℝ)) ℝ) : ℝ :=
  ∑ fs : Fin k.numFlavors → Fin nf, ∫ ts, cfgInt β nf (some (mkW k ts fs)) g
    ∂(Measure.pi fun _ : Fin k.numTimes => volume.restrict (Set.Icc 0 β))

/-! ### The sign is measurable -/

section
variable {Ω : Type} [MeasurableSpace Ω]

theorem measurable_lt_count {o : Ω → TPsi ℝ} (ho : Measurable o) {L : Ω → List (TPsi ℝ)} (hL : LM L) :
    Measurable fun z => ((L z).map Psi.time).countP fun y => decide ((o z).time < y) := by
  induction hL with
  | nil => exact measurable_const
  | @cons o' L ho' hL ih =>
    simp only [List.map_cons, List.countP_cons, decide_eq_true_eq]
    exact ih.add (Measurable.ite (measurableSet_lt_time ho ho') measurable_const measurable_const)

theorem measurable_cross {L L' : Ω → List (TPsi ℝ)} (hL : LM L) (hL' : LM L') :
    Measurable fun z => crossCount ((L z).map Psi.time) ((L' z).map Psi.time) := by
  induction hL with
  | nil => exact measurable_const
  | @cons o L ho hL ih =>
    have : (fun z => crossCount ((o z :: L z).map Psi.time) ((L' z).map Psi.time)) = fun z =>
        (((L' z).map Psi.time).countP fun y => decide ((o z).time < y)) + crossCount ((L z).map Psi.time) ((L' z).map Psi.time) := by
      funext z; simp [crossCount]
    rw [this]
    exact (measurable_lt_count ho hL').add ih

theorem measurable_outOfOrder {L : Ω → List (TPsi ℝ)} (hL : LM L) : Measurable fun z => outOfOrder ((L z).map Psi.time) := by
  induction hL with
  | nil => exact measurable_const
  | @cons o L ho hL ih =>
    simp only [List.map_cons, outOfOrder]
    exact (measurable_lt_count ho hL).add ih

theorem measurable_invs {L : Ω → List (TPsi ℝ)} (hL : LM L) : Measurable fun z => invs ((L z).map Psi.time) := by
  have gt : ∀ {o : Ω → TPsi ℝ} (_ : Measurable o) {L : Ω → List (TPsi ℝ)} (_ : LM L),
      Measurable fun z => ((L z).map Psi.time).countP fun y => decide (y < (o z).time) := by
    intro o ho L hL
    induction hL with
    | nil => exact measurable_const
    | @cons o' L ho' hL ih =>
      simp only [List.map_cons, List.countP_cons, decide_eq_true_eq]
      exact ih.add (Measurable.ite (measurableSet_lt_time ho' ho) measurable_const measurable_const)
  induction hL with
  | nil => exact measurable_const
  | @cons o L ho hL ih =>
    simp only [List.map_cons, invs]
    exact (gt ho hL).add ih
end

/-! ### The term of a configuration -/

theorem signedR_same {A : CodeArgs 𝕜 N} {x y : WCfg ℝ} (e : x.Same y) (hn : ((x.ops id (codeWops id)).map Psi.time).Nodup) :
    signedR A x = signedR A y := by
  have hn2 : ((y.ops id (codeWops id)).map Psi.time).Nodup := ((e.ops_perm).map Psi.time).nodup_iff.1 hn
  have es : x.sorted id (codeWops id) = y.sorted id (codeWops id) :=
    sorted_unique (x.sorted_sorted hn) (y.sorted_sorted hn2) ((x.sorted_perm.trans e.ops_perm).trans y.sorted_perm.symm)
  have hn' := hn
  rw [PCfg.ops, List.map_append, List.map_append] at hn'
  have n1 := (List.nodup_append.1 (List.nodup_append.1 hn').1).1
  have n2 := (List.nodup_append.1 (List.nodup_append.1 hn').1).2.1
  unfold signedR CodeArgs.weight
  rw [es, timeDet_congr A.G (e.2.1.map _) (e.1.map _) n2 n1, e.2.2,
    (C05_perm_sign_invariant _ _ _ _ _).2 (e.1.map (mkOp id .creation)) (e.2.1.map (mkOp id .annihilation))]

open Classical in
theorem signedC_at (A : CodeArgs 𝕜 N) (x : WCfg ℝ) :
    (signedC A).at x = if CodeCfg A.P.nf x then signedR A x else 0 := by
  have e := same_toList x
  unfold CfgFun.at signedC
  by_cases h : CodeCfg A.P.nf x
  · rw [if_pos h, if_pos (h.of_same e), signedR_same e h.1]
  · rw [if_neg h, if_neg fun h' => h (h'.of_same e.symm)]

/-- The absolute value of the term is the weight. -/
theorem norm_signedC (A : CodeArgs 𝕜 N) (X X' : Multiset (BOp ℝ)) (ω : Option (Worm ℝ)) : ‖signedC A X X' ω‖ = codeW A X X' ω := by
  unfold signedC codeW
  split_ifs
  · unfold signedR cfgW
    rw [norm_mul]
    rcases (C05_perm_sign_invariant (T := OpTime ℝ) _ [] _ [] _).1 with h | h <;> rw [h] <;> simp
  · exact norm_zero

/-- The weight times the sign of the state is the term of the configuration. -/
theorem weight_signR {A : CodeArgs 𝕜 N} (hA : A.OK) {x : WCfg ℝ} {s : CodeState A (Option (Worm ℝ))}
    (hs : SimInv A.env A.Inv (pmDet A.P) s.1) (h : Reps A id (codeWops id) x s) :
    (((codeW A).at x : ℝ) : 𝕜) * s.1.cfg.sign = (signedC A).at x := by
  classical
  rw [h.codeW hs, signedC_at, if_pos (h.codeCfg hs)]
  have hE := C60_lawful A hA
  have hn := h.nodup hs
  have e : x.sorted id (codeWops id) = s.1.cfg.ops :=
    sorted_unique (x.sorted_sorted hn) hs.cons.1 (x.sorted_perm.trans (h.ops_perm hs))
  have hn' := hn
  rw [PCfg.ops, List.map_append, List.map_append] at hn'
  have n1 := (List.nodup_append.1 (List.nodup_append.1 hn').1).1
  have n2 := (List.nodup_append.1 (List.nodup_append.1 hn').1).2.1
  have hdet := hE.det_eq _ hs.inv
  obtain ⟨hp, hd, ht, hsg⟩ := hs.sign
  have htr := hs.trace
  have hsg' : s.1.cfg.sign = pmDet A.P s.1.cfg.M / ((‖pmDet A.P s.1.cfg.M‖ : ℝ) : 𝕜) *
    (s.1.cfg.trace / ((‖s.1.cfg.trace‖ : ℝ) : 𝕜)) * (s.1.cfg.permSign : 𝕜) := hsg
  have hpp : permSignImpl (x.cd.map (mkOp id .creation)) (x.c.map (mkOp id .annihilation)) (wormOps (codeWops id x.worm)) =
      s.1.cfg.permSign := by
    rw [hp, ← h.wops]
    exact hE.perm_congr _ _ _ _ _ h.cd.symm h.c.symm
  have hW : A.weight (x.cd.map (mkOp id .creation)) (x.c.map (mkOp id .annihilation)) (x.sorted id (codeWops id)) =
      pmDet A.P s.1.cfg.M * s.1.cfg.trace := by
    rw [e, hdet, htr]
    unfold CodeArgs.weight
    rw [timeDet_congr A.G h.c.symm h.cd.symm n2 n1]
    rfl
  have nd : ((‖pmDet A.P s.1.cfg.M‖ : ℝ) : 𝕜) ≠ 0 := by
    rw [RCLike.ofReal_ne_zero]; exact norm_ne_zero_iff.2 hd
  have nt : ((‖s.1.cfg.trace‖ : ℝ) : 𝕜) ≠ 0 := by
    rw [RCLike.ofReal_ne_zero]; exact norm_ne_zero_iff.2 ht
  unfold signedR cfgW
  rw [hpp, hW, hsg', norm_mul, RCLike.ofReal_mul]
  field_simp

section
variable {Ω : Type} [MeasurableSpace Ω]

open Classical in
theorem measurable_signed {A : CodeArgs 𝕜 N} (hA : A.OK) (hG : Measurable fun q : TPsi ℝ × TPsi ℝ => A.G q.1 q.2) {m n : ℕ}
    {z : Ω → Lab m n} (hz : Measurable z) {ω : Ω → Option (Worm ℝ)} (hω : LM fun y => wormOps (codeWops id (ω y))) :
    Measurable fun y => (signedC A).at ((z y).cfg (ω y)) := by
  by_cases hmn : m = n
  swap
  · have : (fun y => (signedC A).at ((z y).cfg (ω y))) = fun _ => 0 := by
      funext y
      rw [← norm_eq_zero]
      refine (norm_signedC A _ _ _).trans ?_
      by_contra h
      have := codeW_card A h
      simp [Lab.cfg] at this
      exact hmn this
    rw [this]
    exact measurable_const
  subst hmn
  have hc := lm_bath .annihilation (measurable_snd.comp hz)
  have hcd := lm_bath .creation (measurable_fst.comp hz)
  have hL : LM fun y => ((z y).cfg (ω y)).ops id (codeWops id) := (hcd.append hc).append hω
  have htr := measurable_timeSort (fun L => fullTrace (ebEnv A.B A.p A.beta) L) (fun L h => measurable_fullTrace hA h) hL
  have hfl : MeasurableSet {y | (∀ i, ((z y).1 i).2 < A.P.nf) ∧ ∀ i, ((z y).2 i).2 < A.P.nf} := by
    have h1 : ∀ i, MeasurableSet {y | ((z y).1 i).2 < A.P.nf} := fun i =>
      (measurable_snd.comp ((measurable_pi_apply i).comp (measurable_fst.comp hz))) (MeasurableSet.of_discrete (s := {a : ℕ | a < A.P.nf}))
    have h2 : ∀ i, MeasurableSet {y | ((z y).2 i).2 < A.P.nf} := fun i =>
      (measurable_snd.comp ((measurable_pi_apply i).comp (measurable_snd.comp hz))) (MeasurableSet.of_discrete (s := {a : ℕ | a < A.P.nf}))
    have e : {y | (∀ i, ((z y).1 i).2 < A.P.nf) ∧ ∀ i, ((z y).2 i).2 < A.P.nf} =
        (⋂ i, {y | ((z y).1 i).2 < A.P.nf}) ∩ ⋂ i, {y | ((z y).2 i).2 < A.P.nf} := by
      ext y
      simp only [Set.mem_inter_iff, Set.mem_iInter, Set.mem_ofPred_eq]
    rw [e]
    exact (MeasurableSet.iInter h1).inter (MeasurableSet.iInter h2)
  have hdet : Measurable fun y => listDet A.G ((List.ofFn (z y).2).map (mkOp id .annihilation))
      ((List.ofFn (z y).1).map (mkOp id .creation)) := by
    simp only [List.map_ofFn, listDet_ofFn, Matrix.det_apply, Matrix.of_apply]
    refine Finset.measurable_sum _ fun σ _ => Measurable.const_smul (Finset.measurable_prod _ fun i _ => ?_) _
    exact hG.comp ((measurable_mkOp .annihilation ((measurable_pi_apply (σ i)).comp (measurable_snd.comp hz))).prodMk
      (measurable_mkOp .creation ((measurable_pi_apply i).comp (measurable_fst.comp hz))))
  let e1 : Ω → ℕ := fun y => crossCount (((List.ofFn (z y).2).map (mkOp id .annihilation)).map Psi.time)
      (((List.ofFn (z y).1).map (mkOp id .creation)).map Psi.time) + m.choose 2 +
    crossCount (((List.ofFn (z y).2).map (mkOp id .annihilation) ++ (List.ofFn (z y).1).map (mkOp id .creation)).map Psi.time)
      ((wormOps (codeWops id (ω y))).map Psi.time) + outOfOrder ((wormOps (codeWops id (ω y))).map Psi.time) +
    (invs (((List.ofFn (z y).2).map (mkOp id .annihilation)).map Psi.time) +
      invs (((List.ofFn (z y).1).map (mkOp id .creation)).map Psi.time))
  have he1 : Measurable e1 := ((((measurable_cross hc hcd).add measurable_const).add (measurable_cross (hc.append hcd) hω)).add
    (measurable_outOfOrder hω)).add ((measurable_invs hc).add (measurable_invs hcd))
  have hsgn : Measurable fun y => ((-1 : 𝕜)) ^ e1 y := (Measurable.of_discrete (f := fun k : ℕ => (-1 : 𝕜) ^ k)).comp he1
  have key : (fun y => (signedC A).at ((z y).cfg (ω y))) =
      {y | (∀ i, ((z y).1 i).2 < A.P.nf) ∧ ∀ i, ((z y).2 i).2 < A.P.nf}.indicator fun y =>
        (-1 : 𝕜) ^ e1 y * listDet A.G ((List.ofFn (z y).2).map (mkOp id .annihilation)) ((List.ofFn (z y).1).map (mkOp id .creation)) *
          if ((((z y).cfg (ω y)).ops id (codeWops id)).map Psi.time).Nodup then
            fullTrace (ebEnv A.B A.p A.beta) (timeSort (((z y).cfg (ω y)).ops id (codeWops id))) else 0 := by
    funext y
    rw [signedC_at]
    by_cases hf : (∀ i, ((z y).1 i).2 < A.P.nf) ∧ ∀ i, ((z y).2 i).2 < A.P.nf
    · rw [Set.indicator_of_mem (show y ∈ {y | (∀ i, ((z y).1 i).2 < A.P.nf) ∧ ∀ i, ((z y).2 i).2 < A.P.nf} from hf)]
      by_cases hn : ((((z y).cfg (ω y)).ops id (codeWops id)).map Psi.time).Nodup
      · rw [if_pos ⟨hn, (List.forall_mem_ofFn_iff).2 hf.1, (List.forall_mem_ofFn_iff).2 hf.2⟩, if_pos hn]
        have hn' := hn
        rw [PCfg.ops, List.map_append, List.map_append] at hn'
        have n1 := (List.nodup_append.1 (List.nodup_append.1 hn').1).1
        have n2 := (List.nodup_append.1 (List.nodup_append.1 hn').1).2.1
        have hp : ((((z y).cfg (ω y)).c.map (mkOp id .annihilation)).map Psi.time ++
            (((z y).cfg (ω y)).cd.map (mkOp id .creation)).map Psi.time ++
            (wormOps (codeWops id ((z y).cfg (ω y)).worm)).map Psi.time).Nodup :=
          (List.perm_append_comm.append_right _).nodup_iff.1 hn'
        unfold signedR CodeArgs.weight
        rw [timeDet_eq A.G _ _ n2 n1, C05_perm_sign_value _ _ _ (by simp [Lab.cfg]) hp]
        simp only [e1, Lab.cfg, List.length_map, List.length_ofFn, List.map_append]
        push_cast
        rw [pow_add _ _ (invs _ + invs _)]
        have : ∀ a b c d : 𝕜, a * (b * c * d) = a * b * c * d := fun a b c d => by ring
        exact this _ _ _ _
      · rw [if_neg fun h => hn h.1, if_neg hn, mul_zero]
    · rw [Set.indicator_of_notMem (show y ∉ {y | (∀ i, ((z y).1 i).2 < A.P.nf) ∧ ∀ i, ((z y).2 i).2 < A.P.nf} from hf)]
      exact if_neg fun h => hf ⟨(List.forall_mem_ofFn_iff).1 h.2.1, (List.forall_mem_ofFn_iff).1 h.2.2⟩
  rw [key]
  exact ((hsgn.mul hdet).mul htr).indicator hfl

end

theorem signedC_wmeas {A : CodeArgs 𝕜 N} (hA : A.OK) (hG : Measurable fun q : TPsi ℝ × TPsi ℝ => A.G q.1 q.2) :
    (signedC A).WMeas A.P.nf :=
  ⟨fun _ _ => measurable_signed hA hG measurable_id LM.nil,
    fun k fs _ _ => measurable_signed hA hG measurable_snd (lm_worm k fs measurable_fst)⟩

/-! ### Flows -/

section
variable {W : Type} {β : ℝ} {nf : ℕ}

theorem allFlow_mono {ω : W} {φ : CfgFun W ℝ≥0∞} {w : CfgFun W ℝ} {K L : PCfg ℝ W → ℝ≥0∞} (h : ∀ x, x.worm = ω → K x ≤ L x) :
    allFlow β nf ω φ w K ≤ allFlow β nf ω φ w L := by
  refine ENNReal.tsum_le_tsum fun p => ?_
  unfold orderFlow
  gcongr
  exact h _ rfl

theorem allFlow_const {ω : W} {φ : CfgFun W ℝ≥0∞} {w : CfgFun W ℝ} {K : PCfg ℝ W → ℝ≥0∞} {c : ℝ≥0∞} (hc : c ≠ ∞) :
    allFlow β nf ω φ w (fun x => c * K x) = c * allFlow β nf ω φ w K := by
  unfold allFlow
  rw [← ENNReal.tsum_mul_left]
  refine tsum_congr fun p => ?_
  unfold orderFlow
  have : ∀ z : Lab p.1 p.2, φ.at (z.cfg ω) * ENNReal.ofReal (w.at (z.cfg ω)) * (c * K (z.cfg ω)) =
      c * (φ.at (z.cfg ω) * ENNReal.ofReal (w.at (z.cfg ω)) * K (z.cfg ω)) := fun z => by ring
  simp only [this]
  rw [lintegral_const_mul' _ _ hc]
  ring

theorem kindFlow_mono {k : WormKind} {φ : CfgFun (Option (Worm ℝ)) ℝ≥0∞} {w : CfgFun (Option (Worm ℝ)) ℝ} {K L : WCfg ℝ → ℝ≥0∞}
    (h : ∀ x, (∃ u, x.worm = some u ∧ u.kind = k) → K x ≤ L x) : kindFlow β nf φ w K k ≤ kindFlow β nf φ w L k := by
  unfold kindFlow
  gcongr with fs _ ts
  exact allFlow_mono fun x hx => h x ⟨_, hx, rfl⟩

theorem kindFlow_const {k : WormKind} {φ : CfgFun (Option (Worm ℝ)) ℝ≥0∞} {w : CfgFun (Option (Worm ℝ)) ℝ} {K : WCfg ℝ → ℝ≥0∞}
    {c : ℝ≥0∞} (hc : c ≠ ∞) : kindFlow β nf φ w (fun x => c * K x) k = c * kindFlow β nf φ w K k := by
  unfold kindFlow
  rw [Finset.mul_sum]
  refine Finset.sum_congr rfl fun fs _ => ?_
  rw [← lintegral_const_mul' _ _ hc]
  exact lintegral_congr fun ts => allFlow_const hc

/-- The integral of a function with both signs. -/
theorem cfgInt_eq {ω : W} {w d : CfgFun W ℝ} (hw : w.Meas ω) (hd : d.Meas ω) (h0 : ∀ X X' ω, 0 ≤ w X X' ω)
    (hfin : allFlow β nf ω (fun _ _ _ => 1) w (fun x => ENNReal.ofReal |d.at x|) ≠ ∞) :
    cfgInt β nf ω (fun X X' ω => w X X' ω * d X X' ω) =
      (allFlow β nf ω (fun _ _ _ => 1) w fun x => ENNReal.ofReal (d.at x)).toReal -
        (allFlow β nf ω (fun _ _ _ => 1) w fun x => ENNReal.ofReal (-d.at x)).toReal := by
  have fin : ∀ e : PCfg ℝ W → ℝ, (∀ x, e x ≤ |d.at x|) → allFlow β nf ω (fun _ _ _ => 1) w (fun x => ENNReal.ofReal (e x)) ≠ ∞ :=
    fun e he => ne_top_of_le_ne_top hfin (allFlow_mono fun x _ => ENNReal.ofReal_le_ofReal (he x))
  have f1 := fin (fun x => d.at x) fun x => le_abs_self _
  have f2 := fin (fun x => -d.at x) fun x => neg_le_abs _
  have t1 := ENNReal.ne_top_of_tsum_ne_top f1
  have t2 := ENNReal.ne_top_of_tsum_ne_top f2
  have t3 := ENNReal.ne_top_of_tsum_ne_top hfin
  unfold allFlow cfgInt
  rw [ENNReal.tsum_toReal_eq t1, ENNReal.tsum_toReal_eq t2, ← Summable.tsum_sub (ENNReal.summable_toReal f1) (ENNReal.summable_toReal f2)]
  refine tsum_congr fun p => ?_
  have hmw : Measurable fun z : Lab p.1 p.2 => w.at (z.cfg ω) := hw p.1 p.2
  have hmd : Measurable fun z : Lab p.1 p.2 => d.at (z.cfg ω) := hd p.1 p.2
  have e : ∀ a : Lab p.1 p.2 → ℝ, ∀ z : Lab p.1 p.2, CfgFun.at (fun _ _ _ => (1 : ℝ≥0∞)) (z.cfg ω) * ENNReal.ofReal (w.at (z.cfg ω)) *
      ENNReal.ofReal (a z) = ENNReal.ofReal (w.at (z.cfg ω) * a z) := fun a z => by
    rw [ENNReal.ofReal_mul (show 0 ≤ w.at (z.cfg ω) from h0 _ _ _)]
    exact congrArg (· * _) (one_mul _)
  have c0 : ((p.1.factorial * p.2.factorial : ℕ) : ℝ≥0∞)⁻¹ ≠ 0 := ENNReal.inv_ne_zero.2 (ENNReal.natCast_ne_top _)
  have hint : Integrable (fun z : Lab p.1 p.2 => w.at (z.cfg ω) * d.at (z.cfg ω)) (labMeasure β nf p.1 p.2) := by
    refine ⟨(hmw.mul hmd).aestronglyMeasurable, ?_⟩
    have h3 := t3 p
    unfold orderFlow at h3
    rw [lintegral_congr (e fun z => |d.at (z.cfg ω)|)] at h3
    have h4 : ∫⁻ z : Lab p.1 p.2, ENNReal.ofReal (w.at (z.cfg ω) * |d.at (z.cfg ω)|) ∂(labMeasure β nf p.1 p.2) ≠ ∞ := fun h =>
      h3 (by rw [h]; exact ENNReal.mul_top c0)
    unfold HasFiniteIntegral
    refine lt_of_le_of_lt (le_of_eq (lintegral_congr fun z => ?_)) h4.lt_top
    rw [← ofReal_norm_eq_enorm, Real.norm_eq_abs, abs_mul, abs_of_nonneg (show 0 ≤ w.at (z.cfg ω) from h0 _ _ _)]
  have e0 : ∀ z : Lab p.1 p.2, CfgFun.at (fun X X' ω => w X X' ω * d X X' ω) (z.cfg ω) = w.at (z.cfg ω) * d.at (z.cfg ω) := fun _ => rfl
  simp only [e0]
  rw [integral_eq_lintegral_pos_part_sub_lintegral_neg_part hint]
  unfold orderFlow
  rw [lintegral_congr (e fun z => d.at (z.cfg ω)), lintegral_congr (e fun z => -d.at (z.cfg ω)), ENNReal.toReal_mul, ENNReal.toReal_mul,
    ENNReal.toReal_inv, ENNReal.toReal_natCast, mul_sub]
  simp only [mul_neg]

theorem kindInt_eq {k : WormKind} {w d : CfgFun (Option (Worm ℝ)) ℝ} (hw : w.WMeas nf) (hd : d.WMeas nf) (h0 : ∀ X X' ω, 0 ≤ w X X' ω)
    (hfin : kindFlow β nf (fun _ _ _ => 1) w (fun x => ENNReal.ofReal |d.at x|) k ≠ ∞) :
    kindInt β nf k (fun X X' ω => w X X' ω * d X X' ω) =
      (kindFlow β nf (fun _ _ _ => 1) w (fun x => ENNReal.ofReal (d.at x)) k).toReal -
        (kindFlow β nf (fun _ _ _ => 1) w (fun x => ENNReal.ofReal (-d.at x)) k).toReal := by
  have t3 : ∀ fs : Fin k.numFlavors → Fin nf, ∫⁻ ts, allFlow β nf (some (mkW k ts fs)) (fun _ _ _ => 1) w
      (fun x => ENNReal.ofReal |d.at x|) ∂(Measure.pi fun _ : Fin k.numTimes => volume.restrict (Set.Icc 0 β)) ≠ ∞ := fun fs =>
    (ENNReal.sum_ne_top.1 hfin) fs (Finset.mem_univ _)
  have fin : ∀ e : WCfg ℝ → ℝ, (∀ x, e x ≤ |d.at x|) → ∀ fs : Fin k.numFlavors → Fin nf,
      ∫⁻ ts, allFlow β nf (some (mkW k ts fs)) (fun _ _ _ => 1) w (fun x => ENNReal.ofReal (e x))
        ∂(Measure.pi fun _ : Fin k.numTimes => volume.restrict (Set.Icc 0 β)) ≠ ∞ := fun e he fs =>
    ne_top_of_le_ne_top (t3 fs) (lintegral_mono fun ts => allFlow_mono fun x _ => ENNReal.ofReal_le_ofReal (he x))
  have f1 := fin (fun x => d.at x) fun x => le_abs_self _
  have f2 := fin (fun x => -d.at x) fun x => neg_le_abs _
  have hm : ∀ (f : ℝ → ℝ), Measurable f → ∀ fs : Fin k.numFlavors → Fin nf, Measurable fun ts : Fin k.numTimes → ℝ =>
      allFlow β nf (some (mkW k ts fs)) (fun _ _ _ => 1) w (fun x => ENNReal.ofReal (f (d.at x))) := by
    intro f hf fs
    unfold allFlow orderFlow
    exact Measurable.tsum fun p => (Measurable.lintegral_prod_right' (ν := labMeasure β nf p.1 p.2)
      (measurable_flowAt (wmeas_one nf) hw (k := k) (fs := fs) (K := fun x => ENNReal.ofReal (f (d.at x)))
        (ENNReal.measurable_ofReal.comp (hf.comp (hd.worm k fs p.1 p.2))))).const_mul _
  have m1 := hm (fun a => a) measurable_id
  have m2 := hm (fun a => -a) measurable_neg
  have m3 := hm (fun a => |a|) measurable_norm
  unfold kindInt kindFlow
  rw [ENNReal.toReal_sum fun fs _ => f1 fs, ENNReal.toReal_sum fun fs _ => f2 fs, ← Finset.sum_sub_distrib]
  refine Finset.sum_congr rfl fun fs _ => ?_
  rw [← integral_toReal (m1 fs).aemeasurable (ae_lt_top (m1 fs) (f1 fs)), ← integral_toReal (m2 fs).aemeasurable (ae_lt_top (m2 fs) (f2 fs)),
    ← integral_sub (integrable_toReal_of_lintegral_ne_top (m1 fs).aemeasurable (f1 fs))
      (integrable_toReal_of_lintegral_ne_top (m2 fs).aemeasurable (f2 fs))]
  refine integral_congr_ae ?_
  filter_upwards [ae_lt_top (m3 fs) (t3 fs)] with ts hts
  exact cfgInt_eq (hw.some k ts fs) (hd.some k ts fs) h0 hts.ne

end

end CTHyb
