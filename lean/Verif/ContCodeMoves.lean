import Verif.ContCodePair
import Verif.ContSweepProps
import Verif.SamplingWormProps

/-!
Further updates of the code in continuous time: shift and change of flavor of an operator of the bath, changes of worms which draw
no times.
-/

namespace CTHyb

open Rand MeasureTheory ENNReal

/-! ### Accepted and rejected moves -/

/-- `h` is the expectation value `f` over the accepted moves, which have the probability `g`, and `c` otherwise. -/
def Hold (c h f g : ℝ≥0∞) : Prop := h = f + (1 - g) * c ∧ g ≤ 1

theorem hold_none (c : ℝ≥0∞) : Hold c c 0 0 := ⟨by simp, zero_le_one⟩

theorem hold_mean {α : Type} {m : Rand ℝ α} (hm : meanE m (fun _ => 1) = 1) {c : ℝ≥0∞} {h f g : α → ℝ≥0∞}
    (hh : ∀ p ∈ m, Hold c (h p.2) (f p.2) (g p.2)) : Hold c (meanE m h) (meanE m f) (meanE m g) := by
  have hg1 : meanE m g ≤ 1 := by
    rw [← hm]
    exact meanE_mono fun p hp => (hh p hp).2
  refine ⟨?_, hg1⟩
  rw [meanE_congr (g := fun a => f a + c * (1 - g a)) fun p hp => (hh p hp).1.trans (by rw [mul_comm c]), meanE_add, meanE_mul_left,
    mul_comm c]
  congr 2
  have e1 := meanE_add m (fun a => 1 - g a) g
  rw [meanE_congr (g := fun _ => 1) fun p hp => tsub_add_cancel_of_le (hh p hp).2, hm] at e1
  exact ENNReal.eq_sub_of_add_eq (ne_top_of_le_ne_top one_ne_top hg1) e1.symm

theorem hold_int {Ω : Type} [MeasurableSpace Ω] {μ : Measure Ω} (hμ : μ Set.univ = 1) {c : ℝ≥0∞} {h f g : Ω → ℝ≥0∞}
    (hh : ∀ᵐ a ∂μ, Hold c (h a) (f a) (g a)) (hf : Measurable f) (hg : Measurable g) :
    Hold c (∫⁻ a, h a ∂μ) (∫⁻ a, f a ∂μ) (∫⁻ a, g a ∂μ) := by
  have hg1 : ∫⁻ a, g a ∂μ ≤ 1 := by
    refine (lintegral_mono_ae (g := fun _ => 1) (hh.mono fun a ha => ha.2)).trans_eq ?_
    rw [lintegral_const, hμ, mul_one]
  refine ⟨?_, hg1⟩
  rw [lintegral_congr_ae (hh.mono fun a ha => ha.1), lintegral_add_left hf,
    lintegral_mul_const c (show Measurable fun a => 1 - g a from measurable_const.sub hg)]
  congr 2
  have e1 := lintegral_add_left (μ := μ) hg (fun a => 1 - g a)
  rw [lintegral_congr_ae (g := fun _ => 1) (hh.mono fun a ha => add_tsub_cancel_of_le ha.2), lintegral_const, hμ, mul_one] at e1
  refine ENNReal.eq_sub_of_add_eq (ne_top_of_le_ne_top one_ne_top hg1) ?_
  rw [add_comm]
  exact e1.symm

theorem unit_univ : (volume.restrict (Set.Ico (0 : ℝ) 1)) Set.univ = 1 := by
  rw [Measure.restrict_apply_univ, Real.volume_Ico, sub_zero, ENNReal.ofReal_one]

/-! ### Measurability -/

section meas
variable {Ω B W : Type} [MeasurableSpace Ω] [MeasurableSpace B]

theorem meas_add {F : CfgFun W B} {ω : W} (hF : F.Meas ω) (X X' : Multiset (BOp ℝ)) {k l : ℕ} {p : Ω → Fin k → BOp ℝ}
    {q : Ω → Fin l → BOp ℝ} (hp : Measurable p) (hq : Measurable q) : Measurable fun u => F (X + ms (p u)) (X' + ms (q u)) ω := by
  have h1 : Measurable fun u => Fin.append X.toList.get (p u) := (measurable_append X.toList.length k).comp (measurable_const.prodMk hp)
  have h2 : Measurable fun u => Fin.append X'.toList.get (q u) := (measurable_append X'.toList.length l).comp (measurable_const.prodMk hq)
  have := (hF _ _).comp (h1.prodMk h2)
  have e : ∀ Y : Multiset (BOp ℝ), ms Y.toList.get = Y := fun Y => by
    rw [ms, List.ofFn_get, Multiset.coe_toList]
  refine (congrArg Measurable (funext fun u => ?_)).mp this
  show F (ms (Fin.append X.toList.get (p u))) (ms (Fin.append X'.toList.get (q u))) ω = _
  rw [ms_append, ms_append, e, e]

theorem meas_addW {nf : ℕ} {F : CfgFun (Option (Worm ℝ)) B} (hF : F.WMeas nf) (X X' : Multiset (BOp ℝ)) {kd : WormKind}
    {ts : Ω → Fin kd.numTimes → ℝ} (ht : Measurable ts) (fs : Fin kd.numFlavors → Fin nf) {k l : ℕ} {p : Ω → Fin k → BOp ℝ}
    {q : Ω → Fin l → BOp ℝ} (hp : Measurable p) (hq : Measurable q) :
    Measurable fun u => F (X + ms (p u)) (X' + ms (q u)) (some (mkW kd (ts u) fs)) := by
  have h1 : Measurable fun u => Fin.append X.toList.get (p u) := (measurable_append X.toList.length k).comp (measurable_const.prodMk hp)
  have h2 : Measurable fun u => Fin.append X'.toList.get (q u) := (measurable_append X'.toList.length l).comp (measurable_const.prodMk hq)
  have := (hF.worm kd fs _ _).comp (ht.prodMk (h1.prodMk h2))
  have e : ∀ Y : Multiset (BOp ℝ), ms Y.toList.get = Y := fun Y => by
    rw [ms, List.ofFn_get, Multiset.coe_toList]
  refine (congrArg Measurable (funext fun u => ?_)).mp this
  show F (ms (Fin.append X.toList.get (p u))) (ms (Fin.append X'.toList.get (q u))) _ = _
  rw [ms_append, ms_append, e, e]

theorem meas_accE {w : CfgFun W ℝ} {ψ : CfgFun W ℝ≥0∞} {x : PCfg ℝ W} {mv : Ω → Mv ℝ W} {c : Ω → ℝ} (hc : Measurable c)
    (hw : Measurable fun u => w.after x (mv u)) (hψ : Measurable fun u => ψ.after x (mv u)) :
    Measurable fun u => accE w ψ x (mv u) (c u) :=
  (ENNReal.measurable_ofReal.comp (measurable_const.min (((hw.div_const _)).mul hc))).mul hψ

end meas

/-! ### Admissible outcomes -/

variable {𝕜 : Type} [RCLike 𝕜] {N : ℕ} {A : CodeArgs 𝕜 N} {x : WCfg ℝ} {s : CodeState A (Option (Worm ℝ))}

/-- Properties of the outcomes of the proposals. -/
structure MvCont (nf : ℕ) (Z : Set ℝ) (win : Win ℝ ℝ) (x : WCfg ℝ) (mv : Mv ℝ (Option (Worm ℝ))) (corr : ℝ) : Prop where
  cdRem : mv.cdRem.Nodup ∧ ∀ o ∈ mv.cdRem, o ∈ x.cd
  cRem : mv.cRem.Nodup ∧ ∀ o ∈ mv.cRem, o ∈ x.c
  cdAdd : ∀ o ∈ mv.cdAdd, o.1 ∉ Z ∧ o.2 < nf
  cAdd : ∀ o ∈ mv.cAdd, o.1 ∉ Z ∧ o.2 < nf
  shape : (mv.cdRem = [] ∧ mv.cRem = []) ∨ (mv.cdAdd = [] ∧ mv.cAdd = []) ∨
    (mv.cdRem.length ≤ 1 ∧ mv.cdAdd.length ≤ 1 ∧ mv.cRem = [] ∧ mv.cAdd = []) ∨
    (mv.cRem.length ≤ 1 ∧ mv.cAdd.length ≤ 1 ∧ mv.cdRem = [] ∧ mv.cdAdd = [])
  corr : 0 < corr
  worm : ∀ w, mv.worm = some w → w.Valid ∧ (∀ f ∈ w.flavors, f < nf) ∧ ∀ t ∈ w.times, t ∉ Z
  win : ((outOps x mv).filter fun o => !win.inWin o.time.time).Perm ((inOps mv).filter fun o => !win.inWin o.time.time)

theorem MvCont.reg {nf : ℕ} {Z : Set ℝ} {win : Win ℝ ℝ} {mv : Mv ℝ (Option (Worm ℝ))} {corr : ℝ}
    (h : MvCont nf Z win x mv corr) (hx : Reg nf Z x) : Reg nf Z (moved x mv) :=
  reg_moved hx (fun o ho => (List.mem_append.1 ho).elim (fun ho => (h.cdAdd o ho).1) fun ho => (h.cAdd o ho).1) h.worm

theorem MvCont.mvOK {Z : Set ℝ} {cw : CWin} {mv : Mv ℝ (Option (Worm ℝ))} {corr : ℝ}
    (h : MvCont A.P.nf Z cw.win x mv corr) (hx : Reg A.P.nf Z x) (hzl : cw.lo ∈ Z) (hzh : cw.hi ∈ Z) :
    MvOK A id (codeWops id) cw.lo cw.hi x mv corr := by
  refine ⟨List.subperm_of_subset h.cdRem.1 h.cdRem.2, List.subperm_of_subset h.cRem.1 h.cRem.2,
    fun o ho => (h.cdAdd o ho).2, fun o ho => (h.cAdd o ho).2, h.shape, h.corr, fun o ho => ?_⟩
  have e1 : mv.cdRem.map (mkOp id .creation) ++ mv.cRem.map (mkOp id .annihilation) ++
      wormOps (codeWops id x.worm) = (outOps x mv).map (mapOp id) := by
    rw [wormOps_code]; simp [outOps, Function.comp_def]; rfl
  have e2 : mv.cdAdd.map (mkOp id .creation) ++ mv.cAdd.map (mkOp id .annihilation) ++
      wormOps (codeWops id mv.worm) = (inOps mv).map (mapOp id) := by
    rw [wormOps_code]; simp [inOps, Function.comp_def]; rfl
  rw [e1, e2] at ho
  have hwl : ∀ w : Option (Worm ℝ), (∀ u, w = some u → u.Valid ∧ ∀ t ∈ u.times, t ∉ Z) →
      ∀ a ∈ wl w, a.time.time ∉ Z := by
    intro w hw a ha
    cases w with
    | none => simp [wl] at ha
    | some u => exact (hw u rfl).2 _ (operators_time u (hw u rfl).1 a ha)
  have hmem : ∀ a ∈ outOps x mv ++ inOps mv, a.time.time ∉ Z := by
    intro a ha
    simp only [outOps, inOps, List.mem_append, List.mem_map] at ha
    rcases ha with ((⟨b, hb, rfl⟩ | ⟨b, hb, rfl⟩) | ha) | ((⟨b, hb, rfl⟩ | ⟨b, hb, rfl⟩) | ha)
    · exact hx.1 b (List.mem_append_left _ (h.cdRem.2 b hb))
    · exact hx.1 b (List.mem_append_right _ (h.cRem.2 b hb))
    · exact hwl _ (fun u hu => ⟨(hx.2 u hu).1, (hx.2 u hu).2.2⟩) a ha
    · exact (h.cdAdd b hb).1
    · exact (h.cAdd b hb).1
    · exact hwl _ (fun u hu => ⟨(h.worm u hu).1, (h.worm u hu).2.2⟩) a ha
  by_contra hc
  have hex : ∃ a ∈ outOps x mv ++ inOps mv, mapOp id a = o := by
    by_contra hn
    push Not at hn
    refine ho ?_
    rw [List.count_eq_zero_of_not_mem, List.count_eq_zero_of_not_mem]
    · intro hm
      obtain ⟨a, ha, e⟩ := List.mem_map.1 hm
      exact hn a (List.mem_append_right _ ha) e
    · intro hm
      obtain ⟨a, ha, e⟩ := List.mem_map.1 hm
      exact hn a (List.mem_append_left _ ha) e
  obtain ⟨a, ha, rfl⟩ := hex
  refine ho (count_map_filter _ (fun o => !cw.win.inWin o.time.time) _ _ h.win _ fun b hb => ?_)
  have htime : b.time.time = a.time.time := by
    have := congrArg (fun o => o.time.time) hb
    exact this
  rw [Bool.not_eq_true']
  by_contra hin
  rw [Bool.not_eq_false, htime] at hin
  simp only [CWin.win, Bool.and_eq_true, decide_eq_true_eq] at hin
  have hz := hmem a ha
  exact hc ⟨lt_of_le_of_ne hin.1 fun e => hz (e ▸ hzl), lt_of_le_of_ne hin.2 fun e => hz (e ▸ hzh)⟩

/-- What the updates are called with: a state `s` of the simulation with the regular configuration `x`, and its window. -/
structure At (A : CodeArgs 𝕜 N) (Z : Set ℝ) (cw : CWin) (x : WCfg ℝ) (s : CodeState A (Option (Worm ℝ))) : Prop where
  inv : SimInv A.env A.Inv (pmDet A.P) s.1
  reps : Reps A id (codeWops id) x s
  win : cw.OK A.beta
  lo : cw.lo = loEdge A s
  hi : cw.hi = hiEdge A s
  count : Z.Countable
  reg : Reg A.P.nf Z x
  lo_mem : cw.lo ∈ Z
  hi_mem : cw.hi ∈ Z

variable {Z : Set ℝ} {cw : CWin} {ψ : CfgFun (Option (Worm ℝ)) ℝ≥0∞} {F : CodeState A (Option (Worm ℝ)) → ℝ≥0∞}

theorem hold_acc (hA : A.OK) (hs : At A Z cw x s) {mv : Mv ℝ (Option (Worm ℝ))} {c : ℝ} (hm : MvCont A.P.nf Z cw.win x mv c)
    (hF : ReadsCfg A (Reg A.P.nf Z) s ψ F) :
    Hold (ψ.at x) (codeAcc A s F (some (mv, c))) (accE (codeW A) ψ x mv c) (accE (codeW A) (fun _ _ _ => 1) x mv c) := by
  have h1 := hm.mvOK hs.reg hs.lo_mem hs.hi_mem
  rw [hs.lo, hs.hi] at h1
  exact ⟨(C83_accept hA hs.inv hs.reps h1 reg_same hs.reg (hm.reg hs.reg) hF).2, accE_one_le _ _ _ _⟩

theorem hold_rej (hs : At A Z cw x s) (hF : ReadsCfg A (Reg A.P.nf Z) s ψ F) : Hold (ψ.at x) (codeAcc A s F none) 0 0 := by
  have : codeAcc A s F none = ψ.at x := by
    unfold codeAcc
    simp only [codeStep_none, Option.elim_some]
    rw [setLIntegral_const, Real.volume_Ico, hF s hs.inv rfl x hs.reg hs.reps]
    simp
  rw [this]
  exact hold_none _

/-- Updates which draw no times. -/
theorem hold_prop (hA : A.OK) (hs : At A Z cw x s) {m : Rand ℝ (Option (Mv ℝ (Option (Worm ℝ)) × ℝ))}
    (hm1 : meanE m (fun _ => 1) = 1) (hm : ∀ p ∈ m, ∀ mv c, p.2 = some (mv, c) → MvCont A.P.nf Z cw.win x mv c)
    (hF : ReadsCfg A (Reg A.P.nf Z) s ψ F) :
    Hold (ψ.at x) (meanE m (codeAcc A s F)) (propE (codeW A) ψ x m) (propE (codeW A) (fun _ _ _ => 1) x m) := by
  unfold propE
  refine hold_mean hm1 fun p hp => ?_
  rcases ho : p.2 with _ | ⟨mv, c⟩
  · exact hold_rej hs hF
  · exact hold_acc hA hs (hm p hp mv c ho) hF

/-! ### Shift and change of flavor of an operator -/

theorem mvCont_replace (b : Bool) (o o' : BOp ℝ) (hx : Reg A.P.nf Z x)
    (ho : o ∈ winOps cw.win (if b then x.cd else x.c)) (h1 : o'.1 ∉ Z) (h2 : o'.2 < A.P.nf) (h3 : cw.win.inWin o'.1 = true) :
    MvCont A.P.nf Z cw.win x (replaceMv b o o' x.worm) 1 := by
  rw [winOps, List.mem_filter] at ho
  cases b
  · simp only [Bool.false_eq_true, if_false] at ho
    refine ⟨by simp [replaceMv], ?_, by simp [replaceMv], ?_, ?_, one_pos, hx.2, win_of ?_ ?_ ?_ ?_ (List.Perm.refl _)⟩ <;>
      simp [replaceMv, ho.1, ho.2, h1, h2, h3]
  · simp only [if_true] at ho
    refine ⟨?_, by simp [replaceMv], ?_, by simp [replaceMv], ?_, one_pos, hx.2, win_of ?_ ?_ ?_ ?_ (List.Perm.refl _)⟩ <;>
      simp [replaceMv, ho.1, ho.2, h1, h2, h3]

theorem flavor_lt (hs : At A Z cw x s) {o : BOp ℝ} (ho : o ∈ x.cd ++ x.c) : o.2 < A.P.nf := by
  have h := hs.reps.codeCfg hs.inv
  rcases List.mem_append.1 ho with ho | ho
  · exact h.2.1 o ho
  · exact h.2.2 o ho

theorem winOps_mem {b : Bool} {o : BOp ℝ} (ho : o ∈ winOps cw.win (if b then x.cd else x.c)) :
    o ∈ x.cd ++ x.c ∧ cw.win.inWin o.1 = true := by
  rw [winOps, List.mem_filter] at ho
  cases b
  · exact ⟨List.mem_append_right _ (by simpa using ho.1), ho.2⟩
  · exact ⟨List.mem_append_left _ (by simpa using ho.1), ho.2⟩

theorem probE_of {α : Type} {m : Rand ℝ α} (h0 : NonnegR m) (h : mean m (fun _ => 1) = 1) : meanE m (fun _ => 1) = 1 := by
  have := meanE_ofReal h0 (fun _ => 1) fun _ => zero_le_one
  rw [h, ENNReal.ofReal_one] at this
  exact this

theorem probE_coin : meanE (coin (1 / 2)) (fun _ => 1) = 1 := by
  rw [meanE_coin_half, mul_one, ← ENNReal.ofReal_add (by norm_num) (by norm_num)]
  norm_num

/-- `OperatorPairFlavorUpdater::update` of the code. -/
noncomputable def codeFlavor (A : CodeArgs 𝕜 N) (cw : CWin) (x : WCfg ℝ) (s : CodeState A (Option (Worm ℝ)))
    (F : CodeState A (Option (Worm ℝ)) → ℝ≥0∞) : ℝ≥0∞ :=
  meanE (flavorPropose A.P.nf cw.win x) (codeAcc A s F)

theorem hold_flavor (hA : A.OK) (hs : At A Z cw x s) (hnf : 0 < A.P.nf) (hF : ReadsCfg A (Reg A.P.nf Z) s ψ F) :
    Hold (ψ.at x) (codeFlavor A cw x s F) (flavorE A.P.nf cw (codeW A) ψ x) (flavorE A.P.nf cw (codeW A) (fun _ _ _ => 1) x) := by
  refine hold_prop hA hs ?_ ?_ hF
  · unfold flavorPropose
    split_ifs with h
    · exact meanE_ret _ _
    · push Not at h
      refine probE_bind nnr_coin probE_coin fun b => probE_bind (nnr_unif _) (meanE_unif_one ?_) fun o =>
        probE_bind (nnr_unif _) (meanE_unif_one (by rwa [List.length_range])) fun f => meanE_ret _ _
      cases b
      · exact Nat.pos_of_ne_zero h.2
      · exact Nat.pos_of_ne_zero h.1
  · intro p hp mv c h
    unfold flavorPropose at hp
    split_ifs at hp
    · rw [mem_ret hp] at h; simp at h
    · obtain ⟨b, -, q1, hq1, e1⟩ := mem_bind hp
      obtain ⟨o, ho, q2, hq2, e2⟩ := mem_bind hq1
      obtain ⟨f, hf, q3, hq3, e3⟩ := mem_bind hq2
      rw [e1, e2, e3, mem_ret hq3, Option.some.injEq, Prod.mk.injEq] at h
      obtain ⟨rfl, rfl⟩ := h
      have ho : o.2 ∈ winOps cw.win (if b.2 then x.cd else x.c) := by
        have := mem_unif ho
        rcases hb : b.2 <;> rw [hb] at this <;> simpa using this
      have ho' := winOps_mem ho
      exact mvCont_replace b.2 o.2 (o.2.1, f.2) hs.reg ho (hs.reg.1 o.2 ho'.1)
        (show f.2 < A.P.nf from List.mem_range.1 (mem_unif (R := ℝ) hf)) ho'.2

/-- `SingleOperatorShiftUpdater::update` of the code (src/moves/moves.ipp:591-645). -/
noncomputable def codeShift (A : CodeArgs 𝕜 N) (cw : CWin) (maxDist : ℕ → ℝ) (x : WCfg ℝ) (s : CodeState A (Option (Worm ℝ)))
    (F : CodeState A (Option (Worm ℝ)) → ℝ≥0∞) : ℝ≥0∞ :=
  let ops := (winOps cw.win x.cd).map (true, ·) ++ (winOps cw.win x.c).map (false, ·)
  if ops.length = 0 then codeAcc A s F none
  else meanE (unif ops) fun o =>
    meanE (shiftFlavor A.P o.2.2) fun f =>
    ∫⁻ u in Set.Ico (0 : ℝ) 1,
      if cw.win.inWin (shiftedTime (maxDist o.2.2) o.2.1 u) then
        codeAcc A s F (some (replaceMv o.1 o.2 (shiftedTime (maxDist o.2.2) o.2.1 u, f) x.worm, 1))
      else codeAcc A s F none

theorem shiftedTime_inj {d : ℝ} (hd : 0 < d) (t : ℝ) : Function.Injective (shiftedTime d t) := by
  intro u v h
  unfold shiftedTime at h
  have : d * u = d * v := by linarith
  exact mul_left_cancel₀ hd.ne' this

theorem measurable_shiftedTime (d t : ℝ) : Measurable (shiftedTime d t) := by
  unfold shiftedTime
  fun_prop

theorem meas_replace {Ω : Type} [MeasurableSpace Ω] {B : Type} [MeasurableSpace B] {H : CfgFun (Option (Worm ℝ)) B}
    (hH : H.Meas x.worm) (b : Bool) (o : BOp ℝ) {o' : Ω → BOp ℝ} (ho : Measurable o') :
    Measurable fun u => H.after x (replaceMv b o (o' u) x.worm) := by
  have h1 : Measurable fun u => (fun _ : Fin 1 => o' u) := measurable_pi_lambda _ fun _ => ho
  have h0 : Measurable fun _ : Ω => (Fin.elim0 : Fin 0 → BOp ℝ) := measurable_const
  have e1 : ∀ u, (([o' u] : List (BOp ℝ)) : Multiset (BOp ℝ)) = ms (fun _ : Fin 1 => o' u) := fun u => rfl
  have e0 : ((([] : List (BOp ℝ)) : Multiset (BOp ℝ))) = ms (Fin.elim0 : Fin 0 → BOp ℝ) := rfl
  cases b
  · refine (congrArg Measurable (funext fun u => ?_)).mp (meas_add hH (x.cd : Multiset (BOp ℝ)) ((x.c : Multiset (BOp ℝ)) - ([o] : List (BOp ℝ))) h0 h1)
    simp [replaceMv, CfgFun.after, e1, ← e0]
  · refine (congrArg Measurable (funext fun u => ?_)).mp (meas_add hH ((x.cd : Multiset (BOp ℝ)) - ([o] : List (BOp ℝ))) (x.c : Multiset (BOp ℝ)) h1 h0)
    simp [replaceMv, CfgFun.after, e1, ← e0]

theorem hold_shift (hA : A.OK) (hG : Measurable fun q : TPsi ℝ × TPsi ℝ => A.G q.1 q.2) (hs : At A Z cw x s) {maxDist : ℕ → ℝ}
    (hd : ∀ f, 0 < maxDist f) (hψ : ψ.Meas x.worm) (hF : ReadsCfg A (Reg A.P.nf Z) s ψ F) :
    Hold (ψ.at x) (codeShift A cw maxDist x s F) (shiftE A.P cw maxDist (codeW A) ψ x)
      (shiftE A.P cw maxDist (codeW A) (fun _ _ _ => 1) x) := by
  unfold codeShift shiftE
  simp only
  split_ifs with h0
  · exact hold_rej hs hF
  refine hold_mean (meanE_unif_one (Nat.pos_of_ne_zero h0)) fun o ho => ?_
  have ho : o.2.2 ∈ winOps cw.win (if o.2.1 then x.cd else x.c) := by
    rcases List.mem_append.1 (mem_unif ho) with h | h <;> obtain ⟨a, ha, e⟩ := List.mem_map.1 h <;> rw [← e] <;>
      simpa using ha
  have ho' := winOps_mem ho
  have hfo := flavor_lt hs ho'.1
  unfold shiftDrawC
  refine hold_mean ?_ fun f hf => ?_
  · refine probE_bind nnr_coin probE_coin fun b => ?_
    cases b
    · exact meanE_unif_one (List.length_pos_of_mem (a := o.2.2.2) (by
        rw [blockFlavors, List.mem_filter]
        exact ⟨List.mem_range.2 hfo, by simp⟩))
    · exact meanE_ret _ _
  have hf2 : f.2 < A.P.nf := by
    obtain ⟨b, -, q, hq, e⟩ := mem_bind hf
    rw [e]
    split_ifs at hq
    · rw [mem_ret hq]; exact hfo
    · have := mem_unif hq
      rw [blockFlavors, List.mem_filter] at this
      exact List.mem_range.1 this.1
  have ht := measurable_shiftedTime (maxDist o.2.2.2) o.2.2.1
  have hin : MeasurableSet {u | cw.win.inWin (shiftedTime (maxDist o.2.2.2) o.2.2.1 u) = true} := by
    have : {u | cw.win.inWin (shiftedTime (maxDist o.2.2.2) o.2.2.1 u) = true} =
        shiftedTime (maxDist o.2.2.2) o.2.2.1 ⁻¹' Set.Icc cw.lo cw.hi := by
      ext u
      simp [CWin.win]
    rw [this]
    exact ht measurableSet_Icc
  have hm : ∀ χ : CfgFun (Option (Worm ℝ)) ℝ≥0∞, χ.Meas x.worm → Measurable fun u =>
      accE (codeW A) χ x (replaceMv o.2.1 o.2.2 (shiftedTime (maxDist o.2.2.2) o.2.2.1 u, f.2) x.worm) 1 := fun χ hχ =>
    meas_accE measurable_const (meas_replace (codeW_meas hA hG _) _ _ (ht.prodMk measurable_const))
      (meas_replace hχ _ _ (ht.prodMk measurable_const))
  refine hold_int unit_univ ?_ (Measurable.ite hin (hm ψ hψ) measurable_const)
    (Measurable.ite hin (hm _ fun _ _ => measurable_const) measurable_const)
  filter_upwards [ae_preimage hs.count (shiftedTime_inj (hd o.2.2.2) o.2.2.1)] with u hu
  split_ifs with hw
  · exact hold_acc hA hs (mvCont_replace o.2.1 o.2.2 _ hs.reg ho hu hf2 hw) hF
  · exact hold_rej hs hF

end CTHyb
