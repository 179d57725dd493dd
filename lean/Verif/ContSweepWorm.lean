import Verif.ContSweepMeas
import Verif.WormMoveProps

/-!
Lemmas for `Verif.ContSweepProps`: changing the flavors and the time of a worm.
-/

namespace CTHyb

open Rand MeasureTheory ENNReal

/-- The times of a worm. -/
noncomputable def wTimes (β : ℝ) (n : ℕ) : Measure (Fin n → ℝ) := Measure.pi fun _ => volume.restrict (Set.Icc 0 β)

instance (β : ℝ) (n : ℕ) : SigmaFinite (wTimes β n) := by unfold wTimes; infer_instance

/-- What is integrated in `kindFlow`. -/
noncomputable def flowAt (nf : ℕ) (φ : CfgFun (Option (Worm ℝ)) ℝ≥0∞) (w : CfgFun (Option (Worm ℝ)) ℝ) (K : WCfg ℝ → ℝ≥0∞)
    (k : WormKind) (fs : Fin k.numFlavors → Fin nf) {m n : ℕ} (y : (Fin k.numTimes → ℝ) × Lab m n) : ℝ≥0∞ :=
  φ (ms y.2.1) (ms y.2.2) (some (mkW k y.1 fs)) * ENNReal.ofReal (w (ms y.2.1) (ms y.2.2) (some (mkW k y.1 fs))) *
    K (y.2.cfg (some (mkW k y.1 fs)))

theorem measurable_flowAt {nf : ℕ} {φ : CfgFun (Option (Worm ℝ)) ℝ≥0∞} {w : CfgFun (Option (Worm ℝ)) ℝ} (hφ : φ.WMeas nf)
    (hw : w.WMeas nf) {K : WCfg ℝ → ℝ≥0∞} {k : WormKind} {fs : Fin k.numFlavors → Fin nf} {m n : ℕ}
    (hK : Measurable fun y : (Fin k.numTimes → ℝ) × Lab m n => K (y.2.cfg (some (mkW k y.1 fs)))) :
    Measurable fun y : (Fin k.numTimes → ℝ) × Lab m n => flowAt nf φ w K k fs y :=
  ((hφ.worm k fs m n).mul (ENNReal.measurable_ofReal.comp (hw.worm k fs m n))).mul hK

/-- One integral over times and operators. -/
theorem kindFlow_prod {β : ℝ} {nf : ℕ} {φ : CfgFun (Option (Worm ℝ)) ℝ≥0∞} {w : CfgFun (Option (Worm ℝ)) ℝ} (hφ : φ.WMeas nf)
    (hw : w.WMeas nf) {K : WCfg ℝ → ℝ≥0∞} (k : WormKind)
    (hK : ∀ (fs : Fin k.numFlavors → Fin nf) (m n : ℕ),
      Measurable fun y : (Fin k.numTimes → ℝ) × Lab m n => K (y.2.cfg (some (mkW k y.1 fs)))) :
    kindFlow β nf φ w K k = ∑' p : ℕ × ℕ, ((p.1.factorial * p.2.factorial : ℕ) : ℝ≥0∞)⁻¹ *
      ∫⁻ y, ∑ fs : Fin k.numFlavors → Fin nf, flowAt nf φ w K k fs y ∂((wTimes β k.numTimes).prod (labMeasure β nf p.1 p.2)) := by
  have hm : ∀ (fs : Fin k.numFlavors → Fin nf) (p : ℕ × ℕ), Measurable fun y : (Fin k.numTimes → ℝ) × Lab p.1 p.2 =>
      flowAt nf φ w K k fs y := fun fs p => measurable_flowAt hφ hw (hK fs p.1 p.2)
  have h1 : ∀ fs : Fin k.numFlavors → Fin nf, ∫⁻ ts, allFlow β nf (some (mkW k ts fs)) φ w K ∂(wTimes β k.numTimes) =
      ∑' p : ℕ × ℕ, ((p.1.factorial * p.2.factorial : ℕ) : ℝ≥0∞)⁻¹ *
        ∫⁻ y, flowAt nf φ w K k fs y ∂((wTimes β k.numTimes).prod (labMeasure β nf p.1 p.2)) := by
    intro fs
    unfold allFlow orderFlow
    have hi : ∀ p : ℕ × ℕ, Measurable fun ts : Fin k.numTimes → ℝ =>
        ∫⁻ z : Lab p.1 p.2, flowAt nf φ w K k fs (ts, z) ∂(labMeasure β nf p.1 p.2) := fun p =>
      Measurable.lintegral_prod_right' (hm fs p)
    refine (lintegral_tsum fun p => ((hi p).const_mul _).aemeasurable).trans (tsum_congr fun p => ?_)
    rw [lintegral_prod _ (hm fs p).aemeasurable]
    exact lintegral_const_mul _ (hi p)
  have h2 : kindFlow β nf φ w K k = ∑ fs : Fin k.numFlavors → Fin nf,
      ∫⁻ ts, allFlow β nf (some (mkW k ts fs)) φ w K ∂(wTimes β k.numTimes) := rfl
  rw [h2, Finset.sum_congr rfl fun fs _ => h1 fs, ← Summable.tsum_finsetSum fun _ _ => ENNReal.summable]
  refine tsum_congr fun p => ?_
  rw [lintegral_finsetSum _ fun fs _ => hm fs p, Finset.mul_sum]

/-! ### The acceptance test between two worms -/

theorem accE_worm (w : CfgFun (Option (Worm ℝ)) ℝ) (ψ : CfgFun (Option (Worm ℝ)) ℝ≥0∞) {m n : ℕ} (z : Lab m n)
    (u u' : Option (Worm ℝ)) : accE w ψ (z.cfg u) ⟨[], [], [], [], u'⟩ 1 =
      ENNReal.ofReal (min 1 (w (ms z.1) (ms z.2) u' / w (ms z.1) (ms z.2) u)) * ψ (ms z.1) (ms z.2) u' := by
  simp only [accE, CfgFun.after, CfgFun.at, Multiset.coe_nil, tsub_zero, add_zero, mul_one]
  rfl

theorem accE_flow {w : CfgFun (Option (Worm ℝ)) ℝ} (h0 : ∀ X X' ω, 0 ≤ w X X' ω) (φ ψ : CfgFun (Option (Worm ℝ)) ℝ≥0∞) {m n : ℕ}
    (z : Lab m n) (u u' : Option (Worm ℝ)) :
    φ (ms z.1) (ms z.2) u * ENNReal.ofReal (w (ms z.1) (ms z.2) u) * accE w ψ (z.cfg u) ⟨[], [], [], [], u'⟩ 1 =
      ψ (ms z.1) (ms z.2) u' * ENNReal.ofReal (w (ms z.1) (ms z.2) u') * accE w φ (z.cfg u') ⟨[], [], [], [], u⟩ 1 := by
  rw [accE_worm, accE_worm]
  have h1 := metropolis_min (h0 (ms z.1) (ms z.2) u) (h0 (ms z.1) (ms z.2) u')
  have h2 := metropolis_min (h0 (ms z.1) (ms z.2) u') (h0 (ms z.1) (ms z.2) u)
  rw [min_comm (w (ms z.1) (ms z.2) u')] at h2
  rw [show ∀ a b c d : ℝ≥0∞, a * b * (c * d) = a * d * (b * c) from fun a b c d => by ring, h1,
    show ∀ a b c d : ℝ≥0∞, a * b * (c * d) = d * a * (b * c) from fun a b c d => by ring, h2]

/-! ### Changing the flavors -/

/-- Probability of the flavor `f'` in place of `f`. -/
noncomputable def chgP (nf : ℕ) (b : Bool) (f f' : Fin nf) : ℝ≥0∞ :=
  if b then ENNReal.ofReal (1 / (nf : ℝ)) else if f = f' then 1 else 0

theorem chgP_symm (nf : ℕ) (b : Bool) (f f' : Fin nf) : chgP nf b f f' = chgP nf b f' f := by
  unfold chgP
  simp only [eq_comm]

theorem nnr_flavorDraws (nf : ℕ) (win : Win ℝ ℝ) (u : Worm ℝ) (l : List ℕ) : NonnegR (flavorDraws nf win u l) := by
  induction l with
  | nil => exact nnr_ret _
  | cons f l ih =>
    refine nnr_bind ?_ fun _ => nnr_bind ih fun _ => nnr_ret _
    split_ifs
    · exact nnr_unif _
    · exact nnr_ret _

theorem meanE_flavorDraws (nf : ℕ) (win : Win ℝ ℝ) (u : Worm ℝ) (n : ℕ) : ∀ (idx : Fin n → ℕ) (g : Fin n → Fin nf),
    (∀ i, u.flavors.getD (idx i) 0 = (g i : ℕ)) → ∀ F : List ℕ → ℝ≥0∞,
    meanE (flavorDraws nf win u (List.ofFn idx)) F = ∑ fs : Fin n → Fin nf,
      (∏ i, chgP nf ((u.getTime (u.kind.timeIndex (idx i))).any win.inWin) (g i) (fs i)) * F (flavList fs) := by
  induction n with
  | zero =>
    intro idx g _ F
    rw [List.ofFn_zero, flavorDraws, meanE_ret]
    simp [flavList]
  | succ n ih =>
    intro idx g hg F
    have hd : ∀ G : ℕ → ℝ≥0∞, meanE (if (u.getTime (u.kind.timeIndex (idx 0))).any win.inWin = true then unif (List.range nf)
        else ret (u.flavors.getD (idx 0) 0)) G =
        ∑ f : Fin nf, chgP nf ((u.getTime (u.kind.timeIndex (idx 0))).any win.inWin) (g 0) f * G f := by
      intro G
      unfold chgP
      split_ifs
      · rw [meanE_unif, List.length_range, sum_range_fin, Finset.mul_sum]
      · rw [meanE_ret, hg 0, Finset.sum_eq_single (g 0)]
        · simp
        · intro b _ hb
          rw [if_neg (Ne.symm hb), zero_mul]
        · intro h; exact absurd (Finset.mem_univ _) h
    have hn : NonnegR (if (u.getTime (u.kind.timeIndex (idx 0))).any win.inWin = true then unif (List.range nf)
        else ret (u.flavors.getD (idx 0) 0)) := by
      split_ifs
      · exact nnr_unif _
      · exact nnr_ret _
    rw [List.ofFn_succ, flavorDraws, meanE_bind hn]
    simp only [meanE_bind (nnr_flavorDraws nf win u _), meanE_ret, ih (fun i => idx i.succ) (fun i => g i.succ) fun i => hg i.succ]
    rw [hd, ← (Fin.consEquiv fun _ => Fin nf).sum_comp, Fintype.sum_prod_type]
    refine Finset.sum_congr rfl fun f _ => ?_
    rw [Finset.mul_sum]
    refine Finset.sum_congr rfl fun fs _ => ?_
    rw [Fin.prod_univ_succ, ← mul_assoc]
    congr 1
    simp [flavList, Fin.consEquiv, List.ofFn_succ]

/-- Is flavor `i` changed? -/
noncomputable def updW (cw : CWin) (k : WormKind) (ts : Fin k.numTimes → ℝ) (i : ℕ) : Bool :=
  (if i < k.numTimes then (List.ofFn ts)[i]? else none).any cw.win.inWin

theorem measurable_updW (cw : CWin) (k : WormKind) (i : ℕ) : Measurable fun ts : Fin k.numTimes → ℝ => updW cw k ts i := by
  by_cases h : i < k.numTimes
  · have : (fun ts : Fin k.numTimes → ℝ => updW cw k ts i) = fun ts => cw.win.inWin (ts ⟨i, h⟩) := by
      funext ts
      simp [updW, h]
    rw [this]
    have hw : Measurable fun t : ℝ => cw.win.inWin t := by
      refine measurable_to_bool ?_
      have : (fun t : ℝ => cw.win.inWin t) ⁻¹' {true} = Set.Icc cw.lo cw.hi := by
        ext t
        simp [CWin.win]
      rw [this]
      exact measurableSet_Icc
    exact hw.comp (measurable_pi_apply _)
  · have : (fun ts : Fin k.numTimes → ℝ => updW cw k ts i) = fun _ => false := by
      funext ts
      simp [updW, h]
    rw [this]
    exact measurable_const

/-- Probability of the new flavors. -/
noncomputable def chgQ (nf : ℕ) (cw : CWin) (k : WormKind) (ts : Fin k.numTimes → ℝ) (fs fs' : Fin k.numFlavors → Fin nf) : ℝ≥0∞ :=
  ∏ i : Fin k.numFlavors, chgP nf (updW cw k ts (k.timeIndex i)) (fs i) (fs' i)

theorem chgQ_symm (nf : ℕ) (cw : CWin) (k : WormKind) (ts : Fin k.numTimes → ℝ) (fs fs' : Fin k.numFlavors → Fin nf) :
    chgQ nf cw k ts fs fs' = chgQ nf cw k ts fs' fs :=
  Finset.prod_congr rfl fun _ _ => chgP_symm _ _ _ _

theorem measurable_chgQ (nf : ℕ) (cw : CWin) (k : WormKind) (fs fs' : Fin k.numFlavors → Fin nf) :
    Measurable fun ts : Fin k.numTimes → ℝ => chgQ nf cw k ts fs fs' := by
  unfold chgQ
  refine Finset.measurable_prod _ fun i _ => ?_
  exact (Measurable.of_discrete (f := fun b : Bool => chgP nf b (fs i) (fs' i))).comp (measurable_updW cw k _)

/-- Do the flavors differ? -/
def sameFl (k : WormKind) {nf : ℕ} (fs fs' : Fin k.numFlavors → Fin nf) : Bool :=
  (List.range k.numFlavors).all fun f => decide ((flavList fs)[f]? = (flavList fs')[f]?)

theorem sameFl_comm (k : WormKind) {nf : ℕ} (fs fs' : Fin k.numFlavors → Fin nf) : sameFl k fs fs' = sameFl k fs' fs := by
  unfold sameFl
  simp only [eq_comm]

theorem wormEq_mkW (k : WormKind) {nf : ℕ} (ts : Fin k.numTimes → ℝ) (fs fs' : Fin k.numFlavors → Fin nf) :
    wormEq (mkW k ts fs) (mkW k ts fs') = sameFl k fs fs' := by
  have h1 : ∀ t, (mkW k ts fs).getTime t = (mkW k ts fs').getTime t := fun t => rfl
  have h2 : (mkW k ts fs).kind = (mkW k ts fs').kind := rfl
  have h3 : (mkW k ts fs).kind.numFlavors = k.numFlavors := rfl
  rw [Bool.eq_iff_iff]
  unfold wormEq sameFl
  rw [if_neg (not_not.2 h2), Bool.and_eq_true, List.all_eq_true, List.all_eq_true, List.all_eq_true, h3]
  simp only [h1, decide_true, implies_true, true_and]
  refine forall_congr' fun f => forall_congr' fun hf => ?_
  have e : ∀ gs : Fin k.numFlavors → Fin nf, (mkW k ts gs).getFlavor f = (flavList gs)[f]? := fun gs =>
    if_pos (List.mem_range.1 hf)
  rw [e, e]

theorem changeE_eq (nf : ℕ) (cw : CWin) (w : CfgFun (Option (Worm ℝ)) ℝ) (ψ : CfgFun (Option (Worm ℝ)) ℝ≥0∞)
    (k : WormKind) (ts : Fin k.numTimes → ℝ) (fs : Fin k.numFlavors → Fin nf) {m n : ℕ} (z : Lab m n) :
    changeE nf cw w ψ (z.cfg (some (mkW k ts fs))) = ∑ fs' : Fin k.numFlavors → Fin nf, chgQ nf cw k ts fs fs' *
      if sameFl k fs fs' then 0 else accE w ψ (z.cfg (some (mkW k ts fs))) ⟨[], [], [], [], some (mkW k ts fs')⟩ 1 := by
  unfold changeE propE flavorChangePropose
  have hx : (z.cfg (some (mkW k ts fs))).worm = some (mkW k ts fs) := rfl
  rw [hx]
  simp only
  rw [meanE_bind (nnr_flavorDraws _ _ _ _)]
  have hr : List.range (mkW k ts fs).kind.numFlavors = List.ofFn fun i : Fin k.numFlavors => (i : ℕ) := by
    rw [List.ofFn_eq_map, List.map_coe_finRange_eq_range]
    rfl
  rw [hr, meanE_flavorDraws nf cw.win (mkW k ts fs) k.numFlavors (fun i => i) fs fun i => by simp [mkW, flavList]]
  refine Finset.sum_congr rfl fun fs' _ => ?_
  refine congrArg₂ (· * ·) rfl ?_
  show meanE (if wormEq (mkW k ts fs) (mkW k ts fs') = true then ret none else ret (some _)) _ = _
  rw [wormEq_mkW]
  split_ifs
  · rw [meanE_ret]
  · rw [meanE_ret]
    rfl

theorem measurable_changeE {nf : ℕ} (cw : CWin) {w : CfgFun (Option (Worm ℝ)) ℝ} {ψ : CfgFun (Option (Worm ℝ)) ℝ≥0∞}
    (hw : w.WMeas nf) (hψ : ψ.WMeas nf) (k : WormKind) (fs : Fin k.numFlavors → Fin nf) (m n : ℕ) :
    Measurable fun y : (Fin k.numTimes → ℝ) × Lab m n => changeE nf cw w ψ (y.2.cfg (some (mkW k y.1 fs))) := by
  simp only [changeE_eq, accE_worm]
  refine Finset.measurable_sum _ fun fs' _ => ((measurable_chgQ nf cw k fs fs').comp measurable_fst).mul ?_
  split_ifs
  · exact measurable_const
  · exact (ENNReal.measurable_ofReal.comp (measurable_const.min ((hw.worm k fs' m n).div (hw.worm k fs m n)))).mul
      (hψ.worm k fs' m n)

theorem changeE_balance {β : ℝ} {nf : ℕ} (cw : CWin) {w : CfgFun (Option (Worm ℝ)) ℝ} {φ ψ : CfgFun (Option (Worm ℝ)) ℝ≥0∞}
    (hw : w.WMeas nf) (hφ : φ.WMeas nf) (hψ : ψ.WMeas nf) (h0 : ∀ X X' ω, 0 ≤ w X X' ω) (k : WormKind) :
    kindFlow β nf φ w (changeE nf cw w ψ) k = kindFlow β nf ψ w (changeE nf cw w φ) k := by
  rw [kindFlow_prod hφ hw k (measurable_changeE cw hw hψ k), kindFlow_prod hψ hw k (measurable_changeE cw hw hφ k)]
  refine tsum_congr fun p => ?_
  congr 1
  refine lintegral_congr fun y => ?_
  simp only [flowAt, changeE_eq, Finset.mul_sum]
  rw [Finset.sum_comm]
  refine Finset.sum_congr rfl fun fs _ => Finset.sum_congr rfl fun fs' _ => ?_
  rw [chgQ_symm, sameFl_comm]
  split_ifs
  · simp only [mul_zero]
  · rw [mul_left_comm, accE_flow h0, mul_left_comm]

/-! ### Moving a worm with one time -/

theorem lintegral_one_time (β : ℝ) {n : ℕ} (h : n = 1) {F : (Fin n → ℝ) → ℝ≥0∞} (hF : Measurable F) :
    ∫⁻ ts, F ts ∂(wTimes β n) = ∫⁻ t in Set.Icc 0 β, F fun _ => t := by
  subst h
  have hp := (measurePreserving_funUnique (volume.restrict (Set.Icc 0 β)) (Fin 1)).symm
  exact (hp.lintegral_comp hF).symm

theorem eq_one_time {n : ℕ} (h : n = 1) (ts : Fin n → ℝ) (i : Fin n) : ts = fun _ => ts i := by
  subst h
  funext j
  rw [Subsingleton.elim j i]

theorem set_one_time {n : ℕ} (h : n = 1) (ts : Fin n → ℝ) (t : ℝ) : (List.ofFn ts).set 0 t = List.ofFn fun _ : Fin n => t := by
  subst h
  simp

/-- Probability density of the new time. -/
noncomputable def moveK (cw : CWin) (d t t' : ℝ) : ℝ≥0∞ :=
  ENNReal.ofReal (9 / 10) * (ENNReal.ofReal (1 / (2 * d)) * (if |t - t'| ≤ d then 1 else 0)) +
    ENNReal.ofReal (1 / 10) * ENNReal.ofReal (1 / (cw.hi - cw.lo))

theorem moveK_symm (cw : CWin) (d t t' : ℝ) : moveK cw d t t' = moveK cw d t' t := by
  unfold moveK
  rw [abs_sub_comm]

theorem measurable_moveK (cw : CWin) (d : ℝ) : Measurable fun p : ℝ × ℝ => moveK cw d p.1 p.2 := by
  unfold moveK
  refine ((Measurable.const_mul (Measurable.ite ?_ measurable_const measurable_const) _).const_mul _).add measurable_const
  exact measurableSet_le (continuous_abs.measurable.comp (measurable_fst.sub measurable_snd)) measurable_const

theorem moverTimeC_eq {β : ℝ} {cw : CWin} (hcw : cw.OK β) {d : ℝ} (hd : 0 < d) (t : ℝ) {H : ℝ → ℝ≥0∞} (hH : Measurable H) :
    moverTimeC cw d t (fun t' => if cw.win.inWin t' then H t' else 0) = ∫⁻ t' in Set.Icc cw.lo cw.hi, moveK cw d t t' * H t' := by
  have hg : (fun t' => if cw.win.inWin t' = true then H t' else 0) = (Set.Icc cw.lo cw.hi).indicator H := by
    funext t'
    simp only [Set.indicator_apply, CWin.win, Bool.and_eq_true, decide_eq_true_eq, Set.mem_Icc]
  have hc : ∀ f : Bool → ℝ≥0∞, meanE (coin (9 / 10)) f = ENNReal.ofReal (9 / 10) * f true + ENNReal.ofReal (1 / 10) * f false := by
    intro f
    unfold meanE coin
    simp only [Multiset.insert_eq_cons, Multiset.map_cons, Multiset.map_singleton, Multiset.sum_cons, Multiset.sum_singleton]
    norm_num
  have hi : Measurable fun t' => (if |t - t'| ≤ d then (1 : ℝ≥0∞) else 0) :=
    Measurable.ite (measurableSet_le (continuous_abs.measurable.comp (measurable_const.sub measurable_id)) measurable_const) measurable_const measurable_const
  have hiH : Measurable fun t' => (if |t - t'| ≤ d then (1 : ℝ≥0∞) else 0) * H t' := hi.mul hH
  unfold moverTimeC
  rw [hc]
  simp only [if_true, Bool.false_eq_true, if_false]
  have e1 := lintegral_shift hd t (fun t' => if cw.win.inWin t' = true then H t' else 0)
  have e2 := lintegral_openRandom' hcw (fun t' => if cw.win.inWin t' = true then H t' else 0)
  rw [e1, e2, hg]
  have h1 : ∫⁻ t' in Set.Icc (t - d) (t + d), (Set.Icc cw.lo cw.hi).indicator H t' =
      ∫⁻ t' in Set.Icc cw.lo cw.hi, (if |t - t'| ≤ d then 1 else 0) * H t' := by
    rw [← lintegral_indicator measurableSet_Icc, ← lintegral_indicator measurableSet_Icc]
    refine lintegral_congr fun t' => ?_
    have he : t' ∈ Set.Icc (t - d) (t + d) ↔ |t - t'| ≤ d := by
      rw [abs_le, Set.mem_Icc]
      constructor <;> rintro ⟨h1, h2⟩ <;> constructor <;> linarith
    simp only [Set.indicator_apply, he]
    split_ifs <;> simp
  have h2 : ∫⁻ t' in Set.Icc cw.lo cw.hi, (Set.Icc cw.lo cw.hi).indicator H t' = ∫⁻ t' in Set.Icc cw.lo cw.hi, H t' := by
    rw [← lintegral_indicator measurableSet_Icc, Set.indicator_indicator, Set.inter_self, lintegral_indicator measurableSet_Icc]
  rw [h1, h2]
  simp only [moveK, add_mul, mul_assoc]
  rw [lintegral_add_left ((hiH.const_mul _).const_mul _), lintegral_const_mul _ (hiH.const_mul _),
    lintegral_const_mul _ hiH, lintegral_const_mul _ (hH.const_mul _), lintegral_const_mul _ hH]

theorem moverE_other (cw : CWin) (k : WormKind) (d : ℝ) (w : CfgFun (Option (Worm ℝ)) ℝ) (ψ : CfgFun (Option (Worm ℝ)) ℝ≥0∞)
    (x : WCfg ℝ) (u : Worm ℝ) (hx : x.worm = some u) (hk : u.kind ≠ k) : moverE cw k d w ψ x = 0 := by
  unfold moverE
  rw [hx]
  exact if_neg hk

theorem moverLoopC_one (cw : CWin) (d : ℝ) (u : Worm ℝ) (hk : u.kind.numTimes = 1) (t : ℝ) (ht : u.getTime 0 = some t)
    (G : ℕ → ℝ → ℝ≥0∞) : moverLoopC cw d u G u.kind.numTimes =
      if cw.win.inWin t then moverTimeC cw d t fun t' => if cw.win.inWin t' then G 0 t' else 0 else 0 := by
  rw [hk, moverLoopC, hk, meanE_unif]
  simp [ht, moverLoopC]

theorem moverE_eq {β : ℝ} {cw : CWin} (hcw : cw.OK β) {nf : ℕ} (k : WormKind) (hk : k.numTimes = 1) {d : ℝ} (hd : 0 < d)
    {w : CfgFun (Option (Worm ℝ)) ℝ} {ψ : CfgFun (Option (Worm ℝ)) ℝ≥0∞} (hw : w.WMeas nf) (hψ : ψ.WMeas nf)
    (i : Fin k.numTimes) (ts : Fin k.numTimes → ℝ) (fs : Fin k.numFlavors → Fin nf) {m n : ℕ} (z : Lab m n) :
    moverE cw k d w ψ (z.cfg (some (mkW k ts fs))) = (Set.Icc cw.lo cw.hi).indicator (fun _ => 1) (ts i) *
      ∫⁻ t' in Set.Icc cw.lo cw.hi, moveK cw d (ts i) t' *
        accE w ψ (z.cfg (some (mkW k ts fs))) ⟨[], [], [], [], some (mkW k (fun _ => t') fs)⟩ 1 := by
  have hx : (z.cfg (some (mkW k ts fs))).worm = some (mkW k ts fs) := rfl
  have hkk : (mkW k ts fs).kind = k := rfl
  have hi : (i : ℕ) = 0 := by have := i.2; omega
  have hg : (mkW k ts fs).getTime 0 = some (ts i) := by
    have : (mkW k ts fs).getTime (i : ℕ) = some (ts i) := by
      simp [Worm.getTime, mkW]
    rwa [hi] at this
  unfold moverE
  rw [hx]
  simp only
  rw [if_pos hkk, moverLoopC_one cw d (mkW k ts fs) hk (ts i) hg]
  have hs : ∀ t', ({ mkW k ts fs with times := (mkW k ts fs).times.set 0 t' } : Worm ℝ) = mkW k (fun _ => t') fs := by
    intro t'
    show (⟨k, (List.ofFn ts).set 0 t', flavList fs⟩ : Worm ℝ) = ⟨k, _, flavList fs⟩
    rw [set_one_time hk]
  have hm : Measurable fun t' => accE w ψ (z.cfg (some (mkW k ts fs))) ⟨[], [], [], [], some (mkW k (fun _ => t') fs)⟩ 1 := by
    have hr : Measurable fun t' : ℝ => ((fun _ : Fin k.numTimes => t'), z) :=
      (measurable_pi_iff.2 fun _ => measurable_id).prodMk measurable_const
    simp only [accE_worm]
    exact (ENNReal.measurable_ofReal.comp (measurable_const.min (((hw.worm k fs m n).comp hr).div_const _))).mul
      ((hψ.worm k fs m n).comp hr)
  by_cases ht : ts i ∈ Set.Icc cw.lo cw.hi
  · have hin : cw.win.inWin (ts i) = true := by
      simpa only [CWin.win, Bool.and_eq_true, decide_eq_true_eq, Set.mem_Icc] using ht
    rw [if_pos hin, Set.indicator_of_mem ht, one_mul, ← moverTimeC_eq hcw hd (ts i) hm]
    simp only [hs]
  · have hin : ¬ cw.win.inWin (ts i) = true := by
      simpa only [CWin.win, Bool.and_eq_true, decide_eq_true_eq, Set.mem_Icc] using ht
    rw [if_neg hin, Set.indicator_of_notMem ht, zero_mul]

theorem measurable_moveAcc {nf : ℕ} (cw : CWin) (k : WormKind) (d : ℝ) {w : CfgFun (Option (Worm ℝ)) ℝ}
    {ψ : CfgFun (Option (Worm ℝ)) ℝ≥0∞} (hw : w.WMeas nf) (hψ : ψ.WMeas nf) (i : Fin k.numTimes) (fs : Fin k.numFlavors → Fin nf)
    (m n : ℕ) :
    Measurable fun p : ((Fin k.numTimes → ℝ) × Lab m n) × ℝ => moveK cw d (p.1.1 i) p.2 *
      accE w ψ (p.1.2.cfg (some (mkW k p.1.1 fs))) ⟨[], [], [], [], some (mkW k (fun _ => p.2) fs)⟩ 1 := by
  have hr : Measurable fun p : ((Fin k.numTimes → ℝ) × Lab m n) × ℝ => ((fun _ : Fin k.numTimes => p.2), p.1.2) :=
    (measurable_pi_iff.2 fun _ => measurable_snd).prodMk (measurable_snd.comp measurable_fst)
  have h1 : Measurable fun p : ((Fin k.numTimes → ℝ) × Lab m n) × ℝ => (p.1.1 i, p.2) :=
    ((measurable_pi_apply i).comp (measurable_fst.comp measurable_fst)).prodMk measurable_snd
  simp only [accE_worm]
  refine ((measurable_moveK cw d).comp h1).mul (Measurable.mul (ENNReal.measurable_ofReal.comp (measurable_const.min ?_)) ?_)
  · exact ((hw.worm k fs m n).comp hr).div ((hw.worm k fs m n).comp measurable_fst)
  · exact (hψ.worm k fs m n).comp hr

theorem measurable_moverE {β : ℝ} {cw : CWin} (hcw : cw.OK β) {nf : ℕ} (k : WormKind) (hk : k.numTimes = 1) {d : ℝ} (hd : 0 < d)
    {w : CfgFun (Option (Worm ℝ)) ℝ} {ψ : CfgFun (Option (Worm ℝ)) ℝ≥0∞} (hw : w.WMeas nf) (hψ : ψ.WMeas nf) (k' : WormKind)
    (fs : Fin k'.numFlavors → Fin nf) (m n : ℕ) :
    Measurable fun y : (Fin k'.numTimes → ℝ) × Lab m n => moverE cw k d w ψ (y.2.cfg (some (mkW k' y.1 fs))) := by
  by_cases h : k' = k
  · subst h
    simp only [moverE_eq hcw k' hk hd hw hψ ⟨0, by omega⟩]
    exact ((measurable_const.indicator measurableSet_Icc).comp ((measurable_pi_apply _).comp measurable_fst)).mul
      (Measurable.lintegral_prod_right' (measurable_moveAcc cw k' d hw hψ ⟨0, by omega⟩ fs m n))
  · have : (fun y : (Fin k'.numTimes → ℝ) × Lab m n => moverE cw k d w ψ (y.2.cfg (some (mkW k' y.1 fs)))) = fun _ => 0 :=
      funext fun y => moverE_other cw k d w ψ _ (mkW k' y.1 fs) rfl h
    rw [this]
    exact measurable_const

theorem lintegral_win {β : ℝ} {cw : CWin} (hcw : cw.OK β) (F : ℝ → ℝ≥0∞) :
    ∫⁻ t in Set.Icc 0 β, (Set.Icc cw.lo cw.hi).indicator (fun _ => 1) t * F t = ∫⁻ t in Set.Icc cw.lo cw.hi, F t := by
  have hs : Set.Icc cw.lo cw.hi ⊆ Set.Icc 0 β := Set.Icc_subset_Icc hcw.lo_nonneg hcw.le
  have : (fun t => (Set.Icc cw.lo cw.hi).indicator (fun _ => (1 : ℝ≥0∞)) t * F t) = (Set.Icc cw.lo cw.hi).indicator F := by
    funext t
    simp only [Set.indicator_apply]
    split_ifs <;> simp
  rw [this, lintegral_indicator measurableSet_Icc, Measure.restrict_restrict measurableSet_Icc, Set.inter_eq_left.2 hs]

/-- The flow between two times. -/
noncomputable def moveT {nf : ℕ} (cw : CWin) (k : WormKind) (d : ℝ) (w : CfgFun (Option (Worm ℝ)) ℝ)
    (φ ψ : CfgFun (Option (Worm ℝ)) ℝ≥0∞) (fs : Fin k.numFlavors → Fin nf) {m n : ℕ} (z : Lab m n) (t t' : ℝ) : ℝ≥0∞ :=
  moveK cw d t t' * (φ (ms z.1) (ms z.2) (some (mkW k (fun _ => t) fs)) *
    ENNReal.ofReal (w (ms z.1) (ms z.2) (some (mkW k (fun _ => t) fs))) *
    accE w ψ (z.cfg (some (mkW k (fun _ => t) fs))) ⟨[], [], [], [], some (mkW k (fun _ => t') fs)⟩ 1)

theorem measurable_moveT {nf : ℕ} (cw : CWin) (k : WormKind) (d : ℝ) {w : CfgFun (Option (Worm ℝ)) ℝ}
    {φ ψ : CfgFun (Option (Worm ℝ)) ℝ≥0∞} (hw : w.WMeas nf) (hφ : φ.WMeas nf) (hψ : ψ.WMeas nf)
    (fs : Fin k.numFlavors → Fin nf) {m n : ℕ} (z : Lab m n) :
    Measurable fun q : ℝ × ℝ => moveT cw k d w φ ψ fs z q.1 q.2 := by
  have hr1 : Measurable fun q : ℝ × ℝ => ((fun _ : Fin k.numTimes => q.1), z) :=
    (measurable_pi_iff.2 fun _ => measurable_fst).prodMk measurable_const
  have hr2 : Measurable fun q : ℝ × ℝ => ((fun _ : Fin k.numTimes => q.2), z) :=
    (measurable_pi_iff.2 fun _ => measurable_snd).prodMk measurable_const
  have a1 := (hφ.worm k fs m n).comp hr1
  have a2 := (hw.worm k fs m n).comp hr1
  have a3 := (hw.worm k fs m n).comp hr2
  have a4 := (hψ.worm k fs m n).comp hr2
  simp only [moveT, accE_worm]
  exact (measurable_moveK cw d).mul ((a1.mul (ENNReal.measurable_ofReal.comp a2)).mul
    ((ENNReal.measurable_ofReal.comp (measurable_const.min (a3.div a2))).mul a4))

theorem flowAt_move {β : ℝ} {cw : CWin} (hcw : cw.OK β) {nf : ℕ} (k : WormKind) (hk : k.numTimes = 1) {d : ℝ} (hd : 0 < d)
    {w : CfgFun (Option (Worm ℝ)) ℝ} {φ ψ : CfgFun (Option (Worm ℝ)) ℝ≥0∞} (hw : w.WMeas nf) (hφ : φ.WMeas nf) (hψ : ψ.WMeas nf)
    (fs : Fin k.numFlavors → Fin nf) {m n : ℕ} (z : Lab m n) (t : ℝ) :
    flowAt nf φ w (moverE cw k d w ψ) k fs (fun _ => t, z) =
      (Set.Icc cw.lo cw.hi).indicator (fun _ => 1) t * ∫⁻ t' in Set.Icc cw.lo cw.hi, moveT cw k d w φ ψ fs z t t' := by
  have e := moverE_eq hcw k hk hd hw hψ ⟨0, by omega⟩ (fun _ => t) fs z
  unfold flowAt
  show _ * _ * moverE cw k d w ψ (z.cfg (some (mkW k (fun _ => t) fs))) = _
  rw [e, mul_left_comm]
  refine congrArg₂ (· * ·) rfl ?_
  rw [← lintegral_const_mul]
  · refine lintegral_congr fun t' => ?_
    show _ * (_ * _) = moveK cw d t t' * (_ * _)
    rw [mul_left_comm]
  · have hr2 : Measurable fun t' : ℝ => ((fun _ : Fin k.numTimes => t'), z) :=
      (measurable_pi_iff.2 fun _ => measurable_id).prodMk measurable_const
    have a3 := (hw.worm k fs m n).comp hr2
    have a4 := (hψ.worm k fs m n).comp hr2
    have a0 : Measurable fun t' : ℝ => moveK cw d t t' := measurable_right (measurable_moveK cw d) t
    simp only [accE_worm]
    exact a0.mul ((ENNReal.measurable_ofReal.comp (measurable_const.min (a3.div_const _))).mul a4)

theorem moverE_ts {β : ℝ} {cw : CWin} (hcw : cw.OK β) {nf : ℕ} (k : WormKind) (hk : k.numTimes = 1) {d : ℝ} (hd : 0 < d)
    {w : CfgFun (Option (Worm ℝ)) ℝ} {φ ψ : CfgFun (Option (Worm ℝ)) ℝ≥0∞} (hw : w.WMeas nf) (hφ : φ.WMeas nf) (hψ : ψ.WMeas nf)
    (fs : Fin k.numFlavors → Fin nf) {m n : ℕ} (z : Lab m n) :
    ∫⁻ ts, flowAt nf φ w (moverE cw k d w ψ) k fs (ts, z) ∂(wTimes β k.numTimes) =
      ∫⁻ t in Set.Icc cw.lo cw.hi, ∫⁻ t' in Set.Icc cw.lo cw.hi, moveT cw k d w φ ψ fs z t t' := by
  have hm : Measurable fun ts : Fin k.numTimes → ℝ => flowAt nf φ w (moverE cw k d w ψ) k fs (ts, z) :=
    measurable_left (measurable_flowAt hφ hw (measurable_moverE hcw k hk hd hw hψ k fs m n)) z
  rw [lintegral_one_time β hk hm, ← lintegral_win hcw]
  exact lintegral_congr fun t => flowAt_move hcw k hk hd hw hφ hψ fs z t

theorem moverE_balance {β : ℝ} {cw : CWin} (hcw : cw.OK β) {nf : ℕ} (k : WormKind) (hk : k.numTimes = 1) {d : ℝ} (hd : 0 < d)
    {w : CfgFun (Option (Worm ℝ)) ℝ} {φ ψ : CfgFun (Option (Worm ℝ)) ℝ≥0∞} (hw : w.WMeas nf) (hφ : φ.WMeas nf) (hψ : ψ.WMeas nf)
    (h0 : ∀ X X' ω, 0 ≤ w X X' ω) (k' : WormKind) :
    kindFlow β nf φ w (moverE cw k d w ψ) k' = kindFlow β nf ψ w (moverE cw k d w φ) k' := by
  by_cases h : k' = k
  · subst h
    rw [kindFlow_prod hφ hw k' (measurable_moverE hcw k' hk hd hw hψ k'),
      kindFlow_prod hψ hw k' (measurable_moverE hcw k' hk hd hw hφ k')]
    refine tsum_congr fun p => ?_
    have hm1 := fun fs : Fin k'.numFlavors → Fin nf =>
      measurable_flowAt hφ hw (measurable_moverE hcw k' hk hd hw hψ k' fs p.1 p.2)
    have hm2 := fun fs : Fin k'.numFlavors → Fin nf =>
      measurable_flowAt hψ hw (measurable_moverE hcw k' hk hd hw hφ k' fs p.1 p.2)
    congr 1
    rw [lintegral_finsetSum _ fun fs _ => hm1 fs, lintegral_finsetSum _ fun fs _ => hm2 fs]
    refine Finset.sum_congr rfl fun fs _ => ?_
    rw [lintegral_prod_symm _ (hm1 fs).aemeasurable, lintegral_prod_symm _ (hm2 fs).aemeasurable]
    refine lintegral_congr fun z => ?_
    rw [moverE_ts hcw k' hk hd hw hφ hψ fs z, moverE_ts hcw k' hk hd hw hψ hφ fs z]
    rw [lintegral_lintegral_swap (measurable_moveT cw k' d hw hφ hψ fs z).aemeasurable]
    refine lintegral_congr fun t => lintegral_congr fun t' => ?_
    unfold moveT
    rw [moveK_symm, accE_flow h0]
  · have hz : ∀ (χ : CfgFun (Option (Worm ℝ)) ℝ≥0∞) (ts : Fin k'.numTimes → ℝ) (fs : Fin k'.numFlavors → Fin nf) (m n : ℕ)
        (z : Lab m n), moverE cw k d w χ (z.cfg (some (mkW k' ts fs))) = 0 := fun χ ts fs m n z =>
      moverE_other cw k d w χ _ (mkW k' ts fs) rfl h
    unfold kindFlow allFlow orderFlow
    simp only [hz, mul_zero, lintegral_zero]

/-! ### The probability to accept is at most one -/

theorem subProb_flavorDraws (nf : ℕ) (win : Win ℝ ℝ) (u : Worm ℝ) (l : List ℕ) : SubProb (flavorDraws nf win u l) := by
  induction l with
  | nil => exact SubProb.ret _
  | cons f l ih =>
    refine SubProb.bind ?_ ?_ fun _ => SubProb.bind (nnr_flavorDraws _ _ _ _) ih fun _ => SubProb.ret _
    · split_ifs
      · exact nnr_unif _
      · exact nnr_ret _
    · split_ifs
      · exact SubProb.unif _
      · exact SubProb.ret _

theorem changeE_le (nf : ℕ) (cw : CWin) (w : CfgFun (Option (Worm ℝ)) ℝ) (x : WCfg ℝ) :
    changeE nf cw w (fun _ _ _ => 1) x ≤ 1 := by
  refine propE_le w x ?_
  unfold flavorChangePropose
  rcases x.worm with _ | u
  · exact SubProb.ret _
  · refine SubProb.bind (nnr_flavorDraws _ _ _ _) (subProb_flavorDraws _ _ _ _) fun fs => ?_
    simp only
    split_ifs
    · exact SubProb.ret _
    · exact SubProb.ret _

theorem subProb_coin9 : SubProb (coin (9 / 10 : ℝ)) := by
  unfold SubProb meanE coin
  simp only [Multiset.insert_eq_cons, Multiset.map_cons, Multiset.map_singleton, Multiset.sum_cons, Multiset.sum_singleton, mul_one]
  rw [← ENNReal.ofReal_add (by norm_num) (by norm_num)]
  norm_num

theorem moverTimeC_le (cw : CWin) (d t : ℝ) {G : ℝ → ℝ≥0∞} (h : ∀ t', G t' ≤ 1) : moverTimeC cw d t G ≤ 1 := by
  refine subProb_coin9.le fun p _ => ?_
  refine (lintegral_mono (g := fun _ => 1) fun v => h _).trans ?_
  simp

theorem moverLoopC_le (cw : CWin) (d : ℝ) (u : Worm ℝ) {G : ℕ → ℝ → ℝ≥0∞} (h : ∀ i t, G i t ≤ 1) (n : ℕ) :
    moverLoopC cw d u G n ≤ 1 := by
  induction n with
  | zero => exact zero_le
  | succ n ih =>
    refine (SubProb.unif _).le fun p _ => ?_
    rcases u.getTime p.2 with _ | t
    · exact zero_le
    · simp only
      split_ifs
      · refine moverTimeC_le cw d t fun t' => ?_
        split_ifs
        · exact h _ _
        · exact ih
      · exact ih

theorem moverE_le (cw : CWin) (k : WormKind) (d : ℝ) (w : CfgFun (Option (Worm ℝ)) ℝ) (x : WCfg ℝ) :
    moverE cw k d w (fun _ _ _ => 1) x ≤ 1 := by
  unfold moverE
  rcases x.worm with _ | u
  · exact zero_le
  · simp only
    split_ifs
    · exact moverLoopC_le _ _ _ (fun _ _ => accE_one_le _ _ _ _) _
    · exact zero_le

end CTHyb
