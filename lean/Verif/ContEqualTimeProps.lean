import Verif.ContDensProps
import Verif.ContFidelityLogProps

/-!
# C92: equal times in continuous time

The results for the worms with all operators at one time (`C84_equal_time_partial`) contain a mean over this time.  All times may be
moved round the circle, so the integral over the configurations is the same for each time, and the mean is its value at any one time.
At `β/2` this is what `measure_n` (src/impurity.ipp:445-471) inserts, see `C87_density_partial`.
-/

namespace CTHyb

open Rand MeasureTheory ENNReal Matrix

variable {𝕜 : Type} [RCLike 𝕜] {N : ℕ}
variable {A : CodeArgs 𝕜 N} {a : LoopC} {k : ℕ} {plan : Rand ℝ (List (ℕ × List (ℕ → ℕ)))}
  {σ : WCfg ℝ → CodeState A (Option (Worm ℝ))} {st : SavedState}

/-- The term of a configuration with a worm does not change if all times move round the circle and an even number of the operators of
the worm passes the origin. -/
theorem signedR_shift_worm (hA : A.OK) {h : ℕ → ℕ → ℝ → 𝕜} (hh : AntiPer A h) {E0 : ℝ}
    (hE : IsLeast (eigenvaluesOf A.B.H) E0) (hcut : ∀ μ ∈ eigenvaluesOf A.B.H, μ ≤ E0 + min A.p.inner A.p.outer)
    (s : ℝ) {x : WCfg ℝ} (hreg : Reg A.P.nf ∅ x) (hev : Even (wormOps (codeWops id x.worm)).length)
    (hwr : Even ((wormOps (codeWops id x.worm)).countP (wraps A.beta s)))
    (hn : ((x.ops id (codeWops id)).map Psi.time).Nodup)
    (ht : ∀ o ∈ x.ops id (codeWops id), 0 < o.time.time ∧ o.time.time < A.beta) :
    signedR A ((CGlob.shift s).act A.beta x) = signedR A x := by
  obtain ⟨e1, e2, e4⟩ := (CGlob.shift s).act_ops A.beta hreg
  have e3 := (CGlob.shift s).ops_map A.beta hreg
  have hr : InRange A.beta (x.ops id (codeWops id)) := fun o ho => ⟨(ht o ho).1, (ht o ho).2.le⟩
  have h1 := C58_full_trace hA.base hA.solver hA.dim hE hcut A.beta s _ hr hn
  have hp : (x.c.map (mkOp id .annihilation) ++ x.cd.map (mkOp id .creation) ++ wormOps (codeWops id x.worm)).Perm
      (x.ops id (codeWops id)) := List.perm_append_comm.append_right _
  have hw' : wormOps (codeWops id ((CGlob.shift s).act A.beta x).worm) =
      (wormOps (codeWops id x.worm)).map (shiftOp A.beta s) := by
    rw [e4]
    cases codeWops id x.worm <;> rfl
  have s1 : ((CGlob.shift s).act A.beta x).sorted id (codeWops id) = timeSort ((x.ops id (codeWops id)).map (shiftOp A.beta s)) := by
    unfold PCfg.sorted timeSort
    rw [e3]; rfl
  have s2 : x.sorted id (codeWops id) = timeSort (x.ops id (codeWops id)) := rfl
  unfold signedR CodeArgs.weight
  rw [hw', e1, e2, s1, s2, h1, ← mul_assoc, ← mul_assoc]
  congr 1
  by_cases hlen : (x.c.map (mkOp id .annihilation)).length = (x.cd.map (mkOp id .creation)).length
  · have h2 := C58_signed_det (shiftSign_of_antiPer hh s) (x.c.map (mkOp id .annihilation))
      (x.cd.map (mkOp id .creation)) (wormOps (codeWops id x.worm)) hlen hev (fun o ho => hr o (hp.mem_iff.1 ho))
      ((hp.map _).nodup_iff.2 hn)
    simp only [hwr.neg_one_pow, one_mul] at h2
    exact h2
  · have z : ∀ cs cds : List (TPsi ℝ), cs.length ≠ cds.length → timeDet A.G cs cds = 0 := fun cs cds h => by
      unfold timeDet listDet
      rw [dif_neg]
      rw [(timeSort_perm cs).length_eq, (timeSort_perm cds).length_eq]
      exact Ne.symm h
    rw [z _ _ hlen, z _ _ (by simpa using hlen), mul_zero, mul_zero]

theorem signedC_shift_worm (hA : A.OK) {h : ℕ → ℕ → ℝ → 𝕜} (hh : AntiPer A h) {E0 : ℝ}
    (hE : IsLeast (eigenvaluesOf A.B.H) E0) (hcut : ∀ μ ∈ eigenvaluesOf A.B.H, μ ≤ E0 + min A.p.inner A.p.outer)
    (s : ℝ) {x : WCfg ℝ} (hreg : Reg A.P.nf ∅ x) (hev : Even (wormOps (codeWops id x.worm)).length)
    (hwr : Even ((wormOps (codeWops id x.worm)).countP (wraps A.beta s)))
    (ht : ∀ o ∈ x.ops id (codeWops id), 0 < o.time.time ∧ o.time.time < A.beta) :
    (signedC A).at ((CGlob.shift s).act A.beta x) = (signedC A).at x := by
  classical
  rw [signedC_at, signedC_at]
  have hiff : CodeCfg A.P.nf ((CGlob.shift s).act A.beta x) ↔ CodeCfg A.P.nf x := by
    unfold CodeCfg
    refine and_congr ⟨fun hn => ?_, (CGlob.shift s).act_nodup A.beta hreg ht⟩ (and_congr ?_ ?_)
    · rw [(CGlob.shift s).ops_map A.beta hreg] at hn
      have e : ((x.ops id (codeWops id)).map ((CGlob.shift s).op A.beta)).map Psi.time =
          ((x.ops id (codeWops id)).map Psi.time).map fun t : OpTime ℝ => { t with time := shiftTime A.beta s t.time } := by
        rw [List.map_map, List.map_map]; rfl
      rw [e] at hn
      exact hn.of_map _
    · exact ⟨fun h o ho => h ((CGlob.shift s).bop A.beta o) (List.mem_map_of_mem ho), fun h o ho => by
        obtain ⟨o', ho', rfl⟩ := List.mem_map.1 ho
        exact h o' ho'⟩
    · exact ⟨fun h o ho => h ((CGlob.shift s).bop A.beta o) (List.mem_map_of_mem ho), fun h o ho => by
        obtain ⟨o', ho', rfl⟩ := List.mem_map.1 ho
        exact h o' ho'⟩
  by_cases hc : CodeCfg A.P.nf x
  · rw [if_pos hc, if_pos (hiff.2 hc), signedR_shift_worm hA hh hE hcut s hreg hev hwr hc.1 ht]
  · rw [if_neg hc, if_neg fun h => hc (hiff.1 h)]

/-- The operators of a worm with one time. -/
theorem equal_ops (r : ℕ) {nf : ℕ} (t : ℝ) (fs : Fin (WormKind.equalTime r).numFlavors → Fin nf) :
    (∀ o ∈ wormOps (codeWops id (some (mkW (.equalTime r) (fun _ => t) fs))), o.time.time = t) ∧
      Even (wormOps (codeWops id (some (mkW (.equalTime r) (fun _ => t) fs)))).length := by
  constructor
  · intro o ho
    rw [wormOps_code] at ho
    obtain ⟨b, hb, rfl⟩ := List.mem_map.1 ho
    have := operators_time (mkW (.equalTime r) (fun _ => t) fs) (mkW_valid _ _ _) b hb
    obtain ⟨i, hi⟩ := (List.mem_ofFn' _ _).1 this
    exact hi.symm
  · rw [wormOps_code, List.length_map]
    exact ⟨r, by simp [wl, Worm.operators, mkW, List.length_flatMap, mul_two]⟩

theorem equal_wact (β s : ℝ) {r nf : ℕ} (t : ℝ) (fs : Fin (WormKind.equalTime r).numFlavors → Fin nf) :
    (CGlob.shift s).wact β (mkW (.equalTime r) (fun _ => t) fs) = mkW (.equalTime r) (fun _ => shiftTime β s t) fs := by
  simp only [CGlob.wact, mkW]
  rfl

theorem equal_wraps (β s : ℝ) {r nf : ℕ} (t : ℝ) (fs : Fin (WormKind.equalTime r).numFlavors → Fin nf) :
    Even ((wormOps (codeWops id (some (mkW (.equalTime r) (fun _ => t) fs)))).countP (wraps β s)) := by
  obtain ⟨o1, o2⟩ := equal_ops r t fs
  by_cases hc : β < t + s
  · rw [List.countP_eq_length.2]
    · exact o2
    · intro o ho
      unfold wraps
      rw [o1 o ho]
      exact decide_eq_true hc
  · rw [List.countP_eq_zero.2]
    · exact Even.zero
    · intro o ho
      unfold wraps
      rw [o1 o ho]
      simpa using hc

theorem equal_reg {r nf m n : ℕ} (t : ℝ) (fs : Fin (WormKind.equalTime r).numFlavors → Fin nf) (z : Lab m n) :
    Reg nf ∅ (z.cfg (some (mkW (.equalTime r) (fun _ => t) fs))) := by
  refine ⟨fun _ _ => Set.notMem_empty _, fun u hu => ?_⟩
  have hu' : mkW (.equalTime r) (fun _ => t) fs = u := Option.some.inj hu
  subst hu'
  refine ⟨mkW_valid _ _ _, fun f hf => ?_, fun _ _ => Set.notMem_empty _⟩
  obtain ⟨i, rfl⟩ := (List.mem_ofFn' _ f).1 hf
  exact (fs i).isLt

/-- The term of a configuration with a worm with one time. -/
theorem signedC_equal (hA : A.OK) {h : ℕ → ℕ → ℝ → 𝕜} (hh : AntiPer A h) {E0 : ℝ}
    (hE : IsLeast (eigenvaluesOf A.B.H) E0) (hcut : ∀ μ ∈ eigenvaluesOf A.B.H, μ ≤ E0 + min A.p.inner A.p.outer)
    {r m n : ℕ} (fs : Fin (WormKind.equalTime r).numFlavors → Fin A.P.nf) {t : ℝ} (ht : 0 < t ∧ t < A.beta) (s : ℝ) (z : Lab m n)
    (hz1 : ∀ i, 0 < (z.1 i).1 ∧ (z.1 i).1 < A.beta) (hz2 : ∀ i, 0 < (z.2 i).1 ∧ (z.2 i).1 < A.beta) :
    (signedC A).at ((gLab (timeShift A.beta s) (fun f => f) z).cfg (some (mkW (.equalTime r) (fun _ => shiftTime A.beta s t) fs))) =
      (signedC A).at (z.cfg (some (mkW (.equalTime r) (fun _ => t) fs))) := by
  have key := signedC_shift_worm hA hh hE hcut s (x := z.cfg (some (mkW (.equalTime r) (fun _ => t) fs)))
    (equal_reg t fs z) (equal_ops r t fs).2 (equal_wraps A.beta s t fs) ?_
  · rw [← key, ← equal_wact]
    congr 1
    unfold CGlob.act Lab.cfg gLab
    simp only [List.map_ofFn]
    rfl
  · intro o ho
    have hops : (z.cfg (some (mkW (.equalTime r) (fun _ => t) fs)) : WCfg ℝ).ops id (codeWops id) =
        (List.ofFn z.1).map (mkOp id .creation) ++ (List.ofFn z.2).map (mkOp id .annihilation) ++
        wormOps (codeWops id (some (mkW (.equalTime r) (fun _ => t) fs))) := rfl
    rw [hops] at ho
    rcases List.mem_append.1 ho with ho | ho
    · rcases List.mem_append.1 ho with ho | ho
      · obtain ⟨b, hb, rfl⟩ := List.mem_map.1 ho
        obtain ⟨i, rfl⟩ := (List.mem_ofFn' _ _).1 hb
        exact hz1 i
      · obtain ⟨b, hb, rfl⟩ := List.mem_map.1 ho
        obtain ⟨i, rfl⟩ := (List.mem_ofFn' _ _).1 hb
        exact hz2 i
    · rw [(equal_ops r t fs).1 o ho]; exact ht

/-- Any two times inside the circle are related by a shift. -/
theorem exists_shift {β t t' : ℝ} (ht : 0 < t ∧ t < β) (ht' : 0 < t' ∧ t' < β) :
    ∃ s, 0 ≤ s ∧ s ≤ β ∧ shiftTime β s t = t' := by
  rcases le_or_gt t t' with hle | hlt
  · refine ⟨t' - t, by linarith, by linarith [ht.1, ht'.2], ?_⟩
    unfold shiftTime
    rw [if_neg (by linarith [ht'.2])]
    ring
  · refine ⟨t' - t + β, by linarith [ht.2, ht'.1], by linarith, ?_⟩
    unfold shiftTime
    rw [if_pos (by linarith [ht'.1])]
    ring

theorem meas_worm (ha : a.OK A) (φ : 𝕜 →L[ℝ] ℝ) (kd : WormKind) (ts : Fin kd.numTimes → ℝ) (fs : Fin kd.numFlavors → Fin A.P.nf)
    (m n : ℕ) : Measurable fun z : Lab m n => CfgFun.at (fun X X' ω => φ (signedC A X X' ω)) (z.cfg (some (mkW kd ts fs))) :=
  φ.continuous.measurable.comp ((signedC_wmeas ha.code ha.meas).some kd ts fs m n)

/-- The integral over the configurations is the same for each time of a worm with one time. -/
theorem cfgInt_equal (ha : a.OK A) {h : ℕ → ℕ → ℝ → 𝕜} (hh : AntiPer A h) {E0 : ℝ}
    (hE : IsLeast (eigenvaluesOf A.B.H) E0) (hcut : ∀ μ ∈ eigenvaluesOf A.B.H, μ ≤ E0 + min A.p.inner A.p.outer)
    {r : ℕ} (fs : Fin (WormKind.equalTime r).numFlavors → Fin A.P.nf) (φ : 𝕜 →L[ℝ] ℝ) {t t' : ℝ} (ht : 0 < t ∧ t < A.beta)
    (ht' : 0 < t' ∧ t' < A.beta) :
    cfgInt A.beta A.P.nf (some (mkW (.equalTime r) (fun _ => t) fs)) (fun X X' ω => φ (signedC A X X' ω)) =
      cfgInt A.beta A.P.nf (some (mkW (.equalTime r) (fun _ => t') fs)) (fun X X' ω => φ (signedC A X X' ω)) := by
  obtain ⟨s, h0, h1, rfl⟩ := exists_shift ht ht'
  unfold cfgInt
  refine tsum_congr fun p => ?_
  congr 1
  have hmp := mp_shift (β := A.beta) (s := s) h0 h1 A.P.nf p.1 p.2
  have hm := meas_worm ha φ (.equalTime r) (fun _ => shiftTime A.beta s t) fs p.1 p.2
  conv_rhs => rw [← hmp.map_eq]
  rw [integral_map hmp.measurable.aemeasurable hm.aestronglyMeasurable]
  refine integral_congr_ae ?_
  filter_upwards [ae_labMeasure_out A.beta A.P.nf p.1 p.2 (Z := {0, A.beta}) (by simp)] with z hz
  have hin : ∀ t : ℝ, (0 ≤ t ∧ t ≤ A.beta) ∧ t ∉ ({0, A.beta} : Set ℝ) → 0 < t ∧ t < A.beta := by
    rintro t ⟨⟨q0, q1⟩, q2⟩
    simp only [Set.mem_insert_iff, Set.mem_singleton_iff, not_or] at q2
    exact ⟨lt_of_le_of_ne q0 (Ne.symm q2.1), lt_of_le_of_ne q1 q2.2⟩
  exact congrArg φ (signedC_equal ha.code hh hE hcut fs ht s z (fun i => hin _ (hz.1 i)) fun i => hin _ (hz.2 i)).symm

/-- **C92.**  For the worms with all operators at one time the postprocessing gives, in equilibrium, the ratio of two integrals: over all
configurations with the operators of the worm with flavors `fs` at an arbitrary fixed time `t`, and over all configurations without worm;
for the real and for the imaginary part (`φ`).  Missing for the full statement: as in `C83_loop_partial`. -/
theorem C92_any_time_partial (ha : a.OK A) (hp : PlanC A plan) (hst : WindowOK 0 st) (hσ : StatesC A st σ)
    {h : ℕ → ℕ → ℝ → 𝕜} (hh : AntiPer A h) {E0 : ℝ}
    (hE : IsLeast (eigenvaluesOf A.B.H) E0) (hcut : ∀ μ ∈ eigenvaluesOf A.B.H, μ ≤ E0 + min A.p.inner A.p.outer)
    {r : ℕ} (hk : .equalTime r ∈ a.kinds) (fs : Fin (WormKind.equalTime r).numFlavors → Fin A.P.nf) (φ : 𝕜 →L[ℝ] ℝ)
    {t : ℝ} (ht : 0 < t ∧ t < A.beta) :
    let E := loopMeanC A a k plan σ
    let inZ : CodeState A (Option (Worm ℝ)) → ℝ := fun s => if s.2 = none then 1 else 0
    let inW : CodeState A (Option (Worm ℝ)) → ℝ := fun s => if s.2.any fun w => decide (w.kind = .equalTime r) then 1 else 0
    wormCoeff (1 / A.beta) (E inW / a.sw (.equalTime r)) (E inZ) (E (fun s => inZ s * RCLike.re s.1.cfg.sign) / E inZ) *
        (E (fun s => inW s * φ (s.2.elim 0 fun w => equalTimeData w.flavors s.1.cfg.sign (flavList fs))) / E inW) =
      cfgInt A.beta A.P.nf (some (mkW (.equalTime r) (fun _ => t) fs)) (fun X X' ω => φ (signedC A X X' ω)) /
        cfgInt A.beta A.P.nf none (fun X X' ω => RCLike.re (signedC A X X' ω)) := by
  intro E inZ inW
  have hβ := ha.beta
  have key := C84_equal_time_partial (k := k) ha hp hst hσ hk fs φ
  simp only at key
  refine key.trans ?_
  rw [integral_Icc_eq_integral_Ioo, setIntegral_congr_fun (g := fun _ =>
    cfgInt A.beta A.P.nf (some (mkW (.equalTime r) (fun _ => t) fs)) (fun X X' ω => φ (signedC A X X' ω)) /
        cfgInt A.beta A.P.nf none (fun X X' ω => RCLike.re (signedC A X X' ω))) measurableSet_Ioo
    fun u hu => by
      show _ / _ = _ / _
      rw [cfgInt_equal ha hh hE hcut fs φ (t := u) (t' := t) hu ht]]
  rw [setIntegral_const, smul_eq_mul, Measure.real, Real.volume_Ioo, sub_zero, ENNReal.toReal_ofReal hβ.le]
  field_simp

/-- **C92, density.**  The density measured by insertion into configurations without worm is the diagonal element of the one-particle
function with equal times measured with the worm, if each configuration with a weight after insertion of `c†_f c_f` at `β/2` has a weight
before it.  Missing for the full statement: as in `C83_loop_partial`. -/
theorem C92_density_partial (ha : a.OK A) (hp : PlanC A plan) (hst : WindowOK 0 st) (hσ : StatesC A st σ)
    {h : ℕ → ℕ → ℝ → 𝕜} (hh : AntiPer A h) {E0 : ℝ}
    (hE : IsLeast (eigenvaluesOf A.B.H) E0) (hcut : ∀ μ ∈ eigenvaluesOf A.B.H, μ ≤ E0 + min A.p.inner A.p.outer)
    (hk : .equalTime 1 ∈ a.kinds) (f : Fin A.P.nf)
    (hz : ∀ X X', codeW A X X' none = 0 → signedC A X X' (some (densWorm (A.beta / 2) f)) = 0) :
    let E := loopMeanC A a k plan σ
    let inZ : CodeState A (Option (Worm ℝ)) → ℝ := fun s => if s.2 = none then 1 else 0
    let inW : CodeState A (Option (Worm ℝ)) → ℝ := fun s => if s.2.any fun w => decide (w.kind = .equalTime 1) then 1 else 0
    (E (fun s => inZ s * recordN A f s.1) / E inZ) / (E (fun s => inZ s * RCLike.re s.1.cfg.sign) / E inZ) =
      wormCoeff (1 / A.beta) (E inW / a.sw (.equalTime 1)) (E inZ) (E (fun s => inZ s * RCLike.re s.1.cfg.sign) / E inZ) *
        (E (fun s => inW s * RCLike.re (s.2.elim (0 : 𝕜) fun w => equalTimeData w.flavors s.1.cfg.sign [f.val, f.val])) / E inW) := by
  intro E inZ inW
  have hβ := ha.beta
  have k1 := C87_density_partial (k := k) ha hp hst hσ f
  have k2 := C92_any_time_partial (k := k) ha hp hst hσ hh hE hcut hk (fun _ => f) (RCLike.reCLM : 𝕜 →L[ℝ] ℝ)
    (t := A.beta / 2) ⟨by linarith, by linarith⟩
  simp only at k1 k2
  refine k1.trans (Eq.trans ?_ k2.symm)
  congr 1
  unfold cfgInt
  refine tsum_congr fun p => ?_
  congr 1
  refine integral_congr_ae (ae_of_all _ fun z => ?_)
  show (if codeW A (ms z.1) (ms z.2) none = 0 then 0 else
      RCLike.re (signedC A (ms z.1) (ms z.2) (some (densWorm (A.beta / 2) f)))) =
    RCLike.re (signedC A (ms z.1) (ms z.2) (some (densWorm (A.beta / 2) f)))
  split_ifs with hc
  · rw [hz _ _ hc]; exact RCLike.zero_re.symm
  · rfl

/-- Two flavors with two baths: the one-particle function with equal times from the worm, with the operators at time 1. -/
example : ∃ σ : WCfg ℝ → CodeState freeCode (Option (Worm ℝ)),
    let E := loopMeanC freeCode freeLoop 0 freePlan σ
    let inZ : CodeState freeCode (Option (Worm ℝ)) → ℝ := fun s => if s.2 = none then 1 else 0
    let inW : CodeState freeCode (Option (Worm ℝ)) → ℝ := fun s => if s.2.any fun w => decide (w.kind = .equalTime 1) then 1 else 0
    wormCoeff (1 / 4) (E inW / freeLoop.sw (.equalTime 1)) (E inZ) (E (fun s => inZ s * RCLike.re s.1.cfg.sign) / E inZ) *
        (E (fun s => inW s * (s.2.elim 0 fun w => equalTimeData w.flavors s.1.cfg.sign [1, 1])) / E inW) =
      cfgInt 4 2 (some ⟨.equalTime 1, [1], [1, 1]⟩) (fun X X' ω => signedC freeCode X X' ω) /
        cfgInt 4 2 none (fun X X' ω => RCLike.re (signedC freeCode X X' ω)) := by
  obtain ⟨σ, hσ⟩ := exists_stands freeCode_ok (n := 4) (by norm_num)
  refine ⟨σ, C92_any_time_partial (k := 0) freeLoop_ok freePlan_ok (st := ⟨2, 0, true, 4⟩) ⟨by norm_num, rfl, by norm_num, dvd_zero _⟩ hσ
    freeCode_anti free_least (fun μ hμ => ?_) (r := 1) (by simp [freeLoop]) (fun _ => (1 : Fin 2)) (ContinuousLinearMap.id ℝ ℝ)
    (t := 1) ⟨by norm_num, show (1 : ℝ) < 4 by norm_num⟩⟩
  rw [(free_eig μ).1 hμ]
  norm_num [freeCode, twoParams]

/-- One level without hybridization: both ways to measure the density agree. -/
example : ∃ σ : WCfg ℝ → CodeState atomCode (Option (Worm ℝ)),
    let E := loopMeanC atomCode atomLoop 0 atomPlan σ
    let inZ : CodeState atomCode (Option (Worm ℝ)) → ℝ := fun s => if s.2 = none then 1 else 0
    let inW : CodeState atomCode (Option (Worm ℝ)) → ℝ := fun s => if s.2.any fun w => decide (w.kind = .equalTime 1) then 1 else 0
    (E (fun s => inZ s * recordN atomCode 0 s.1) / E inZ) / (E (fun s => inZ s * RCLike.re s.1.cfg.sign) / E inZ) =
      wormCoeff (1 / 4) (E inW / atomLoop.sw (.equalTime 1)) (E inZ) (E (fun s => inZ s * RCLike.re s.1.cfg.sign) / E inZ) *
        (E (fun s => inW s * RCLike.re (s.2.elim (0 : ℝ) fun w => equalTimeData w.flavors s.1.cfg.sign [0, 0])) / E inW) := by
  obtain ⟨σ, hσ⟩ := exists_stands atomCode_ok (n := 4) (by norm_num)
  have hcut : ∀ μ ∈ eigenvaluesOf atomCode.B.H, μ ≤ 0 + min atomCode.p.inner atomCode.p.outer := fun μ hμ => by
    have e : min atomCode.p.inner atomCode.p.outer = 2 := by norm_num [atomCode, exCode, twoParams]
    rw [e]
    rcases (oneLevel_eig μ).1 hμ with rfl | rfl <;> norm_num
  refine ⟨σ, C92_density_partial (k := 0) atomLoop_ok atomPlan_ok (st := ⟨2, 0, true, 4⟩) ⟨by norm_num, rfl, by norm_num, dvd_zero _⟩ hσ
    atomCode_anti oneLevel_least hcut (by simp [atomLoop]) (0 : Fin 1) fun X X' h => ?_⟩
  by_cases h0 : X ≠ 0 ∨ X' ≠ 0
  · exact signedC_zero (fun _ _ => rfl) h0 _
  · obtain ⟨-, z, hz, e⟩ := signedC_empty atomCode_ok oneLevel_least hcut
    obtain ⟨rfl, rfl⟩ : X = 0 ∧ X' = 0 := by simpa using h0
    rw [← norm_signedC, e, RCLike.norm_ofReal, abs_of_pos hz] at h
    exact absurd h hz.ne'

end CTHyb
