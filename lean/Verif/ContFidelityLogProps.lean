import Verif.ContAtomProps
import Verif.ContFidelityProps

/-!
# C91: fidelity susceptibility in continuous time

`compute_fidelity_susceptibility` (src/postprocess.hpp:485-495) from the means of `kLkR` and `k` after the loop of `update` with real
times.  All times may be moved round the circle, so half of the operators are in each half circle on average.

Specification: half the mixed derivative of the logarithm of `zHalf`.
-/

namespace CTHyb

open Rand MeasureTheory ENNReal Matrix

variable {𝕜 : Type} [RCLike 𝕜] {N : ℕ}

/-! ### Shifts in imaginary time -/

variable {A : CodeArgs 𝕜 N} {a : LoopC} {k : ℕ} {plan : Rand ℝ (List (ℕ × List (ℕ → ℕ)))}
  {σ : WCfg ℝ → CodeState A (Option (Worm ℝ))} {st : SavedState}

/-- The term of a configuration without worm does not change if all times move round the circle. -/
theorem signedR_shift (hA : A.OK) {h : ℕ → ℕ → ℝ → 𝕜} (hh : AntiPer A h) {E0 : ℝ}
    (hE : IsLeast (eigenvaluesOf A.B.H) E0) (hcut : ∀ μ ∈ eigenvaluesOf A.B.H, μ ≤ E0 + min A.p.inner A.p.outer)
    (s : ℝ) {x : WCfg ℝ} (hw : x.worm = none) (hn : ((x.ops id (codeWops id)).map Psi.time).Nodup)
    (ht : ∀ o ∈ x.ops id (codeWops id), 0 < o.time.time ∧ o.time.time < A.beta) :
    signedR A ((CGlob.shift s).act A.beta x) = signedR A x := by
  have hreg : Reg A.P.nf ∅ x := ⟨fun _ _ => Set.notMem_empty _, fun u hu => by rw [hw] at hu; cases hu⟩
  obtain ⟨e1, e2, -⟩ := (CGlob.shift s).act_ops A.beta hreg
  have e3 := (CGlob.shift s).ops_map A.beta hreg
  have hr : InRange A.beta (x.ops id (codeWops id)) := fun o ho => ⟨(ht o ho).1, (ht o ho).2.le⟩
  have h1 := C58_full_trace hA.base hA.solver hA.dim hE hcut A.beta s _ hr hn
  have hops : x.ops id (codeWops id) = x.cd.map (mkOp id .creation) ++ x.c.map (mkOp id .annihilation) := by
    simp [PCfg.ops, hw, codeWops, wormOps]
  have hp : (x.c.map (mkOp id .annihilation) ++ x.cd.map (mkOp id .creation) ++ []).Perm (x.ops id (codeWops id)) := by
    rw [hops, List.append_nil]; exact List.perm_append_comm
  have hw' : wormOps (codeWops id ((CGlob.shift s).act A.beta x).worm) = [] := by simp [CGlob.act, hw, codeWops, wormOps]
  have hw'' : wormOps (codeWops id x.worm) = [] := by simp [hw, codeWops, wormOps]
  have s1 : ((CGlob.shift s).act A.beta x).sorted id (codeWops id) = timeSort ((x.ops id (codeWops id)).map (shiftOp A.beta s)) := by
    unfold PCfg.sorted timeSort
    rw [e3]; rfl
  have s2 : x.sorted id (codeWops id) = timeSort (x.ops id (codeWops id)) := rfl
  unfold signedR CodeArgs.weight
  rw [hw', hw'', e1, e2, s1, s2, h1, ← mul_assoc, ← mul_assoc]
  congr 1
  by_cases hlen : (x.c.map (mkOp id .annihilation)).length = (x.cd.map (mkOp id .creation)).length
  · have h2 := C58_signed_det (shiftSign_of_antiPer hh s) (x.c.map (mkOp id .annihilation))
      (x.cd.map (mkOp id .creation)) [] hlen (by simp) (fun o ho => hr o (hp.mem_iff.1 ho)) ((hp.map _).nodup_iff.2 hn)
    simp only [List.map_nil, List.countP_nil, pow_zero, one_mul] at h2
    exact h2
  · have z : ∀ cs cds : List (TPsi ℝ), cs.length ≠ cds.length → timeDet A.G cs cds = 0 := fun cs cds h => by
      unfold timeDet listDet
      rw [dif_neg]
      rw [(timeSort_perm cs).length_eq, (timeSort_perm cds).length_eq]
      exact Ne.symm h
    rw [z _ _ hlen, z _ _ (by simpa using hlen), mul_zero, mul_zero]

theorem signedC_shift (hA : A.OK) {h : ℕ → ℕ → ℝ → 𝕜} (hh : AntiPer A h) {E0 : ℝ}
    (hE : IsLeast (eigenvaluesOf A.B.H) E0) (hcut : ∀ μ ∈ eigenvaluesOf A.B.H, μ ≤ E0 + min A.p.inner A.p.outer)
    (s : ℝ) {x : WCfg ℝ} (hw : x.worm = none) (ht : ∀ o ∈ x.ops id (codeWops id), 0 < o.time.time ∧ o.time.time < A.beta) :
    (signedC A).at ((CGlob.shift s).act A.beta x) = (signedC A).at x := by
  classical
  have hreg : Reg A.P.nf ∅ x := ⟨fun _ _ => Set.notMem_empty _, fun u hu => by rw [hw] at hu; cases hu⟩
  rw [signedC_at, signedC_at]
  have hiff : CodeCfg A.P.nf ((CGlob.shift s).act A.beta x) ↔ CodeCfg A.P.nf x := by
    unfold CodeCfg
    refine and_congr ⟨fun hn => ?_, (CGlob.shift s).act_nodup A.beta hreg ht⟩ (and_congr ?_ ?_)
    · rw [(CGlob.shift s).ops_map A.beta hreg] at hn
      have e : ((x.ops id (codeWops id)).map ((CGlob.shift s).op A.beta)).map Psi.time =
          ((x.ops id (codeWops id)).map Psi.time).map fun t : OpTime ℝ => { t with time := shiftTime A.beta s t.time } := by
        rw [List.map_map, List.map_map]; rfl
      rw [e] at hn
      exact hn.of_map _
    · exact ⟨fun h o ho => h ((CGlob.shift s).bop A.beta o) (List.mem_map_of_mem ho), fun h o ho => by
        obtain ⟨o', ho', rfl⟩ := List.mem_map.1 ho
        exact h o' ho'⟩
    · exact ⟨fun h o ho => h ((CGlob.shift s).bop A.beta o) (List.mem_map_of_mem ho), fun h o ho => by
        obtain ⟨o', ho', rfl⟩ := List.mem_map.1 ho
        exact h o' ho'⟩
  by_cases hc : CodeCfg A.P.nf x
  · rw [if_pos hc, if_pos (hiff.2 hc), signedR_shift hA hh hE hcut s hw hc.1 ht]
  · rw [if_neg hc, if_neg fun h => hc (hiff.1 h)]

theorem mp_shift {β s : ℝ} (h0 : 0 ≤ s) (h1 : s ≤ β) (nf m n : ℕ) :
    MeasurePreserving (fun z : Lab m n => gLab (timeShift β s) (fun f => f) z) (labMeasure β nf m n) (labMeasure β nf m n) := by
  have ho : MeasurePreserving (gop (timeShift β s) fun f => f) (opMeasure β nf) (opMeasure β nf) :=
    (timeShift_mp h0 h1).prod (flavor_mp fun f hf => ⟨hf, rfl⟩)
  exact (measurePreserving_pi _ _ fun _ => ho).prod (measurePreserving_pi _ _ fun _ => ho)

/-- Half a period exchanges the two halves. -/
theorem half_swap {β t start : ℝ} (ht : 0 < t ∧ t < β) (h2 : t ≠ β / 2) (h0 : 0 ≤ start) (h1 : start ≤ β / 2) :
    (start ≤ timeShift β (β / 2) t ∧ timeShift β (β / 2) t < start + β / 2) ↔ ¬ (start ≤ t ∧ t < start + β / 2) := by
  unfold timeShift
  split_ifs with h
  · constructor
    · rintro ⟨p, q⟩ ⟨p', q'⟩; linarith
    · intro hnot
      have : start + β / 2 ≤ t := by
        by_contra hc
        exact hnot ⟨by linarith, not_le.1 hc⟩
      exact ⟨by linarith, by linarith [ht.2]⟩
  · have h3 : t < β / 2 := lt_of_le_of_ne (by linarith) h2
    constructor
    · rintro ⟨p, q⟩ ⟨p', q'⟩; linarith
    · intro hnot
      have : t < start := by
        by_contra hc
        exact hnot ⟨not_lt.1 hc, by linarith⟩
      exact ⟨by linarith [ht.1], by linarith⟩

theorem halfIn_shift {β start : ℝ} (h0 : 0 ≤ start) (h1 : start ≤ β / 2) {n : ℕ} {z : Fin n → BOp ℝ}
    (hz : ∀ i, (0 < (z i).1 ∧ (z i).1 < β) ∧ (z i).1 ≠ β / 2) :
    halfIn β start (ms fun i => gop (timeShift β (β / 2)) (fun f => f) (z i)) = halfOut β start (ms z) := by
  unfold halfIn halfOut
  rw [ms_eq, ms_eq, Multiset.countP_map, Multiset.countP_map]
  congr 1
  refine Multiset.filter_congr fun i _ => ?_
  exact half_swap (hz i).1 (hz i).2 h0 h1

/-- On average half of the operators are in the half circle. -/
theorem cfgInt_half_swap (ha : a.OK A) {h : ℕ → ℕ → ℝ → 𝕜} (hh : AntiPer A h) {E0 : ℝ}
    (hE : IsLeast (eigenvaluesOf A.B.H) E0) (hcut : ∀ μ ∈ eigenvaluesOf A.B.H, μ ≤ E0 + min A.p.inner A.p.outer)
    {start : ℝ} (h0 : 0 ≤ start) (h1 : start ≤ A.beta / 2) :
    cfgInt A.beta A.P.nf none (fun X X' ω => ((halfIn A.beta start X + halfIn A.beta start X' : ℕ) : ℝ) * RCLike.re (signedC A X X' ω)) =
      cfgInt A.beta A.P.nf none (fun X X' ω => ((halfOut A.beta start X + halfOut A.beta start X' : ℕ) : ℝ) * RCLike.re (signedC A X X' ω)) := by
  have hβ := ha.beta
  unfold cfgInt
  refine tsum_congr fun p => ?_
  congr 1
  have hmp := mp_shift (β := A.beta) (s := A.beta / 2) (by linarith) (by linarith) A.P.nf p.1 p.2
  have hm : Measurable fun z : Lab p.1 p.2 => CfgFun.at (fun X X' ω => ((halfIn A.beta start X + halfIn A.beta start X' : ℕ) : ℝ) *
      RCLike.re (signedC A X X' ω)) (z.cfg none) :=
    ((Measurable.of_discrete (f := fun q : ℕ => (q : ℝ))).comp (measurable_sumIn A.beta start p.1 p.2)).mul
      (RCLike.continuous_re.measurable.comp ((signedC_wmeas ha.code ha.meas).none p.1 p.2))
  conv_lhs => rw [← hmp.map_eq]
  rw [integral_map hmp.measurable.aemeasurable hm.aestronglyMeasurable]
  refine integral_congr_ae ?_
  filter_upwards [ae_labMeasure_out A.beta A.P.nf p.1 p.2 (Z := {0, A.beta / 2, A.beta}) (by simp)] with z hz
  have hin : ∀ t : ℝ, (0 ≤ t ∧ t ≤ A.beta) ∧ t ∉ ({0, A.beta / 2, A.beta} : Set ℝ) → (0 < t ∧ t < A.beta) ∧ t ≠ A.beta / 2 := by
    rintro t ⟨⟨q0, q1⟩, q2⟩
    simp only [Set.mem_insert_iff, Set.mem_singleton_iff, not_or] at q2
    exact ⟨⟨lt_of_le_of_ne q0 (Ne.symm q2.1), lt_of_le_of_ne q1 q2.2.2⟩, q2.2.1⟩
  have e1 := halfIn_shift h0 h1 fun i => hin _ (hz.1 i)
  have e2 := halfIn_shift h0 h1 fun i => hin _ (hz.2 i)
  have e3 : (signedC A).at ((gLab (timeShift A.beta (A.beta / 2)) (fun f => f) z).cfg none) = (signedC A).at (z.cfg none) := by
    have := signedC_shift ha.code hh hE hcut (A.beta / 2) (x := z.cfg none) rfl ?_
    · refine Eq.trans ?_ this
      congr 1
      unfold CGlob.act Lab.cfg gLab
      simp only [List.map_ofFn]
      rfl
    · intro o ho
      have hops : (z.cfg none : WCfg ℝ).ops id (codeWops id) = (List.ofFn z.1).map (mkOp id .creation) ++
          (List.ofFn z.2).map (mkOp id .annihilation) := by
        simp [PCfg.ops, Lab.cfg, codeWops, wormOps]
      rw [hops] at ho
      rcases List.mem_append.1 ho with ho | ho
      · obtain ⟨b, hb, rfl⟩ := List.mem_map.1 ho
        obtain ⟨i, rfl⟩ := (List.mem_ofFn' _ _).1 hb
        exact (hin _ (hz.1 i)).1
      · obtain ⟨b, hb, rfl⟩ := List.mem_map.1 ho
        obtain ⟨i, rfl⟩ := (List.mem_ofFn' _ _).1 hb
        exact (hin _ (hz.2 i)).1
  show ((halfIn A.beta start (ms fun i => gop (timeShift A.beta (A.beta / 2)) (fun f => f) (z.1 i)) +
      halfIn A.beta start (ms fun i => gop (timeShift A.beta (A.beta / 2)) (fun f => f) (z.2 i)) : ℕ) : ℝ) *
      RCLike.re ((signedC A).at ((gLab (timeShift A.beta (A.beta / 2)) (fun f => f) z).cfg none)) = _
  rw [e1, e2, e3]
  rfl

/-! ### The logarithm -/

/-- **Specification.**  Half the mixed derivative of the logarithm of the partition function with respect to the strengths of the
hybridization in the two halves of the circle. -/
noncomputable def fidelityC (A : CodeArgs 𝕜 N) (start : ℝ) : ℝ :=
  1 / 2 * deriv (fun l => deriv (fun r => Real.log (zHalf A start l r)) 1) 1

theorem fidelityC_eq (ha : a.OK A) {h : ℕ → ℕ → ℝ → 𝕜} (hh : AntiPer A h) {E0 : ℝ}
    (hE : IsLeast (eigenvaluesOf A.B.H) E0) (hcut : ∀ μ ∈ eigenvaluesOf A.B.H, μ ≤ E0 + min A.p.inner A.p.outer)
    {start : ℝ} (h0 : 0 ≤ start) (h1 : start ≤ A.beta / 2) (hZ : zHalf A start 1 1 ≠ 0) :
    fidelityC A start = 1 / 2 * (cfgInt A.beta A.P.nf none (fun X X' ω => (halfProd A.beta start X X' : ℝ) * RCLike.re (signedC A X X' ω)) /
        zHalf A start 1 1 - 1 / 4 * (cfgInt A.beta A.P.nf none (fun X X' ω => ((Multiset.card X + Multiset.card X' : ℕ) : ℝ) *
          RCLike.re (signedC A X X' ω)) / zHalf A start 1 1) ^ 2) := by
  have hm := zHalf_mixed ha start
  have hl : HasDerivAt (fun l => zHalf A start l 1) (cfgInt A.beta A.P.nf none (fun X X' ω =>
      ((halfIn A.beta start X + halfIn A.beta start X' : ℕ) : ℝ) * RCLike.re (signedC A X X' ω))) 1 := by
    have h := half_deriv_l ha start (c := fun _ => 1) (fun _ => zero_le_one) fun _ _ _ => one_le_pow₀ (by norm_num)
    have e : (fun l => zHalf A start l 1) = _ := funext fun l => zHalf_eq ha start l 1
    rw [e, cfgInt_half ha start fun i _ => (i : ℝ)]
    simpa using h
  have hr : deriv (fun r => zHalf A start 1 r) 1 = cfgInt A.beta A.P.nf none (fun X X' ω =>
      ((halfOut A.beta start X + halfOut A.beta start X' : ℕ) : ℝ) * RCLike.re (signedC A X X' ω)) := by
    rw [(zHalf_deriv_r ha start (l := 1) (by norm_num)).deriv, cfgInt_half ha start fun _ j => (j : ℝ)]
    simp
  have hsum : cfgInt A.beta A.P.nf none (fun X X' ω => ((Multiset.card X + Multiset.card X' : ℕ) : ℝ) * RCLike.re (signedC A X X' ω)) =
      cfgInt A.beta A.P.nf none (fun X X' ω => ((halfIn A.beta start X + halfIn A.beta start X' : ℕ) : ℝ) * RCLike.re (signedC A X X' ω)) +
      cfgInt A.beta A.P.nf none (fun X X' ω => ((halfOut A.beta start X + halfOut A.beta start X' : ℕ) : ℝ) * RCLike.re (signedC A X X' ω)) := by
    obtain ⟨u, hu0, hs, hu⟩ := halfTerm_bound ha start
    have hsm : ∀ g : ℕ → ℕ → ℕ, (∀ q n, q ≤ n → g q (n - q) ≤ n) → Summable fun p : ℕ × ℕ => ∑ q ∈ Finset.range (p.1 + p.2 + 1),
        ((g q (p.1 + p.2 - q) : ℕ) : ℝ) * halfTerm A start p q := fun g hg => by
      refine Summable.of_norm_bounded (hs (2 * 2)) fun p => ?_
      rw [Real.norm_eq_abs]
      refine half_term_le (hu0 p) (fun q hq => ?_) (hu p) (by norm_num)
      rw [abs_of_nonneg (Nat.cast_nonneg _)]
      exact cast_le_two (hg q _ hq)
    have e1 := cfgInt_half ha start fun i j => ((i + j : ℕ) : ℝ)
    have e2 := cfgInt_half ha start fun i _ => ((i : ℕ) : ℝ)
    have e3 := cfgInt_half ha start fun _ j => ((j : ℕ) : ℝ)
    rw [e2, e3, ← (hsm (fun i _ => i) fun q n h => h).tsum_add (hsm (fun _ j => j) fun q n _ => Nat.sub_le _ _)]
    refine Eq.trans (cfgInt_congr fun X X' => ?_) (e1.trans (tsum_congr fun p => ?_))
    · rw [← half_add A.beta start X, ← half_add A.beta start X', add_add_add_comm]
    · rw [← Finset.sum_add_distrib]
      refine Finset.sum_congr rfl fun q _ => ?_
      push_cast
      ring
  have hsw := cfgInt_half_swap ha hh hE hcut h0 h1
  have hne : ∀ᶠ l in nhds (1 : ℝ), zHalf A start l 1 ≠ 0 := hl.continuousAt.eventually_ne hZ
  have hlog : (fun l => deriv (fun r => Real.log (zHalf A start l r)) 1) =ᶠ[nhds 1]
      fun l => deriv (fun r => zHalf A start l r) 1 / zHalf A start l 1 := by
    filter_upwards [hne, Ioo_mem_nhds (show (0 : ℝ) < 1 by norm_num) (show (1 : ℝ) < 2 by norm_num)] with l hl0 hl
    have := (zHalf_deriv_r ha start hl).log hl0
    rw [this.deriv, (zHalf_deriv_r ha start hl).deriv]
  unfold fidelityC
  rw [hlog.deriv_eq, (hm.fun_div hl hZ).deriv, hr, hsum, ← hsw]
  field_simp
  ring

/-- **C91, fidelity susceptibility.**  In equilibrium, for every value `u` of the random number, the formula of the postprocessing
with the means of `kLkR` and `k`, each divided by the mean of the sign, and with the overflows put back, gives half the mixed derivative of
the logarithm of the partition function with respect to the strengths of the hybridization in the two halves of the circle.  Missing for
the full statement: as in `C83_loop_partial`; the code does not divide by the mean of the sign (`C67_fidelity_violated`). -/
theorem C91_fidelity_partial (ha : a.OK A) (hp : PlanC A plan) (hst : WindowOK 0 st) (hσ : StatesC A st σ)
    {h : ℕ → ℕ → ℝ → 𝕜} (hh : AntiPer A h) {E0 : ℝ}
    (hE : IsLeast (eigenvaluesOf A.B.H) E0) (hcut : ∀ μ ∈ eigenvaluesOf A.B.H, μ ≤ E0 + min A.p.inner A.p.outer)
    {u : ℝ} (hu : 0 ≤ u ∧ u < 1) (hZ : zOf A 1 ≠ 0) :
    let E := loopMeanC A a k plan σ
    let inZ : CodeState A (Option (Worm ℝ)) → ℝ := fun s => if s.2 = none then 1 else 0
    let start := 1 / 2 * A.beta * u
    let S := E (fun s => inZ s * RCLike.re s.1.cfg.sign) / E inZ
    let lost := cfgInt A.beta A.P.nf none (fun X X' ω => ((halfProd A.beta start X X' / 2 ^ 32 : ℕ) : ℝ) * RCLike.re (signedC A X X' ω)) /
      zOf A 1
    fidelityOf ((E (fun s => inZ s * RCLike.re (recordKLKR A u s.1)) / E inZ) / S + 2 ^ 32 * lost)
      ((E (fun s => inZ s * RCLike.re (recordK A s.1)) / E inZ) / S) 0 = fidelityC A start := by
  intro E inZ start S lost
  have hβ := ha.beta
  have hz : zHalf A start 1 1 = zOf A 1 := by
    rw [zHalf_one]
    unfold zOf
    refine cfgInt_congr fun X X' => ?_
    rw [signedC_scale, RCLike.ofReal_one, one_pow, one_mul]
  obtain ⟨-, -, h1⟩ := C91_mixed_partial (k := k) ha hp hst hσ u
  obtain ⟨-, h2⟩ := C88_strength_partial (k := k) ha hp hst hσ
  change _ / S = _ at h1
  change _ / S = _ at h2
  have hs0 : 0 ≤ start := by have := hu.1; positivity
  have hs1 : start ≤ A.beta / 2 := by
    show 1 / 2 * A.beta * u ≤ A.beta / 2
    nlinarith [hu.2]
  rw [fidelityC_eq ha hh hE hcut hs0 hs1 (by rw [hz]; exact hZ)]
  obtain ⟨d1, d2⟩ := zOf_deriv ha
  have e1 : E (fun s => inZ s * RCLike.re (recordKLKR A u s.1)) / E inZ / S = _ := h1
  have e2 : E (fun s => inZ s * RCLike.re (recordK A s.1)) / E inZ / S = _ := h2
  rw [e1, e2, d2, d1.deriv]
  change fidelityOf (deriv (fun l => deriv (fun r => zHalf A start l r) 1) 1 / zHalf A start 1 1 - 2 ^ 32 * (_ / zHalf A start 1 1) +
    2 ^ 32 * (_ / zOf A 1)) _ _ = _
  rw [(zHalf_mixed ha start).deriv, hz]
  unfold fidelityOf
  ring

/-! ### A concrete case: two spins in equal weak baths -/

/-- The partition function is not zero if the hybridization is weak. -/
theorem zOf_weak (ha : a.OK A) {E0 : ℝ} (hE : IsLeast (eigenvaluesOf A.B.H) E0)
    (hcut : ∀ μ ∈ eigenvaluesOf A.B.H, μ ≤ E0 + min A.p.inner A.p.outer) : ∃ l : ℝ, 0 < l ∧ zOf A l ≠ 0 := by
  obtain ⟨u, hu0, -, hs, hu⟩ := order_bound ha
  have hz : ∀ p, |zTerm A p| ≤ u p := fun p => zTerm_le (hu0 p) (hu p)
  have hc : ContinuousOn (zOf A) (Set.Icc 0 1) := by
    have e : zOf A = fun l => ∑' p, l ^ p.2 * zTerm A p := funext (zOf_eq A)
    rw [e]
    refine continuousOn_tsum (fun p => by fun_prop) (hs 1) fun p l hl => ?_
    rw [Real.norm_eq_abs, abs_mul, one_pow, one_mul, abs_of_nonneg (pow_nonneg hl.1 _)]
    exact (mul_le_of_le_one_left (abs_nonneg _) (pow_le_one₀ hl.1 hl.2)).trans (hz p)
  have h0 : zOf A 0 ≠ 0 := by
    obtain ⟨-, z, hz, e⟩ := signedC_empty ha.code hE hcut
    unfold zOf
    rw [cfgInt_single fun X X' h => by rw [signedC_zero (fun o o' => by simp) h, map_zero], signedC_scale, e]
    simpa using hz.ne'
  have h1 := (hc 0 (by simp)).eventually_ne h0
  have h2 : ∀ᶠ l in nhdsWithin (0 : ℝ) (Set.Ioo 0 1), zOf A l ≠ 0 := h1.filter_mono (nhdsWithin_mono _ Set.Ioo_subset_Icc_self)
  have h3 : ∀ᶠ l in nhdsWithin (0 : ℝ) (Set.Ioo 0 1), l ∈ Set.Ioo (0 : ℝ) 1 := self_mem_nhdsWithin
  haveI : (nhdsWithin (0 : ℝ) (Set.Ioo 0 1)).NeBot := by
    rw [← mem_closure_iff_nhdsWithin_neBot, closure_Ioo (by norm_num)]
    simp
  obtain ⟨l, hl, hl'⟩ := (h2.and h3).exists
  exact ⟨l, hl'.1, hl⟩

/-- Two spins without energy in equal baths with another strength. -/
noncomputable def weakCode (l : ℝ) : CodeArgs ℝ (2 ^ 2) := { freeCode with G := fun o o' => l * freeCode.G o o' }

theorem weakCode_ok (l : ℝ) : (weakCode l).OK :=
  { freeCode_ok with
    blocks := fun o o' h1 h2 h => by
      show l * freeCode.G o o' = 0
      rw [freeCode_ok.blocks o o' h1 h2 h, mul_zero]
    sectors := freeCode_ok.sectors }

theorem weakCode_anti (l : ℝ) : AntiPer (weakCode l) fun f f' t => l * freeHyb f f' t where
  eq := fun _ _ => rfl
  anti := fun f f' x h1 h2 => (congrArg (l * ·) (freeCode_anti.anti f f' x h1 h2)).trans (mul_neg _ _)

theorem weakLoop_ok (l : ℝ) : freeLoop.OK (weakCode l) :=
  { freeLoop_ok with
    code := weakCode_ok l
    meas := measurable_freeHyb.const_mul l
    bounded := by
      obtain ⟨C, hC⟩ := freeLoop_ok.bounded
      refine ⟨|l| * C, fun o o' h1 h2 => ?_⟩
      show ‖l * freeCode.G o o'‖ ≤ _
      rw [norm_mul, Real.norm_eq_abs]
      exact mul_le_mul_of_nonneg_left (hC o o' h1 h2) (abs_nonneg _)
    shift := fun v hv => C83_safe_shift (weakCode_ok l) rfl (weakCode_anti l)
      ⟨mul_nonneg hv.1 freeLoop_ok.beta.le, by
        have := mul_lt_mul_of_pos_right hv.2 freeLoop_ok.beta
        rwa [one_mul] at this⟩ }

theorem weakPlan_ok (l : ℝ) : PlanC (weakCode l) atomPlan := by
  constructor
  · simp [atomPlan, meanE]
  · intro r hr q hq p hp
    rw [atomPlan, Multiset.mem_singleton] at hr
    subst hr
    simp only [List.mem_cons, List.not_mem_nil, or_false] at hq
    rcases hq with rfl | rfl <;> simp at hp

/-- The demands of `C91_fidelity_partial` are met, with a bath. -/
example {u : ℝ} (hu : 0 ≤ u ∧ u < 1) : ∃ (l : ℝ) (_ : 0 < l) (σ : WCfg ℝ → CodeState (weakCode l) (Option (Worm ℝ))),
    let E := loopMeanC (weakCode l) freeLoop 0 atomPlan σ
    let inZ : CodeState (weakCode l) (Option (Worm ℝ)) → ℝ := fun s => if s.2 = none then 1 else 0
    let start := 1 / 2 * 4 * u
    let S := E (fun s => inZ s * RCLike.re s.1.cfg.sign) / E inZ
    let lost := cfgInt 4 2 none (fun X X' ω => ((halfProd 4 start X X' / 2 ^ 32 : ℕ) : ℝ) * RCLike.re (signedC (weakCode l) X X' ω)) /
      zOf (weakCode l) 1
    fidelityOf ((E (fun s => inZ s * RCLike.re (recordKLKR (weakCode l) u s.1)) / E inZ) / S + 2 ^ 32 * lost)
      ((E (fun s => inZ s * RCLike.re (recordK (weakCode l) s.1)) / E inZ) / S) 0 = fidelityC (weakCode l) start := by
  have hcut : ∀ μ ∈ eigenvaluesOf freeCode.B.H, μ ≤ 0 + min freeCode.p.inner freeCode.p.outer := fun μ hμ => by
    rw [(free_eig μ).1 hμ]
    norm_num [freeCode, twoParams]
  obtain ⟨l, hl, hz⟩ := zOf_weak freeLoop_ok free_least hcut
  obtain ⟨σ, hσ⟩ := exists_stands (weakCode_ok l) (n := 4) (by norm_num)
  refine ⟨l, hl, σ, C91_fidelity_partial (k := 0) (weakLoop_ok l) (weakPlan_ok l) (st := ⟨2, 0, true, 4⟩)
    ⟨by norm_num, rfl, by norm_num, dvd_zero _⟩ hσ (weakCode_anti l) free_least hcut hu ?_⟩
  have e : zOf (weakCode l) 1 = zOf freeCode l := by
    refine cfgInt_congr (β := 4) (nf := 2) fun X X' => ?_
    rw [signedC_scale, RCLike.ofReal_one, one_pow, one_mul]
    rfl
  rwa [e]

end CTHyb
