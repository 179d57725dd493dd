import Verif.ContAtomProps
import Verif.NNCorrProps

/-!
# C86: density-density correlation functions in continuous time

What `measure_two_time_correlation_functions` (src/impurity.ipp:473-490, model: `recordCorr`) records, after the loop of `update` with real
times, and what the postprocessing makes of it.

Specification: `corrWorm`, the operators `n_f(t) n_g(t0)` as a worm; `corrThermal`, the thermal average of the two densities.
-/

namespace CTHyb

open Rand MeasureTheory ENNReal Matrix

variable {𝕜 : Type} [RCLike 𝕜] {N : ℕ}

/-! ### Specification -/

/-- **Specification.**  The operators `c†_f(t) c_f(t) c†_g(t0) c_g(t0)` as a worm. -/
noncomputable def corrWorm {nf : ℕ} (t0 t : ℝ) (f g : Fin nf) : Worm ℝ :=
  if t = t0 then mkW (.equalTime 2) (fun _ => t0) (![f, f, g, g] : Fin 4 → Fin nf)
  else mkW (.corr 2) (![t, t0] : Fin 2 → ℝ) (![f, f, g, g] : Fin 4 → Fin nf)

/-- **Specification.**  `Tr (exp(-(β-τ) H) n exp(-τ H) n') / Tr exp(-β H)`. -/
noncomputable def corrThermal (H : Matrix (Fin N) (Fin N) 𝕜) (β τ : ℝ) (n n' : Matrix (Fin N) (Fin N) 𝕜) : 𝕜 :=
  trace (NormedSpace.exp (((-(β - τ) : ℝ) : 𝕜) • H) * n * NormedSpace.exp (((-τ : ℝ) : 𝕜) • H) * n') /
    trace (NormedSpace.exp (((-β : ℝ) : 𝕜) • H))

/-! ### The worm -/

theorem corrWorm_ops {nf : ℕ} (t0 t : ℝ) (f g : Fin nf) : wormOps (codeWops id (some (corrWorm t0 t f g))) =
    [⟨⟨t, if t = t0 then 3 else 1⟩, .creation, f⟩, ⟨⟨t, if t = t0 then 2 else 0⟩, .annihilation, f⟩, ⟨⟨t0, 1⟩, .creation, g⟩,
      ⟨⟨t0, 0⟩, .annihilation, g⟩] := by
  unfold corrWorm
  split_ifs with h
  · subst h; rfl
  · rfl

/-- What is integrated over. -/
theorem corrWorm_form {nf : ℕ} (t0 t : ℝ) (f g : Fin nf) {β : ℝ} (h0 : 0 ≤ t0 ∧ t0 ≤ β) (h1 : 0 ≤ t ∧ t ≤ β) :
    ∃ (k : WormKind) (ts : Fin k.numTimes → ℝ) (fs : Fin k.numFlavors → Fin nf), corrWorm t0 t f g = mkW k ts fs ∧ ∀ i, 0 ≤ ts i ∧ ts i ≤ β := by
  unfold corrWorm
  split_ifs with h
  · exact ⟨_, _, _, rfl, fun _ => h0⟩
  · refine ⟨_, _, _, rfl, fun i => ?_⟩
    change Fin 2 at i
    fin_cases i
    · exact h1
    · exact h0

/-! ### The trace does not depend on how operators at one time are told apart -/

theorem timeOrdered_congr {R Ket Bra K : Type} [Sub R] (E : Evol R Ket Bra K) (c : R) {l l' : List (TPsi R)}
    (h : l.map (fun o => (o.time.time, o.type, o.flavor)) = l'.map fun o => (o.time.time, o.type, o.flavor)) (a : R) (k : Ket) :
    timeOrdered E c l a k = timeOrdered E c l' a k := by
  induction l generalizing l' a k with
  | nil =>
    cases l' with
    | nil => rfl
    | cons o l' => simp at h
  | cons o l ih =>
    cases l' with
    | nil => simp at h
    | cons o' l' =>
      simp only [List.map_cons, List.cons.injEq, Prod.mk.injEq] at h
      obtain ⟨⟨h1, h2, h3⟩, h4⟩ := h
      simp only [timeOrdered, h1, h2, h3]
      exact ih h4 _ _

/-- The operators at `t` get other labels. -/
noncomputable def relabel (t : ℝ) (k : ℤ) (o : TPsi ℝ) : TPsi ℝ := ⟨⟨o.time.time, o.time.small + if o.time.time = t then k else 0⟩, o.type, o.flavor⟩

theorem relabel_lt (t : ℝ) (k : ℤ) {a b : TPsi ℝ} (h : a.time < b.time) : (relabel t k a).time < (relabel t k b).time := by
  rw [OpTime.lt_def] at h ⊢
  simp only [relabel]
  rcases h with h | ⟨h1, h2⟩
  · exact Or.inl h
  · right
    refine ⟨h1, ?_⟩
    rw [h1]
    exact Int.add_lt_add_right h2 _

theorem even_cross_of_even {T : Type} [LinearOrder T] {l m : List T} (h : ∀ x ∈ l, Even (m.countP fun y => decide (x < y))) :
    Even (crossCount l m) := by
  unfold crossCount
  induction l with
  | nil => simp
  | cons x l ih =>
    rw [List.map_cons, List.sum_cons]
    exact (h x (by simp)).add (ih fun y hy => h y (List.mem_cons_of_mem _ hy))

/-- Pairs of operators do not change the sign of the permutation. -/
theorem permSign_corr {nf : ℕ} {t0 t : ℝ} (ht : t0 ≤ t) (f g : Fin nf) {cd c : List (TPsi ℝ)} (hl : c.length = cd.length)
    (hn : (c.map Psi.time ++ cd.map Psi.time).Nodup) (h : ∀ o ∈ c ++ cd, o.time.time ≠ t0 ∧ o.time.time ≠ t) :
    permSignImpl cd c (wormOps (codeWops id (some (corrWorm t0 t f g)))) = permSignImpl cd c [] := by
  set u := wormOps (codeWops id (some (corrWorm t0 t f g))) with hu
  have hdesc : (u.map Psi.time).Pairwise (· > ·) := by
    rw [hu, corrWorm_ops]
    simp only [List.map_cons, List.map_nil, List.pairwise_cons, List.mem_cons, List.not_mem_nil, or_false, gt_iff_lt, OpTime.lt_def]
    split_ifs with e
    · subst e; simp
    · have : t0 < t := lt_of_le_of_ne ht (Ne.symm e)
      simp [this]
  have hud : (u.map Psi.time).Nodup := hdesc.imp fun h => ne_of_gt h
  have hnu : (c.map Psi.time ++ cd.map Psi.time ++ u.map Psi.time).Nodup := by
    rw [List.nodup_append]
    refine ⟨hn, hud, ?_⟩
    intro x hx y hy e
    subst e
    rw [← List.map_append] at hx
    obtain ⟨o, ho, rfl⟩ := List.mem_map.1 hx
    obtain ⟨h1, h2⟩ := h o ho
    rw [hu, corrWorm_ops] at hy
    simp only [List.map_cons, List.map_nil, List.mem_cons, List.not_mem_nil, or_false] at hy
    rcases hy with e | e | e | e <;> rw [e] at h1 h2 <;> simp at h1 h2
  rw [C05_perm_sign_value _ _ _ hl hnu, C05_perm_sign_value _ _ _ hl (by simpa using hn), outOfOrder_desc hdesc]
  have he : Even (crossCount (c.map Psi.time ++ cd.map Psi.time) (u.map Psi.time)) := by
    refine even_cross_of_even fun x hx => ?_
    rw [← List.map_append] at hx
    obtain ⟨o, ho, rfl⟩ := List.mem_map.1 hx
    obtain ⟨h1, h2⟩ := h o ho
    have e0 : ∀ k : ℤ, o.time < ⟨t0, k⟩ ↔ o.time.time < t0 := fun k => by rw [OpTime.lt_def]; simp [h1]
    have e1 : ∀ k : ℤ, o.time < ⟨t, k⟩ ↔ o.time.time < t := fun k => by rw [OpTime.lt_def]; simp [h2]
    rw [hu, corrWorm_ops]
    simp only [List.map_cons, List.map_nil, List.countP_cons, List.countP_nil, e0, e1, decide_eq_true_eq]
    by_cases a0 : o.time.time < t0 <;> by_cases a1 : o.time.time < t <;> simp [a0, a1] <;> decide
  have h0 : crossCount (c.map Psi.time ++ cd.map Psi.time) (([] : List (TPsi ℝ)).map Psi.time) = 0 :=
    List.sum_eq_zero fun y hy => by obtain ⟨x, -, rfl⟩ := List.mem_map.1 hy; rfl
  rw [h0, List.map_nil, outOfOrder, add_zero, add_zero, add_zero, pow_add _ _ (crossCount _ _), he.neg_one_pow, mul_one]

/-! ### The mean of a number which is not bounded -/

variable {A : CodeArgs 𝕜 N} {a : LoopC} {k : ℕ} {plan : Rand ℝ (List (ℕ × List (ℕ → ℕ)))}
  {σ : WCfg ℝ → CodeState A (Option (Worm ℝ))} {st : SavedState}

/-- As `mean_onZ`, for integrable numbers. -/
theorem mean_onZ_int (ha : a.OK A) (hp : PlanC A plan) (hst : WindowOK 0 st) (hσ : StatesC A st σ)
    {d : CfgFun (Option (Worm ℝ)) ℝ} (hd : d.WMeas A.P.nf)
    (hfin : allFlow A.beta A.P.nf none (fun _ _ _ => 1) (codeW A) (fun x => ENNReal.ofReal |d.at x|) ≠ ∞)
    {F : CodeState A (Option (Worm ℝ)) → ℝ} (hF : ∀ s x st, Stands A st x s → x.worm = none → F s = d.at x) :
    loopMeanC A a k plan σ (fun s => (if s.2 = none then 1 else 0) * F s) =
      cfgInt A.beta A.P.nf none (fun X X' ω => codeW A X X' ω * d X X' ω) / totalC A a := by
  obtain ⟨h1, h2, h3, h4⟩ := C83_weight ha.code ha.meas
  have h0 : ∀ X X' ω, 0 ≤ codeW A X X' ω := fun X X' ω => by rw [← norm_signedC]; exact norm_nonneg _
  have hz := onZ_wmeas hd
  have m1 : CfgFun.WMeas A.P.nf (fun X X' ω => ENNReal.ofReal (onZ d X X' ω)) :=
    ⟨fun m n => ENNReal.measurable_ofReal.comp (hz.none m n), fun k fs m n => ENNReal.measurable_ofReal.comp (hz.worm k fs m n)⟩
  have m2 : CfgFun.WMeas A.P.nf (fun X X' ω => ENNReal.ofReal (-onZ d X X' ω)) :=
    ⟨fun m n => ENNReal.measurable_ofReal.comp (hz.none m n).neg, fun k fs m n => ENNReal.measurable_ofReal.comp (hz.worm k fs m n).neg⟩
  have hF' : ∀ s x st, Stands A st x s → (if s.2 = none then 1 else 0) * F s = (onZ d).at x := fun s x st h => by
    show _ = if x.worm = none then d.at x else 0
    simp only [h.reps.worm]
    split_ifs with hx
    · rw [one_mul, hF s x st h hx]
    · rw [zero_mul]
  have e1 := C84_loop_partial (k := k) ha hp hst hσ m1 (F := fun s => ENNReal.ofReal ((if s.2 = none then 1 else 0) * F s))
    fun s x st h => by rw [hF' s x st h]; rfl
  have e2 := C84_loop_partial (k := k) ha hp hst hσ m2 (F := fun s => ENNReal.ofReal (-((if s.2 = none then 1 else 0) * F s)))
    fun s x st h => by rw [hF' s x st h]; rfl
  have hw : ∀ G : ℝ → ℝ≥0∞, G 0 = 0 → wFlow A.beta A.P.nf a.kinds a.sw (fun _ _ _ => 1) (codeW A) (fun x => G ((onZ d).at x)) =
      allFlow A.beta A.P.nf none (fun _ _ _ => 1) (codeW A) fun x => G (d.at x) := by
    intro G hG
    unfold wFlow
    rw [List.sum_eq_zero, add_zero]
    · refine le_antisymm (allFlow_mono fun x hx => le_of_eq ?_) (allFlow_mono fun x hx => le_of_eq ?_)
      · show G (if x.worm = none then d.at x else 0) = _
        rw [if_pos hx]
      · show _ = G (if x.worm = none then d.at x else 0)
        rw [if_pos hx]
    · intro y hy
      obtain ⟨k', -, rfl⟩ := List.mem_map.1 hy
      rw [kindFlow_zero, mul_zero]
      intro _ _ _ _ _
      simp [onZ, CfgFun.at, Lab.cfg, hG]
  unfold loopMeanC totalC
  rw [e1, e2]
  congr 1
  have g1 := hw (fun y => ENNReal.ofReal y) (by simp)
  have g2 := hw (fun y => ENNReal.ofReal (-y)) (by simp)
  rw [cfgInt_eq h1.none hd.none h0 hfin, ← g1, ← g2]
  rfl

/-! ### What is recorded in one configuration -/

theorem corrTau_edge (β : ℝ) {nTau : ℕ} (hN : 2 ≤ nTau) (i : ℕ) : corrTau β nTau i ∈ edges β := by
  obtain ⟨K, rfl⟩ : ∃ K, nTau = K + 1 := ⟨nTau - 1, by omega⟩
  have hK : (K : ℝ) ≠ 0 := by
    have : K ≠ 0 := by omega
    exact_mod_cast this
  refine ⟨(2 * K, K + 2 * i), ?_⟩
  unfold tauEdge corrTau
  push_cast
  rw [show (K : ℝ) + 1 - 1 = K by ring]
  field_simp
  ring

theorem recordCorr_at (ha : a.OK A) {x : WCfg ℝ} {s : CodeState A (Option (Worm ℝ))} {st : SavedState} (h : Stands A st x s)
    (hx : x.worm = none) (ds : List (ℕ × ℕ)) {nTau ic it : ℕ} {f g : Fin A.P.nf} (hN : 2 ≤ nTau) (hic : ds[ic]? = some (f.val, g.val))
    (hit : it < nTau) :
    (((codeW A).at x : ℝ) : 𝕜) * recordCorr A (ds.map fun d => (⟨d.1, d.1⟩, ⟨d.2, d.2⟩)) nTau ic it s.1 =
      signedC A x.cd x.c (some (corrWorm (A.beta / 4) (corrTau A.beta nTau it) f g)) := by
  classical
  have hA := ha.code
  have hs := h.inv
  have hj := h.reps
  have hE := C60_lawful A hA
  have hn := hj.nodup hs
  obtain ⟨x1, x2, x3⟩ := x
  simp only at hx
  subst hx
  have hop0 : (⟨x1, x2, none⟩ : WCfg ℝ).ops id (codeWops id) = x1.map (mkOp id .creation) ++ x2.map (mkOp id .annihilation) := by
    simp [PCfg.ops, codeWops, wormOps]
  have htime : ∀ q ∈ (⟨x1, x2, none⟩ : WCfg ℝ).ops id (codeWops id), q.time.time ∉ edges A.beta := by
    intro q hq
    rw [hop0, List.mem_append] at hq
    rcases hq with hq | hq <;> obtain ⟨o, ho, rfl⟩ := List.mem_map.1 hq
    · exact h.reg.1 o (List.mem_append_left _ ho)
    · exact h.reg.1 o (List.mem_append_right _ ho)
  have hno : ∀ i < nTau, ∀ q ∈ s.1.cfg.ops, q.time.time ≠ corrTau A.beta nTau i := fun i _ q hq e =>
    htime q ((hj.ops_perm hs).symm.subset hq) (e ▸ corrTau_edge A.beta hN i)
  obtain ⟨s', res, e, -, -, -, -, hv⟩ := C71_value_partial A hA hs ds hN hno
  set t := corrTau A.beta nTau it with ht
  set t0 := A.beta / 4 with ht0
  have e0 : corrTau A.beta nTau 0 = t0 := by simp [corrTau, ht0]
  have hle : t0 ≤ t := by
    have h1 : (1 : ℝ) ≤ nTau := by exact_mod_cast (by omega : 1 ≤ nTau)
    have h2 : (0 : ℝ) ≤ A.beta / 2 * (it / ((nTau : ℝ) - 1)) :=
      mul_nonneg (by linarith [ha.beta]) (div_nonneg (Nat.cast_nonneg _) (by linarith))
    rw [ht, ht0, corrTau]
    linarith
  have hno' : ∀ q ∈ (⟨x1, x2, none⟩ : WCfg ℝ).ops id (codeWops id), q.time.time ≠ t0 ∧ q.time.time ≠ t := fun q hq =>
    ⟨fun e => htime q hq (e ▸ e0 ▸ corrTau_edge A.beta hN 0), fun e => htime q hq (e ▸ corrTau_edge A.beta hN it)⟩
  set u := corrWorm t0 t f g with hu
  have hud := corrWorm_ops t0 t f g
  have hopy : (⟨x1, x2, some u⟩ : WCfg ℝ).ops id (codeWops id) =
      (⟨x1, x2, none⟩ : WCfg ℝ).ops id (codeWops id) ++ wormOps (codeWops id (some u)) := by
    rw [hop0]; rfl
  have hny : (((⟨x1, x2, some u⟩ : WCfg ℝ).ops id (codeWops id)).map Psi.time).Nodup := by
    rw [hopy, List.map_append, List.nodup_append]
    refine ⟨hn, ?_, ?_⟩
    · rw [hud]
      by_cases e : t = t0 <;> simp [e]
    · intro y hy y' hy' e
      subst e
      obtain ⟨q, hq, rfl⟩ := List.mem_map.1 hy
      obtain ⟨h1, h2⟩ := hno' q hq
      rw [hud] at hy'
      simp only [List.map_cons, List.map_nil, List.mem_cons, List.not_mem_nil, or_false] at hy'
      rcases hy' with e | e | e | e <;> rw [e] at h1 h2 <;> simp at h1 h2
  have hcy : CodeCfg A.P.nf (⟨x1, x2, some u⟩ : WCfg ℝ) := ⟨hny, (hj.codeCfg hs).2⟩
  have hS : signedC A x1 x2 (some u) = signedR A ⟨x1, x2, some u⟩ := by
    have := signedC_at A (⟨x1, x2, some u⟩ : WCfg ℝ)
    rw [if_pos hcy] at this
    exact this
  set L := (⟨x1, x2, some u⟩ : WCfg ℝ).sorted id (codeWops id) with hL
  have hLs : OpSet.Sorted L := PCfg.sorted_sorted _ hny
  have hLp : L.Perm _ := PCfg.sorted_perm _
  set m : ℤ := if t = t0 then 0 else 2 with hm
  have hs' : OpSet.Sorted (L.map (relabel t m)) := by
    show (L.map (relabel t m)).Pairwise fun a b => a.time < b.time
    rw [List.pairwise_map]
    exact hLs.imp fun h => relabel_lt t m h
  have hp' : (L.map (relabel t m)).Perm (corrOps t0 t ⟨f, f⟩ ⟨g, g⟩ ++ s.1.cfg.ops) := by
    refine (hLp.map _).trans ?_
    rw [hopy, List.map_append]
    refine List.perm_append_comm.trans (List.Perm.append ?_ ?_)
    · rw [hud]
      by_cases e : t = t0
      · simp only [hm, e, relabel, corrOps, List.map_cons, List.map_nil, if_true, add_zero]
        exact (List.reverse_perm _).symm.trans (List.Perm.refl _)
      · have e' : ¬ t0 = t := fun h => e h.symm
        simp only [hm, e, e', relabel, corrOps, List.map_cons, List.map_nil, if_true, if_false, add_zero]
        exact (List.reverse_perm _).symm.trans (List.Perm.refl _)
    · have : ((⟨x1, x2, none⟩ : WCfg ℝ).ops id (codeWops id)).map (relabel t m) = (⟨x1, x2, none⟩ : WCfg ℝ).ops id (codeWops id) := by
        conv_rhs => rw [← List.map_id ((⟨x1, x2, none⟩ : WCfg ℝ).ops id (codeWops id))]
        refine List.map_congr_left fun q hq => ?_
        simp [relabel, (hno' q hq).2]
      rw [this]
      exact hj.ops_perm hs
  obtain ⟨v, hv1, hv2⟩ := hv ic f g hic it hit _ hs' hp'
  rw [recordCorr_eq e hv1, hj.codeW hs, hj.weight hs, hv2, hS]
  have hn' := hn
  rw [hop0, List.map_append] at hn'
  have n1 := (List.nodup_append.1 hn').1
  have n2 := (List.nodup_append.1 hn').2.1
  have hlen : (x2.map (mkOp id .annihilation)).length = (x1.map (mkOp id .creation)).length := by
    have := (hj.good hA hs).weight
    unfold cfgW CodeArgs.weight at this
    exact timeDet_length A.G (left_ne_zero_of_mul (norm_ne_zero_iff.1 this))
  have hpp : s.1.cfg.permSign = permSignImpl (x1.map (mkOp id .creation)) (x2.map (mkOp id .annihilation)) [] := by
    rw [hs.sign.1, hj.wops]
    exact (hE.perm_congr _ _ _ _ _ hj.cd.symm hj.c.symm).symm
  have hps := permSign_corr hle f g hlen (by rw [← List.map_append] at hn' ⊢; exact ((List.perm_append_comm).map Psi.time).nodup_iff.1 hn')
    fun o ho => hno' o (by rw [hop0]; exact List.perm_append_comm.subset ho)
  unfold signedR
  show _ = ((permSignImpl _ _ (wormOps (codeWops id (some u))) : ℤ) : 𝕜) * _
  rw [hps, hpp]
  congr 1
  unfold CodeArgs.weight
  rw [timeDet_congr A.G hj.c hj.cd ((hj.c.map Psi.time).nodup_iff.2 n2) ((hj.cd.map Psi.time).nodup_iff.2 n1)]
  congr 1
  unfold fullTrace
  refine Finset.sum_congr rfl fun i _ => ?_
  congr 1
  refine timeOrdered_congr _ _ ?_ _ _
  rw [List.map_map]
  rfl

/-- What is recorded without worm and is, times the weight, the term with additional operators `u`. -/
theorem mean_insert (ha : a.OK A) (hp : PlanC A plan) (hst : WindowOK 0 st) (hσ : StatesC A st σ) (φ : 𝕜 →L[ℝ] ℝ)
    {kd : WormKind} {ts : Fin kd.numTimes → ℝ} {fs : Fin kd.numFlavors → Fin A.P.nf} (hts : ∀ i, 0 ≤ ts i ∧ ts i ≤ A.beta)
    {u : Worm ℝ} (hform : u = mkW kd ts fs) {F : CodeState A (Option (Worm ℝ)) → ℝ}
    (hF : ∀ s x st, Stands A st x s → x.worm = none → (codeW A).at x * F s = φ (signedC A x.cd x.c (some u))) :
    let E := loopMeanC A a k plan σ
    let inZ : CodeState A (Option (Worm ℝ)) → ℝ := fun s => if s.2 = none then 1 else 0
    (E (fun s => inZ s * F s) / E inZ) / (E (fun s => inZ s * RCLike.re s.1.cfg.sign) / E inZ) =
      cfgInt A.beta A.P.nf (none : Option (Worm ℝ)) (fun X X' _ => if codeW A X X' none = 0 then 0 else φ (signedC A X X' (some u))) /
        cfgInt A.beta A.P.nf none (fun X X' ω => RCLike.re (signedC A X X' ω)) := by
  intro E inZ
  have hsm : (signedC A).Meas (some u) := by
    rw [hform]
    exact (signedC_wmeas ha.code ha.meas).some kd ts fs
  obtain ⟨hwm, -⟩ := C83_weight ha.code ha.meas
  set d : CfgFun (Option (Worm ℝ)) ℝ := fun X X' _ => φ (signedC A X X' (some u)) / codeW A X X' none with hd
  have hdm : ∀ m n, Measurable fun z : Lab m n => φ (signedC A (ms z.1) (ms z.2) (some u)) / codeW A (ms z.1) (ms z.2) none := fun m n =>
    (φ.continuous.measurable.comp (hsm m n)).div (hwm.none m n)
  have hdw : d.WMeas A.P.nf := ⟨fun m n => hdm m n, fun _ _ m n => (hdm m n).comp measurable_snd⟩
  have h0 : ∀ X X' ω, 0 ≤ codeW A X X' ω := fun X X' ω => by rw [← norm_signedC]; exact norm_nonneg _
  have hfin : allFlow A.beta A.P.nf none (fun _ _ _ => 1) (codeW A) (fun x => ENNReal.ofReal |d.at x|) ≠ ∞ := by
    obtain ⟨C, hC⟩ := ha.bounded
    obtain ⟨T, M, hT, hM, hbd⟩ := codeW_bound ha.code hC
    have hu1 : allFlow A.beta A.P.nf (some u) (fun _ _ _ => 1) (codeW A) (fun _ => ENNReal.ofReal ‖φ‖ * 1) ≠ ∞ := by
      rw [allFlow_const ENNReal.ofReal_ne_top]
      refine ENNReal.mul_ne_top ENNReal.ofReal_ne_top (ne_top_of_le_ne_top ENNReal.ofReal_ne_top
        (allFlow_bound (hC.nonneg ha.code) hT hM ha.code.beta hbd ?_))
      rw [hform]
      exact (worm_times ha.code.beta kd fs hts).1
    refine ne_top_of_le_ne_top hu1 (ENNReal.tsum_le_tsum fun p => ?_)
    refine mul_le_mul' le_rfl (lintegral_mono fun z => ?_)
    show 1 * ENNReal.ofReal (codeW A (ms z.1) (ms z.2) none) *
        ENNReal.ofReal |φ (signedC A (ms z.1) (ms z.2) (some u)) / codeW A (ms z.1) (ms z.2) none| ≤
      1 * ENNReal.ofReal (codeW A (ms z.1) (ms z.2) (some u)) * (ENNReal.ofReal ‖φ‖ * 1)
    rw [one_mul, one_mul, mul_one, ← ENNReal.ofReal_mul (h0 _ _ _), ← ENNReal.ofReal_mul (h0 _ _ _)]
    refine ENNReal.ofReal_le_ofReal ?_
    have hφ := φ.le_opNorm (signedC A (ms z.1) (ms z.2) (some u))
    rw [norm_signedC, Real.norm_eq_abs] at hφ
    rcases eq_or_ne (codeW A (ms z.1) (ms z.2) none) 0 with hz | hz
    · rw [hz, zero_mul]
      exact mul_nonneg (h0 _ _ _) (norm_nonneg _)
    · rw [abs_div, abs_of_nonneg (h0 _ _ none), mul_div_cancel₀ _ hz, mul_comm]
      exact hφ
  have hD : ∀ s x st, Stands A st x s → x.worm = none → F s = d.at x := by
    intro s x st h hx
    have e := hF s x st h hx
    have hw : (codeW A).at x ≠ 0 := by
      rw [h.reps.codeW h.inv]
      exact (h.reps.good ha.code h.inv).weight
    have ew : (codeW A).at x = codeW A x.cd x.c none := by
      show codeW A x.cd x.c x.worm = _
      rw [hx]
    rw [ew] at e hw
    show _ = φ (signedC A x.cd x.c (some u)) / codeW A x.cd x.c none
    rw [eq_div_iff hw, mul_comm]
    exact e
  have e1 : E (fun s => inZ s * F s) = _ :=
    mean_onZ_int ha hp hst hσ hdw hfin hD
  have e2 : E (fun s => inZ s * RCLike.re s.1.cfg.sign) = _ := mean_sign ha hp hst hσ
  have e3 : E inZ = _ := mean_one_onZ ha hp hst hσ
  have e4 : cfgInt A.beta A.P.nf none (fun X X' ω => codeW A X X' ω * d X X' ω) =
      cfgInt A.beta A.P.nf (none : Option (Worm ℝ)) (fun X X' _ => if codeW A X X' none = 0 then 0 else φ (signedC A X X' (some u))) :=
    cfgInt_congr fun X X' => by
      split_ifs with hz
      · rw [hz, zero_mul]
      · rw [hd, mul_div_cancel₀ _ hz]
  obtain ⟨hT, hZ⟩ := ha.total_pos
  rw [e1, e2, e3, e4]
  generalize totalC A a = T at hT ⊢
  generalize cfgInt A.beta A.P.nf none (codeW A) = Z at hZ ⊢
  generalize cfgInt A.beta A.P.nf none (fun X X' ω => RCLike.re (signedC A X X' ω)) = S
  have hT' := hT.ne'
  have hZ' := hZ.ne'
  rcases eq_or_ne S 0 with rfl | hS
  · simp
  field_simp

/-- **C86.**  In equilibrium the mean of `Two_time_correlation_functions`, divided by the mean of the sign as in the postprocessing, is
the integral over all configurations without worm which have a weight, with `n_f(τ_it) n_g(τ_0)` in the trace, divided by the integral
over all configurations without worm; `τ_i = β/4 + i β/(2 (nTau - 1))`; for the real and the imaginary part (`φ`).  Missing for the full
statement: as in `C83_loop_partial`. -/
theorem C86_correlation_partial (ha : a.OK A) (hp : PlanC A plan) (hst : WindowOK 0 st) (hσ : StatesC A st σ)
    (ds : List (ℕ × ℕ)) {nTau ic it : ℕ} {f g : Fin A.P.nf} (hN : 2 ≤ nTau) (hic : ds[ic]? = some (f.val, g.val)) (hit : it < nTau)
    (φ : 𝕜 →L[ℝ] ℝ) :
    let E := loopMeanC A a k plan σ
    let inZ : CodeState A (Option (Worm ℝ)) → ℝ := fun s => if s.2 = none then 1 else 0
    (E (fun s => inZ s * φ (recordCorr A (ds.map fun d => (⟨d.1, d.1⟩, ⟨d.2, d.2⟩)) nTau ic it s.1)) / E inZ) /
        (E (fun s => inZ s * RCLike.re s.1.cfg.sign) / E inZ) =
      cfgInt A.beta A.P.nf (none : Option (Worm ℝ)) (fun X X' _ => if codeW A X X' none = 0 then 0 else
          φ (signedC A X X' (some (corrWorm (A.beta / 4) (A.beta / 4 + A.beta / 2 * (it / ((nTau : ℝ) - 1))) f g)))) /
        cfgInt A.beta A.P.nf none (fun X X' ω => RCLike.re (signedC A X X' ω)) := by
  set u := corrWorm (A.beta / 4) (A.beta / 4 + A.beta / 2 * (it / ((nTau : ℝ) - 1))) f g with hu
  have hlin : ∀ (b : ℝ) (y : 𝕜), φ ((b : 𝕜) * y) = b * φ y := by
    intro b y
    rw [← RCLike.real_smul_eq_coe_mul, map_smul, smul_eq_mul]
  have hb := ha.beta
  have hK : (1 : ℝ) ≤ (nTau : ℝ) - 1 := by
    have : (2 : ℝ) ≤ nTau := by exact_mod_cast hN
    linarith
  have hi : (it : ℝ) / ((nTau : ℝ) - 1) ≤ 1 := by
    rw [div_le_one (by linarith)]
    have : ((it + 1 : ℕ) : ℝ) ≤ nTau := by exact_mod_cast hit
    push_cast at this
    linarith
  have hi0 : 0 ≤ (it : ℝ) / ((nTau : ℝ) - 1) := div_nonneg (Nat.cast_nonneg _) (by linarith)
  obtain ⟨kd, ts, fs, hform, hts⟩ := corrWorm_form (A.beta / 4) (A.beta / 4 + A.beta / 2 * (it / ((nTau : ℝ) - 1))) f g (β := A.beta)
    ⟨by linarith, by linarith⟩ ⟨by nlinarith, by nlinarith⟩
  rw [← hu] at hform
  refine mean_insert ha hp hst hσ φ hts hform fun s x st h hx => ?_
  rw [← hlin, recordCorr_at ha h hx ds hN hic hit]
  rfl

/-! ### Without hybridization -/

/-- The term of the four operators alone. -/
theorem signedC_corr (hA : A.OK) {E0 : ℝ} (hE : IsLeast (eigenvaluesOf A.B.H) E0)
    (hcut : ∀ μ ∈ eigenvaluesOf A.B.H, μ ≤ E0 + min A.p.inner A.p.outer) {nf : ℕ} {t0 t : ℝ} (ht : t0 ≤ t) (f g : Fin nf) :
    signedC A 0 0 (some (corrWorm t0 t f g)) = ((Real.exp (A.beta * E0) : ℝ) : 𝕜) *
      trace (NormedSpace.exp (((-(A.beta - t + t0) : ℝ) : 𝕜) • A.B.H) * (A.B.op .creation f * A.B.op .annihilation f) *
        NormedSpace.exp (((-(t - t0) : ℝ) : 𝕜) • A.B.H) * (A.B.op .creation g * A.B.op .annihilation g)) := by
  classical
  have hud := corrWorm_ops t0 t f g
  set u := corrWorm t0 t f g with hu
  set L := wormOps (codeWops id (some u)) with hL
  have h2 : (L.map Psi.time).Pairwise (· > ·) := by
    rw [hud]
    simp only [List.map_cons, List.map_nil, List.pairwise_cons, List.mem_cons, List.not_mem_nil, or_false, gt_iff_lt, OpTime.lt_def]
    split_ifs with e
    · subst e; simp
    · have : t0 < t := lt_of_le_of_ne ht (Ne.symm e)
      simp [this]
  have hn : (L.map Psi.time).Nodup := h2.imp fun h => ne_of_gt h
  have hops : (⟨(0 : Multiset (BOp ℝ)).toList, (0 : Multiset (BOp ℝ)).toList, some u⟩ : WCfg ℝ).ops id (codeWops id) = L := by
    simp [PCfg.ops, hL]
  have hs : (⟨(0 : Multiset (BOp ℝ)).toList, (0 : Multiset (BOp ℝ)).toList, some u⟩ : WCfg ℝ).sorted id (codeWops id) = L.reverse := by
    refine sorted_unique (PCfg.sorted_sorted _ (by rw [hops]; exact hn)) ?_ ((PCfg.sorted_perm _).trans (by rw [hops]; exact (List.reverse_perm L).symm))
    show L.reverse.Pairwise fun a b => a.time < b.time
    rw [List.pairwise_reverse]
    exact List.pairwise_map.1 h2
  unfold signedC
  rw [if_pos ⟨by rw [hops]; exact hn, by simp, by simp⟩]
  unfold signedR CodeArgs.weight
  rw [hs, C57_exact hA.base hA.solver hA.dim hE hcut]
  have hp : permSignImpl ((0 : Multiset (BOp ℝ)).toList.map (mkOp id .creation)) ((0 : Multiset (BOp ℝ)).toList.map (mkOp id .annihilation)) L = 1 := by
    rw [C05_perm_sign_value _ _ _ (by simp) (by simpa using hn), outOfOrder_desc h2]
    simp [crossCount]
  have hd : timeDet A.G ((0 : Multiset (BOp ℝ)).toList.map (mkOp id .annihilation)) ((0 : Multiset (BOp ℝ)).toList.map (mkOp id .creation)) = 1 := by
    rw [timeDet_eq _ _ _ (by simp) (by simp), listDet_eq _ _ _ 0 (by simp) (by simp), Matrix.det_fin_zero]
    simp [invs]
  show ((permSignImpl _ _ L : ℤ) : 𝕜) * _ = _
  rw [hp, hd, hud]
  simp only [Int.cast_one, one_mul]
  congr 1
  simp only [List.reverse_cons, List.reverse_nil, List.nil_append, List.cons_append, timeOrderedMat, sub_self, neg_zero, RCLike.ofReal_zero,
    zero_smul, NormedSpace.exp_zero, Matrix.mul_one, sub_zero]
  rw [Matrix.trace_mul_comm, ← Matrix.mul_assoc, ← Matrix.mul_assoc, ← Matrix.mul_assoc, ← Matrix.mul_assoc, ← Matrix.mul_assoc, exp_mul_exp]
  simp only [← Matrix.mul_assoc]
  congr 8
  ring

/-- **C86, without hybridization.**  If moreover no state of the impurity is cut off, the density-density correlation function of the
code is `Tr (exp(-(β-τ) H) n_f exp(-τ H) n_g) / Tr exp(-β H)` with `τ = τ_it - τ_0`.  Missing for the full statement: as in
`C83_loop_partial`. -/
theorem C86_atomic_partial (ha : a.OK A) (hp : PlanC A plan) (hst : WindowOK 0 st) (hσ : StatesC A st σ)
    (hG : ∀ o o', A.G o o' = 0) {E0 : ℝ} (hE : IsLeast (eigenvaluesOf A.B.H) E0)
    (hcut : ∀ μ ∈ eigenvaluesOf A.B.H, μ ≤ E0 + min A.p.inner A.p.outer)
    (ds : List (ℕ × ℕ)) {nTau ic it : ℕ} {f g : Fin A.P.nf} (hN : 2 ≤ nTau) (hic : ds[ic]? = some (f.val, g.val)) (hit : it < nTau)
    (φ : 𝕜 →L[ℝ] ℝ) :
    let E := loopMeanC A a k plan σ
    let inZ : CodeState A (Option (Worm ℝ)) → ℝ := fun s => if s.2 = none then 1 else 0
    (E (fun s => inZ s * φ (recordCorr A (ds.map fun d => (⟨d.1, d.1⟩, ⟨d.2, d.2⟩)) nTau ic it s.1)) / E inZ) /
        (E (fun s => inZ s * RCLike.re s.1.cfg.sign) / E inZ) =
      φ (corrThermal A.B.H A.beta (A.beta / 2 * (it / ((nTau : ℝ) - 1))) (A.B.op .creation f * A.B.op .annihilation f)
        (A.B.op .creation g * A.B.op .annihilation g)) := by
  intro E inZ
  have key := C86_correlation_partial (k := k) ha hp hst hσ ds hN hic hit φ
  simp only at key
  show _ / _ / _ = _
  rw [key]
  obtain ⟨e1, z, hz, e2⟩ := signedC_empty ha.code hE hcut
  have hlin : ∀ (b : ℝ) (y : 𝕜), φ ((b : 𝕜) * y) = b * φ y := by
    intro b y
    rw [← RCLike.real_smul_eq_coe_mul, map_smul, smul_eq_mul]
  have hb := ha.beta
  have hK : (1 : ℝ) ≤ (nTau : ℝ) - 1 := by
    have : (2 : ℝ) ≤ nTau := by exact_mod_cast hN
    linarith
  have hi0 : 0 ≤ A.beta / 2 * ((it : ℝ) / ((nTau : ℝ) - 1)) :=
    mul_nonneg (by linarith) (div_nonneg (Nat.cast_nonneg _) (by linarith))
  have hw : codeW A 0 0 none ≠ 0 := by
    rw [← norm_signedC, e2, RCLike.norm_ofReal, abs_of_pos hz]
    exact hz.ne'
  rw [cfgInt_single (ω := none) (g := fun X X' ω => RCLike.re (signedC A X X' ω)) fun X X' h => by
    rw [signedC_zero hG h]; exact RCLike.zero_re]
  rw [cfgInt_single fun X X' h => by rw [signedC_zero hG h, map_zero, ite_self]]
  rw [if_neg hw, signedC_corr ha.code hE hcut (by linarith), e2, RCLike.ofReal_re, corrThermal]
  have hne : ((Real.exp (A.beta * E0) : ℝ) : 𝕜) ≠ 0 := by
    rw [Ne, RCLike.ofReal_eq_zero]; exact (Real.exp_pos _).ne'
  have hz' : ((z : ℝ) : 𝕜) ≠ 0 := by rw [Ne, RCLike.ofReal_eq_zero]; exact hz.ne'
  have ht : trace (NormedSpace.exp (((-A.beta : ℝ) : 𝕜) • A.B.H)) = ((z : ℝ) : 𝕜) / ((Real.exp (A.beta * E0) : ℝ) : 𝕜) := by
    rw [eq_div_iff hne, mul_comm, ← e1, e2]
  rw [ht]
  have e3 : ∀ y : 𝕜, y / (((z : ℝ) : 𝕜) / ((Real.exp (A.beta * E0) : ℝ) : 𝕜)) =
      ((z⁻¹ : ℝ) : 𝕜) * (((Real.exp (A.beta * E0) : ℝ) : 𝕜) * y) := fun y => by
    rw [RCLike.ofReal_inv]
    field_simp
  rw [e3, hlin z⁻¹, div_eq_inv_mul]
  congr 7
  · ring
  · ring

/-! ### Concrete cases -/

/-- The demands of `C86_correlation_partial` are met, with a bath: flavors 0 and 1, three times, the middle one. -/
example : ∃ σ : WCfg ℝ → CodeState freeCode (Option (Worm ℝ)),
    let E := loopMeanC freeCode freeLoop 0 freePlan σ
    let inZ : CodeState freeCode (Option (Worm ℝ)) → ℝ := fun s => if s.2 = none then 1 else 0
    (E (fun s => inZ s * recordCorr freeCode ([(0, 1), (1, 1)].map fun d => (⟨d.1, d.1⟩, ⟨d.2, d.2⟩)) 3 0 1 s.1) / E inZ) /
        (E (fun s => inZ s * RCLike.re s.1.cfg.sign) / E inZ) =
      cfgInt 4 2 (none : Option (Worm ℝ)) (fun X X' _ => if codeW freeCode X X' none = 0 then 0 else
          signedC freeCode X X' (some (corrWorm 1 2 (0 : Fin 2) 1))) /
        cfgInt 4 2 none (fun X X' ω => RCLike.re (signedC freeCode X X' ω)) := by
  obtain ⟨σ, hσ⟩ := exists_stands freeCode_ok (n := 4) (by norm_num)
  have h := C86_correlation_partial (k := 0) freeLoop_ok freePlan_ok (st := ⟨2, 0, true, 4⟩) ⟨by norm_num, rfl, by norm_num, dvd_zero _⟩ hσ
    [(0, 1), (1, 1)] (nTau := 3) (ic := 0) (it := 1) (f := (0 : Fin 2)) (g := (1 : Fin 2)) (by norm_num) rfl (by norm_num)
    (ContinuousLinearMap.id ℝ ℝ)
  have e : freeCode.beta = 4 := rfl
  have t2 : freeCode.beta / 4 + freeCode.beta / 2 * (((1 : ℕ) : ℝ) / (((3 : ℕ) : ℝ) - 1)) = 2 := by rw [e]; norm_num
  have t1 : freeCode.beta / 4 = 1 := by rw [e]; norm_num
  rw [t2, t1] at h
  exact ⟨σ, h⟩

/-- For one level the density does not depend on time. -/
theorem atom_corr (τ : ℝ) : corrThermal atomCode.B.H 4 τ (atomCode.B.op .creation 0 * atomCode.B.op .annihilation 0)
    (atomCode.B.op .creation 0 * atomCode.B.op .annihilation 0) = 1 / (Real.exp (-(4 * 2)) + 1) := by
  have e1 : ∀ b : ℝ, NormedSpace.exp ((b : ℝ) • oneLevel) = diagonal fun i : Fin (2 ^ 1) => Real.exp (b * (2 * (i.val : ℝ))) := oneLevel_exp
  have e3 : cdagOp 1 0 * cOp 1 0 = diagonal fun i : Fin (2 ^ 1) => (1 - i.val : ℤ) := by decide
  have e2 : atomCode.B.op .creation 0 * atomCode.B.op .annihilation 0 = diagonal fun i : Fin (2 ^ 1) => (1 - i.val : ℝ) := by
    have h : (diagonal fun i : Fin (2 ^ 1) => (1 - i.val : ℤ)).map (Int.castRingHom ℝ) = diagonal fun i : Fin (2 ^ 1) => (1 - i.val : ℝ) := by
      rw [diagonal_map (map_zero _)]
      simp
    rw [← h, ← e3, Matrix.map_mul]
    rfl
  rw [e2]
  show trace (NormedSpace.exp (((-(4 - τ) : ℝ) : ℝ) • oneLevel) * _ * NormedSpace.exp (((-τ : ℝ) : ℝ) • oneLevel) * _) /
    trace (NormedSpace.exp (((-4 : ℝ) : ℝ) • oneLevel)) = _
  rw [e1, e1, e1, diagonal_mul_diagonal, diagonal_mul_diagonal, diagonal_mul_diagonal, trace_diagonal, trace_diagonal]
  have h : ∀ g : Fin (2 ^ 1) → ℝ, ∑ i, g i = g 0 + g 1 := fun g => Fin.sum_univ_two g
  rw [h, h]
  have h1 : ((1 : Fin (2 ^ 1)).val : ℝ) = 1 := by norm_num
  have h0 : ((0 : Fin (2 ^ 1)).val : ℝ) = 0 := by norm_num
  rw [h1, h0]
  norm_num
  ring

/-- The demands of `C86_atomic_partial` are met, and the correlation of the density of one level with itself is the Fermi function. -/
example : ∃ σ : WCfg ℝ → CodeState atomCode (Option (Worm ℝ)),
    let E := loopMeanC atomCode atomLoop 0 atomPlan σ
    let inZ : CodeState atomCode (Option (Worm ℝ)) → ℝ := fun s => if s.2 = none then 1 else 0
    (E (fun s => inZ s * recordCorr atomCode ([(0, 0)].map fun d => (⟨d.1, d.1⟩, ⟨d.2, d.2⟩)) 3 0 1 s.1) / E inZ) /
        (E (fun s => inZ s * RCLike.re s.1.cfg.sign) / E inZ) = 1 / (Real.exp (-(4 * 2)) + 1) := by
  obtain ⟨σ, hσ⟩ := exists_stands atomCode_ok (n := 4) (by norm_num)
  refine ⟨σ, ?_⟩
  have h := C86_atomic_partial (k := 0) atomLoop_ok atomPlan_ok (st := ⟨2, 0, true, 4⟩) ⟨by norm_num, rfl, by norm_num, dvd_zero _⟩ hσ
    (fun _ _ => rfl) oneLevel_least (fun μ hμ => by
      have e : min atomCode.p.inner atomCode.p.outer = 2 := by norm_num [atomCode, exCode, twoParams]
      rw [e]
      rcases (oneLevel_eig μ).1 hμ with rfl | rfl <;> norm_num)
    [(0, 0)] (nTau := 3) (ic := 0) (it := 1) (f := (0 : Fin 1)) (g := (0 : Fin 1)) (by norm_num) rfl (by norm_num)
    (ContinuousLinearMap.id ℝ ℝ)
  exact h.trans (atom_corr _)

end CTHyb
