import Verif.ContWormBal

/-!
Balance for a given worm summed over all orders, and the integral over the worms.
-/

namespace CTHyb

open Rand MeasureTheory ENNReal

theorem allFlow_add {W : Type} (β : ℝ) (nf : ℕ) (ω : W) (φ : CfgFun W ℝ≥0∞) (w : CfgFun W ℝ) (hφ : φ.Meas ω) (hw : w.Meas ω)
    (K L : PCfg ℝ W → ℝ≥0∞) (hK : ∀ m n, AEMeasurable (fun z : Lab m n => K (z.cfg ω)) (labMeasure β nf m n)) :
    allFlow β nf ω φ w (fun x => K x + L x) = allFlow β nf ω φ w K + allFlow β nf ω φ w L := by
  unfold allFlow
  rw [← ENNReal.tsum_add]
  exact tsum_congr fun p => orderFlow_add β nf p.1 p.2 ω φ w hφ hw K L (hK p.1 p.2)

theorem allFlow_smul {W : Type} (β : ℝ) (nf : ℕ) (ω : W) (φ : CfgFun W ℝ≥0∞) (w : CfgFun W ℝ) (K : PCfg ℝ W → ℝ≥0∞) (r : ℝ≥0∞)
    (hr : r ≠ ∞) : allFlow β nf ω φ w (fun x => r * K x) = r * allFlow β nf ω φ w K := by
  unfold allFlow
  rw [← ENNReal.tsum_mul_left]
  exact tsum_congr fun p => orderFlow_smul β nf p.1 p.2 ω φ w K r hr

theorem allFlow_point {W : Type} (β : ℝ) (nf : ℕ) (ω ω' : W) (φ ψ : CfgFun W ℝ≥0∞) (w : CfgFun W ℝ) (K L : PCfg ℝ W → ℝ≥0∞)
    (r : ℝ≥0∞) (hr : r ≠ ∞)
    (h : ∀ (m n : ℕ) (z : Lab m n), φ.at (z.cfg ω) * ENNReal.ofReal (w.at (z.cfg ω)) * K (z.cfg ω) =
      r * (ψ.at (z.cfg ω') * ENNReal.ofReal (w.at (z.cfg ω')) * L (z.cfg ω'))) :
    allFlow β nf ω φ w K = r * allFlow β nf ω' ψ w L := by
  unfold allFlow
  rw [← ENNReal.tsum_mul_left]
  refine tsum_congr fun p => ?_
  unfold orderFlow
  rw [lintegral_congr fun z => h p.1 p.2 z, lintegral_const_mul' _ _ hr, mul_left_comm]

theorem hyb_few (β : ℝ) (nf : ℕ) (cw : CWin) (k : WormKind) (w : CfgFun (Option (Worm ℝ)) ℝ)
    (φ ψ : CfgFun (Option (Worm ℝ)) ℝ≥0∞) (ts : Fin k.numTimes → ℝ) (fs : Fin k.numFlavors → Fin nf) (d ws : ℝ) (m n : ℕ)
    (h : m < (wormFlavs k fs .creation).length ∨ n < (wormFlavs k fs .annihilation).length) :
    orderFlow β nf m n none φ w (fun x => ENNReal.ofReal d * propE w ψ x (hybPick nf cw k ws (mkW k ts fs) x)) = 0 := by
  unfold orderFlow
  rw [lintegral_congr_ae (g := fun _ => 0), lintegral_zero, mul_zero]
  filter_upwards [ae_labels β nf m n] with z hz
  rw [hybPick_mkW nf cw k ws w ψ ts fs z hz]
  have : hybSum nf cw k ws w ψ fs (ts, z) = 0 := by
    unfold hybSum pickSum
    rcases h with h | h
    · have h' := Finset.powersetCard_eq_empty.2 (show (Finset.univ : Finset (Fin m)).card < _ by simpa using h)
      rw [h', Finset.sum_empty]
    · have h' := Finset.powersetCard_eq_empty.2 (show (Finset.univ : Finset (Fin n)).card < _ by simpa using h)
      simp only [h', Finset.sum_empty, Finset.sum_const_zero]
  rw [this, mul_zero, mul_zero]

theorem hyb_all {β : ℝ} {cw : CWin} (hcw : cw.OK β) (nf : ℕ) (k : WormKind) {w : CfgFun (Option (Worm ℝ)) ℝ}
    {φ ψ : CfgFun (Option (Worm ℝ)) ℝ≥0∞} (hw : w.WMeas nf) (hφ : φ.WMeas nf) (hψ : ψ.WMeas nf)
    (h0 : ∀ X X' ω, 0 ≤ w X X' ω) (ts : Fin k.numTimes → ℝ) (fs : Fin k.numFlavors → Fin nf) {sw d ws : ℝ} (hsw : 0 < sw)
    (hd : 0 < d) (hdc : d * (ws * (cw.hi - cw.lo) ^ k.numTimes * (nf : ℝ) ^ k.numFlavors) = sw) :
    allFlow β nf none φ w (fun x => ENNReal.ofReal d * propE w ψ x (hybPick nf cw k ws (mkW k ts fs) x)) =
      ENNReal.ofReal sw * allFlow β nf (some (mkW k ts fs)) ψ w (hybE nf cw k ws w φ) := by
  unfold allFlow
  rw [← ENNReal.tsum_mul_left]
  have hi : Function.Injective fun p : ℕ × ℕ =>
      (p.1 + (wormFlavs k fs .creation).length, p.2 + (wormFlavs k fs .annihilation).length) := by
    intro p q hpq
    simp only [Prod.mk.injEq, Nat.add_right_cancel_iff] at hpq
    exact Prod.ext hpq.1 hpq.2
  rw [← hi.tsum_eq (f := fun p : ℕ × ℕ => orderFlow β nf p.1 p.2 none φ w
    (fun x => ENNReal.ofReal d * propE w ψ x (hybPick nf cw k ws (mkW k ts fs) x)))]
  · exact tsum_congr fun p => hyb_order hcw nf k hw hφ hψ h0 ts fs hsw hd hdc p.1 p.2
  · intro p hp
    by_contra hr
    refine hp (hyb_few β nf cw k w φ ψ ts fs d ws p.1 p.2 ?_)
    by_contra hlt
    push Not at hlt
    exact hr ⟨(p.1 - _, p.2 - _), Prod.ext (Nat.sub_add_cancel hlt.1) (Nat.sub_add_cancel hlt.2)⟩

theorem measurable_accRem {w : CfgFun (Option (Worm ℝ)) ℝ} {φ : CfgFun (Option (Worm ℝ)) ℝ≥0∞} {ω : Option (Worm ℝ)}
    (hw : w.Meas ω) (hw0 : w.Meas none) (hφ : φ.Meas none) (c : ℝ) (m n : ℕ) :
    Measurable fun z : Lab m n => accE w φ (z.cfg ω) ⟨[], [], [], [], none⟩ c := by
  have : (fun z : Lab m n => accE w φ (z.cfg ω) ⟨[], [], [], [], none⟩ c) =
      fun z => ENNReal.ofReal (min 1 (w (ms z.1) (ms z.2) none / w (ms z.1) (ms z.2) ω * c)) * φ (ms z.1) (ms z.2) none := by
    funext z
    simp only [accE, CfgFun.after, CfgFun.at, Multiset.coe_nil, tsub_zero, add_zero]
    rfl
  rw [this]
  exact (ENNReal.measurable_ofReal.comp (measurable_const.min (((hw0 m n).div (hw m n)).mul_const _))).mul (hφ m n)

/-- The two proposals through the trace. -/
theorem trace_all {β : ℝ} {cw : CWin} (hcw : cw.OK β) (nf : ℕ) (hnf : 0 < nf) (k : WormKind) (w : CfgFun (Option (Worm ℝ)) ℝ)
    (φ ψ : CfgFun (Option (Worm ℝ)) ℝ≥0∞) (h0 : ∀ X X' ω, 0 ≤ w X X' ω) (u : Worm ℝ) {K sw : ℝ} (hK : 0 < K) (hsw : 0 < sw) :
    allFlow β nf none φ w (fun x =>
      ENNReal.ofReal (1 / 4 * (1 / (K * ((cw.hi - cw.lo) ^ k.numTimes * (nf : ℝ) ^ k.numFlavors)))) *
        accE w ψ x ⟨[], [], [], [], some u⟩ (sw / (1 / K) * (cw.hi - cw.lo) ^ k.numTimes * (nf : ℝ) ^ k.numFlavors) +
      (if wormDiagonal u then ENNReal.ofReal (1 / 4 * (1 / (K * ((cw.hi - cw.lo) ^ k.numTimes * (nf : ℝ))))) *
        accE w ψ x ⟨[], [], [], [], some u⟩ (sw / (1 / K) * (cw.hi - cw.lo) ^ k.numTimes * (nf : ℝ)) else 0)) =
    ENNReal.ofReal sw * allFlow β nf (some u) ψ w (fun x =>
      ENNReal.ofReal (1 / 4) *
        accE w φ x ⟨[], [], [], [], none⟩ (1 / (sw / (1 / K) * (cw.hi - cw.lo) ^ k.numTimes * (nf : ℝ) ^ k.numFlavors)) +
      (if wormDiagonal u then ENNReal.ofReal (1 / 4) *
        accE w φ x ⟨[], [], [], [], none⟩ (1 / (sw / (1 / K) * (cw.hi - cw.lo) ^ k.numTimes * (nf : ℝ))) else 0)) := by
  have hlen : 0 < cw.hi - cw.lo := sub_pos.2 hcw.lt
  have hnf' : (0 : ℝ) < nf := Nat.cast_pos.2 hnf
  refine allFlow_point β nf none (some u) φ ψ w _ _ _ ENNReal.ofReal_ne_top fun m n z => ?_
  have e1 := trace_term w φ ψ h0 u (D := (cw.hi - cw.lo) ^ k.numTimes * (nf : ℝ) ^ k.numFlavors) (q := 1 / 4) hsw hK
    (by positivity) (by norm_num) z
  have e2 := trace_term w φ ψ h0 u (D := (cw.hi - cw.lo) ^ k.numTimes * (nf : ℝ)) (q := 1 / 4) hsw hK
    (by positivity) (by norm_num) z
  rw [← mul_assoc (sw / (1 / K))] at e1 e2
  beta_reduce
  by_cases hd : wormDiagonal u = true
  · rw [if_pos hd, if_pos hd, mul_add, mul_add, mul_add, e1, e2]
  · rw [if_neg hd, if_neg hd, add_zero, add_zero, e1]

/-- Insertion and removal of the worm `mkW k ts fs`. -/
theorem worm_all {β : ℝ} {cw : CWin} (hcw : cw.OK β) (nf : ℕ) (hnf : 0 < nf) (k : WormKind) {w : CfgFun (Option (Worm ℝ)) ℝ}
    {φ ψ : CfgFun (Option (Worm ℝ)) ℝ≥0∞} (hw : w.WMeas nf) (hφ : φ.WMeas nf) (hψ : ψ.WMeas nf)
    (h0 : ∀ X X' ω, 0 ≤ w X X' ω) (ts : Fin k.numTimes → ℝ) (fs : Fin k.numFlavors → Fin nf) {K sw : ℝ} (hK : 0 < K)
    (hsw : 0 < sw) :
    allFlow β nf none φ w (insDen nf cw k K sw w ψ (mkW k ts fs)) =
      ENNReal.ofReal sw * allFlow β nf (some (mkW k ts fs)) ψ w (remDen nf cw k K sw w φ (mkW k ts fs)) := by
  have hlen : 0 < cw.hi - cw.lo := sub_pos.2 hcw.lt
  have hnf' : (0 : ℝ) < nf := Nat.cast_pos.2 hnf
  have hmi : ∀ (c : ℝ) (m n : ℕ), Measurable fun z : Lab m n => accE w ψ (z.cfg none) ⟨[], [], [], [], some (mkW k ts fs)⟩ c := by
    intro c m n
    have h := measurable_right (measurable_accIns hw hψ k fs c m n) ts
    exact h
  have hmr : ∀ (c : ℝ) (m n : ℕ), Measurable fun z : Lab m n => accE w φ (z.cfg (some (mkW k ts fs))) ⟨[], [], [], [], none⟩ c :=
    fun c m n => measurable_accRem (hw.some k ts fs) hw.none hφ.none c m n
  have ht := trace_all hcw nf hnf k w φ ψ h0 (mkW k ts fs) hK hsw
  have hh := hyb_all hcw nf k hw hφ hψ h0 ts fs (sw := sw * (1 / 2)) (ws := sw / (1 / K))
    (d := 1 / 2 * (1 / (K * ((cw.hi - cw.lo) ^ k.numTimes * (nf : ℝ) ^ k.numFlavors)))) (by positivity) (by positivity)
    (by
      have h1 := (pow_pos hlen k.numTimes).ne'
      have h2 := (pow_pos hnf' k.numFlavors).ne'
      generalize (cw.hi - cw.lo) ^ k.numTimes = a at h1
      generalize (nf : ℝ) ^ k.numFlavors = b at h2
      have h3 := hK.ne'
      field_simp)
  rw [ENNReal.ofReal_mul hsw.le, mul_assoc, ← allFlow_smul β nf _ ψ w _ _ ENNReal.ofReal_ne_top] at hh
  unfold insDen remDen
  rw [allFlow_add β nf none φ w hφ.none hw.none, allFlow_add β nf _ ψ w (hψ.some k ts fs) (hw.some k ts fs), ht, hh, mul_add]
  · intro m n
    refine ((hmr _ m n).const_mul _).aemeasurable.add ?_
    by_cases hd : wormDiagonal (mkW k ts fs) = true
    · simp only [if_pos hd]
      exact ((hmr _ m n).const_mul _).aemeasurable
    · simp only [if_neg hd]
      exact aemeasurable_const
  · intro m n
    refine ((hmi _ m n).const_mul _).aemeasurable.add ?_
    by_cases hd : wormDiagonal (mkW k ts fs) = true
    · simp only [if_pos hd]
      exact ((hmi _ m n).const_mul _).aemeasurable
    · simp only [if_neg hd]
      exact aemeasurable_const

/-! ### The integral over the worms -/

theorem lintegral_list_sum {A X : Type} [MeasurableSpace X] (μ : Measure X) (f : A → X → ℝ≥0∞) :
    ∀ L : List A, (∀ a ∈ L, Measurable (f a)) → ∫⁻ x, (L.map fun a => f a x).sum ∂μ = (L.map fun a => ∫⁻ x, f a x ∂μ).sum
  | [], _ => by simp
  | a :: L, h => by
    simp only [List.map_cons, List.sum_cons]
    rw [lintegral_add_left (h a List.mem_cons_self), lintegral_list_sum μ f L fun b hb => h b (List.mem_cons_of_mem _ hb)]

theorem tsum_list_sum {A B : Type} (f : A → B → ℝ≥0∞) :
    ∀ L : List A, ∑' b, (L.map fun a => f a b).sum = (L.map fun a => ∑' b, f a b).sum
  | [] => by simp
  | a :: L => by
    simp only [List.map_cons, List.sum_cons]
    rw [ENNReal.tsum_add, tsum_list_sum f L]

/-- The flow of the insertion of `mkW k ts fs` from the configurations of one order. -/
theorem orderFlow_insDen (β : ℝ) (nf : ℕ) (cw : CWin) (k : WormKind) (K sw : ℝ) (w : CfgFun (Option (Worm ℝ)) ℝ)
    (φ ψ : CfgFun (Option (Worm ℝ)) ℝ≥0∞) (ts : Fin k.numTimes → ℝ) (fs : Fin k.numFlavors → Fin nf) (m n : ℕ) :
    orderFlow β nf m n none φ w (insDen nf cw k K sw w ψ (mkW k ts fs)) =
      ((m.factorial * n.factorial : ℕ) : ℝ≥0∞)⁻¹ * ∫⁻ z : Lab m n, φ.at (z.cfg none) * ENNReal.ofReal (w.at (z.cfg none)) *
        insDen' nf cw k K sw w ψ fs (ts, z) ∂(labMeasure β nf m n) := by
  unfold orderFlow
  congr 1
  refine lintegral_congr_ae ?_
  filter_upwards [ae_labels β nf m n] with z hz
  rw [insDen_eq nf cw k K sw w ψ ts fs z hz]

theorem measurable_flowDen (nf : ℕ) (cw : CWin) (k : WormKind) (K sw : ℝ) {w : CfgFun (Option (Worm ℝ)) ℝ}
    {φ ψ : CfgFun (Option (Worm ℝ)) ℝ≥0∞} (hw : w.WMeas nf) (hφ : φ.WMeas nf) (hψ : ψ.WMeas nf)
    (fs : Fin k.numFlavors → Fin nf) (m n : ℕ) :
    Measurable fun z : (Fin k.numTimes → ℝ) × Lab m n => φ.at (z.2.cfg none) * ENNReal.ofReal (w.at (z.2.cfg none)) *
        insDen' nf cw k K sw w ψ fs z := by
  have h1 : Measurable fun z : Lab m n => φ.at (z.cfg none) * ENNReal.ofReal (w.at (z.cfg none)) :=
    (hφ.none m n).mul (ENNReal.measurable_ofReal.comp (hw.none m n))
  exact (h1.comp measurable_snd).mul (measurable_insDen' nf cw hw hψ k K sw fs m n)

theorem measurable_orderDen (β : ℝ) (nf : ℕ) (cw : CWin) (k : WormKind) (K sw : ℝ) {w : CfgFun (Option (Worm ℝ)) ℝ}
    {φ ψ : CfgFun (Option (Worm ℝ)) ℝ≥0∞} (hw : w.WMeas nf) (hφ : φ.WMeas nf) (hψ : ψ.WMeas nf)
    (fs : Fin k.numFlavors → Fin nf) (m n : ℕ) :
    Measurable fun ts => orderFlow β nf m n none φ w (insDen nf cw k K sw w ψ (mkW k ts fs)) := by
  simp only [orderFlow_insDen]
  exact (Measurable.lintegral_prod_right' (ν := labMeasure β nf m n)
    (measurable_flowDen nf cw k K sw hw hφ hψ fs m n)).const_mul _

theorem orderFlow_trans {β : ℝ} {cw : CWin} (hcw : cw.OK β) (nf : ℕ) (kinds : List WormKind)
    (hkf : ∀ k ∈ kinds, 0 < k.numFlavors) (sw : WormKind → ℝ) {w : CfgFun (Option (Worm ℝ)) ℝ}
    {φ ψ : CfgFun (Option (Worm ℝ)) ℝ≥0∞} (hw : w.WMeas nf) (hφ : φ.WMeas nf) (hψ : ψ.WMeas nf) (m n : ℕ) :
    orderFlow β nf m n none φ w (wormTransE nf cw kinds sw w ψ) =
      (kinds.map fun k => ∑ fs : Fin k.numFlavors → Fin nf, ∫⁻ ts,
        orderFlow β nf m n none φ w (insDen nf cw k kinds.length (sw k) w ψ (mkW k ts fs)) ∂(winTimes cw k.numTimes)).sum := by
  generalize hK : (kinds.length : ℝ) = K
  have h1 : orderFlow β nf m n none φ w (wormTransE nf cw kinds sw w ψ) =
      ((m.factorial * n.factorial : ℕ) : ℝ≥0∞)⁻¹ * ∫⁻ z : Lab m n, (kinds.map fun k =>
        ∑ fs : Fin k.numFlavors → Fin nf, ∫⁻ ts, φ.at (z.cfg none) * ENNReal.ofReal (w.at (z.cfg none)) *
          insDen' nf cw k K (sw k) w ψ fs (ts, z) ∂(winTimes cw k.numTimes)).sum ∂(labMeasure β nf m n) := by
    unfold orderFlow
    congr 1
    refine lintegral_congr_ae ?_
    filter_upwards [ae_labels β nf m n] with z hz
    rw [wormTransE_none hcw nf kinds hkf sw hw hψ z hz, ← List.sum_map_mul_left, hK]
    congr 1
    refine List.map_congr_left fun k _ => ?_
    rw [Finset.mul_sum]
    refine Finset.sum_congr rfl fun fs _ => ?_
    rw [lintegral_const_mul _ (measurable_left (measurable_insDen' nf cw hw hψ k K (sw k) fs m n) z)]
  have hm : ∀ (k : WormKind) (fs : Fin k.numFlavors → Fin nf), Measurable fun z : Lab m n =>
      ∫⁻ ts, φ.at (z.cfg none) * ENNReal.ofReal (w.at (z.cfg none)) *
          insDen' nf cw k K (sw k) w ψ fs (ts, z) ∂(winTimes cw k.numTimes) := fun k fs =>
    Measurable.lintegral_prod_left' (measurable_flowDen nf cw k K (sw k) hw hφ hψ fs m n)
  rw [h1, lintegral_list_sum _ _ _ fun k _ => Finset.measurable_sum _ fun fs _ => hm k fs, ← List.sum_map_mul_left]
  congr 1
  refine List.map_congr_left fun k _ => ?_
  rw [lintegral_finsetSum _ fun fs _ => hm k fs, Finset.mul_sum]
  refine Finset.sum_congr rfl fun fs _ => ?_
  have hj := measurable_flowDen nf cw k K (sw k) hw hφ hψ fs m n
  simp only [orderFlow_insDen]
  rw [lintegral_const_mul _ (Measurable.lintegral_prod_right' (ν := labMeasure β nf m n) hj)]
  congr 1
  have hs := lintegral_lintegral_swap (μ := winTimes cw k.numTimes) (ν := labMeasure β nf m n)
    (f := fun ts z => φ.at (z.cfg none) * ENNReal.ofReal (w.at (z.cfg none)) * insDen' nf cw k K (sw k) w ψ fs (ts, z))
    hj.aemeasurable
  exact hs.symm

theorem flow_tsum (β : ℝ) (nf : ℕ) (cw : CWin) (k : WormKind) (K sw : ℝ) {w : CfgFun (Option (Worm ℝ)) ℝ}
    {φ ψ : CfgFun (Option (Worm ℝ)) ℝ≥0∞} (hw : w.WMeas nf) (hφ : φ.WMeas nf) (hψ : ψ.WMeas nf) :
    ∑' p : ℕ × ℕ, ∑ fs : Fin k.numFlavors → Fin nf, ∫⁻ ts,
        orderFlow β nf p.1 p.2 none φ w (insDen nf cw k K sw w ψ (mkW k ts fs)) ∂(winTimes cw k.numTimes) =
      ∑ fs : Fin k.numFlavors → Fin nf, ∫⁻ ts,
        allFlow β nf none φ w (insDen nf cw k K sw w ψ (mkW k ts fs)) ∂(winTimes cw k.numTimes) := by
  rw [Summable.tsum_finsetSum fun fs _ => ENNReal.summable]
  refine Finset.sum_congr rfl fun fs _ => ?_
  have h := lintegral_tsum (μ := winTimes cw k.numTimes) (f := fun (p : ℕ × ℕ) ts =>
    orderFlow β nf p.1 p.2 none φ w (insDen nf cw k K sw w ψ (mkW k ts fs)))
    fun p => (measurable_orderDen β nf cw k K sw hw hφ hψ fs p.1 p.2).aemeasurable
  exact h.symm

theorem allFlow_trans {β : ℝ} {cw : CWin} (hcw : cw.OK β) (nf : ℕ) (kinds : List WormKind)
    (hkf : ∀ k ∈ kinds, 0 < k.numFlavors) (sw : WormKind → ℝ) {w : CfgFun (Option (Worm ℝ)) ℝ}
    {φ ψ : CfgFun (Option (Worm ℝ)) ℝ≥0∞} (hw : w.WMeas nf) (hφ : φ.WMeas nf) (hψ : ψ.WMeas nf) :
    allFlow β nf none φ w (wormTransE nf cw kinds sw w ψ) =
      (kinds.map fun k => ∑ fs : Fin k.numFlavors → Fin nf, ∫⁻ ts,
        allFlow β nf none φ w (insDen nf cw k kinds.length (sw k) w ψ (mkW k ts fs)) ∂(winTimes cw k.numTimes)).sum := by
  have h1 : allFlow β nf none φ w (wormTransE nf cw kinds sw w ψ) = ∑' p : ℕ × ℕ,
      (kinds.map fun k => ∑ fs : Fin k.numFlavors → Fin nf, ∫⁻ ts,
        orderFlow β nf p.1 p.2 none φ w (insDen nf cw k kinds.length (sw k) w ψ (mkW k ts fs)) ∂(winTimes cw k.numTimes)).sum :=
    tsum_congr fun p => orderFlow_trans hcw nf kinds hkf sw hw hφ hψ p.1 p.2
  rw [h1, tsum_list_sum]
  congr 1
  exact List.map_congr_left fun k _ => flow_tsum β nf cw k _ (sw k) hw hφ hψ

/-! ### Worms with times outside of the window -/

theorem wormInWin_mkW (cw : CWin) (k : WormKind) {nf : ℕ} (ts : Fin k.numTimes → ℝ) (fs : Fin k.numFlavors → Fin nf) :
    wormInWin cw.win (mkW k ts fs) = true ↔ ts ∈ Set.univ.pi fun _ => Set.Icc cw.lo cw.hi := by
  rw [wormInWin_iff _ _ (mkW_valid k ts fs)]
  have : (mkW k ts fs).times = List.ofFn ts := rfl
  rw [this, List.forall_mem_ofFn_iff]
  simp only [CWin.win, Set.mem_pi, Set.mem_univ, true_implies, Set.mem_Icc, Bool.and_eq_true, decide_eq_true_eq]

theorem lintegral_window {β : ℝ} {cw : CWin} (hcw : cw.OK β) (n : ℕ) (F : (Fin n → ℝ) → ℝ≥0∞)
    (hF : ∀ ts, ts ∉ (Set.univ.pi fun _ : Fin n => Set.Icc cw.lo cw.hi) → F ts = 0) :
    ∫⁻ ts, F ts ∂(Measure.pi fun _ : Fin n => volume.restrict (Set.Icc 0 β)) = ∫⁻ ts, F ts ∂(winTimes cw n) := by
  have hS : MeasurableSet (Set.univ.pi fun _ : Fin n => Set.Icc cw.lo cw.hi) :=
    MeasurableSet.univ_pi fun _ => measurableSet_Icc
  have hw : winTimes cw n = (Measure.pi fun _ : Fin n => volume.restrict (Set.Icc 0 β)).restrict
      (Set.univ.pi fun _ : Fin n => Set.Icc cw.lo cw.hi) := by
    rw [Measure.restrict_pi_pi]
    unfold winTimes
    congr 1
    funext _
    rw [Measure.restrict_restrict measurableSet_Icc, Set.inter_eq_self_of_subset_left (Set.Icc_subset_Icc hcw.lo_nonneg hcw.le)]
  rw [hw, ← lintegral_indicator hS]
  refine lintegral_congr fun ts => ?_
  by_cases h : ts ∈ Set.univ.pi fun _ : Fin n => Set.Icc cw.lo cw.hi
  · rw [Set.indicator_of_mem h]
  · rw [Set.indicator_of_notMem h, hF ts h]

end CTHyb
