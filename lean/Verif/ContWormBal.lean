import Verif.ContWormIns

/-!
The flows between the configurations without and with worm.
-/

namespace CTHyb

open Rand MeasureTheory ENNReal

theorem measurable_left {X Y : Type} [MeasurableSpace X] [MeasurableSpace Y] {f : X × Y → ℝ≥0∞}
    (hf : Measurable f) (y : Y) : Measurable fun x => f (x, y) := hf.comp measurable_prodMk_right

theorem ofReal_parts {K L N : ℝ} (hK : 0 ≤ K) (hL : 0 ≤ L) (hN : 0 ≤ N) :
    ENNReal.ofReal (1 / 4 * (1 / (K * (L * N)))) =
      ENNReal.ofReal (1 / K) * (ENNReal.ofReal (1 / 2) * (ENNReal.ofReal (1 / L) * (ENNReal.ofReal (1 / 2) * ENNReal.ofReal (1 / N)))) := by
  rw [← ENNReal.ofReal_mul (by norm_num), ← ENNReal.ofReal_mul (by positivity), ← ENNReal.ofReal_mul (by norm_num),
    ← ENNReal.ofReal_mul (by positivity)]
  congr 1
  simp only [one_div, mul_inv]
  ring

theorem ofReal_parts2 {K L N : ℝ} (hK : 0 ≤ K) (hL : 0 ≤ L) (hN : 0 ≤ N) :
    ENNReal.ofReal (1 / 2 * (1 / (K * (L * N)))) =
      ENNReal.ofReal (1 / K) * (ENNReal.ofReal (1 / 2) * (ENNReal.ofReal (1 / L) * ENNReal.ofReal (1 / N))) := by
  rw [← ENNReal.ofReal_mul (by positivity), ← ENNReal.ofReal_mul (by norm_num), ← ENNReal.ofReal_mul (by positivity)]
  congr 1
  simp only [one_div, mul_inv]
  ring

/-- Mean over the flavors of the insertion through the trace, at given times. -/
noncomputable def trSum (nf : ℕ) (k : WormKind) (c1 c2 : ℝ) (w : CfgFun (Option (Worm ℝ)) ℝ)
    (ψ : CfgFun (Option (Worm ℝ)) ℝ≥0∞) {m n : ℕ} (z : Lab m n) (ts : Fin k.numTimes → ℝ) : ℝ≥0∞ :=
  ENNReal.ofReal (1 / 2) * (ENNReal.ofReal (1 / (nf : ℝ) ^ k.numFlavors) * ∑ fs : Fin k.numFlavors → Fin nf,
      accE w ψ (z.cfg none) ⟨[], [], [], [], some (mkW k ts fs)⟩ c1) +
    ENNReal.ofReal (1 / 2) * (ENNReal.ofReal (1 / (nf : ℝ)) * ∑ fs : Fin k.numFlavors → Fin nf,
      if wormDiagonal (⟨k, [], flavList fs⟩ : Worm ℝ) = true then
        accE w ψ (z.cfg none) ⟨[], [], [], [], some (mkW k ts fs)⟩ c2 else 0)

theorem measurable_trSum {nf : ℕ} {w : CfgFun (Option (Worm ℝ)) ℝ} {ψ : CfgFun (Option (Worm ℝ)) ℝ≥0∞} (hw : w.WMeas nf)
    (hψ : ψ.WMeas nf) (k : WormKind) (c1 c2 : ℝ) {m n : ℕ} (z : Lab m n) : Measurable (trSum nf k c1 c2 w ψ z) := by
  have hma : ∀ (c : ℝ) (fs : Fin k.numFlavors → Fin nf), Measurable fun ts =>
      accE w ψ (z.cfg none) ⟨[], [], [], [], some (mkW k ts fs)⟩ c := by
    intro c fs
    have h := measurable_left (measurable_accIns hw hψ k fs c m n) z
    exact h
  unfold trSum
  refine Measurable.add (Measurable.const_mul (Measurable.const_mul (Finset.measurable_sum _ fun fs _ => hma _ fs) _) _)
    (Measurable.const_mul (Measurable.const_mul (Finset.measurable_sum _ fun fs _ => ?_) _) _)
  split_ifs
  · exact hma _ fs
  · exact measurable_const

theorem traceE_none {β : ℝ} {cw : CWin} (hcw : cw.OK β) (nf : ℕ) (k : WormKind) (hk : 0 < k.numFlavors) (ws : ℝ)
    {w : CfgFun (Option (Worm ℝ)) ℝ} {ψ : CfgFun (Option (Worm ℝ)) ℝ≥0∞} (hw : w.WMeas nf) (hψ : ψ.WMeas nf)
    {m n : ℕ} (z : Lab m n) :
    traceE nf cw k ws w ψ (z.cfg none) = ENNReal.ofReal (1 / (cw.hi - cw.lo) ^ k.numTimes) *
      ∫⁻ ts, trSum nf k (ws * (cw.hi - cw.lo) ^ k.numTimes * (nf : ℝ) ^ k.numFlavors)
        (ws * (cw.hi - cw.lo) ^ k.numTimes * (nf : ℝ)) w ψ z ts ∂(winTimes cw k.numTimes) := by
  generalize hc1 : ws * (cw.hi - cw.lo) ^ k.numTimes * (nf : ℝ) ^ k.numFlavors = c1
  generalize hc2 : ws * (cw.hi - cw.lo) ^ k.numTimes * (nf : ℝ) = c2
  have e : ∀ ts : Fin k.numTimes → ℝ, (meanE (coin (1 / 2)) fun b =>
      if b then
        meanE (drawList (unif (List.range nf)) k.numFlavors) fun fs =>
        accE w ψ (z.cfg none) ⟨[], [], [], [], some ⟨k, List.ofFn ts, fs⟩⟩ c1
      else
        meanE (unif (List.range nf)) fun f =>
        accE w ψ (z.cfg none) ⟨[], [], [], [], some ⟨k, List.ofFn ts, List.replicate k.numFlavors f⟩⟩ c2) =
      trSum nf k c1 c2 w ψ z ts := by
    intro ts
    rw [meanE_coin_half]
    simp only [if_true, Bool.false_eq_true, if_false]
    rw [meanE_drawFlavors, meanE_unif, List.length_range, sum_range_fin nf (fun f =>
      accE w ψ (z.cfg none) ⟨[], [], [], [], some ⟨k, List.ofFn ts, List.replicate k.numFlavors f⟩⟩ c2),
      sum_diagonal k hk ts (fun fs => accE w ψ (z.cfg none) ⟨[], [], [], [], some ⟨k, List.ofFn ts, fs⟩⟩ c2)]
    rfl
  have hx : (z.cfg (none : Option (Worm ℝ))).worm = none := rfl
  unfold traceE
  rw [hx]
  simp only
  rw [hc1, hc2, timesC_eq hcw]
  · simp only [e]
  · simp only [e]
    exact measurable_trSum hw hψ k c1 c2 z

theorem hybE_none {β : ℝ} {cw : CWin} (hcw : cw.OK β) (nf : ℕ) (k : WormKind) (ws : ℝ)
    {w : CfgFun (Option (Worm ℝ)) ℝ} {ψ : CfgFun (Option (Worm ℝ)) ℝ≥0∞} (hw : w.WMeas nf) (hψ : ψ.WMeas nf)
    {m n : ℕ} (z : Lab m n)
    (h : (Function.Injective z.1 ∧ ∀ i, (z.1 i).2 < nf) ∧ (Function.Injective z.2 ∧ ∀ i, (z.2 i).2 < nf)) :
    hybE nf cw k ws w ψ (z.cfg none) = ENNReal.ofReal (1 / (cw.hi - cw.lo) ^ k.numTimes) *
      ∫⁻ ts, ENNReal.ofReal (1 / (nf : ℝ) ^ k.numFlavors) * ∑ fs : Fin k.numFlavors → Fin nf, hybSum nf cw k ws w ψ fs (ts, z)
        ∂(winTimes cw k.numTimes) := by
  have e : ∀ ts : Fin k.numTimes → ℝ, (meanE (drawList (unif (List.range nf)) k.numFlavors) fun fs =>
      propE w ψ (z.cfg none) (hybPick nf cw k ws ⟨k, List.ofFn ts, fs⟩ (z.cfg none))) =
      ENNReal.ofReal (1 / (nf : ℝ) ^ k.numFlavors) * ∑ fs : Fin k.numFlavors → Fin nf, hybSum nf cw k ws w ψ fs (ts, z) := by
    intro ts
    rw [meanE_drawFlavors]
    congr 1
    exact Finset.sum_congr rfl fun fs _ => hybPick_mkW nf cw k _ w ψ ts fs z h
  have hx : (z.cfg (none : Option (Worm ℝ))).worm = none := rfl
  unfold hybE
  rw [hx]
  simp only
  rw [timesC_eq hcw]
  · simp only [e]
  · simp only [e]
    exact Measurable.const_mul (Finset.measurable_sum _ fun fs _ =>
      measurable_left (measurable_hybSum nf cw hw hψ k _ fs m n) z) _

theorem sum_insDen' (nf : ℕ) (cw : CWin) (k : WormKind) (K sw : ℝ) (hK : 0 ≤ K) (hlen : 0 ≤ cw.hi - cw.lo)
    (w : CfgFun (Option (Worm ℝ)) ℝ) (ψ : CfgFun (Option (Worm ℝ)) ℝ≥0∞) {m n : ℕ} (z : Lab m n) (ts : Fin k.numTimes → ℝ) :
    ∑ fs : Fin k.numFlavors → Fin nf, insDen' nf cw k K sw w ψ fs (ts, z) =
      ENNReal.ofReal (1 / K) * (ENNReal.ofReal (1 / 2) * ENNReal.ofReal (1 / (cw.hi - cw.lo) ^ k.numTimes)) *
        trSum nf k (sw / (1 / K) * (cw.hi - cw.lo) ^ k.numTimes * (nf : ℝ) ^ k.numFlavors)
          (sw / (1 / K) * (cw.hi - cw.lo) ^ k.numTimes * (nf : ℝ)) w ψ z ts +
      ENNReal.ofReal (1 / K) * (ENNReal.ofReal (1 / 2) * ENNReal.ofReal (1 / (cw.hi - cw.lo) ^ k.numTimes)) *
        (ENNReal.ofReal (1 / (nf : ℝ) ^ k.numFlavors) *
          ∑ fs : Fin k.numFlavors → Fin nf, hybSum nf cw k (sw / (1 / K)) w ψ fs (ts, z)) := by
  have hL : 0 ≤ (cw.hi - cw.lo) ^ k.numTimes := pow_nonneg hlen _
  have hN : (0 : ℝ) ≤ (nf : ℝ) ^ k.numFlavors := by positivity
  have hN1 : (0 : ℝ) ≤ (nf : ℝ) := by positivity
  unfold insDen' trSum
  rw [Finset.sum_add_distrib, Finset.sum_add_distrib, ← Finset.mul_sum, ← Finset.mul_sum, ofReal_parts hK hL hN,
    ofReal_parts2 hK hL hN, ofReal_parts hK hL hN1]
  generalize ENNReal.ofReal (1 / K) = a
  generalize ENNReal.ofReal (1 / (nf : ℝ)) = b
  generalize ENNReal.ofReal (1 / (nf : ℝ) ^ k.numFlavors) = b'
  generalize ENNReal.ofReal (1 / (cw.hi - cw.lo) ^ k.numTimes) = l
  generalize ENNReal.ofReal (1 / 2) = h
  generalize (sw / (1 / K) * (cw.hi - cw.lo) ^ k.numTimes * (nf : ℝ)) = c2
  have hd : ∀ q : ℝ≥0∞, (∑ fs : Fin k.numFlavors → Fin nf, if wormDiagonal (⟨k, [], flavList fs⟩ : Worm ℝ) = true then
      q * accE w ψ (z.cfg none) ⟨[], [], [], [], some (mkW k ts fs)⟩ c2 else 0) =
      q * ∑ fs : Fin k.numFlavors → Fin nf, if wormDiagonal (⟨k, [], flavList fs⟩ : Worm ℝ) = true then
        accE w ψ (z.cfg none) ⟨[], [], [], [], some (mkW k ts fs)⟩ c2 else 0 := by
    intro q
    rw [Finset.mul_sum]
    refine Finset.sum_congr rfl fun fs _ => ?_
    rw [mul_ite, mul_zero]
  simp only [hd]
  ring

theorem wormInsRemE_none {β : ℝ} {cw : CWin} (hcw : cw.OK β) (nf : ℕ) (k : WormKind) (hk : 0 < k.numFlavors) (K sw : ℝ)
    (hK : 0 ≤ K) {w : CfgFun (Option (Worm ℝ)) ℝ} {ψ : CfgFun (Option (Worm ℝ)) ℝ≥0∞} (hw : w.WMeas nf) (hψ : ψ.WMeas nf)
    {m n : ℕ} (z : Lab m n)
    (h : (Function.Injective z.1 ∧ ∀ i, (z.1 i).2 < nf) ∧ (Function.Injective z.2 ∧ ∀ i, (z.2 i).2 < nf)) :
    ENNReal.ofReal (1 / K) * wormInsRemE nf cw k sw (1 / K) w ψ (z.cfg none) =
      ∑ fs : Fin k.numFlavors → Fin nf, ∫⁻ ts, insDen' nf cw k K sw w ψ fs (ts, z) ∂(winTimes cw k.numTimes) := by
  have hlen : 0 ≤ cw.hi - cw.lo := (sub_pos.2 hcw.lt).le
  have hmA := measurable_trSum hw hψ k (sw / (1 / K) * (cw.hi - cw.lo) ^ k.numTimes * (nf : ℝ) ^ k.numFlavors)
    (sw / (1 / K) * (cw.hi - cw.lo) ^ k.numTimes * (nf : ℝ)) z
  have hmB : Measurable fun ts => ENNReal.ofReal (1 / (nf : ℝ) ^ k.numFlavors) *
      ∑ fs : Fin k.numFlavors → Fin nf, hybSum nf cw k (sw / (1 / K)) w ψ fs (ts, z) :=
    Measurable.const_mul (Finset.measurable_sum _ fun fs _ => measurable_left (measurable_hybSum nf cw hw hψ k _ fs m n) z) _
  rw [← lintegral_finsetSum Finset.univ (f := fun (fs : Fin k.numFlavors → Fin nf) ts => insDen' nf cw k K sw w ψ fs (ts, z))
    fun fs _ => measurable_left (measurable_insDen' nf cw hw hψ k K sw fs m n) z]
  rw [lintegral_congr (sum_insDen' nf cw k K sw hK hlen w ψ z)]
  rw [lintegral_add_left (hmA.const_mul _), lintegral_const_mul _ hmA, lintegral_const_mul _ hmB]
  have hx : ((z.cfg (none : Option (Worm ℝ))).worm.any fun u => !wormInWin cw.win u) = false := rfl
  unfold wormInsRemE
  rw [hx, if_neg (by simp), meanE_coin_half]
  simp only [if_true, Bool.false_eq_true, if_false]
  rw [traceE_none hcw nf k hk _ hw hψ z, hybE_none hcw nf k _ hw hψ z h]
  ring

theorem wormTransE_none {β : ℝ} {cw : CWin} (hcw : cw.OK β) (nf : ℕ) (kinds : List WormKind)
    (hkf : ∀ k ∈ kinds, 0 < k.numFlavors) (sw : WormKind → ℝ)
    {w : CfgFun (Option (Worm ℝ)) ℝ} {ψ : CfgFun (Option (Worm ℝ)) ℝ≥0∞} (hw : w.WMeas nf) (hψ : ψ.WMeas nf)
    {m n : ℕ} (z : Lab m n)
    (h : (Function.Injective z.1 ∧ ∀ i, (z.1 i).2 < nf) ∧ (Function.Injective z.2 ∧ ∀ i, (z.2 i).2 < nf)) :
    wormTransE nf cw kinds sw w ψ (z.cfg none) = (kinds.map fun k => ∑ fs : Fin k.numFlavors → Fin nf,
      ∫⁻ ts, insDen' nf cw k kinds.length (sw k) w ψ fs (ts, z) ∂(winTimes cw k.numTimes)).sum := by
  have hx : (z.cfg (none : Option (Worm ℝ))).worm = none := rfl
  unfold wormTransE
  rw [hx]
  simp only
  rw [meanE_unif, ← List.sum_map_mul_left]
  congr 1
  exact List.map_congr_left fun k hk => wormInsRemE_none hcw nf k (hkf k hk) kinds.length (sw k) (Nat.cast_nonneg _) hw hψ z h

/-! ### Balance for a given worm -/

theorem ofReal_metropolis {w0 w1 d C pp : ℝ} (h0 : 0 ≤ w0) (h1 : 0 ≤ w1) (hC : 0 < C) (hd : d * C = pp) (hpp : 0 < pp)
    (hd0 : 0 < d) (f g : ℝ≥0∞) :
    f * ENNReal.ofReal w0 * (ENNReal.ofReal d * (ENNReal.ofReal (min 1 (w1 / w0 * C)) * g)) =
      ENNReal.ofReal pp * (g * ENNReal.ofReal w1 * (ENNReal.ofReal (min 1 (w0 / w1 * (1 / C))) * f)) := by
  have key := metropolis_real h0 h1 hC hd hpp
  have key' : ENNReal.ofReal w0 * ENNReal.ofReal d * ENNReal.ofReal (min 1 (w1 / w0 * C)) =
      ENNReal.ofReal w1 * ENNReal.ofReal pp * ENNReal.ofReal (min 1 (w0 / w1 * (1 / C))) := by
    rw [← ENNReal.ofReal_mul h0, ← ENNReal.ofReal_mul (mul_nonneg h0 hd0.le), key, one_div,
      ENNReal.ofReal_mul (mul_nonneg h1 hpp.le), ENNReal.ofReal_mul h1]
  calc _ = f * g * (ENNReal.ofReal w0 * ENNReal.ofReal d * ENNReal.ofReal (min 1 (w1 / w0 * C))) := by ring
    _ = _ := by rw [key']; ring

/-- Insertion and removal through the trace. -/
theorem trace_term (w : CfgFun (Option (Worm ℝ)) ℝ) (φ ψ : CfgFun (Option (Worm ℝ)) ℝ≥0∞) (h0 : ∀ X X' ω, 0 ≤ w X X' ω)
    (u : Worm ℝ) {sw K D q : ℝ} (hsw : 0 < sw) (hK : 0 < K) (hD : 0 < D) (hq : 0 < q) {m n : ℕ} (z : Lab m n) :
    φ.at (z.cfg none) * ENNReal.ofReal (w.at (z.cfg none)) *
        (ENNReal.ofReal (q * (1 / (K * D))) * accE w ψ (z.cfg none) ⟨[], [], [], [], some u⟩ (sw / (1 / K) * D)) =
      ENNReal.ofReal sw * (ψ.at (z.cfg (some u)) * ENNReal.ofReal (w.at (z.cfg (some u))) *
        (ENNReal.ofReal q * accE w φ (z.cfg (some u)) ⟨[], [], [], [], none⟩ (1 / (sw / (1 / K) * D)))) := by
  have hC : 0 < sw / (1 / K) * D := by positivity
  have h := ofReal_metropolis (h0 (ms z.1) (ms z.2) none) (h0 (ms z.1) (ms z.2) (some u)) hC
    (show q * (1 / (K * D)) * (sw / (1 / K) * D) = sw * q by field_simp) (by positivity) (by positivity)
    (φ (ms z.1) (ms z.2) none) (ψ (ms z.1) (ms z.2) (some u))
  have e1 : accE w ψ (z.cfg none) ⟨[], [], [], [], some u⟩ (sw / (1 / K) * D) =
      ENNReal.ofReal (min 1 (w (ms z.1) (ms z.2) (some u) / w (ms z.1) (ms z.2) none * (sw / (1 / K) * D))) *
        ψ (ms z.1) (ms z.2) (some u) := by
    simp only [accE, CfgFun.after, CfgFun.at, Multiset.coe_nil, tsub_zero, add_zero]
    rfl
  have e2 : accE w φ (z.cfg (some u)) ⟨[], [], [], [], none⟩ (1 / (sw / (1 / K) * D)) =
      ENNReal.ofReal (min 1 (w (ms z.1) (ms z.2) none / w (ms z.1) (ms z.2) (some u) * (1 / (sw / (1 / K) * D)))) *
        φ (ms z.1) (ms z.2) none := by
    simp only [accE, CfgFun.after, CfgFun.at, Multiset.coe_nil, tsub_zero, add_zero]
    rfl
  rw [e1, e2]
  refine h.trans ?_
  rw [ENNReal.ofReal_mul hsw.le]
  show _ = ENNReal.ofReal sw * (ψ (ms z.1) (ms z.2) (some u) * ENNReal.ofReal (w (ms z.1) (ms z.2) (some u)) * _)
  ring

/-- The flow of one insertion through the bath. -/
noncomputable def hybA (nf : ℕ) (cw : CWin) (w : CfgFun (Option (Worm ℝ)) ℝ) (φ ψ : CfgFun (Option (Worm ℝ)) ℝ≥0∞)
    (bl bl' : List ℕ) (c d : ℝ) (ω : Option (Worm ℝ)) (X X' P Q : Multiset (BOp ℝ)) : ℝ≥0∞ :=
  φ (X + P) (X' + Q) none * ENNReal.ofReal (w (X + P) (X' + Q) none) *
    (ENNReal.ofReal d * hybInsT nf cw w ψ bl bl' c ω X X' P Q)

theorem measurable_hybA (nf : ℕ) (cw : CWin) (k : WormKind) {w : CfgFun (Option (Worm ℝ)) ℝ}
    {φ ψ : CfgFun (Option (Worm ℝ)) ℝ≥0∞} (hw : w.WMeas nf) (hφ : φ.WMeas nf) (hψ : ψ.WMeas nf) (bl bl' : List ℕ) (c d : ℝ)
    (ts : Fin k.numTimes → ℝ) (fs : Fin k.numFlavors → Fin nf) (m n a b : ℕ) :
    Measurable fun z : Lab m n × Lab a b =>
      hybA nf cw w φ ψ bl bl' c d (some (mkW k ts fs)) (ms z.1.1) (ms z.1.2) (ms z.2.1) (ms z.2.2) := by
  unfold hybA
  refine Measurable.mul (Measurable.mul (hφ.none.add₂ m n _ _) (ENNReal.measurable_ofReal.comp (hw.none.add₂ m n _ _)))
    (Measurable.const_mul ?_ _)
  have h := measurable_right (measurable_hybInsT nf cw hw hψ k fs bl bl' c m n a b) ts
  exact h

theorem pickSum_hybA (nf : ℕ) (cw : CWin) (w : CfgFun (Option (Worm ℝ)) ℝ) (φ ψ : CfgFun (Option (Worm ℝ)) ℝ≥0∞)
    (bl bl' : List ℕ) (c d : ℝ) (ω : Option (Worm ℝ)) {m n : ℕ} (z : Lab m n) :
    φ (ms z.1) (ms z.2) none * ENNReal.ofReal (w (ms z.1) (ms z.2) none) *
      (ENNReal.ofReal d * pickSum (flavEnv nf) cw bl bl' (hybInsT nf cw w ψ bl bl' c ω) z) =
    pickSum (flavEnv nf) cw bl bl' (hybA nf cw w φ ψ bl bl' c d ω) z := by
  unfold pickSum
  rw [Finset.mul_sum, Finset.mul_sum]
  refine Finset.sum_congr rfl fun S _ => ?_
  rw [Finset.mul_sum, Finset.mul_sum]
  refine Finset.sum_congr rfl fun S' _ => ?_
  unfold hybA
  rw [map_compl_add, map_compl_add]
  generalize hybInsT nf cw w ψ bl bl' c ω _ _ _ _ = a
  ring

theorem hybA_remove {β : ℝ} {cw : CWin} (hcw : cw.OK β) (nf : ℕ) (k : WormKind) {w : CfgFun (Option (Worm ℝ)) ℝ}
    {φ ψ : CfgFun (Option (Worm ℝ)) ℝ≥0∞} (hw : w.WMeas nf) (hφ : φ.WMeas nf)
    (h0 : ∀ X X' ω, 0 ≤ w X X' ω) (ts : Fin k.numTimes → ℝ) (fs : Fin k.numFlavors → Fin nf) {sw d ws : ℝ} (hsw : 0 < sw)
    (hd : 0 < d) (hdc : d * (ws * (cw.hi - cw.lo) ^ k.numTimes * (nf : ℝ) ^ k.numFlavors) = sw) {m n : ℕ} (z : Lab m n) :
    ∫⁻ v, hybA nf cw w φ ψ (wormFlavs k fs .creation) (wormFlavs k fs .annihilation)
        (ws * (cw.hi - cw.lo) ^ k.numTimes * (nf : ℝ) ^ k.numFlavors) d (some (mkW k ts fs))
        (ms z.1) (ms z.2) (ms v.1) (ms v.2)
        ∂((listMeasure β (flavEnv nf) cw (wormFlavs k fs .creation)).prod
          (listMeasure β (flavEnv nf) cw (wormFlavs k fs .annihilation))) =
      ENNReal.ofReal sw * (ψ.at (z.cfg (some (mkW k ts fs))) * ENNReal.ofReal (w.at (z.cfg (some (mkW k ts fs)))) *
        hybE nf cw k ws w φ (z.cfg (some (mkW k ts fs)))) := by
  have hE := hybE_some hcw nf k ws w φ (mkW k ts fs) (mkW_flavors k ts fs) hw.none (hw.some k ts fs) hφ.none z
  rw [typeFlavors_mkW, typeFlavors_mkW] at hE
  rw [hE]
  generalize hc : ws * (cw.hi - cw.lo) ^ k.numTimes * (nf : ℝ) ^ k.numFlavors = c at hdc
  generalize hbl : wormFlavs k fs .creation = bl
  generalize hbl' : wormFlavs k fs .annihilation = bl'
  generalize hu : some (mkW k ts fs) = ω
  have hmr := measurable_right (measurable_hybRemT nf cw hw.none (hu ▸ hw.some k ts fs) hφ.none bl bl' c m n bl.length bl'.length) z
  have e : ∀ v : Lab bl.length bl'.length, hybA nf cw w φ ψ bl bl' c d ω (ms z.1) (ms z.2) (ms v.1) (ms v.2) =
      ENNReal.ofReal sw * (ψ (ms z.1) (ms z.2) ω * ENNReal.ofReal (w (ms z.1) (ms z.2) ω) *
        (ENNReal.ofReal (listDens (flavEnv nf) cw bl) * ENNReal.ofReal (listDens (flavEnv nf) cw bl'))) *
          hybRemT nf cw w φ bl bl' c ω (ms z.1) (ms z.2) (ms v.1) (ms v.2) := by
    intro v
    unfold hybA
    rw [hyb_term hcw nf bl bl' (hbl ▸ wormFlavs_lt k fs _) (hbl' ▸ wormFlavs_lt k fs _) w φ ψ h0 ω sw d c hsw hd hdc]
    ring
  rw [lintegral_congr e, lintegral_const_mul _ hmr]
  show _ = ENNReal.ofReal sw * (ψ (ms z.1) (ms z.2) ω * ENNReal.ofReal (w (ms z.1) (ms z.2) ω) * _)
  ring

/-- Insertion of a worm through the bath out of `m + a`, `n + b` operators and its removal. -/
theorem hyb_order {β : ℝ} {cw : CWin} (hcw : cw.OK β) (nf : ℕ) (k : WormKind) {w : CfgFun (Option (Worm ℝ)) ℝ}
    {φ ψ : CfgFun (Option (Worm ℝ)) ℝ≥0∞} (hw : w.WMeas nf) (hφ : φ.WMeas nf) (hψ : ψ.WMeas nf)
    (h0 : ∀ X X' ω, 0 ≤ w X X' ω) (ts : Fin k.numTimes → ℝ) (fs : Fin k.numFlavors → Fin nf) {sw d ws : ℝ} (hsw : 0 < sw)
    (hd : 0 < d) (hdc : d * (ws * (cw.hi - cw.lo) ^ k.numTimes * (nf : ℝ) ^ k.numFlavors) = sw) (m n : ℕ) :
    orderFlow β nf (m + (wormFlavs k fs .creation).length) (n + (wormFlavs k fs .annihilation).length) none φ w
        (fun x => ENNReal.ofReal d * propE w ψ x (hybPick nf cw k ws (mkW k ts fs) x)) =
      ENNReal.ofReal sw * orderFlow β nf m n (some (mkW k ts fs)) ψ w (hybE nf cw k ws w φ) := by
  have hflow := pick_draw_flow β (flavEnv nf) cw (wormFlavs k fs .creation) (wormFlavs k fs .annihilation)
    (wormFlavs_lt k fs _) (wormFlavs_lt k fs _) m n _ (measurable_hybA nf cw k hw hφ hψ (wormFlavs k fs .creation) (wormFlavs k fs .annihilation)
      (ws * (cw.hi - cw.lo) ^ k.numTimes * (nf : ℝ) ^ k.numFlavors) d ts fs m n _ _)
  rw [lintegral_congr fun z => hybA_remove hcw nf k hw hφ h0 ts fs hsw hd hdc z,
    lintegral_const_mul' _ _ ENNReal.ofReal_ne_top, mul_left_comm] at hflow
  refine Eq.trans ?_ hflow.symm
  unfold orderFlow
  congr 1
  refine lintegral_congr_ae ?_
  filter_upwards [ae_labels β nf (m + (wormFlavs k fs .creation).length) (n + (wormFlavs k fs .annihilation).length)] with z hz
  rw [hybPick_mkW nf cw k ws w ψ ts fs z hz]
  exact pickSum_hybA nf cw w φ ψ _ _ _ d _ z

end CTHyb
