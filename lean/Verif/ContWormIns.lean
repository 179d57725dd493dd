import Verif.ContWormHyb

/-!
The insertion of a worm as an integral over all worms, and the balance for a given worm.
-/

namespace CTHyb

open Rand MeasureTheory ENNReal

/-- The worm with these times and flavors. -/
def mkW (k : WormKind) {nf : ℕ} (ts : Fin k.numTimes → ℝ) (fs : Fin k.numFlavors → Fin nf) : Worm ℝ :=
  ⟨k, List.ofFn ts, flavList fs⟩

theorem mkW_valid (k : WormKind) {nf : ℕ} (ts : Fin k.numTimes → ℝ) (fs : Fin k.numFlavors → Fin nf) : (mkW k ts fs).Valid :=
  ⟨List.length_ofFn, List.length_ofFn⟩

theorem mkW_flavors (k : WormKind) {nf : ℕ} (ts : Fin k.numTimes → ℝ) (fs : Fin k.numFlavors → Fin nf) :
    ∀ o ∈ (mkW k ts fs).operators, o.flavor < nf := by
  refine operators_flavor nf _ (mkW_valid k ts fs) fun f hf => ?_
  obtain ⟨i, rfl⟩ := (List.mem_ofFn' _ f).1 hf
  exact (fs i).2

theorem typeFlavors_times (k : WormKind) (ts ts' : List ℝ) (fs : List ℕ) (ty : OpType) :
    typeFlavors (⟨k, ts, fs⟩ : Worm ℝ).operators ty = typeFlavors (⟨k, ts', fs⟩ : Worm ℝ).operators ty := by
  cases k <;> cases ty <;> simp [typeFlavors, Worm.operators, List.filter_flatMap, List.map_flatMap]

/-- Flavors of the operators of one type. -/
def wormFlavs (k : WormKind) {nf : ℕ} (fs : Fin k.numFlavors → Fin nf) (ty : OpType) : List ℕ :=
  typeFlavors (⟨k, [], flavList fs⟩ : Worm ℝ).operators ty

theorem typeFlavors_mkW (k : WormKind) {nf : ℕ} (ts : Fin k.numTimes → ℝ) (fs : Fin k.numFlavors → Fin nf) (ty : OpType) :
    typeFlavors (mkW k ts fs).operators ty = wormFlavs k fs ty := typeFlavors_times k _ _ _ ty

theorem wormFlavs_lt (k : WormKind) {nf : ℕ} (fs : Fin k.numFlavors → Fin nf) (ty : OpType) :
    ∀ b ∈ wormFlavs k fs ty, b < nf := by
  intro b hb
  rw [← typeFlavors_mkW k (fun _ => 0)] at hb
  obtain ⟨o, ho, rfl⟩ := List.mem_map.1 hb
  exact mkW_flavors k _ fs o (List.mem_filter.1 ho).1

/-- Density of the insertion of the worm `u` of type `k` at the configuration `x`; `K` is the number of worm
types. -/
noncomputable def insDen (nf : ℕ) (cw : CWin) (k : WormKind) (K sw : ℝ) (w : CfgFun (Option (Worm ℝ)) ℝ)
    (ψ : CfgFun (Option (Worm ℝ)) ℝ≥0∞) (u : Worm ℝ) (x : WCfg ℝ) : ℝ≥0∞ :=
  ENNReal.ofReal (1 / 4 * (1 / (K * ((cw.hi - cw.lo) ^ k.numTimes * (nf : ℝ) ^ k.numFlavors)))) *
      accE w ψ x ⟨[], [], [], [], some u⟩ (sw / (1 / K) * (cw.hi - cw.lo) ^ k.numTimes * (nf : ℝ) ^ k.numFlavors) +
    (if wormDiagonal u then ENNReal.ofReal (1 / 4 * (1 / (K * ((cw.hi - cw.lo) ^ k.numTimes * (nf : ℝ))))) *
      accE w ψ x ⟨[], [], [], [], some u⟩ (sw / (1 / K) * (cw.hi - cw.lo) ^ k.numTimes * (nf : ℝ)) else 0) +
    ENNReal.ofReal (1 / 2 * (1 / (K * ((cw.hi - cw.lo) ^ k.numTimes * (nf : ℝ) ^ k.numFlavors)))) *
      propE w ψ x (hybPick nf cw k (sw / (1 / K)) u x)

/-- The removal of the worm `u`. -/
noncomputable def remDen (nf : ℕ) (cw : CWin) (k : WormKind) (K sw : ℝ) (w : CfgFun (Option (Worm ℝ)) ℝ)
    (φ : CfgFun (Option (Worm ℝ)) ℝ≥0∞) (u : Worm ℝ) (x : WCfg ℝ) : ℝ≥0∞ :=
  ENNReal.ofReal (1 / 4) *
      accE w φ x ⟨[], [], [], [], none⟩ (1 / (sw / (1 / K) * (cw.hi - cw.lo) ^ k.numTimes * (nf : ℝ) ^ k.numFlavors)) +
    (if wormDiagonal u then ENNReal.ofReal (1 / 4) *
      accE w φ x ⟨[], [], [], [], none⟩ (1 / (sw / (1 / K) * (cw.hi - cw.lo) ^ k.numTimes * (nf : ℝ))) else 0) +
    ENNReal.ofReal (1 / 2) * hybE nf cw k (sw / (1 / K)) w φ x

theorem quarter : ENNReal.ofReal (1 / 2) * ENNReal.ofReal (1 / 2) = ENNReal.ofReal (1 / 4) := by
  rw [← ENNReal.ofReal_mul (by norm_num)]; norm_num

theorem wormTransE_some (nf : ℕ) (cw : CWin) (kinds : List WormKind) (sw : WormKind → ℝ)
    (w : CfgFun (Option (Worm ℝ)) ℝ) (φ : CfgFun (Option (Worm ℝ)) ℝ≥0∞) (x : WCfg ℝ) (u : Worm ℝ) (hx : x.worm = some u)
    (hin : wormInWin cw.win u = true) :
    wormTransE nf cw kinds sw w φ x = remDen nf cw u.kind kinds.length (sw u.kind) w φ u x := by
  unfold wormTransE wormInsRemE
  rw [hx]
  simp only [Option.any_some, hin, Bool.not_true, Bool.false_eq_true, if_false, meanE_coin_half, if_true]
  unfold traceE propE tracePropose
  rw [hx]
  simp only [meanE_bind nnr_coin]
  rw [meanE_coin_half]
  simp only [if_true, Bool.false_eq_true, if_false, meanE_ret]
  unfold remDen
  rw [mul_add, ← mul_assoc, ← mul_assoc, quarter]
  congr 2
  split_ifs <;> simp [meanE_ret, CWin.win]

theorem wormTransE_out (nf : ℕ) (cw : CWin) (kinds : List WormKind) (sw : WormKind → ℝ)
    (w : CfgFun (Option (Worm ℝ)) ℝ) (φ : CfgFun (Option (Worm ℝ)) ℝ≥0∞) (x : WCfg ℝ) (u : Worm ℝ) (hx : x.worm = some u)
    (hin : wormInWin cw.win u = false) : wormTransE nf cw kinds sw w φ x = 0 := by
  unfold wormTransE wormInsRemE
  rw [hx]
  simp [hin]

theorem sum_diagonal (k : WormKind) (h0 : 0 < k.numFlavors) {nf : ℕ} (ts : Fin k.numTimes → ℝ) (H : List ℕ → ℝ≥0∞) :
    ∑ f : Fin nf, H (List.replicate k.numFlavors f) =
      ∑ fs : Fin k.numFlavors → Fin nf, if wormDiagonal (mkW k ts fs) = true then H (flavList fs) else 0 := by
  have hfl : ∀ f : Fin nf, flavList (fun _ : Fin k.numFlavors => f) = List.replicate k.numFlavors (f : ℕ) := fun f => by
    rw [flavList, List.ofFn_const]
  refine Finset.sum_of_injOn (fun f _ => f) ?_ (fun _ _ => Finset.mem_coe.2 (Finset.mem_univ _)) ?_ ?_
  · intro f _ g _ h
    exact congrFun h ⟨0, h0⟩
  · intro fs _ hfs
    refine if_neg fun hd => hfs ?_
    obtain ⟨f, hf⟩ := (wormDiagonal_iff _ (mkW_valid k ts fs) h0).1 hd
    have hfi : ∀ i, (fs i : ℕ) = f := by
      intro i
      have hm : (fs i : ℕ) ∈ (mkW k ts fs).flavors := (List.mem_ofFn' _ _).2 ⟨i, rfl⟩
      rw [hf] at hm
      exact List.eq_of_mem_replicate hm
    exact ⟨fs ⟨0, h0⟩, Finset.mem_coe.2 (Finset.mem_univ _), funext fun i => Fin.ext (by rw [hfi, hfi])⟩
  · intro f _
    rw [if_pos ((wormDiagonal_iff _ (mkW_valid k ts _) h0).2 ⟨f, hfl f⟩), hfl]

/-! ### Measurability -/

/-- Measurable function of the configuration, also of the times of the worm. -/
structure CfgFun.WMeas {A : Type} [MeasurableSpace A] (nf : ℕ) (F : CfgFun (Option (Worm ℝ)) A) : Prop where
  none : F.Meas none
  worm : ∀ (k : WormKind) (fs : Fin k.numFlavors → Fin nf) (m n : ℕ),
    Measurable fun z : (Fin k.numTimes → ℝ) × Lab m n => F (ms z.2.1) (ms z.2.2) (some (mkW k z.1 fs))

theorem CfgFun.WMeas.some {A : Type} [MeasurableSpace A] {nf : ℕ} {F : CfgFun (Option (Worm ℝ)) A} (hF : F.WMeas nf)
    (k : WormKind) (ts : Fin k.numTimes → ℝ) (fs : Fin k.numFlavors → Fin nf) : F.Meas (some (mkW k ts fs)) := fun m n =>
  (hF.worm k fs m n).comp (measurable_const.prodMk measurable_id)

theorem measurable_accIns {nf : ℕ} {w : CfgFun (Option (Worm ℝ)) ℝ} {ψ : CfgFun (Option (Worm ℝ)) ℝ≥0∞} (hw : w.WMeas nf)
    (hψ : ψ.WMeas nf) (k : WormKind) (fs : Fin k.numFlavors → Fin nf) (c : ℝ) (m n : ℕ) :
    Measurable fun z : (Fin k.numTimes → ℝ) × Lab m n =>
      accE w ψ (z.2.cfg none) ⟨[], [], [], [], some (mkW k z.1 fs)⟩ c := by
  have : (fun z : (Fin k.numTimes → ℝ) × Lab m n => accE w ψ (z.2.cfg none) ⟨[], [], [], [], some (mkW k z.1 fs)⟩ c) =
      fun z => ENNReal.ofReal (min 1 (w (ms z.2.1) (ms z.2.2) (some (mkW k z.1 fs)) / w (ms z.2.1) (ms z.2.2) none * c)) *
        ψ (ms z.2.1) (ms z.2.2) (some (mkW k z.1 fs)) := by
    funext z
    simp only [accE, CfgFun.after, CfgFun.at, Multiset.coe_nil, tsub_zero, add_zero]
    rfl
  rw [this]
  exact (ENNReal.measurable_ofReal.comp (measurable_const.min
    (((hw.worm k fs m n).div ((hw.none m n).comp measurable_snd)).mul_const _))).mul (hψ.worm k fs m n)

/-- The labels in `S`, `S'` and the other labels, with a parameter. -/
theorem measurable_labels_par {Y : Type} [MeasurableSpace Y] {m n a b : ℕ}
    (f : Y → Multiset (BOp ℝ) → Multiset (BOp ℝ) → Multiset (BOp ℝ) → Multiset (BOp ℝ) → ℝ≥0∞)
    (hf : Measurable fun z : Y × (Lab m n × Lab a b) => f z.1 (ms z.2.1.1) (ms z.2.1.2) (ms z.2.2.1) (ms z.2.2.2))
    (S : Finset (Fin (m + a))) (S' : Finset (Fin (n + b))) (hS : S.card = a) (hS' : S'.card = b) :
    Measurable fun z : Y × Lab (m + a) (n + b) =>
      f z.1 (Sᶜ.val.map z.2.1) (S'ᶜ.val.map z.2.2) (S.val.map z.2.1) (S'.val.map z.2.2) := by
  have hc : Sᶜ.card = m := by rw [Finset.card_compl, Fintype.card_fin, hS, Nat.add_sub_cancel]
  have hc' : S'ᶜ.card = n := by rw [Finset.card_compl, Fintype.card_fin, hS', Nat.add_sub_cancel]
  have hm : Measurable fun z : Lab (m + a) (n + b) =>
      ((((fun i => z.1 (Sᶜ.orderEmbOfFin hc i)), (fun i => z.2 (S'ᶜ.orderEmbOfFin hc' i))),
        ((fun i => z.1 (S.orderEmbOfFin hS i)), (fun i => z.2 (S'.orderEmbOfFin hS' i)))) : Lab m n × Lab a b) :=
    ((((measurable_sub Sᶜ hc).comp measurable_fst).prodMk ((measurable_sub S'ᶜ hc').comp measurable_snd)).prodMk
      (((measurable_sub S hS).comp measurable_fst).prodMk ((measurable_sub S' hS').comp measurable_snd)))
  have h2 := hf.comp (measurable_fst.prodMk (hm.comp measurable_snd) :
    Measurable fun z : Y × Lab (m + a) (n + b) => (z.1, _))
  simp only [Function.comp_def, map_orderEmb] at h2
  exact h2

/-- The insertion through the bath. -/
noncomputable def hybSum (nf : ℕ) (cw : CWin) (k : WormKind) (ws : ℝ) (w : CfgFun (Option (Worm ℝ)) ℝ)
    (ψ : CfgFun (Option (Worm ℝ)) ℝ≥0∞) (fs : Fin k.numFlavors → Fin nf) {m n : ℕ} (z : (Fin k.numTimes → ℝ) × Lab m n) : ℝ≥0∞ :=
  pickSum (flavEnv nf) cw (wormFlavs k fs .creation) (wormFlavs k fs .annihilation)
    (hybInsT nf cw w ψ (wormFlavs k fs .creation) (wormFlavs k fs .annihilation)
      (ws * (cw.hi - cw.lo) ^ k.numTimes * (nf : ℝ) ^ k.numFlavors) (some (mkW k z.1 fs))) z.2

theorem hybPick_mkW (nf : ℕ) (cw : CWin) (k : WormKind) (ws : ℝ) (w : CfgFun (Option (Worm ℝ)) ℝ)
    (ψ : CfgFun (Option (Worm ℝ)) ℝ≥0∞) (ts : Fin k.numTimes → ℝ) (fs : Fin k.numFlavors → Fin nf) {n n' : ℕ} (z : Lab n n')
    (h : (Function.Injective z.1 ∧ ∀ i, (z.1 i).2 < nf) ∧ (Function.Injective z.2 ∧ ∀ i, (z.2 i).2 < nf)) :
    propE w ψ (z.cfg none) (hybPick nf cw k ws (mkW k ts fs) (z.cfg none)) = hybSum nf cw k ws w ψ fs (ts, z) := by
  have := hybPick_eq nf cw k ws w ψ (mkW k ts fs) (mkW_flavors k ts fs) z h.1.1 h.2.1 h.1.2 h.2.2
  rw [typeFlavors_mkW, typeFlavors_mkW] at this
  exact this

theorem measurable_hybInsT (nf : ℕ) (cw : CWin) {w : CfgFun (Option (Worm ℝ)) ℝ} {ψ : CfgFun (Option (Worm ℝ)) ℝ≥0∞}
    (hw : w.WMeas nf) (hψ : ψ.WMeas nf) (k : WormKind) (fs : Fin k.numFlavors → Fin nf) (bl bl' : List ℕ) (c : ℝ) (m n a b : ℕ) :
    Measurable fun z : (Fin k.numTimes → ℝ) × (Lab m n × Lab a b) => hybInsT nf cw w ψ bl bl' c (some (mkW k z.1 fs))
      (ms z.2.1.1) (ms z.2.1.2) (ms z.2.2.1) (ms z.2.2.2) := by
  have hts : Measurable fun z : (Fin k.numTimes → ℝ) × (Lab m n × Lab a b) => (z.1, z.2.1) :=
    measurable_fst.prodMk (measurable_fst.comp measurable_snd)
  have hpp : Measurable fun z : Lab m n => pickP (flavEnv nf) cw bl (ms z.1) * pickP (flavEnv nf) cw bl' (ms z.2) :=
    ((measurable_pickP (flavEnv nf) cw bl m).comp measurable_fst).mul ((measurable_pickP (flavEnv nf) cw bl' n).comp measurable_snd)
  unfold hybInsT
  refine Measurable.mul (ENNReal.measurable_ofReal.comp (hpp.comp (measurable_fst.comp measurable_snd)))
    (Measurable.mul (ENNReal.measurable_ofReal.comp (measurable_const.min ?_)) ((hψ.worm k fs m n).comp hts))
  exact (((hw.worm k fs m n).comp hts).div ((hw.none.add₂ m n a b).comp measurable_snd)).mul
    ((measurable_hybC nf cw bl bl' c m n).comp (measurable_fst.comp measurable_snd))

theorem measurable_hitS (nf : ℕ) (cw : CWin) (bl : List ℕ) (hbl : ∀ b ∈ bl, b < nf) {m : ℕ} (S : Finset (Fin m))
    (hS : S.card = bl.length) : Measurable fun y : Fin m → BOp ℝ => hitE (flavEnv nf) cw bl (S.val.map y) := by
  have h : Measurable fun p : Fin bl.length → BOp ℝ => hitE (flavEnv nf) cw bl (ms p) := measurable_hit (flavEnv nf) cw bl hbl
  have h2 := h.comp (measurable_sub S hS)
  simp only [Function.comp_def, map_orderEmb] at h2
  exact h2

theorem measurable_hybSum (nf : ℕ) (cw : CWin) {w : CfgFun (Option (Worm ℝ)) ℝ} {ψ : CfgFun (Option (Worm ℝ)) ℝ≥0∞}
    (hw : w.WMeas nf) (hψ : ψ.WMeas nf) (k : WormKind) (ws : ℝ) (fs : Fin k.numFlavors → Fin nf) (m n : ℕ) :
    Measurable fun z : (Fin k.numTimes → ℝ) × Lab m n => hybSum nf cw k ws w ψ fs z := by
  unfold hybSum pickSum
  refine Finset.measurable_sum _ fun S hS => Finset.measurable_sum _ fun S' hS' => ?_
  have hS := (Finset.mem_powersetCard.1 hS).2
  have hS' := (Finset.mem_powersetCard.1 hS').2
  have h1 := measurable_hitS nf cw (wormFlavs k fs .creation) (wormFlavs_lt k fs .creation) S hS
  have h2 := measurable_hitS nf cw (wormFlavs k fs .annihilation) (wormFlavs_lt k fs .annihilation) S' hS'
  have hm : (wormFlavs k fs .creation).length ≤ m := by rw [← hS]; simpa using Finset.card_le_univ S
  have hn : (wormFlavs k fs .annihilation).length ≤ n := by rw [← hS']; simpa using Finset.card_le_univ S'
  obtain ⟨m, rfl⟩ := Nat.exists_eq_add_of_le' hm
  obtain ⟨n, rfl⟩ := Nat.exists_eq_add_of_le' hn
  refine Measurable.const_mul (Measurable.mul (Measurable.mul (h1.comp (measurable_fst.comp measurable_snd))
    (h2.comp (measurable_snd.comp measurable_snd))) ?_) _
  exact measurable_labels_par (fun ts => hybInsT nf cw w ψ (wormFlavs k fs .creation) (wormFlavs k fs .annihilation)
    (ws * (cw.hi - cw.lo) ^ k.numTimes * (nf : ℝ) ^ k.numFlavors) (some (mkW k ts fs)))
    (measurable_hybInsT nf cw hw hψ k fs _ _ _ m n _ _) S S' hS hS'

/-- `insDen` for almost all configurations. -/
noncomputable def insDen' (nf : ℕ) (cw : CWin) (k : WormKind) (K sw : ℝ) (w : CfgFun (Option (Worm ℝ)) ℝ)
    (ψ : CfgFun (Option (Worm ℝ)) ℝ≥0∞) (fs : Fin k.numFlavors → Fin nf) {m n : ℕ} (z : (Fin k.numTimes → ℝ) × Lab m n) : ℝ≥0∞ :=
  ENNReal.ofReal (1 / 4 * (1 / (K * ((cw.hi - cw.lo) ^ k.numTimes * (nf : ℝ) ^ k.numFlavors)))) *
      accE w ψ (z.2.cfg none) ⟨[], [], [], [], some (mkW k z.1 fs)⟩
        (sw / (1 / K) * (cw.hi - cw.lo) ^ k.numTimes * (nf : ℝ) ^ k.numFlavors) +
    (if wormDiagonal (⟨k, [], flavList fs⟩ : Worm ℝ) then
      ENNReal.ofReal (1 / 4 * (1 / (K * ((cw.hi - cw.lo) ^ k.numTimes * (nf : ℝ))))) *
      accE w ψ (z.2.cfg none) ⟨[], [], [], [], some (mkW k z.1 fs)⟩
        (sw / (1 / K) * (cw.hi - cw.lo) ^ k.numTimes * (nf : ℝ)) else 0) +
    ENNReal.ofReal (1 / 2 * (1 / (K * ((cw.hi - cw.lo) ^ k.numTimes * (nf : ℝ) ^ k.numFlavors)))) *
      hybSum nf cw k (sw / (1 / K)) w ψ fs z

theorem insDen_eq (nf : ℕ) (cw : CWin) (k : WormKind) (K sw : ℝ) (w : CfgFun (Option (Worm ℝ)) ℝ)
    (ψ : CfgFun (Option (Worm ℝ)) ℝ≥0∞) (ts : Fin k.numTimes → ℝ) (fs : Fin k.numFlavors → Fin nf) {n n' : ℕ} (z : Lab n n')
    (h : (Function.Injective z.1 ∧ ∀ i, (z.1 i).2 < nf) ∧ (Function.Injective z.2 ∧ ∀ i, (z.2 i).2 < nf)) :
    insDen nf cw k K sw w ψ (mkW k ts fs) (z.cfg none) = insDen' nf cw k K sw w ψ fs (ts, z) := by
  unfold insDen insDen'
  rw [hybPick_mkW nf cw k _ w ψ ts fs z h]
  rfl

theorem measurable_insDen' (nf : ℕ) (cw : CWin) {w : CfgFun (Option (Worm ℝ)) ℝ} {ψ : CfgFun (Option (Worm ℝ)) ℝ≥0∞}
    (hw : w.WMeas nf) (hψ : ψ.WMeas nf) (k : WormKind) (K sw : ℝ) (fs : Fin k.numFlavors → Fin nf) (m n : ℕ) :
    Measurable fun z : (Fin k.numTimes → ℝ) × Lab m n => insDen' nf cw k K sw w ψ fs z := by
  unfold insDen'
  refine Measurable.add (Measurable.add ((measurable_accIns hw hψ k fs _ m n).const_mul _) ?_)
    ((measurable_hybSum nf cw hw hψ k _ fs m n).const_mul _)
  split_ifs
  · exact (measurable_accIns hw hψ k fs _ m n).const_mul _
  · exact measurable_const

end CTHyb
