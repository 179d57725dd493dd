import Verif.ContWormDraws

/-!
Insertion and removal of a given worm through the bath with continuous times.
-/

namespace CTHyb

open Rand MeasureTheory ENNReal

/-- Acceptance factor for attaching operators of the flavors `bl`, `bl'` to the bath `X`, `X'`, inverted;
`c` is the factor of the worm. -/
noncomputable def hybC (nf : ℕ) (cw : CWin) (bl bl' : List ℕ) (c : ℝ) (X X' : Multiset (BOp ℝ)) : ℝ :=
  ((cw.hi - cw.lo) ^ (bl.length + bl'.length))⁻¹ * (pickP (flavEnv nf) cw bl X * pickP (flavEnv nf) cw bl' X')⁻¹ * c

/-- Picking `P`, `Q` out of `X + P`, `X' + Q`, and accepting. -/
noncomputable def hybInsT (nf : ℕ) (cw : CWin) (w : CfgFun (Option (Worm ℝ)) ℝ) (ψ : CfgFun (Option (Worm ℝ)) ℝ≥0∞)
    (bl bl' : List ℕ) (c : ℝ) (ω : Option (Worm ℝ)) (X X' P Q : Multiset (BOp ℝ)) : ℝ≥0∞ :=
  ENNReal.ofReal (pickP (flavEnv nf) cw bl X * pickP (flavEnv nf) cw bl' X') *
    (ENNReal.ofReal (min 1 (w X X' ω / w (X + P) (X' + Q) none * hybC nf cw bl bl' c X X')) * ψ X X' ω)

/-- Adding `P`, `Q` to `X`, `X'`, and accepting. -/
noncomputable def hybRemT (nf : ℕ) (cw : CWin) (w : CfgFun (Option (Worm ℝ)) ℝ) (φ : CfgFun (Option (Worm ℝ)) ℝ≥0∞)
    (bl bl' : List ℕ) (c : ℝ) (ω : Option (Worm ℝ)) (X X' P Q : Multiset (BOp ℝ)) : ℝ≥0∞ :=
  ENNReal.ofReal (min 1 (w (X + P) (X' + Q) none / w X X' ω * (hybC nf cw bl bl' c X X')⁻¹)) * φ (X + P) (X' + Q) none

theorem pickFac_pickP (nf : ℕ) (cw : CWin) (bl bl' : List ℕ) (X X' : Multiset (BOp ℝ)) :
    (pickFac nf (fun f => bcount (flavEnv nf) cw X f + bl.count f) (fun f => bcount (flavEnv nf) cw X' f + bl'.count f)
      (bl.count ·) (bl'.count ·) : ℝ) = (pickP (flavEnv nf) cw bl X * pickP (flavEnv nf) cw bl' X')⁻¹ := by
  rw [pickFac_eq, mul_inv, pickP, pickP, Finset.prod_inv_distrib, Finset.prod_inv_distrib, inv_inv, inv_inv]
  rfl

open Classical in
theorem hybPick_eq (nf : ℕ) (cw : CWin) (k : WormKind) (ws : ℝ) (w : CfgFun (Option (Worm ℝ)) ℝ)
    (ψ : CfgFun (Option (Worm ℝ)) ℝ≥0∞) (u : Worm ℝ) (hu : ∀ o ∈ u.operators, o.flavor < nf) {n n' : ℕ} (z : Lab n n')
    (hy : Function.Injective z.1) (hy' : Function.Injective z.2) (hf : ∀ i, (z.1 i).2 < nf) (hf' : ∀ i, (z.2 i).2 < nf) :
    propE w ψ (z.cfg none) (hybPick nf cw k ws u (z.cfg none)) =
      pickSum (flavEnv nf) cw (typeFlavors u.operators .creation) (typeFlavors u.operators .annihilation)
        (hybInsT nf cw w ψ (typeFlavors u.operators .creation) (typeFlavors u.operators .annihilation)
          (ws * (cw.hi - cw.lo) ^ k.numTimes * (nf : ℝ) ^ k.numFlavors) (some u)) z := by
  obtain ⟨y, y'⟩ := z
  simp only at hy hy' hf hf'
  have hc1 : wormCount u.operators .creation = ((typeFlavors u.operators .creation).count ·) :=
    funext fun f => wormCount_eq _ _ f
  have hc2 : wormCount u.operators .annihilation = ((typeFlavors u.operators .annihilation).count ·) :=
    funext fun f => wormCount_eq _ _ f
  have hL := typeFlavors_length u.operators
  have hbl : ∀ ty, ∀ b ∈ typeFlavors u.operators ty, b < nf := by
    intro ty b hb
    obtain ⟨o, ho, rfl⟩ := List.mem_map.1 hb
    exact hu o (List.mem_filter.1 ho).1
  have hb1 := hbl .creation
  have hb2 := hbl .annihilation
  unfold hybPick
  simp only []
  rw [hc1, hc2, ← hL]
  generalize typeFlavors u.operators .creation = bl at hb1 ⊢
  generalize typeFlavors u.operators .annihilation = bl' at hb2 ⊢
  set c := ws * (cw.hi - cw.lo) ^ k.numTimes * (nf : ℝ) ^ k.numFlavors with hc
  have hz : ∀ {n : ℕ} (bl : List ℕ), (∀ b ∈ bl, b < nf) → ∀ (y : Fin n → BOp ℝ) (S : Finset (Fin n)),
      S ∉ (Finset.univ : Finset (Fin n)).powersetCard bl.length → hitE (flavEnv nf) cw bl (S.val.map y) = 0 := by
    intro n bl hbl y S hS
    refine if_neg fun hh => hS (Finset.mem_powersetCard.2 ⟨Finset.subset_univ _, ?_⟩)
    have := hh.card (fun f hf => hf) hbl
    rw [Multiset.card_map] at this
    exact this
  have hbc : ∀ {n : ℕ} (bl : List ℕ) (y : Fin n → BOp ℝ) (S : Finset (Fin n)) (b : ℕ), Hit (flavEnv nf) cw bl (S.val.map y) →
      (flavorOps cw.win (List.ofFn y) b).length = bcount (flavEnv nf) cw (Sᶜ.val.map y) b + bl.count b := by
    intro n bl y S b hh
    rw [show (flavorOps cw.win (List.ofFn y) b) = blockOps (flavEnv nf) cw.win (List.ofFn y) b from rfl,
      blockOps_length, ← hh.bcount, ← bcount_add]
    congr 1
    exact map_compl_add S y
  have hsum : pickSum (flavEnv nf) cw bl bl' (hybInsT nf cw w ψ bl bl' c (some u)) (y, y') =
      ∑ S : Finset (Fin n), ∑ S' : Finset (Fin n'), (facs (flavEnv nf) bl : ℝ≥0∞) * (facs (flavEnv nf) bl' : ℝ≥0∞) *
        (hitE (flavEnv nf) cw bl (S.val.map y) * hitE (flavEnv nf) cw bl' (S'.val.map y') *
        hybInsT nf cw w ψ bl bl' c (some u) (Sᶜ.val.map y) (S'ᶜ.val.map y') (S.val.map y) (S'.val.map y')) := by
    unfold pickSum
    rw [← Finset.sum_subset (Finset.subset_univ _) fun S _ hS => ?_]
    · refine Finset.sum_congr rfl fun S _ => ?_
      exact (Finset.sum_subset (Finset.subset_univ _) fun S' _ hS' => by rw [hz bl' hb2 y' S' hS']; simp)
    · refine Finset.sum_eq_zero fun S' _ => ?_
      rw [hz bl hb1 y S hS]; simp
  rw [hsum]
  split_ifs with hany
  · rw [propE, meanE_ret]
    simp only [List.any_eq_true, Bool.or_eq_true, decide_eq_true_eq] at hany
    obtain ⟨b, _, hb⟩ := hany
    symm
    refine Finset.sum_eq_zero fun S _ => Finset.sum_eq_zero fun S' _ => ?_
    by_cases h1 : Hit (flavEnv nf) cw bl (S.val.map y)
    · by_cases h2 : Hit (flavEnv nf) cw bl' (S'.val.map y')
      · exfalso
        have e1 := hbc bl y S b h1
        have e2 := hbc bl' y' S' b h2
        rcases hb with hb | hb
        · have : (flavorOps cw.win (List.ofFn y) b).length < bl.count b := hb
          omega
        · have : (flavorOps cw.win (List.ofFn y') b).length < bl'.count b := hb
          omega
      · simp [hitE, h2]
    · simp [hitE, h1]
  · have hen : ∀ b < nf, bl.count b ≤ (blockOps (flavEnv nf) cw.win (List.ofFn y) b).length ∧
        bl'.count b ≤ (blockOps (flavEnv nf) cw.win (List.ofFn y') b).length := by
      simp only [List.any_eq_true, Bool.or_eq_true, decide_eq_true_eq, List.mem_range, not_exists,
        not_and, not_or, not_lt] at hany
      exact fun b hb => hany b hb
    rw [propE, meanE_bind (nnr_pickFlavors _ _ _)]
    simp only [meanE_bind (nnr_pickFlavors _ _ _), meanE_ret]
    set C := (1 / (cw.hi - cw.lo) ^ (bl.length + bl'.length) /
      (1 / pickFac nf (fun f => (flavorOps cw.win (Lab.cfg (y, y') (none : Option (Worm ℝ))).cd f).length)
        (fun f => (flavorOps cw.win (Lab.cfg (y, y') (none : Option (Worm ℝ))).c f).length) (bl.count ·) (bl'.count ·)))
          * ws * (cw.hi - cw.lo) ^ k.numTimes * (nf : ℝ) ^ k.numFlavors with hC
    set g : Multiset (BOp ℝ) → Multiset (BOp ℝ) → ℝ≥0∞ := fun P Q =>
      ENNReal.ofReal (min 1 (w (ms y - P) (ms y' - Q) (some u) / w (ms y) (ms y') none * C)) *
        ψ (ms y - P) (ms y' - Q) (some u) with hg
    have hq : ∀ P : Multiset (BOp ℝ), meanE (pickFlavors (blockOps (flavEnv nf) cw.win (List.ofFn y')) (bl'.count ·) (List.range nf))
        (fun q => g P q) = _ := fun P => meanE_pickFlavors nf cw bl' hb2 y' hy' hf' (fun b hb => (hen b hb).2) (g P)
    have hp := meanE_pickFlavors nf cw bl hb1 y hy hf (fun b hb => (hen b hb).1) fun P =>
      meanE (pickFlavors (blockOps (flavEnv nf) cw.win (List.ofFn y')) (bl'.count ·) (List.range nf)) (fun q => g P q)
    refine Eq.trans (meanE_congr fun r _ => meanE_congr fun s _ => ?_) (hp.trans ?_)
    · simp only [accE, CfgFun.after, CfgFun.at, Multiset.coe_nil, add_zero, hg]
      rfl
    · have hcompl : ∀ {n : ℕ} (y : Fin n → BOp ℝ) (S : Finset (Fin n)), ms y - S.val.map y = Sᶜ.val.map y := by
        intro n y S
        rw [map_compl_add S y, add_tsub_cancel_right]
      refine Finset.sum_congr rfl fun S _ => ?_
      rw [hq, Finset.mul_sum]
      refine Finset.sum_congr rfl fun S' _ => ?_
      by_cases h1 : Hit (flavEnv nf) cw bl (S.val.map y)
      · by_cases h2 : Hit (flavEnv nf) cw bl' (S'.val.map y')
        · have hCC : C = hybC nf cw bl bl' c (Sᶜ.val.map y) (S'ᶜ.val.map y') := by
            have e1 : (fun f => (flavorOps cw.win (Lab.cfg (y, y') (none : Option (Worm ℝ))).cd f).length) =
                fun f => bcount (flavEnv nf) cw (Sᶜ.val.map y) f + bl.count f := funext fun f => hbc bl y S f h1
            have e2 : (fun f => (flavorOps cw.win (Lab.cfg (y, y') (none : Option (Worm ℝ))).c f).length) =
                fun f => bcount (flavEnv nf) cw (S'ᶜ.val.map y') f + bl'.count f := funext fun f => hbc bl' y' S' f h2
            rw [hC, e1, e2, pickFac_pickP, hybC, hc]
            simp only [one_div, div_inv_eq_mul]
            ring
          rw [if_pos h1, if_pos h2, hitE, hitE, if_pos h1, if_pos h2, hg, hCC, hybInsT]
          beta_reduce
          rw [hcompl, hcompl, ← map_compl_add, ← map_compl_add, ENNReal.ofReal_mul (Nat.cast_nonneg _), ENNReal.ofReal_mul (Nat.cast_nonneg _),
            ENNReal.ofReal_mul (pickP_pos _ _ _ _).le, ENNReal.ofReal_natCast, ENNReal.ofReal_natCast]
          ring
        · simp [hitE, h2]
      · simp [hitE, h1]

theorem measurable_hybC (nf : ℕ) (cw : CWin) (bl bl' : List ℕ) (c : ℝ) (m n : ℕ) :
    Measurable fun z : Lab m n => hybC nf cw bl bl' c (ms z.1) (ms z.2) := by
  unfold hybC
  exact ((((measurable_pickP (flavEnv nf) cw bl m).comp measurable_fst).mul
    ((measurable_pickP (flavEnv nf) cw bl' n).comp measurable_snd)).inv.const_mul _).mul_const _

theorem measurable_hybRemT (nf : ℕ) (cw : CWin) {w : CfgFun (Option (Worm ℝ)) ℝ} {φ : CfgFun (Option (Worm ℝ)) ℝ≥0∞}
    {ω : Option (Worm ℝ)} (hw0 : w.Meas none) (hw : w.Meas ω) (hφ : φ.Meas none) (bl bl' : List ℕ) (c : ℝ)
    (m n a b : ℕ) : Measurable fun z : Lab m n × Lab a b =>
      hybRemT nf cw w φ bl bl' c ω (ms z.1.1) (ms z.1.2) (ms z.2.1) (ms z.2.2) := by
  unfold hybRemT
  refine Measurable.mul (ENNReal.measurable_ofReal.comp (measurable_const.min ?_)) (hφ.add₂ m n a b)
  exact ((hw0.add₂ m n a b).div ((hw.base m n).comp measurable_fst)).mul
    ((measurable_hybC nf cw bl bl' c m n).comp measurable_fst).inv

theorem hybE_some {β : ℝ} {cw : CWin} (hcw : cw.OK β) (nf : ℕ) (k : WormKind) (ws : ℝ) (w : CfgFun (Option (Worm ℝ)) ℝ)
    (φ : CfgFun (Option (Worm ℝ)) ℝ≥0∞) (u : Worm ℝ) (hu : ∀ o ∈ u.operators, o.flavor < nf) (hw0 : w.Meas none)
    (hw : w.Meas (some u)) (hφ : φ.Meas none) {m n : ℕ} (z : Lab m n) :
    hybE nf cw k ws w φ (z.cfg (some u)) =
      ENNReal.ofReal (listDens (flavEnv nf) cw (typeFlavors u.operators .creation)) *
      ENNReal.ofReal (listDens (flavEnv nf) cw (typeFlavors u.operators .annihilation)) *
      ∫⁻ v, hybRemT nf cw w φ (typeFlavors u.operators .creation) (typeFlavors u.operators .annihilation)
          (ws * (cw.hi - cw.lo) ^ k.numTimes * (nf : ℝ) ^ k.numFlavors) (some u) (ms z.1) (ms z.2) (ms v.1) (ms v.2)
        ∂((listMeasure β (flavEnv nf) cw (typeFlavors u.operators .creation)).prod
          (listMeasure β (flavEnv nf) cw (typeFlavors u.operators .annihilation))) := by
  have hc1 : wormCount u.operators .creation = ((typeFlavors u.operators .creation).count ·) :=
    funext fun f => wormCount_eq _ _ f
  have hc2 : wormCount u.operators .annihilation = ((typeFlavors u.operators .annihilation).count ·) :=
    funext fun f => wormCount_eq _ _ f
  have hL := typeFlavors_length u.operators
  set bl := typeFlavors u.operators .creation with hbl
  set bl' := typeFlavors u.operators .annihilation with hbl'
  set c := ws * (cw.hi - cw.lo) ^ k.numTimes * (nf : ℝ) ^ k.numFlavors with hc
  have hG : ∀ p q : List (BOp ℝ), accE w φ (z.cfg (some u)) ⟨[], [], p, q, none⟩
      (((1 / pickFac nf (fun f => (flavorOps cw.win (z.cfg (some u)).cd f).length + wormCount u.operators .creation f)
        (fun f => (flavorOps cw.win (z.cfg (some u)).c f).length + wormCount u.operators .annihilation f)
        (wormCount u.operators .creation) (wormCount u.operators .annihilation))
        / (1 / (cw.hi - cw.lo) ^ u.operators.length)) * (1 / c)) =
      hybRemT nf cw w φ bl bl' c (some u) (ms z.1) (ms z.2) p q := by
    intro p q
    have e1 : (fun f => (flavorOps cw.win (z.cfg (some u)).cd f).length + bl.count f) =
        fun f => bcount (flavEnv nf) cw (ms z.1) f + bl.count f := funext fun f => by
      rw [← show (flavorOps cw.win (z.cfg (some u)).cd f).length = _ from blockOps_length (flavEnv nf) cw (List.ofFn z.1) f]
    have e2 : (fun f => (flavorOps cw.win (z.cfg (some u)).c f).length + bl'.count f) =
        fun f => bcount (flavEnv nf) cw (ms z.2) f + bl'.count f := funext fun f => by
      rw [← show (flavorOps cw.win (z.cfg (some u)).c f).length = _ from blockOps_length (flavEnv nf) cw (List.ofFn z.2) f]
    have hCC : (1 / pickFac nf (fun f => bcount (flavEnv nf) cw (ms z.1) f + bl.count f)
        (fun f => bcount (flavEnv nf) cw (ms z.2) f + bl'.count f) (bl.count ·) (bl'.count ·)) /
          (1 / (cw.hi - cw.lo) ^ (bl.length + bl'.length)) * (1 / c) = (hybC nf cw bl bl' c (ms z.1) (ms z.2))⁻¹ := by
      rw [pickFac_pickP, hybC]
      simp only [one_div, div_inv_eq_mul, mul_inv, inv_inv]
      ring
    rw [hc1, hc2, ← hL, e1, e2, hCC, accE, hybRemT]
    simp only [CfgFun.after, CfgFun.at, Multiset.coe_nil, tsub_zero]
    rfl
  have hm := measurable_hybRemT nf cw hw0 hw hφ bl bl' c m n
  have hmz : ∀ a b, Measurable fun v : Lab a b => hybRemT nf cw w φ bl bl' c (some u) (ms z.1) (ms z.2)
      (List.ofFn v.1 : List (BOp ℝ)) (List.ofFn v.2 : List (BOp ℝ)) := fun a b => measurable_right (hm a b) z
  show attachC cw u.operators (fun p q => accE w φ (z.cfg (some u)) ⟨[], [], p, q, none⟩ _) = _
  rw [show (fun p q => accE w φ (z.cfg (some u)) ⟨[], [], p, q, none⟩ _) = fun p q : List (BOp ℝ) =>
    hybRemT nf cw w φ bl bl' c (some u) (ms z.1) (ms z.2) p q from funext fun p => funext fun q => hG p q,
    attachC_eq hcw nf u.operators hu _ hmz]
  congr 1
  exact (lintegral_prod (fun v : Lab bl.length bl'.length => hybRemT nf cw w φ bl bl' c (some u) (ms z.1) (ms z.2)
    (ms v.1) (ms v.2)) (hmz bl.length bl'.length).aemeasurable).symm

theorem listDens_flavEnv (nf : ℕ) (cw : CWin) (bl : List ℕ) (hbl : ∀ b ∈ bl, b < nf) :
    listDens (flavEnv nf) cw bl = ((cw.hi - cw.lo) ^ bl.length)⁻¹ := by
  unfold listDens
  induction bl with
  | nil => simp
  | cons b bl ih =>
    rw [List.map_cons, List.prod_cons, ih fun b hb => hbl b (List.mem_cons_of_mem _ hb), blockDens,
      blockFlavors_flavEnv nf b (hbl b (by simp)), List.length_singleton, List.length_cons, pow_succ]
    simp [mul_comm]

/-- Both flows between `X + P`, `X' + Q` without worm and `X`, `X'` with worm. -/
theorem hyb_term {β : ℝ} {cw : CWin} (hcw : cw.OK β) (nf : ℕ) (bl bl' : List ℕ) (hbl : ∀ b ∈ bl, b < nf)
    (hbl' : ∀ b ∈ bl', b < nf) (w : CfgFun (Option (Worm ℝ)) ℝ) (φ ψ : CfgFun (Option (Worm ℝ)) ℝ≥0∞)
    (h0 : ∀ X X' ω, 0 ≤ w X X' ω) (ω : Option (Worm ℝ)) (sw d c : ℝ) (hsw : 0 < sw) (hd : 0 < d) (hdc : d * c = sw)
    (X X' P Q : Multiset (BOp ℝ)) :
    φ (X + P) (X' + Q) none * ENNReal.ofReal (w (X + P) (X' + Q) none) *
        (ENNReal.ofReal d * hybInsT nf cw w ψ bl bl' c ω X X' P Q) =
      ENNReal.ofReal sw * (ψ X X' ω * ENNReal.ofReal (w X X' ω) *
        (ENNReal.ofReal (listDens (flavEnv nf) cw bl) * ENNReal.ofReal (listDens (flavEnv nf) cw bl') *
          hybRemT nf cw w φ bl bl' c ω X X' P Q)) := by
  have hlen : 0 < cw.hi - cw.lo := sub_pos.2 hcw.lt
  have hpk : 0 < pickP (flavEnv nf) cw bl X * pickP (flavEnv nf) cw bl' X' := mul_pos (pickP_pos _ _ _ _) (pickP_pos _ _ _ _)
  have hcp : 0 < c := by
    by_contra h
    push Not at h
    nlinarith
  have hC : 0 < hybC nf cw bl bl' c X X' := mul_pos (mul_pos (inv_pos.2 (pow_pos hlen _)) (inv_pos.2 hpk)) hcp
  have hld := listDens_flavEnv nf cw bl hbl
  have hld' := listDens_flavEnv nf cw bl' hbl'
  have hp1 := pow_pos hlen bl.length
  have hp2 := pow_pos hlen bl'.length
  have hdC : d * (pickP (flavEnv nf) cw bl X * pickP (flavEnv nf) cw bl' X') * hybC nf cw bl bl' c X X' =
      sw * (listDens (flavEnv nf) cw bl * listDens (flavEnv nf) cw bl') := by
    rw [hybC, hld, hld', ← hdc, pow_add]
    generalize pickP (flavEnv nf) cw bl X * pickP (flavEnv nf) cw bl' X' = a at hpk ⊢
    have h1 := hpk.ne'
    have h2 := hp1.ne'
    have h3 := hp2.ne'
    field_simp
  have hpp : 0 < sw * (listDens (flavEnv nf) cw bl * listDens (flavEnv nf) cw bl') := by
    rw [hld, hld']; positivity
  have key := metropolis_real (h0 (X + P) (X' + Q) none) (h0 X X' ω) hC hdC hpp
  have key' : ENNReal.ofReal (w (X + P) (X' + Q) none) * (ENNReal.ofReal d * ENNReal.ofReal (pickP (flavEnv nf) cw bl X * pickP (flavEnv nf) cw bl' X')) *
      ENNReal.ofReal (min 1 (w X X' ω / w (X + P) (X' + Q) none * hybC nf cw bl bl' c X X')) =
      ENNReal.ofReal (w X X' ω) * (ENNReal.ofReal sw * (ENNReal.ofReal (listDens (flavEnv nf) cw bl) *
        ENNReal.ofReal (listDens (flavEnv nf) cw bl'))) *
        ENNReal.ofReal (min 1 (w (X + P) (X' + Q) none / w X X' ω * (hybC nf cw bl bl' c X X')⁻¹)) := by
    rw [← ENNReal.ofReal_mul hd.le, ← ENNReal.ofReal_mul (h0 _ _ _), ← ENNReal.ofReal_mul (mul_nonneg (h0 _ _ _) (mul_pos hd hpk).le),
      key, ENNReal.ofReal_mul (mul_nonneg (h0 _ _ _) hpp.le), ENNReal.ofReal_mul (h0 _ _ _), ENNReal.ofReal_mul hsw.le,
      ENNReal.ofReal_mul (listDens_nonneg hcw _ _)]
  rw [hybInsT, hybRemT]
  calc _ = φ (X + P) (X' + Q) none * ψ X X' ω * (ENNReal.ofReal (w (X + P) (X' + Q) none) * (ENNReal.ofReal d * ENNReal.ofReal (pickP (flavEnv nf) cw bl X * pickP (flavEnv nf) cw bl' X')) *
      ENNReal.ofReal (min 1 (w X X' ω / w (X + P) (X' + Q) none * hybC nf cw bl bl' c X X'))) := by ring
    _ = _ := by rw [key']; ring

end CTHyb
