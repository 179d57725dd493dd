import Verif.ContGreenLemmas

/-!
Green's function worms made of operators of the bath (`GWormInsertionRemover`): balance with the weight of the worm space.
-/

namespace CTHyb

open Rand MeasureTheory ENNReal

variable {nf r : ℕ}

/-! ### Functions of the operators of the worm -/

open Classical in
/-- `F` at the worm with the operators `v`; zero if a flavor is out of range. -/
noncomputable def wv (nf r : ℕ) {A : Type} [AddCommMonoid A] (F : CfgFun (Option (Worm ℝ)) A) (X X' : Multiset (BOp ℝ))
    (v : Fin (2 * r) → BOp ℝ) : A :=
  ∑ fs : Fin (2 * r) → Fin nf, if (fun i => (v i).2) = (fun i => (fs i : ℕ)) then
    F X X' (some (mkW (.green r) (fun i => (v i).1) fs)) else 0

theorem sum_flav {A : Type} [AddCommMonoid A] {n : ℕ} (v : Fin n → BOp ℝ) (hv : ∀ i, (v i).2 < nf) (h : (Fin n → Fin nf) → A) :
    (∑ fs : Fin n → Fin nf, if (fun i => (v i).2) = (fun i => (fs i : ℕ)) then h fs else 0) = h fun i => ⟨(v i).2, hv i⟩ := by
  rw [Finset.sum_eq_single fun i => ⟨(v i).2, hv i⟩]
  · rw [if_pos rfl]
  · intro fs _ hne
    rw [if_neg]
    intro he
    exact hne (funext fun i => Fin.ext (congrFun he i).symm)
  · intro hn; exact absurd (Finset.mem_univ _) hn

theorem mkW_gMk (ts : Fin (2 * r) → ℝ) (fs : Fin (2 * r) → Fin nf) :
    mkW (.green r) ts fs = gMk r fun i => (ts i, (fs i : ℕ)) := rfl

theorem wv_eq {A : Type} [AddCommMonoid A] (F : CfgFun (Option (Worm ℝ)) A) (X X' : Multiset (BOp ℝ))
    (v : Fin (2 * r) → BOp ℝ) (hv : ∀ i, (v i).2 < nf) : wv nf r F X X' v = F X X' (some (gMk r v)) := by
  unfold wv
  convert sum_flav v hv fun fs => F X X' (some (mkW (.green r) (fun i => (v i).1) fs))
  rfl

theorem measurableSet_flav {n : ℕ} (fs : Fin n → Fin nf) : MeasurableSet {v : Fin n → BOp ℝ | (fun i => (v i).2) = fun i => (fs i : ℕ)} := by
  have h : Measurable fun v : Fin n → BOp ℝ => fun i => (v i).2 :=
    measurable_pi_iff.2 fun i => measurable_snd.comp (measurable_pi_apply i)
  exact h (measurableSet_singleton (fun i => (fs i : ℕ)))

theorem meas_times {n : ℕ} : Measurable fun v : Fin n → BOp ℝ => fun i => (v i).1 :=
  measurable_pi_iff.2 fun i => measurable_fst.comp (measurable_pi_apply i)

theorem measurable_wv {A : Type} [AddCommMonoid A] [MeasurableSpace A] [MeasurableAdd₂ A] {F : CfgFun (Option (Worm ℝ)) A}
    (hF : F.WMeas nf) (m n : ℕ) :
    Measurable fun q : Lab m n × (Fin (2 * r) → BOp ℝ) => wv nf r F (ms q.1.1) (ms q.1.2) q.2 := by
  unfold wv
  refine Finset.measurable_sum _ fun fs _ => ?_
  refine Measurable.ite ((measurableSet_flav fs).preimage measurable_snd) ?_ measurable_const
  exact (hF.worm (.green r) fs m n).comp ((meas_times.comp measurable_snd).prodMk measurable_fst)

/-! ### Insertion -/

/-- The acceptance of the worm made of the operators `e` and `e'`. -/
noncomputable def gT (r : ℕ) (C : ℝ) (w : CfgFun (Option (Worm ℝ)) ℝ) (ψ : CfgFun (Option (Worm ℝ)) ℝ≥0∞) {m n : ℕ} (z : Lab m n)
    (e : Fin r ↪ Fin m) (e' : Fin r ↪ Fin n) : ℝ≥0∞ :=
  accE w ψ (z.cfg none) ⟨List.ofFn (z.1 ∘ e), List.ofFn (z.2 ∘ e'), [], [],
    some (greenWorm r (List.ofFn (z.1 ∘ e)) (List.ofFn (z.2 ∘ e')))⟩ C

theorem gT_eq (r : ℕ) (C : ℝ) (w : CfgFun (Option (Worm ℝ)) ℝ) (ψ : CfgFun (Option (Worm ℝ)) ℝ≥0∞) {m n : ℕ} (z : Lab m n)
    (e : Fin r ↪ Fin m) (e' : Fin r ↪ Fin n) : gT r C w ψ z e e' =
      ENNReal.ofReal (min 1 (w (ms z.1 - ms (z.1 ∘ e)) (ms z.2 - ms (z.2 ∘ e'))
        (some (greenWorm r (List.ofFn (z.1 ∘ e)) (List.ofFn (z.2 ∘ e')))) / w (ms z.1) (ms z.2) none * C)) *
      ψ (ms z.1 - ms (z.1 ∘ e)) (ms z.2 - ms (z.2 ∘ e')) (some (greenWorm r (List.ofFn (z.1 ∘ e)) (List.ofFn (z.2 ∘ e')))) := by
  simp only [gT, accE, CfgFun.after, CfgFun.at, Multiset.coe_nil, add_zero]
  rfl

theorem gT_perm (r : ℕ) (C : ℝ) (w : CfgFun (Option (Worm ℝ)) ℝ) (ψ : CfgFun (Option (Worm ℝ)) ℝ≥0∞) {m n : ℕ} (z : Lab m n)
    (σ : Equiv.Perm (Fin m)) (τ : Equiv.Perm (Fin n)) (e : Fin r ↪ Fin m) (e' : Fin r ↪ Fin n) :
    gT r C w ψ (z.1 ∘ σ, z.2 ∘ τ) e e' = gT r C w ψ z (e.trans σ.toEmbedding) (e'.trans τ.toEmbedding) := by
  rw [gT_eq, gT_eq, ms_perm, ms_perm]
  rfl

theorem greenE_pick (s : ℝ) (w : CfgFun (Option (Worm ℝ)) ℝ) (ψ : CfgFun (Option (Worm ℝ)) ℝ≥0∞) {m n : ℕ} (z : Lab m n)
    (hm : r ≤ m) (hn : r ≤ n) : greenE r s w ψ (z.cfg none) =
      pickD m r * pickD n r * ∑ e, ∑ e', gT r (s * fallingFac (m : ℝ) r ^ 2) w ψ z e e' := by
  have hl : (List.ofFn z.1).length = m := List.length_ofFn
  show propE w ψ (z.cfg none) (greenPropose r s (z.cfg none)) = _
  unfold propE greenPropose
  show meanE (if (List.ofFn z.1).length < r then _ else _) _ = _
  rw [if_neg (by rw [hl]; omega), meanE_bind (nonneg_pickOps _ _)]
  show meanE (pickOps (List.ofFn z.1) r) _ = _
  rw [meanE_pickOps hm, mul_assoc]
  congr 1
  rw [Finset.mul_sum]
  refine Finset.sum_congr rfl fun e _ => ?_
  rw [meanE_bind (nonneg_pickOps _ _)]
  show meanE (pickOps (List.ofFn z.2) r) _ = _
  rw [meanE_pickOps hn]
  congr 1
  refine Finset.sum_congr rfl fun e' _ => ?_
  rw [meanE_ret]
  show accE w ψ (z.cfg none) _ (s * fallingFac ((List.ofFn z.1).length : ℝ) r ^ 2) = _
  rw [hl]
  rfl

theorem greenE_few (s : ℝ) (w : CfgFun (Option (Worm ℝ)) ℝ) (ψ : CfgFun (Option (Worm ℝ)) ℝ≥0∞) {m n : ℕ} (z : Lab m n)
    (hm : m < r) : greenE r s w ψ (z.cfg none) = 0 := by
  have hl : (List.ofFn z.1).length = m := List.length_ofFn
  show propE w ψ (z.cfg none) (greenPropose r s (z.cfg none)) = _
  unfold propE greenPropose
  show meanE (if (List.ofFn z.1).length < r then _ else _) _ = _
  rw [if_pos (by rw [hl]; omega), meanE_ret]

theorem accE_zero {w : CfgFun (Option (Worm ℝ)) ℝ} {ψ : CfgFun (Option (Worm ℝ)) ℝ≥0∞} {x : WCfg ℝ} (h : w.at x = 0)
    (mv : Mv ℝ (Option (Worm ℝ))) (c : ℝ) : accE w ψ x mv c = 0 := by
  unfold accE
  rw [h]
  simp

theorem greenE_zero (s : ℝ) {w : CfgFun (Option (Worm ℝ)) ℝ} (ψ : CfgFun (Option (Worm ℝ)) ℝ≥0∞) {x : WCfg ℝ} (h : w.at x = 0) :
    greenE r s w ψ x = 0 := by
  have : propE w ψ x (greenPropose r s x) = 0 := by
    unfold propE
    refine (meanE_congr (g := fun _ => 0) fun p _ => ?_).trans (meanE_zero _)
    rcases p.2 with _ | ⟨mv, c⟩
    · rfl
    · exact accE_zero h mv c
  unfold greenE
  split
  · exact this
  · split_ifs
    · exact this
    · rfl

/-- The flow of the insertion for the last labels. -/
noncomputable def gG (nf r : ℕ) (C : ℝ) (w : CfgFun (Option (Worm ℝ)) ℝ) (φ ψ : CfgFun (Option (Worm ℝ)) ℝ≥0∞) {a b : ℕ}
    (q : Lab a b × Lab r r) : ℝ≥0∞ :=
  φ (ms q.1.1 + ms q.2.1) (ms q.1.2 + ms q.2.2) none * ENNReal.ofReal (w (ms q.1.1 + ms q.2.1) (ms q.1.2 + ms q.2.2) none) *
    (ENNReal.ofReal (min 1 (wv nf r w (ms q.1.1) (ms q.1.2) (mergeV q.2) / w (ms q.1.1 + ms q.2.1) (ms q.1.2 + ms q.2.2) none * C)) *
      wv nf r ψ (ms q.1.1) (ms q.1.2) (mergeV q.2))

theorem measurable_flow {Y : Type} [MeasurableSpace Y] {A D : Y → ℝ≥0∞} {u v : Y → ℝ} (hA : Measurable A) (hu : Measurable u)
    (hv : Measurable v) (hD : Measurable D) (C : ℝ) :
    Measurable fun q => A q * ENNReal.ofReal (u q) * (ENNReal.ofReal (min 1 (v q / u q * C)) * D q) :=
  (hA.mul (ENNReal.measurable_ofReal.comp hu)).mul
    ((ENNReal.measurable_ofReal.comp (measurable_const.min ((hv.div hu).mul measurable_const))).mul hD)

theorem measurable_gG (C : ℝ) {w : CfgFun (Option (Worm ℝ)) ℝ} {φ ψ : CfgFun (Option (Worm ℝ)) ℝ≥0∞} (hw : w.WMeas nf) (hφ : φ.WMeas nf)
    (hψ : ψ.WMeas nf) (a b : ℕ) : Measurable fun q : Lab a b × Lab r r => gG nf r C w φ ψ q := by
  have hmg : Measurable fun q : Lab a b × Lab r r => (q.1, mergeV q.2) :=
    measurable_fst.prodMk ((measurable_mergeV r).comp measurable_snd)
  have h1 : Measurable fun q : Lab a b × Lab r r => φ (ms q.1.1 + ms q.2.1) (ms q.1.2 + ms q.2.2) none := hφ.none.add a b r
  have h2 : Measurable fun q : Lab a b × Lab r r => w (ms q.1.1 + ms q.2.1) (ms q.1.2 + ms q.2.2) none := hw.none.add a b r
  have h3 : Measurable fun q : Lab a b × Lab r r => wv nf r w (ms q.1.1) (ms q.1.2) (mergeV q.2) := by
    have := measurable_wv (r := r) hw a b
    generalize wv nf r w = f at this ⊢
    exact this.comp hmg
  have h4 : Measurable fun q : Lab a b × Lab r r => wv nf r ψ (ms q.1.1) (ms q.1.2) (mergeV q.2) := by
    have := measurable_wv (r := r) hψ a b
    generalize wv nf r ψ = f at this ⊢
    exact this.comp hmg
  unfold gG
  generalize wv nf r w = f at h3 ⊢
  generalize wv nf r ψ = g at h4 ⊢
  exact measurable_flow h1 h2 h3 h4 C

theorem ms_split {a r : ℕ} (y : Fin (a + r) → BOp ℝ) : ms y = ms (y ∘ Fin.castAdd r) + ms (y ∘ Fin.natAdd a) := by
  rw [← ms_append]
  congr 1
  exact (Fin.append_castAdd_natAdd (f := y)).symm

theorem gT_last (C : ℝ) (w : CfgFun (Option (Worm ℝ)) ℝ) (φ ψ : CfgFun (Option (Worm ℝ)) ℝ≥0∞) {a b : ℕ} (z : Lab (a + r) (b + r))
    (hz : (∀ i, (z.1 i).2 < nf) ∧ ∀ i, (z.2 i).2 < nf) :
    φ.at (z.cfg none) * ENNReal.ofReal (w.at (z.cfg none)) * gT r C w ψ z (lastE a r) (lastE b r) =
      gG nf r C w φ ψ ((z.1 ∘ Fin.castAdd r, z.2 ∘ Fin.castAdd r), (z.1 ∘ Fin.natAdd a, z.2 ∘ Fin.natAdd b)) := by
  have hv : ∀ j, (mergeV (z.1 ∘ Fin.natAdd a, z.2 ∘ Fin.natAdd b) j).2 < nf := by
    intro j
    unfold mergeV
    split_ifs
    · exact hz.2 _
    · exact hz.1 _
  have e1 : ms z.1 - ms (z.1 ∘ lastE a r) = ms (z.1 ∘ Fin.castAdd r) := by
    rw [ms_split z.1]
    exact add_tsub_cancel_right _ _
  have e2 : ms z.2 - ms (z.2 ∘ lastE b r) = ms (z.2 ∘ Fin.castAdd r) := by
    rw [ms_split z.2]
    exact add_tsub_cancel_right _ _
  have e3 : greenWorm r (List.ofFn (z.1 ∘ lastE a r)) (List.ofFn (z.2 ∘ lastE b r)) =
      gMk r (mergeV (z.1 ∘ Fin.natAdd a, z.2 ∘ Fin.natAdd b)) := by
    rw [← greenWorm_gMk, oddV_mergeV, evenV_mergeV]
    rfl
  rw [gT_eq, e1, e2, e3]
  unfold gG
  rw [wv_eq _ _ _ _ hv, wv_eq _ _ _ _ hv, ← ms_split, ← ms_split]
  rfl

theorem pickD_mul (a : ℕ) : pickD (a + r) r * (((a + r).descFactorial r : ℕ) : ℝ≥0∞) = 1 := by
  have h := Nat.factorial_mul_descFactorial (show r ≤ a + r by omega)
  unfold pickD
  rw [← ENNReal.ofReal_natCast, ← ENNReal.ofReal_mul (by positivity), div_mul_eq_mul_div, ← Nat.cast_mul, h,
    div_self (Nat.cast_ne_zero.2 (Nat.factorial_ne_zero _)), ENNReal.ofReal_one]

theorem pickD_ne_top (N n : ℕ) : pickD N n ≠ ∞ := ENNReal.ofReal_ne_top

theorem ae_flav_lab (β : ℝ) (m n : ℕ) : ∀ᵐ z ∂labMeasure β nf m n, (∀ i, (z.1 i).2 < nf) ∧ ∀ i, (z.2 i).2 < nf := by
  filter_upwards [ae_labels β nf m n] with z hz
  exact ⟨hz.1.2, hz.2.2⟩

theorem green_ins {β : ℝ} (s : ℝ) {w : CfgFun (Option (Worm ℝ)) ℝ} {φ ψ : CfgFun (Option (Worm ℝ)) ℝ≥0∞} (hw : w.WMeas nf)
    (hφ : φ.WMeas nf) (hψ : ψ.WMeas nf) (a b : ℕ) :
    orderFlow β nf (a + r) (b + r) none φ w (greenE r s w ψ) = (((a + r).factorial * (b + r).factorial : ℕ) : ℝ≥0∞)⁻¹ *
      ∫⁻ z : Lab a b, (∫⁻ v : Lab r r, gG nf r (s * fallingFac ((a + r : ℕ) : ℝ) r ^ 2) w φ ψ (z, v) ∂(labMeasure β nf r r))
        ∂(labMeasure β nf a b) := by
  unfold orderFlow
  congr 1
  set C := s * fallingFac ((a + r : ℕ) : ℝ) r ^ 2 with hC
  have hmG := measurable_gG C hw hφ hψ a b (r := r)
  have hsp : Measurable fun z : Lab (a + r) (b + r) => (((z.1 ∘ Fin.castAdd r, z.2 ∘ Fin.castAdd r),
      (z.1 ∘ Fin.natAdd a, z.2 ∘ Fin.natAdd b)) : Lab a b × Lab r r) :=
    (((measurable_comp_fin _).comp measurable_fst).prodMk ((measurable_comp_fin _).comp measurable_snd)).prodMk
      (((measurable_comp_fin _).comp measurable_fst).prodMk ((measurable_comp_fin _).comp measurable_snd))
  have hae : (fun z : Lab (a + r) (b + r) => φ.at (z.cfg none) * ENNReal.ofReal (w.at (z.cfg none)) *
        gT r C w ψ z (lastE a r) (lastE b r)) =ᵐ[labMeasure β nf (a + r) (b + r)]
      fun z => gG nf r C w φ ψ ((z.1 ∘ Fin.castAdd r, z.2 ∘ Fin.castAdd r), (z.1 ∘ Fin.natAdd a, z.2 ∘ Fin.natAdd b)) := by
    filter_upwards [ae_flav_lab β (a + r) (b + r)] with z hz
    exact gT_last C w φ ψ z hz
  have e1 : ∀ z : Lab (a + r) (b + r), φ.at (z.cfg none) * ENNReal.ofReal (w.at (z.cfg none)) * greenE r s w ψ (z.cfg none) =
      pickD (a + r) r * pickD (b + r) r * ∑ e, ∑ e', φ.at (z.cfg none) * ENNReal.ofReal (w.at (z.cfg none)) * gT r C w ψ z e e' := by
    intro z
    rw [greenE_pick s w ψ z (by omega) (by omega), ← hC]
    simp only [← Finset.mul_sum]
    rw [mul_left_comm]
  simp only [e1]
  rw [lintegral_const_mul' _ _ (ENNReal.mul_ne_top (pickD_ne_top _ _) (pickD_ne_top _ _)),
    lintegral_choices (fun z e e' => φ.at (z.cfg none) * ENNReal.ofReal (w.at (z.cfg none)) * gT r C w ψ z e e'),
    lintegral_congr_ae hae, lintegral_lab_split β nf a b r hmG, Nat.cast_mul, ← mul_assoc]
  · rw [mul_mul_mul_comm, pickD_mul, pickD_mul, one_mul, one_mul]
  · intro z σ τ e e'
    beta_reduce
    rw [gT_perm]
    congr 2
    · show φ (ms (z.1 ∘ σ)) (ms (z.2 ∘ τ)) none = φ (ms z.1) (ms z.2) none
      rw [ms_perm, ms_perm]
    · show ENNReal.ofReal (w (ms (z.1 ∘ σ)) (ms (z.2 ∘ τ)) none) = ENNReal.ofReal (w (ms z.1) (ms z.2) none)
      rw [ms_perm, ms_perm]
  · exact (hmG.comp hsp).aemeasurable.congr hae.symm

/-! ### Removal -/

theorem greenE_gMk (s : ℝ) (w : CfgFun (Option (Worm ℝ)) ℝ) (φ : CfgFun (Option (Worm ℝ)) ℝ≥0∞) {m n : ℕ} (z : Lab m n)
    (v : Fin (2 * r) → BOp ℝ) : greenE r s w φ (z.cfg (some (gMk r v))) =
      ENNReal.ofReal (min 1 (w (ms z.1 + ms (oddV v)) (ms z.2 + ms (evenV v)) none / w (ms z.1) (ms z.2) (some (gMk r v)) *
        (1 / (s * fallingFac ((m + r : ℕ) : ℝ) r ^ 2)))) * φ (ms z.1 + ms (oddV v)) (ms z.2 + ms (evenV v)) none := by
  have hl : (List.ofFn z.1).length = m := List.length_ofFn
  show (if (gMk r v).kind = .green r then propE w φ (z.cfg (some (gMk r v))) (greenPropose r s (z.cfg (some (gMk r v)))) else 0) = _
  rw [if_pos (show (gMk r v).kind = .green r from rfl)]
  unfold propE greenPropose
  show meanE (ret (some (_, 1 / (s * fallingFac (((List.ofFn z.1).length + r : ℕ) : ℝ) r ^ 2)))) _ = _
  rw [meanE_ret, hl]
  show accE w φ (z.cfg (some (gMk r v))) ⟨[], [], greenOps r (gMk r v) 1, greenOps r (gMk r v) 0, none⟩ _ = _
  rw [(gMk_ops r v).1, (gMk_ops r v).2]
  simp only [accE, CfgFun.after, CfgFun.at, Multiset.coe_nil, tsub_zero]
  rfl

theorem greenE_other (s : ℝ) (w : CfgFun (Option (Worm ℝ)) ℝ) (φ : CfgFun (Option (Worm ℝ)) ℝ≥0∞) {m n : ℕ} (z : Lab m n)
    (u : Worm ℝ) (hu : u.kind ≠ .green r) : greenE r s w φ (z.cfg (some u)) = 0 := by
  show (if u.kind = .green r then _ else 0) = _
  rw [if_neg hu]

theorem measurable_greenE (s : ℝ) {w : CfgFun (Option (Worm ℝ)) ℝ} {φ : CfgFun (Option (Worm ℝ)) ℝ≥0∞} (hw : w.WMeas nf)
    (hφ : φ.WMeas nf) (k : WormKind) (fs : Fin k.numFlavors → Fin nf) (m n : ℕ) :
    Measurable fun y : (Fin k.numTimes → ℝ) × Lab m n => greenE r s w φ (y.2.cfg (some (mkW k y.1 fs))) := by
  by_cases hk : k = .green r
  · subst hk
    have hv : Measurable fun y : (Fin (2 * r) → ℝ) × Lab m n => (y.2, ((oddV fun i => (y.1 i, (fs i : ℕ)),
        evenV fun i => (y.1 i, (fs i : ℕ))) : Lab r r)) := by
      refine measurable_snd.prodMk (Measurable.prodMk (measurable_pi_iff.2 fun i => ?_) (measurable_pi_iff.2 fun i => ?_))
      · exact ((measurable_pi_apply _).comp measurable_fst).prodMk measurable_const
      · exact ((measurable_pi_apply _).comp measurable_fst).prodMk measurable_const
    have h1 : Measurable fun y : (Fin (2 * r) → ℝ) × Lab m n => φ (ms y.2.1 + ms (oddV fun i => (y.1 i, (fs i : ℕ))))
        (ms y.2.2 + ms (evenV fun i => (y.1 i, (fs i : ℕ)))) none := (hφ.none.add m n r).comp hv
    have h2 : Measurable fun y : (Fin (2 * r) → ℝ) × Lab m n => w (ms y.2.1 + ms (oddV fun i => (y.1 i, (fs i : ℕ))))
        (ms y.2.2 + ms (evenV fun i => (y.1 i, (fs i : ℕ)))) none := (hw.none.add m n r).comp hv
    have h3 : Measurable fun y : (Fin (2 * r) → ℝ) × Lab m n => w (ms y.2.1) (ms y.2.2) (some (mkW (.green r) y.1 fs)) :=
      hw.worm (.green r) fs m n
    have e : ∀ y : (Fin (2 * r) → ℝ) × Lab m n, greenE r s w φ (y.2.cfg (some (mkW (.green r) y.1 fs))) = _ := fun y =>
      greenE_gMk s w φ y.2 fun i => (y.1 i, (fs i : ℕ))
    refine (funext e : _ = _) ▸ ?_
    exact (ENNReal.measurable_ofReal.comp (measurable_const.min ((h2.div h3).mul measurable_const))).mul h1
  · have e : ∀ y : (Fin k.numTimes → ℝ) × Lab m n, greenE r s w φ (y.2.cfg (some (mkW k y.1 fs))) = 0 := fun y =>
      greenE_other s w φ y.2 _ hk
    simp only [e]
    exact measurable_const

theorem green_rem {β : ℝ} {K : WCfg ℝ → ℝ≥0∞} {w : CfgFun (Option (Worm ℝ)) ℝ} {ψ : CfgFun (Option (Worm ℝ)) ℝ≥0∞} (hw : w.WMeas nf)
    (hψ : ψ.WMeas nf) (hK : ∀ (fs : Fin (WormKind.green r).numFlavors → Fin nf) (m n : ℕ),
      Measurable fun y : (Fin (WormKind.green r).numTimes → ℝ) × Lab m n => K (y.2.cfg (some (mkW (.green r) y.1 fs)))) (a b : ℕ) :
    ∫⁻ y, ∑ fs : Fin (WormKind.green r).numFlavors → Fin nf, flowAt nf ψ w K (.green r) fs y
        ∂((wTimes β (WormKind.green r).numTimes).prod (labMeasure β nf a b)) =
      ∫⁻ z : Lab a b, (∫⁻ v : Lab r r, ψ (ms z.1) (ms z.2) (some (gMk r (mergeV v))) *
        ENNReal.ofReal (w (ms z.1) (ms z.2) (some (gMk r (mergeV v)))) * K (z.cfg (some (gMk r (mergeV v)))) ∂(labMeasure β nf r r))
        ∂(labMeasure β nf a b) := by
  have hm : ∀ fs : Fin (WormKind.green r).numFlavors → Fin nf, Measurable fun y : (Fin (WormKind.green r).numTimes → ℝ) × Lab a b =>
      flowAt nf ψ w K (.green r) fs y := fun fs => measurable_flowAt hψ hw (hK fs a b)
  rw [lintegral_prod_symm _ (Finset.measurable_sum _ fun fs _ => hm fs).aemeasurable]
  refine lintegral_congr fun z => ?_
  refine (lintegral_ops_flav β nf (2 * r) (fun ts fs => flowAt nf ψ w K (.green r) fs (ts, z))
    fun fs => measurable_left (hm fs) z).symm.trans ?_
  have hmv : Measurable fun v : Fin (2 * r) → BOp ℝ => ∑ fs : Fin (2 * r) → Fin nf,
      (if (fun i => (v i).2) = (fun i => (fs i : ℕ)) then flowAt nf ψ w K (.green r) fs (fun i => (v i).1, z) else 0) :=
    Finset.measurable_sum _ fun fs _ => Measurable.ite (measurableSet_flav fs)
      ((measurable_left (hm fs) z).comp meas_times) measurable_const
  have e : ∀ v : Fin (2 * r) → BOp ℝ, (∑ fs : Fin (2 * r) → Fin nf,
      (if (fun i => (v i).2) = (fun i => (fs i : ℕ)) then flowAt nf ψ w K (.green r) fs (fun i => (v i).1, z) else 0)) =
      (fun v' : Lab r r => ∑ fs : Fin (2 * r) → Fin nf, (if (fun i => (mergeV v' i).2) = (fun i => (fs i : ℕ)) then
        flowAt nf ψ w K (.green r) fs (fun i => (mergeV v' i).1, z) else 0)) (oddV v, evenV v) := by
    intro v
    beta_reduce
    rw [mergeV_split]
  refine (lintegral_congr e).trans ?_
  refine ((oddEven_mp β nf r).lintegral_comp (hmv.comp (measurable_mergeV r))).trans ?_
  refine lintegral_congr_ae ?_
  filter_upwards [ae_flav_lab β r r] with v hv
  have hv' : ∀ j, (mergeV v j).2 < nf := by
    intro j
    unfold mergeV
    split_ifs
    · exact hv.2 _
    · exact hv.1 _
  exact sum_flav (mergeV v) hv' fun fs => flowAt nf ψ w K (.green r) fs (fun i => (mergeV v i).1, z)

theorem fac_green (a : ℕ) {s : ℝ} (hs : 0 < s) : (((a + r).factorial * (a + r).factorial : ℕ) : ℝ≥0∞)⁻¹ *
    ENNReal.ofReal (s * fallingFac ((a + r : ℕ) : ℝ) r ^ 2) = ENNReal.ofReal s * ((a.factorial * a.factorial : ℕ) : ℝ≥0∞)⁻¹ := by
  have h := Nat.factorial_mul_descFactorial (show r ≤ a + r by omega)
  rw [Nat.add_sub_cancel] at h
  have hD : 0 < (a + r).descFactorial r := Nat.descFactorial_pos.2 (by omega)
  have hc : ∀ n : ℕ, 0 < n → ((n : ℕ) : ℝ≥0∞)⁻¹ = ENNReal.ofReal ((n : ℝ)⁻¹) := fun n hn => by
    rw [ENNReal.ofReal_inv_of_pos (by exact_mod_cast hn), ENNReal.ofReal_natCast]
  rw [fallingFac_natCast, hc _ (by positivity), hc _ (by positivity), ← ENNReal.ofReal_mul (by positivity),
    ← ENNReal.ofReal_mul hs.le]
  congr 1
  have ha : (a.factorial : ℝ) ≠ 0 := Nat.cast_ne_zero.2 (Nat.factorial_ne_zero _)
  have hd : ((a + r).descFactorial r : ℝ) ≠ 0 := Nat.cast_ne_zero.2 hD.ne'
  rw [← h]
  push_cast
  field_simp

theorem green_order {β : ℝ} {s : ℝ} (hs : 0 < s) {w : CfgFun (Option (Worm ℝ)) ℝ} {φ ψ : CfgFun (Option (Worm ℝ)) ℝ≥0∞}
    (hw : w.WMeas nf) (hφ : φ.WMeas nf) (hψ : ψ.WMeas nf) (h0 : ∀ X X' ω, 0 ≤ w X X' ω)
    (hc : ∀ X X' ω, w X X' ω ≠ 0 → X.card = X'.card) (a b : ℕ) :
    orderFlow β nf (a + r) (b + r) none φ w (greenE r s w ψ) = ENNReal.ofReal s * (((a.factorial * b.factorial : ℕ) : ℝ≥0∞)⁻¹ *
      ∫⁻ y, ∑ fs : Fin (WormKind.green r).numFlavors → Fin nf, flowAt nf ψ w (greenE r s w φ) (.green r) fs y
        ∂((wTimes β (WormKind.green r).numTimes).prod (labMeasure β nf a b))) := by
  by_cases hab : a = b
  · subst hab
    rw [green_ins s hw hφ hψ, green_rem hw hψ (measurable_greenE s hw hφ _)]
    have hD : 0 < (a + r).descFactorial r := Nat.descFactorial_pos.2 (by omega)
    have hC : 0 < s * fallingFac ((a + r : ℕ) : ℝ) r ^ 2 := by
      rw [fallingFac_natCast]
      positivity
    rw [← mul_assoc (ENNReal.ofReal s), ← fac_green a hs, mul_assoc]
    congr 1
    rw [← lintegral_const_mul' _ _ ENNReal.ofReal_ne_top]
    refine lintegral_congr fun z => ?_
    rw [← lintegral_const_mul' _ _ ENNReal.ofReal_ne_top]
    refine lintegral_congr_ae ?_
    filter_upwards [ae_flav_lab β r r] with v hv
    have hv' : ∀ j, (mergeV v j).2 < nf := by
      intro j
      unfold mergeV
      split_ifs
      · exact hv.2 _
      · exact hv.1 _
    unfold gG
    rw [wv_eq _ _ _ _ hv', wv_eq _ _ _ _ hv', greenE_gMk, oddV_mergeV, evenV_mergeV]
    have := ofReal_metropolis (h0 (ms z.1 + ms v.1) (ms z.2 + ms v.2) none) (h0 (ms z.1) (ms z.2) (some (gMk r (mergeV v)))) hC
      (one_mul _) hC one_pos (φ (ms z.1 + ms v.1) (ms z.2 + ms v.2) none) (ψ (ms z.1) (ms z.2) (some (gMk r (mergeV v))))
    rw [ENNReal.ofReal_one, one_mul] at this
    exact this
  · have hw0 : ∀ m n (z : Lab m n) ω, m ≠ n → w (ms z.1) (ms z.2) ω = 0 := by
      intro m n z ω hmn
      by_contra h
      have := hc _ _ _ h
      simp only [ms, Multiset.coe_card, List.length_ofFn] at this
      exact hmn this
    have e1 : orderFlow β nf (a + r) (b + r) none φ w (greenE r s w ψ) = 0 := by
      unfold orderFlow
      have : ∀ z : Lab (a + r) (b + r), w.at (z.cfg none) = 0 := fun z => hw0 _ _ z none (by omega)
      simp only [this, ENNReal.ofReal_zero, mul_zero, zero_mul, lintegral_zero]
    rw [e1]
    unfold flowAt
    simp only [hw0 a b _ _ hab, ENNReal.ofReal_zero, mul_zero, zero_mul, Finset.sum_const_zero, lintegral_zero]

theorem green_balance {β : ℝ} {s : ℝ} (hs : 0 < s) {w : CfgFun (Option (Worm ℝ)) ℝ} {φ ψ : CfgFun (Option (Worm ℝ)) ℝ≥0∞}
    (hw : w.WMeas nf) (hφ : φ.WMeas nf) (hψ : ψ.WMeas nf) (h0 : ∀ X X' ω, 0 ≤ w X X' ω)
    (hc : ∀ X X' ω, w X X' ω ≠ 0 → X.card = X'.card) :
    allFlow β nf none φ w (greenE r s w ψ) = ENNReal.ofReal s * kindFlow β nf ψ w (greenE r s w φ) (.green r) := by
  rw [kindFlow_prod hψ hw _ (measurable_greenE s hw hφ _), ← ENNReal.tsum_mul_left]
  unfold allFlow
  have hi : Function.Injective fun p : ℕ × ℕ => (p.1 + r, p.2 + r) := by
    intro p q hpq
    simp only [Prod.mk.injEq, Nat.add_right_cancel_iff] at hpq
    exact Prod.ext hpq.1 hpq.2
  rw [← hi.tsum_eq (f := fun p : ℕ × ℕ => orderFlow β nf p.1 p.2 none φ w (greenE r s w ψ))]
  · exact tsum_congr fun p => green_order hs hw hφ hψ h0 hc p.1 p.2
  · intro p hp
    by_contra hr
    refine hp ?_
    show orderFlow β nf p.1 p.2 none φ w (greenE r s w ψ) = 0
    unfold orderFlow
    have hz : ∀ z : Lab p.1 p.2, φ.at (z.cfg none) * ENNReal.ofReal (w.at (z.cfg none)) * greenE r s w ψ (z.cfg none) = 0 := by
      intro z
      by_cases hlt : p.1 < r
      · rw [greenE_few s w ψ z hlt, mul_zero]
      · have hne : p.1 ≠ p.2 := fun he => hr ⟨(p.1 - r, p.2 - r), Prod.ext (Nat.sub_add_cancel (by omega)) (Nat.sub_add_cancel (by omega))⟩
        have : w.at (z.cfg none) = 0 := by
          by_contra h
          have := hc _ _ _ h
          simp only [Lab.cfg, Multiset.coe_card, List.length_ofFn] at this
          exact hne this
        rw [this, ENNReal.ofReal_zero, mul_zero, zero_mul]
    rw [lintegral_congr hz, lintegral_zero, mul_zero]

theorem sum_one {α : Type} {l : List α} (hn : l.Nodup) {k : α} (hk : k ∈ l) (f : α → ℝ≥0∞) (h : ∀ k', k' ≠ k → f k' = 0) :
    (l.map f).sum = f k := by
  classical
  rw [← List.sum_toFinset _ hn]
  exact Finset.sum_eq_single k (fun k' _ hk' => h k' hk') fun hn => absurd (List.mem_toFinset.2 hk) hn

theorem green_reversible {β : ℝ} {kinds : List WormKind} (hn : kinds.Nodup) (hk : .green r ∈ kinds) {sw : WormKind → ℝ}
    (hsw : ∀ k ∈ kinds, 0 < sw k) {w : CfgFun (Option (Worm ℝ)) ℝ} {φ ψ : CfgFun (Option (Worm ℝ)) ℝ≥0∞}
    (hw : w.WMeas nf) (hφ : φ.WMeas nf) (hψ : ψ.WMeas nf) (h0 : ∀ X X' ω, 0 ≤ w X X' ω)
    (hc : ∀ X X' ω, w X X' ω ≠ 0 → X.card = X'.card) :
    wFlow β nf kinds sw φ w (greenE r (sw (.green r)) w ψ) = wFlow β nf kinds sw ψ w (greenE r (sw (.green r)) w φ) := by
  have key : ∀ φ ψ : CfgFun (Option (Worm ℝ)) ℝ≥0∞, wFlow β nf kinds sw φ w (greenE r (sw (.green r)) w ψ) =
      allFlow β nf none φ w (greenE r (sw (.green r)) w ψ) +
        ENNReal.ofReal (sw (.green r)) * kindFlow β nf φ w (greenE r (sw (.green r)) w ψ) (.green r) := by
    intro φ ψ
    unfold wFlow
    congr 1
    refine sum_one hn hk _ fun k' hk' => ?_
    rw [kindFlow_zero φ w fun ts fs m n z => greenE_other _ w ψ z (mkW k' ts fs) hk', mul_zero]
  rw [key, key, green_balance (hsw _ hk) hw hφ hψ h0 hc, ← green_balance (hsw _ hk) hw hψ hφ h0 hc, add_comm]

theorem greenE_le (s : ℝ) (w : CfgFun (Option (Worm ℝ)) ℝ) (x : WCfg ℝ) : greenE r s w (fun _ _ _ => 1) x ≤ 1 := by
  have h : propE w (fun _ _ _ => 1) x (greenPropose r s x) ≤ 1 := by
    refine propE_le w x ?_
    unfold greenPropose
    split
    · exact SubProb.ofMean (nnr_ret _) (by simp)
    · split_ifs
      · exact SubProb.ofMean (nnr_ret _) (by simp)
      · exact SubProb.bind (nonneg_pickOps _ _) (SubProb.ofMean (nonneg_pickOps _ _) (prob_pickOps _ _)) fun _ =>
          SubProb.bind (nonneg_pickOps _ _) (SubProb.ofMean (nonneg_pickOps _ _) (prob_pickOps _ _)) fun _ =>
          SubProb.ofMean (nnr_ret _) (by simp)
  unfold greenE
  split
  · exact h
  · split_ifs
    · exact h
    · exact zero_le

/-! ### Without worm: measurable on the good configurations -/

theorem gT_nice (C : ℝ) {w : CfgFun (Option (Worm ℝ)) ℝ} {ψ : CfgFun (Option (Worm ℝ)) ℝ≥0∞} (hw : w.WMeas nf) (hψ : ψ.WMeas nf)
    (a b : ℕ) (e : Fin r ↪ Fin (a + r)) (e' : Fin r ↪ Fin (b + r)) : ∃ g : Lab (a + r) (b + r) → ℝ≥0∞, Measurable g ∧
      ∀ z, ((∀ i, (z.1 i).2 < nf) ∧ ∀ i, (z.2 i).2 < nf) → gT r C w ψ z e e' = g z := by
  obtain ⟨σ, hσ⟩ := perm_of_emb e
  obtain ⟨τ, hτ⟩ := perm_of_emb e'
  have hmg : Measurable fun q : Lab a b × Lab r r => (q.1, mergeV q.2) :=
    measurable_fst.prodMk ((measurable_mergeV r).comp measurable_snd)
  have h2 : Measurable fun q : Lab a b × Lab r r => w (ms q.1.1 + ms q.2.1) (ms q.1.2 + ms q.2.2) none := hw.none.add a b r
  have h3 : Measurable fun q : Lab a b × Lab r r => wv nf r w (ms q.1.1) (ms q.1.2) (mergeV q.2) := by
    have := measurable_wv (r := r) hw a b
    generalize wv nf r w = f at this ⊢
    exact this.comp hmg
  have h4 : Measurable fun q : Lab a b × Lab r r => wv nf r ψ (ms q.1.1) (ms q.1.2) (mergeV q.2) := by
    have := measurable_wv (r := r) hψ a b
    generalize wv nf r ψ = f at this ⊢
    exact this.comp hmg
  have hsp : Measurable fun z : Lab (a + r) (b + r) => ((((z.1 ∘ σ) ∘ Fin.castAdd r, (z.2 ∘ τ) ∘ Fin.castAdd r),
      ((z.1 ∘ σ) ∘ Fin.natAdd a, (z.2 ∘ τ) ∘ Fin.natAdd b)) : Lab a b × Lab r r) :=
    (((measurable_comp_fin (σ ∘ Fin.castAdd r)).comp measurable_fst).prodMk
      ((measurable_comp_fin (τ ∘ Fin.castAdd r)).comp measurable_snd)).prodMk
      (((measurable_comp_fin (σ ∘ Fin.natAdd a)).comp measurable_fst).prodMk
      ((measurable_comp_fin (τ ∘ Fin.natAdd b)).comp measurable_snd))
  have hg : Measurable fun q : Lab a b × Lab r r =>
      ENNReal.ofReal (min 1 (wv nf r w (ms q.1.1) (ms q.1.2) (mergeV q.2) / w (ms q.1.1 + ms q.2.1) (ms q.1.2 + ms q.2.2) none * C)) *
      wv nf r ψ (ms q.1.1) (ms q.1.2) (mergeV q.2) := by
    generalize wv nf r w = f at h3 ⊢
    generalize wv nf r ψ = g at h4 ⊢
    exact (ENNReal.measurable_ofReal.comp (measurable_const.min ((h3.div h2).mul measurable_const))).mul h4
  refine ⟨_, hg.comp hsp, fun z hz => ?_⟩
  have hv : ∀ j, (mergeV ((z.1 ∘ σ) ∘ Fin.natAdd a, (z.2 ∘ τ) ∘ Fin.natAdd b) j).2 < nf := by
    intro j
    unfold mergeV
    split_ifs
    · exact hz.2 _
    · exact hz.1 _
  have et : gT r C w ψ z e e' = gT r C w ψ (z.1 ∘ σ, z.2 ∘ τ) (lastE a r) (lastE b r) := by
    rw [gT_perm]
    congr 1
    · exact DFunLike.ext _ _ fun i => (hσ i).symm
    · exact DFunLike.ext _ _ fun i => (hτ i).symm
  have e1 : ms (z.1 ∘ σ) - ms ((z.1 ∘ σ) ∘ lastE a r) = ms ((z.1 ∘ σ) ∘ Fin.castAdd r) := by
    rw [ms_split (z.1 ∘ σ)]
    exact add_tsub_cancel_right _ _
  have e2 : ms (z.2 ∘ τ) - ms ((z.2 ∘ τ) ∘ lastE b r) = ms ((z.2 ∘ τ) ∘ Fin.castAdd r) := by
    rw [ms_split (z.2 ∘ τ)]
    exact add_tsub_cancel_right _ _
  have e3 : greenWorm r (List.ofFn ((z.1 ∘ σ) ∘ lastE a r)) (List.ofFn ((z.2 ∘ τ) ∘ lastE b r)) =
      gMk r (mergeV ((z.1 ∘ σ) ∘ Fin.natAdd a, (z.2 ∘ τ) ∘ Fin.natAdd b)) := by
    rw [← greenWorm_gMk, oddV_mergeV, evenV_mergeV]
    rfl
  rw [et, gT_eq, e1, e2, e3]
  simp only [Function.comp_apply]
  rw [wv_eq _ _ _ _ hv, wv_eq _ _ _ _ hv, ← ms_split, ← ms_split]

theorem greenE_nice (s : ℝ) {w : CfgFun (Option (Worm ℝ)) ℝ} {ψ : CfgFun (Option (Worm ℝ)) ℝ≥0∞} (hw : w.WMeas nf) (hψ : ψ.WMeas nf)
    (hc : ∀ X X' ω, w X X' ω ≠ 0 → X.card = X'.card) (m n : ℕ) : ∃ g : Lab m n → ℝ≥0∞, Measurable g ∧
      ∀ z : Lab m n, ((∀ i, (z.1 i).2 < nf) ∧ ∀ i, (z.2 i).2 < nf) → greenE r s w ψ (z.cfg none) = g z := by
  by_cases hmn : m = n
  swap
  · refine ⟨fun _ => 0, measurable_const, fun z _ => greenE_zero s ψ ?_⟩
    by_contra h
    have := hc _ _ _ h
    simp only [Lab.cfg, Multiset.coe_card, List.length_ofFn] at this
    exact hmn this
  subst hmn
  by_cases hm : m < r
  · exact ⟨fun _ => 0, measurable_const, fun z _ => greenE_few s w ψ z hm⟩
  obtain ⟨a, rfl⟩ : ∃ a, m = a + r := ⟨m - r, by omega⟩
  choose g hg h using fun e e' => gT_nice (s * fallingFac ((a + r : ℕ) : ℝ) r ^ 2) hw hψ a a (r := r) e e'
  refine ⟨fun z => pickD (a + r) r * pickD (a + r) r * ∑ e, ∑ e', g e e' z,
    (Finset.measurable_sum _ fun e _ => Finset.measurable_sum _ fun e' _ => hg e e').const_mul _, fun z hz => ?_⟩
  rw [greenE_pick s w ψ z (by omega) (by omega)]
  congr 1
  exact Finset.sum_congr rfl fun e _ => Finset.sum_congr rfl fun e' _ => h e e' z hz

theorem greenE_aemeas (β : ℝ) (s : ℝ) {w : CfgFun (Option (Worm ℝ)) ℝ} {ψ : CfgFun (Option (Worm ℝ)) ℝ≥0∞} (hw : w.WMeas nf)
    (hψ : ψ.WMeas nf) (hc : ∀ X X' ω, w X X' ω ≠ 0 → X.card = X'.card) (m n : ℕ) :
    AEMeasurable (fun z : Lab m n => greenE r s w ψ (z.cfg none)) (labMeasure β nf m n) := by
  obtain ⟨g, hg, h⟩ := greenE_nice (r := r) s hw hψ hc m n
  refine hg.aemeasurable.congr ?_
  filter_upwards [ae_flav_lab β m n] with z hz
  exact (h z hz).symm

theorem greenE_perm (s : ℝ) {w : CfgFun (Option (Worm ℝ)) ℝ} (ψ : CfgFun (Option (Worm ℝ)) ℝ≥0∞)
    (hc : ∀ X X' ω, w X X' ω ≠ 0 → X.card = X'.card) {m n : ℕ} (z : Lab m n) (σ : Equiv.Perm (Fin m)) (τ : Equiv.Perm (Fin n)) :
    greenE r s w ψ (Lab.cfg (z.1 ∘ σ, z.2 ∘ τ) none) = greenE r s w ψ (z.cfg none) := by
  by_cases hmn : m = n
  swap
  · have hz : ∀ z : Lab m n, w.at (z.cfg none) = 0 := by
      intro z
      by_contra h
      have := hc _ _ _ h
      simp only [Lab.cfg, Multiset.coe_card, List.length_ofFn] at this
      exact hmn this
    rw [greenE_zero s ψ (hz _), greenE_zero s ψ (hz _)]
  subst hmn
  by_cases hm : m < r
  · rw [greenE_few s w ψ _ hm, greenE_few s w ψ _ hm]
  rw [greenE_pick s w ψ _ (by omega) (by omega), greenE_pick s w ψ _ (by omega) (by omega)]
  congr 1
  simp only [gT_perm]
  let ε : Equiv.Perm (Fin m) → ((Fin r ↪ Fin m) ≃ (Fin r ↪ Fin m)) := fun ρ =>
    { toFun := fun e => e.trans ρ.toEmbedding
      invFun := fun e => e.trans ρ.symm.toEmbedding
      left_inv := fun e => DFunLike.ext _ _ fun i => ρ.symm_apply_apply _
      right_inv := fun e => DFunLike.ext _ _ fun i => ρ.apply_symm_apply _ }
  refine Fintype.sum_equiv (ε σ) _ _ fun e => ?_
  exact Fintype.sum_equiv (ε τ) _ _ fun e' => rfl

theorem wnice_green (s : ℝ) {w : CfgFun (Option (Worm ℝ)) ℝ} {ψ : CfgFun (Option (Worm ℝ)) ℝ≥0∞} (hw : w.WMeas nf) (hψ : ψ.WMeas nf)
    (hc : ∀ X X' ω, w X X' ω ≠ 0 → X.card = X'.card) : WNice nf (greenE r s w ψ) where
  none := {
    meas := fun m n => by
      obtain ⟨g, hg, h⟩ := greenE_nice (r := r) s hw hψ hc m n
      refine ⟨g, hg, fun z hz => h z ?_⟩
      have := (goodCfg_lab z).1 hz
      exact ⟨this.1.2, this.2.2⟩
    perm := fun m n z _ σ τ => greenE_perm s ψ hc z σ τ }
  worm k fs m n := ⟨_, measurable_greenE s hw hψ k fs m n, fun ts z _ => rfl⟩
  perm k ts fs m n z _ σ τ := by
    by_cases hk : k = .green r
    · subst hk
      have e : ∀ z : Lab m n, greenE r s w ψ (z.cfg (some (mkW (.green r) ts fs))) = _ := fun z =>
        greenE_gMk s w ψ z fun i => (ts i, (fs i : ℕ))
      rw [e, e, ms_perm, ms_perm]
    · have e : ∀ z : Lab m n, greenE r s w ψ (z.cfg (some (mkW k ts fs))) = 0 := fun z => greenE_other s w ψ z _ hk
      rw [e, e]

end CTHyb
