import Verif.ContRun
import Verif.ContShiftProps

/-!
Lemmas for `Verif.ContRunProps`.
-/

namespace CTHyb

open Rand MeasureTheory ENNReal

variable {W : Type}

/-! ### Stationarity of a step -/

theorem hold_stationary {β : ℝ} {nf : ℕ} {ω : W} {w : CfgFun W ℝ} (hw : w.Meas ω)
    (K : CfgFun W ℝ≥0∞ → PCfg ℝ W → ℝ≥0∞) (m n : ℕ)
    (hrev : ∀ φ ψ : CfgFun W ℝ≥0∞, φ.Meas ω → ψ.Meas ω → orderFlow β nf m n ω φ w (K ψ) = orderFlow β nf m n ω ψ w (K φ))
    (hm : ∀ ψ : CfgFun W ℝ≥0∞, ψ.Meas ω → AEMeasurable (fun z : Lab m n => K ψ (z.cfg ω)) (labMeasure β nf m n))
    (hle : ∀ x, K (fun _ _ _ => 1) x ≤ 1) (ψ : CfgFun W ℝ≥0∞) (hψ : ψ.Meas ω) :
    orderFlow β nf m n ω (fun _ _ _ => 1) w (fun x => K ψ x + (1 - K (fun _ _ _ => 1) x) * ψ.at x) =
      orderFlow β nf m n ω (fun _ _ _ => 1) w ψ.at := by
  have h1 : CfgFun.Meas (fun _ _ _ => 1 : CfgFun W ℝ≥0∞) ω := fun _ _ => measurable_const
  rw [orderFlow_add _ _ _ _ _ _ _ h1 hw _ _ (hm ψ hψ), hrev _ ψ h1 hψ]
  have h2 : orderFlow β nf m n ω (fun _ _ _ => 1) w (fun x => (1 - K (fun _ _ _ => 1) x) * ψ.at x) =
      orderFlow β nf m n ω ψ w (fun x => 1 - K (fun _ _ _ => 1) x) := by
    unfold orderFlow
    congr 1
    refine lintegral_congr fun z => ?_
    show 1 * _ * (_ * ψ.at (z.cfg ω)) = ψ.at (z.cfg ω) * _ * _
    ring
  rw [h2, ← orderFlow_add _ _ _ _ _ _ _ hψ hw _ _ (hm _ h1)]
  unfold orderFlow
  congr 1
  refine lintegral_congr fun z => ?_
  beta_reduce
  rw [add_tsub_cancel_of_le (hle _), mul_one]
  show ψ.at (z.cfg ω) * _ = 1 * _ * ψ.at (z.cfg ω)
  ring

theorem subProb_shiftFlavor (E : PEnv) (f : ℕ) : SubProb (shiftFlavor E f) := by
  refine SubProb.bind nnr_coin ?_ fun b => ?_
  · rw [SubProb, meanE_coin_half, mul_one, ← ENNReal.ofReal_add (by norm_num) (by norm_num)]
    norm_num
  · split_ifs
    · exact SubProb.ret _
    · exact SubProb.unif _

theorem shiftDrawC_le (E : PEnv) (cw : CWin) (maxDist : ℕ → ℝ) (o : BOp ℝ) {G : BOp ℝ → ℝ≥0∞} (hG : ∀ o', G o' ≤ 1) :
    shiftDrawC E cw maxDist o G ≤ 1 := by
  refine (subProb_shiftFlavor E o.2).le fun p _ => ?_
  refine (lintegral_mono (g := fun _ => 1) fun u => ?_).trans ?_
  · show (if _ then _ else _) ≤ (1 : ℝ≥0∞)
    split_ifs
    · exact hG _
    · exact zero_le
  · simp

theorem shiftE_le (E : PEnv) (cw : CWin) (maxDist : ℕ → ℝ) (w : CfgFun W ℝ) (x : PCfg ℝ W) :
    shiftE E cw maxDist w (fun _ _ _ => 1) x ≤ 1 := by
  simp only [shiftE]
  split_ifs
  · exact zero_le
  · exact (SubProb.unif _).le fun p _ => shiftDrawC_le _ _ _ _ fun o' => accE_one_le _ _ _ _

theorem flavorE_le (nf : ℕ) (cw : CWin) (w : CfgFun W ℝ) (x : PCfg ℝ W) :
    flavorE nf cw w (fun _ _ _ => 1) x ≤ 1 := by
  have hs : SubProb (flavorPropose nf cw.win x) := by
    unfold flavorPropose
    split_ifs
    · exact SubProb.ret _
    · refine SubProb.bind nnr_coin ?_ fun b => SubProb.bind (nnr_unif _) (SubProb.unif _) fun _ =>
        SubProb.bind (nnr_unif _) (SubProb.unif _) fun _ => SubProb.ret _
      rw [SubProb, meanE_coin_half, mul_one, ← ENNReal.ofReal_add (by norm_num) (by norm_num)]
      norm_num
  refine hs.le fun p _ => ?_
  rcases p.2 with _ | ⟨m, c⟩
  · exact zero_le
  · exact accE_one_le _ _ _ _

/-! ### The order of the operators does not matter -/

theorem labE_perm (cw : CWin) (Q : BOp ℝ → (BOp ℝ → ℝ≥0∞) → ℝ≥0∞) (s s' : ℕ → ℕ → ℝ≥0∞) (w : CfgFun W ℝ)
    (ψ : CfgFun W ℝ≥0∞) (ω : W) {m n : ℕ} (z : Lab m n) (σ : Equiv.Perm (Fin m)) (τ : Equiv.Perm (Fin n)) :
    labE cw Q s s' w ψ ω (z.1 ∘ σ, z.2 ∘ τ) = labE cw Q s s' w ψ ω z := by
  unfold labE
  congr 1
  · rw [← Equiv.sum_comp σ fun i => cdTerm cw Q s w ψ ω i z]
    refine Finset.sum_congr rfl fun i _ => ?_
    simp only [cdTerm, oneTerm, ms_update, ms_perm, Function.comp_apply]
  · rw [← Equiv.sum_comp τ fun i => cTerm cw Q s' w ψ ω i z]
    refine Finset.sum_congr rfl fun i _ => ?_
    simp only [cTerm, oneTerm, ms_update, ms_perm, Function.comp_apply]

theorem sum_powersetCard_perm {m : ℕ} (k : ℕ) (y : Fin m → BOp ℝ) (σ : Equiv.Perm (Fin m))
    (f : Multiset (BOp ℝ) → Multiset (BOp ℝ) → ℝ≥0∞) :
    ∑ S ∈ (Finset.univ : Finset (Fin m)).powersetCard k, f (Sᶜ.val.map (y ∘ σ)) (S.val.map (y ∘ σ)) =
      ∑ S ∈ (Finset.univ : Finset (Fin m)).powersetCard k, f (Sᶜ.val.map y) (S.val.map y) := by
  refine Finset.sum_nbij' (fun S => S.map σ.toEmbedding) (fun S => S.map σ.symm.toEmbedding) ?_ ?_ ?_ ?_ ?_
  · intro S hS
    simpa [Finset.mem_powersetCard] using hS
  · intro S hS
    simpa [Finset.mem_powersetCard] using hS
  · intro S _
    rw [Finset.map_map]
    simp
  · intro S _
    rw [Finset.map_map]
    simp
  · intro S _
    have hc : (S.map σ.toEmbedding)ᶜ = Sᶜ.map σ.toEmbedding := by
      ext i
      simp
    rw [hc, Finset.map_val, Finset.map_val, Multiset.map_map, Multiset.map_map]
    rfl

theorem insE_perm {β : ℝ} {cw : CWin} (hcw : cw.OK β) (E : PEnv) (rank : ℕ) {w : CfgFun W ℝ} {ψ : CfgFun W ℝ≥0∞} {ω : W}
    (hw : w.Meas ω) (hψ : ψ.Meas ω) {m n : ℕ} (z : Lab m n) (σ : Equiv.Perm (Fin m)) (τ : Equiv.Perm (Fin n)) :
    insE E cw rank w ψ (Lab.cfg (z.1 ∘ σ, z.2 ∘ τ) ω) = insE E cw rank w ψ (z.cfg ω) := by
  have h : ∀ z : Lab m n, insE E cw rank w ψ (z.cfg ω) =
      meanE (blockDraws ℝ E.ns rank) fun bl => ENNReal.ofReal (listDens E cw bl ^ 2) *
        ∫⁻ v, insTerm E cw w ψ ω bl (ms z.1) (ms z.2) (ms v.1) (ms v.2)
          ∂((listMeasure β E cw bl).prod (listMeasure β E cw bl)) := by
    intro z
    rw [insE_eq hcw E rank w ψ]
    · rfl
    · intro bl
      exact measurable_insTerm_right E cw hw hψ bl z bl.length
  rw [h, h, ms_perm, ms_perm]

theorem remE_perm (E : PEnv) (cw : CWin) (hns : ∀ f, f < E.nf → E.sector f < E.ns) (rank : ℕ) (w : CfgFun W ℝ)
    (φ : CfgFun W ℝ≥0∞) (ω : W) {m n : ℕ} (z : Lab m n) (hy : Function.Injective z.1)
    (hy' : Function.Injective z.2) (hf : ∀ i, (z.1 i).2 < E.nf) (hf' : ∀ i, (z.2 i).2 < E.nf)
    (σ : Equiv.Perm (Fin m)) (τ : Equiv.Perm (Fin n)) :
    remE E cw rank w φ (Lab.cfg (z.1 ∘ σ, z.2 ∘ τ) ω) = remE E cw rank w φ (z.cfg ω) := by
  rw [remE_eq E cw hns rank w φ ω z hy hy' hf hf', remE_eq E cw hns rank w φ ω (z.1 ∘ σ, z.2 ∘ τ)
    (hy.comp σ.injective) (hy'.comp τ.injective) (fun i => hf _) (fun i => hf' _)]
  refine meanE_congr fun p _ => ?_
  rw [sum_powersetCard_perm rank z.1 σ fun X P =>
    ∑ S' ∈ (Finset.univ : Finset (Fin n)).powersetCard rank,
      remTerm E cw w φ ω p.2 X (S'ᶜ.val.map (z.2 ∘ τ)) P (S'.val.map (z.2 ∘ τ))]
  refine Finset.sum_congr rfl fun S _ => ?_
  exact sum_powersetCard_perm rank z.2 τ fun X' Q => remTerm E cw w φ ω p.2 _ X' _ Q

end CTHyb
