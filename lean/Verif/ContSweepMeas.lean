import Verif.ContSweep
import Verif.ContRunProps
import Verif.ContWormProps

/-!
Lemmas for `Verif.ContSweepProps`: measurability with a parameter (the times of the worm).
-/

namespace CTHyb

open Rand MeasureTheory ENNReal

variable {W V : Type} [MeasurableSpace V]

/-- Measurable function of the configuration and of the parameter. -/
def CfgFun.PMeas {A : Type} [MeasurableSpace A] (F : CfgFun W A) (ι : V → W) : Prop :=
  ∀ m n, Measurable fun p : V × Lab m n => F (ms p.2.1) (ms p.2.2) (ι p.1)

theorem CfgFun.PMeas.meas {A : Type} [MeasurableSpace A] {F : CfgFun W A} {ι : V → W} (hF : F.PMeas ι) (v : V) :
    F.Meas (ι v) := fun m n => (hF m n).comp measurable_prodMk_left

theorem CfgFun.PMeas.add {A : Type} [MeasurableSpace A] {F : CfgFun W A} {ι : V → W} (hF : F.PMeas ι) (m n k : ℕ) :
    Measurable fun z : (V × Lab m n) × Lab k k => F (ms z.1.2.1 + ms z.2.1) (ms z.1.2.2 + ms z.2.2) (ι z.1.1) := by
  have h1 : Measurable fun z : (V × Lab m n) × Lab k k => Fin.append z.1.2.1 z.2.1 :=
    (measurable_append m k).comp ((measurable_fst.comp (measurable_snd.comp measurable_fst)).prodMk (measurable_fst.comp measurable_snd))
  have h2 : Measurable fun z : (V × Lab m n) × Lab k k => Fin.append z.1.2.2 z.2.2 :=
    (measurable_append n k).comp ((measurable_snd.comp (measurable_snd.comp measurable_fst)).prodMk (measurable_snd.comp measurable_snd))
  have h := (hF (m + k) (n + k)).comp ((measurable_fst.comp measurable_fst).prodMk (h1.prodMk h2) :
    Measurable fun z : (V × Lab m n) × Lab k k => (z.1.1, ((Fin.append z.1.2.1 z.2.1, Fin.append z.1.2.2 z.2.2) : Lab (m + k) (n + k))))
  refine (funext fun z => ?_ : (fun z : (V × Lab m n) × Lab k k =>
    F (ms z.1.2.1 + ms z.2.1) (ms z.1.2.2 + ms z.2.2) (ι z.1.1)) = _) ▸ h
  simp only [Function.comp_apply]
  rw [← ms_append, ← ms_append]

section
variable {w : CfgFun W ℝ} {ψ : CfgFun W ℝ≥0∞} {ι : V → W}

/-! ### Pair updates -/

theorem measurable_insTerm_par (E : PEnv) (cw : CWin) (hw : w.PMeas ι) (hψ : ψ.PMeas ι) (bl : List ℕ) (m n k : ℕ) :
    Measurable fun z : (V × Lab m n) × Lab k k =>
      insTerm E cw w ψ (ι z.1.1) bl (ms z.1.2.1) (ms z.1.2.2) (ms z.2.1) (ms z.2.2) := by
  unfold insTerm
  refine Measurable.mul (ENNReal.measurable_ofReal.comp (measurable_const.min ?_)) (hψ.add m n k)
  exact ((hw.add m n k).div ((hw m n).comp measurable_fst)).mul
    ((measurable_corrM E cw bl m n).comp (measurable_snd.comp measurable_fst))

theorem measurable_remTerm_par (E : PEnv) (cw : CWin) (hw : w.PMeas ι) (hψ : ψ.PMeas ι) (bl : List ℕ)
    (hbl : ∀ b ∈ bl, b < E.ns) (m n : ℕ) :
    Measurable fun z : (V × Lab m n) × Lab bl.length bl.length =>
      remTerm E cw w ψ (ι z.1.1) bl (ms z.1.2.1) (ms z.1.2.2) (ms z.2.1) (ms z.2.2) := by
  have hh : Measurable fun p : Fin bl.length → BOp ℝ => hitE E cw bl (ms p) := measurable_hit E cw bl hbl
  have hz : Measurable fun z : (V × Lab m n) × Lab bl.length bl.length => z.1.2 := measurable_snd.comp measurable_fst
  unfold remTerm
  refine Measurable.mul (Measurable.mul (Measurable.mul ?_ ?_) ?_) (Measurable.mul ?_ ?_)
  · exact hh.comp (measurable_fst.comp measurable_snd)
  · exact hh.comp (measurable_snd.comp measurable_snd)
  · exact ENNReal.measurable_ofReal.comp (((measurable_pickP2 E cw bl m n).comp hz).const_mul _)
  · refine ENNReal.measurable_ofReal.comp (measurable_const.min ?_)
    exact (((hw m n).comp measurable_fst).div (hw.add m n bl.length)).mul ((measurable_corrM E cw bl m n).comp hz).inv
  · exact (hψ m n).comp measurable_fst

theorem measurable_insE_par {β : ℝ} {cw : CWin} (hcw : cw.OK β) (E : PEnv) (rank : ℕ) (hw : w.PMeas ι) (hψ : ψ.PMeas ι)
    (m n : ℕ) : Measurable fun z : V × Lab m n => insE E cw rank w ψ (z.2.cfg (ι z.1)) := by
  have : (fun z : V × Lab m n => insE E cw rank w ψ (z.2.cfg (ι z.1))) = fun z =>
      meanE (blockDraws ℝ E.ns rank) fun bl => ENNReal.ofReal (listDens E cw bl ^ 2) *
        ∫⁻ v, insTerm E cw w ψ (ι z.1) bl (ms z.2.1) (ms z.2.2) (ms v.1) (ms v.2)
          ∂((listMeasure β E cw bl).prod (listMeasure β E cw bl)) := by
    funext z
    rw [insE_eq hcw E rank w ψ]
    · rfl
    · intro bl
      exact measurable_insTerm_right E cw (hw.meas z.1) (hψ.meas z.1) bl z.2 bl.length
  rw [this]
  refine measurable_meanE _ _ fun p _ => Measurable.const_mul ?_ _
  exact Measurable.lintegral_prod_right' (f := fun z : (V × Lab m n) × Lab p.2.length p.2.length =>
    insTerm E cw w ψ (ι z.1.1) p.2 (ms z.1.2.1) (ms z.1.2.2) (ms z.2.1) (ms z.2.2))
    (measurable_insTerm_par E cw hw hψ p.2 m n p.2.length)

theorem measurable_assoc {m n a b : ℕ}
    (f : V → Multiset (BOp ℝ) → Multiset (BOp ℝ) → Multiset (BOp ℝ) → Multiset (BOp ℝ) → ℝ≥0∞)
    (h : Measurable fun z : (V × Lab m n) × Lab a b => f z.1.1 (ms z.1.2.1) (ms z.1.2.2) (ms z.2.1) (ms z.2.2)) :
    Measurable fun z : V × (Lab m n × Lab a b) => f z.1 (ms z.2.1.1) (ms z.2.1.2) (ms z.2.2.1) (ms z.2.2.2) := by
  have hr : Measurable fun z : V × (Lab m n × Lab a b) => ((z.1, z.2.1), z.2.2) :=
    (measurable_fst.prodMk (measurable_fst.comp measurable_snd)).prodMk (measurable_snd.comp measurable_snd)
  exact h.comp hr

theorem measurable_remTerm_assoc (E : PEnv) (cw : CWin) (hw : w.PMeas ι) (hψ : ψ.PMeas ι) (bl : List ℕ)
    (hbl : ∀ b ∈ bl, b < E.ns) (m n : ℕ) :
    Measurable fun z : V × (Lab m n × Lab bl.length bl.length) =>
      remTerm E cw w ψ (ι z.1) bl (ms z.2.1.1) (ms z.2.1.2) (ms z.2.2.1) (ms z.2.2.2) :=
  measurable_assoc (fun v => remTerm E cw w ψ (ι v) bl) (measurable_remTerm_par E cw hw hψ bl hbl m n)

theorem measurable_remSum_par (E : PEnv) (cw : CWin) (rank : ℕ) (hw : w.PMeas ι) (hψ : ψ.PMeas ι) (m n : ℕ) :
    Measurable fun z : V × Lab m n => meanE (blockDraws ℝ E.ns rank) fun bl =>
      ∑ S ∈ (Finset.univ : Finset (Fin m)).powersetCard rank,
        ∑ S' ∈ (Finset.univ : Finset (Fin n)).powersetCard rank,
          remTerm E cw w ψ (ι z.1) bl (Sᶜ.val.map z.2.1) (S'ᶜ.val.map z.2.2) (S.val.map z.2.1) (S'.val.map z.2.2) := by
  refine measurable_meanE _ _ fun p hp => ?_
  obtain ⟨hlen, hbl⟩ := mem_blockDraws hp
  refine Finset.measurable_sum _ fun S hS => Finset.measurable_sum _ fun S' hS' => ?_
  have hS := (Finset.mem_powersetCard.1 hS).2
  have hS' := (Finset.mem_powersetCard.1 hS').2
  have hm : rank ≤ m := by rw [← hS]; simpa using Finset.card_le_univ S
  have hn : rank ≤ n := by rw [← hS']; simpa using Finset.card_le_univ S'
  obtain ⟨m, rfl⟩ := Nat.exists_eq_add_of_le' hm
  obtain ⟨n, rfl⟩ := Nat.exists_eq_add_of_le' hn
  subst hlen
  exact measurable_labels_par (fun v => remTerm E cw w ψ (ι v) p.2) (measurable_remTerm_assoc E cw hw hψ p.2 hbl m n) S S' hS hS'

/-! ### Replacing one operator -/

theorem measurable_labE_par {β : ℝ} {nf : ℕ} {cw : CWin} {Q : BOp ℝ → (BOp ℝ → ℝ≥0∞) → ℝ≥0∞} (hQ : SymDraw β nf cw Q)
    (s s' : ℕ → ℕ → ℝ≥0∞) (hw : w.PMeas ι) (hψ : ψ.PMeas ι) (m n : ℕ) :
    Measurable fun z : V × Lab m n => labE cw Q s s' w ψ (ι z.1) z.2 := by
  refine (Finset.measurable_sum _ fun i _ => ?_).add (Finset.measurable_sum _ fun j _ => ?_)
  · have hr : Measurable fun p : (Fin m → BOp ℝ) × ((Fin n → BOp ℝ) × V) => (p.2.2, ((p.1, p.2.1) : Lab m n)) :=
      (measurable_snd.comp measurable_snd).prodMk (measurable_fst.prodMk (measurable_fst.comp measurable_snd))
    have h := measurable_oneTerm (V := (Fin n → BOp ℝ) × V) hQ (s := fun k v => s k (wcount cw (ms v.1)))
      (wt := fun X v => w X (ms v.1) (ι v.2)) (ψ := fun X v => ψ X (ms v.1) (ι v.2))
      (fun k => ((measurable_from_nat (f := fun l => s k l)).comp (measurable_wcount cw n)).comp measurable_fst)
      ((hw m n).comp hr) ((hψ m n).comp hr) i
    exact h.comp ((measurable_fst.comp measurable_snd).prodMk ((measurable_snd.comp measurable_snd).prodMk measurable_fst) :
      Measurable fun z : V × Lab m n => (z.2.1, (z.2.2, z.1)))
  · have hr : Measurable fun p : (Fin n → BOp ℝ) × ((Fin m → BOp ℝ) × V) => (p.2.2, ((p.2.1, p.1) : Lab m n)) :=
      (measurable_snd.comp measurable_snd).prodMk ((measurable_fst.comp measurable_snd).prodMk measurable_fst)
    have h := measurable_oneTerm (V := (Fin m → BOp ℝ) × V) hQ (s := fun k v => s' (wcount cw (ms v.1)) k)
      (wt := fun X v => w (ms v.1) X (ι v.2)) (ψ := fun X v => ψ (ms v.1) X (ι v.2))
      (fun k => ((measurable_from_nat (f := fun l => s' l k)).comp (measurable_wcount cw m)).comp measurable_fst)
      ((hw m n).comp hr) ((hψ m n).comp hr) j
    exact h.comp ((measurable_snd.comp measurable_snd).prodMk ((measurable_fst.comp measurable_snd).prodMk measurable_fst) :
      Measurable fun z : V × Lab m n => (z.2.2, (z.2.1, z.1)))

/-! ### The updates of the bath -/

theorem acc_par {β : ℝ} (E : PEnv) (hns : ∀ f, f < E.nf → E.sector f < E.ns) (s : CStep) (hs : s.OK β E)
    (hw : w.PMeas ι) (hψ : ψ.PMeas ι) (m n : ℕ) :
    ∃ g : V × Lab m n → ℝ≥0∞, Measurable g ∧
      ∀ v (z : Lab m n), GoodCfg E.nf (ms z.1) (ms z.2) → s.acc E w ψ (z.cfg (ι v)) = g (v, z) := by
  rcases s with ⟨cw, rank⟩ | ⟨cw, d⟩ | ⟨cw⟩
  · refine ⟨_, ((measurable_insE_par hs E rank hw hψ m n).const_mul (ENNReal.ofReal (1 / 2))).add
      ((measurable_remSum_par E cw rank hw hψ m n).const_mul (ENNReal.ofReal (1 / 2))), fun v z hz => ?_⟩
    have hz := (goodCfg_lab z).1 hz
    show irE E cw rank w ψ _ = _
    rw [irE, meanE_coin_half]
    simp only [if_true, Bool.false_eq_true, if_false]
    rw [remE_eq E cw hns rank w ψ (ι v) z hz.1.1 hz.2.1 hz.1.2 hz.2.2]
    rfl
  · obtain ⟨h1, h2, h3, h4⟩ := hs
    exact ⟨_, measurable_labE_par (symDraw_shift E h1 h2 h3 h4) selAll selAll hw hψ m n, fun v z _ =>
      shiftE_eq E cw d w ψ (ι v) z⟩
  · exact ⟨_, measurable_labE_par (symDraw_flavor β E.nf cw) selCd selC hw hψ m n, fun v z _ =>
      flavorE_eq E.nf cw w ψ (ι v) z⟩

end

end CTHyb
