import Verif.ContWormFlow
import Verif.WormMoveProps

/-!
The draws of `Verif.ContWorm` as integrals over the times and sums over the flavors.
-/

namespace CTHyb

open Rand MeasureTheory ENNReal

theorem measurable_fin_cons {α : Type} [MeasurableSpace α] (n : ℕ) :
    Measurable fun z : α × (Fin n → α) => (Fin.cons z.1 z.2 : Fin (n + 1) → α) := by
  rw [measurable_pi_iff]
  intro i
  refine Fin.cases ?_ (fun j => ?_) i
  · exact measurable_fst
  · exact (measurable_pi_apply j).comp measurable_snd

theorem lintegral_pi_cons {α : Type} [MeasurableSpace α] {n : ℕ} (μ : Fin (n + 1) → Measure α) [∀ i, SigmaFinite (μ i)]
    (F : (Fin (n + 1) → α) → ℝ≥0∞) (hF : Measurable F) :
    ∫⁻ s, F s ∂(Measure.pi μ) = ∫⁻ a, ∫⁻ s, F (Fin.cons a s) ∂(Measure.pi fun i => μ i.succ) ∂(μ 0) := by
  have h := measurePreserving_piFinSuccAbove (n := n) (α := fun _ => α) μ 0
  have hF' : Measurable fun z : α × (Fin n → α) => F (Fin.cons z.1 z.2 : Fin (n + 1) → α) :=
    hF.comp (measurable_fin_cons _)
  have h2 := h.lintegral_comp hF'
  have e : ∀ s : Fin (n + 1) → α,
      (Fin.cons (MeasurableEquiv.piFinSuccAbove (fun _ => α) 0 s).1
        (MeasurableEquiv.piFinSuccAbove (fun _ => α) 0 s).2 : Fin (n + 1) → α) = s := by
    intro s
    funext i
    refine Fin.cases rfl (fun j => rfl) i
  simp only [e] at h2
  exact h2.trans (lintegral_prod _ hF'.aemeasurable)

theorem lintegral_openRandom' {β : ℝ} {cw : CWin} (hcw : cw.OK β) (g : ℝ → ℝ≥0∞) :
    ∫⁻ u in Set.Ico (0 : ℝ) 1, g (openRandomU cw.lo cw.hi cw.eps u) =
      ENNReal.ofReal (1 / (cw.hi - cw.lo)) * ∫⁻ t in Set.Icc cw.lo cw.hi, g t := by
  have hlen : 0 < cw.hi - cw.lo := sub_pos.2 hcw.lt
  rw [hcw.eps, ← lintegral_openRandom hcw.lt, ← mul_assoc, ← ENNReal.ofReal_mul (by positivity), one_div,
    inv_mul_cancel₀ hlen.ne', ENNReal.ofReal_one, one_mul]

/-- The times of a worm in the window. -/
noncomputable def winTimes (cw : CWin) (n : ℕ) : Measure (Fin n → ℝ) :=
  Measure.pi fun _ => volume.restrict (Set.Icc cw.lo cw.hi)

instance (cw : CWin) (n : ℕ) : SigmaFinite (winTimes cw n) := by unfold winTimes; infer_instance

theorem timesC_eq {β : ℝ} {cw : CWin} (hcw : cw.OK β) (n : ℕ) : ∀ G : List ℝ → ℝ≥0∞,
    (Measurable fun ts : Fin n → ℝ => G (List.ofFn ts)) →
    timesC cw n G = ENNReal.ofReal (1 / (cw.hi - cw.lo) ^ n) * ∫⁻ ts, G (List.ofFn ts) ∂(winTimes cw n) := by
  have hlen : 0 < cw.hi - cw.lo := sub_pos.2 hcw.lt
  induction n with
  | zero =>
    intro G _
    have : ∀ ts : Fin 0 → ℝ, G (List.ofFn ts) = G [] := fun ts => by rw [List.ofFn_zero]
    simp only [timesC, this, lintegral_const, winTimes]
    rw [Measure.pi_univ]
    simp
  | succ n ih =>
    intro G hG
    have hj : Measurable fun z : ℝ × (Fin n → ℝ) => G (z.1 :: List.ofFn z.2) := by
      have := hG.comp (measurable_fin_cons (α := ℝ) n)
      simpa only [Function.comp_def, List.ofFn_succ, Fin.cons_zero, Fin.cons_succ] using this
    have h1 : ∀ t : ℝ, timesC cw n (fun ts => G (t :: ts)) = ENNReal.ofReal (1 / (cw.hi - cw.lo) ^ n) *
        ∫⁻ ts, G (t :: List.ofFn ts) ∂(winTimes cw n) := fun t =>
      ih _ (hj.comp (measurable_const.prodMk measurable_id))
    rw [timesC]
    simp only [h1]
    rw [lintegral_openRandom' hcw (fun t => ENNReal.ofReal (1 / (cw.hi - cw.lo) ^ n) *
      ∫⁻ ts, G (t :: List.ofFn ts) ∂(winTimes cw n)), lintegral_const_mul _ hj.lintegral_prod_right', ← mul_assoc,
      ← ENNReal.ofReal_mul (by positivity)]
    congr 1
    · congr 1
      rw [pow_succ]
      field_simp
    · refine Eq.trans ?_ (lintegral_pi_cons (fun _ : Fin (n + 1) => volume.restrict (Set.Icc cw.lo cw.hi)) _ hG).symm
      refine lintegral_congr fun t => lintegral_congr fun ts => ?_
      simp only [List.ofFn_succ, Fin.cons_zero, Fin.cons_succ]

theorem randOpC_single (cw : CWin) (f : ℕ) (G : BOp ℝ → ℝ≥0∞) :
    randOpC cw [f] G = ∫⁻ u in Set.Ico (0 : ℝ) 1, G (openRandomU cw.lo cw.hi cw.eps u, f) := by
  unfold randOpC
  refine lintegral_congr fun u => ?_
  rw [meanE_unif]; simp

theorem listMeasure_cons (β : ℝ) (E : PEnv) (cw : CWin) (b : ℕ) (bl : List ℕ)
    (F : (Fin (bl.length + 1) → BOp ℝ) → ℝ≥0∞) (hF : Measurable F) :
    ∫⁻ s, F s ∂(listMeasure β E cw (b :: bl)) =
      ∫⁻ o, ∫⁻ s, F (Fin.cons o s) ∂(listMeasure β E cw bl) ∂(blockMeasure β E cw b) :=
  lintegral_pi_cons (fun i : Fin (bl.length + 1) => blockMeasure β E cw ((b :: bl).get i)) F hF

theorem attachC_eq {β : ℝ} {cw : CWin} (hcw : cw.OK β) (nf : ℕ) (ops : List (Psi (OpTime ℝ)))
    (hf : ∀ o ∈ ops, o.flavor < nf) : ∀ G : List (BOp ℝ) → List (BOp ℝ) → ℝ≥0∞,
    (∀ a b, Measurable fun z : Lab a b => G (List.ofFn z.1) (List.ofFn z.2)) →
    attachC cw ops G = ENNReal.ofReal (listDens (flavEnv nf) cw (typeFlavors ops .creation)) *
      ENNReal.ofReal (listDens (flavEnv nf) cw (typeFlavors ops .annihilation)) *
      ∫⁻ p, ∫⁻ q, G (List.ofFn p) (List.ofFn q) ∂(listMeasure β (flavEnv nf) cw (typeFlavors ops .annihilation))
        ∂(listMeasure β (flavEnv nf) cw (typeFlavors ops .creation)) := by
  induction ops with
  | nil =>
    intro G _
    have hu : listMeasure β (flavEnv nf) cw [] Set.univ = 1 := by
      rw [listMeasure, Measure.pi_univ]
      simp
    have hc : ∀ c : ℝ≥0∞, ∫⁻ _p, c ∂(listMeasure β (flavEnv nf) cw []) = c := fun c => by
      rw [lintegral_const, hu, mul_one]
    show G [] [] = ENNReal.ofReal 1 * ENNReal.ofReal 1 * ∫⁻ p : Fin ([] : List ℕ).length → BOp ℝ,
      ∫⁻ q : Fin ([] : List ℕ).length → BOp ℝ, G [] [] ∂(listMeasure β (flavEnv nf) cw []) ∂(listMeasure β (flavEnv nf) cw [])
    rw [hc, hc]
    simp
  | cons o ops ih =>
    intro G hG
    have ih := ih fun o ho => hf o (List.mem_cons_of_mem _ ho)
    have hr : ∀ F : BOp ℝ → ℝ≥0∞, Measurable F →
        ∫⁻ u in Set.Ico (0 : ℝ) 1, F (openRandomU cw.lo cw.hi cw.eps u, o.flavor) =
        ENNReal.ofReal (blockDens (flavEnv nf) cw o.flavor) * ∫⁻ a, F a ∂(blockMeasure β (flavEnv nf) cw o.flavor) := by
      intro F hF
      rw [← randOpC_single, ← blockFlavors_flavEnv nf o.flavor (hf o (by simp)), randOpC_block hcw _ _ hF]
    have hld : ∀ b bl, ENNReal.ofReal (listDens (flavEnv nf) cw (b :: bl)) =
        ENNReal.ofReal (blockDens (flavEnv nf) cw b) * ENNReal.ofReal (listDens (flavEnv nf) cw bl) := by
      intro b bl
      rw [← ENNReal.ofReal_mul (blockDens_nonneg hcw _ _)]
      rfl
    rw [attachC]
    cases h : o.type with
    | creation =>
      have e1 : typeFlavors (o :: ops) .creation = o.flavor :: typeFlavors ops .creation := by
        simp [typeFlavors, h]
      have e2 : typeFlavors (o :: ops) .annihilation = typeFlavors ops .annihilation := by
        simp [typeFlavors, h]
      have hj : ∀ a b, Measurable fun z : BOp ℝ × Lab a b => G (z.1 :: List.ofFn z.2.1) (List.ofFn z.2.2) := by
        intro a b
        have := (hG (a + 1) b).comp (((measurable_fin_cons (α := BOp ℝ) a).comp
          (measurable_fst.prodMk (measurable_fst.comp measurable_snd))).prodMk (measurable_snd.comp measurable_snd) :
          Measurable fun z : BOp ℝ × Lab a b => ((Fin.cons z.1 z.2.1, z.2.2) : Lab (a + 1) b))
        simpa only [Function.comp_def, List.ofFn_succ, Fin.cons_zero, Fin.cons_succ] using this
      rw [e1, e2]
      simp only [if_true]
      have h1 : ∀ x : BOp ℝ, attachC cw ops (fun p q => G (x :: p) q) = _ := fun x =>
        ih (fun p q => G (x :: p) q) fun a b => (hj a b).comp (measurable_const.prodMk measurable_id)
      generalize typeFlavors ops .creation = bl at h1 ⊢
      generalize typeFlavors ops .annihilation = bl' at h1 ⊢
      simp only [h1]
      have hm : Measurable fun x : BOp ℝ => ∫⁻ p, ∫⁻ q, G (x :: List.ofFn p) (List.ofFn q)
          ∂(listMeasure β (flavEnv nf) cw bl') ∂(listMeasure β (flavEnv nf) cw bl) := by
        have hmm := (hj bl.length bl'.length).comp ((measurable_fst.comp measurable_fst).prodMk
          ((measurable_snd.comp measurable_fst).prodMk measurable_snd) :
            Measurable fun z : (BOp ℝ × (Fin bl.length → BOp ℝ)) × (Fin bl'.length → BOp ℝ) =>
              (z.1.1, (z.1.2, z.2)))
        exact (Measurable.lintegral_prod_right' (ν := listMeasure β (flavEnv nf) cw bl) (Measurable.lintegral_prod_right' (ν := listMeasure β (flavEnv nf) cw bl') hmm))
      rw [hr (fun x => ENNReal.ofReal (listDens (flavEnv nf) cw bl) * ENNReal.ofReal (listDens (flavEnv nf) cw bl') *
        ∫⁻ p, ∫⁻ q, G (x :: List.ofFn p) (List.ofFn q)
          ∂(listMeasure β (flavEnv nf) cw bl') ∂(listMeasure β (flavEnv nf) cw bl)) (hm.const_mul _),
        lintegral_const_mul _ hm, hld]
      have hm2 : Measurable fun p : Fin (bl.length + 1) → BOp ℝ => ∫⁻ q, G (List.ofFn p) (List.ofFn q)
          ∂(listMeasure β (flavEnv nf) cw bl') :=
        Measurable.lintegral_prod_right' (ν := listMeasure β (flavEnv nf) cw bl') (hG (bl.length + 1) bl'.length)
      have hc := listMeasure_cons β (flavEnv nf) cw o.flavor bl _ hm2
      simp only [List.ofFn_succ, Fin.cons_zero, Fin.cons_succ] at hc
      rw [← hc]
      simp only [← List.ofFn_succ, mul_assoc]
    | annihilation =>
      have e1 : typeFlavors (o :: ops) .annihilation = o.flavor :: typeFlavors ops .annihilation := by
        simp [typeFlavors, h]
      have e2 : typeFlavors (o :: ops) .creation = typeFlavors ops .creation := by
        simp [typeFlavors, h]
      have hj : ∀ a b, Measurable fun z : BOp ℝ × Lab a b => G (List.ofFn z.2.1) (z.1 :: List.ofFn z.2.2) := by
        intro a b
        have := (hG a (b + 1)).comp ((measurable_fst.comp measurable_snd).prodMk ((measurable_fin_cons (α := BOp ℝ) b).comp
          (measurable_fst.prodMk (measurable_snd.comp measurable_snd))) :
          Measurable fun z : BOp ℝ × Lab a b => ((z.2.1, Fin.cons z.1 z.2.2) : Lab a (b + 1)))
        simpa only [Function.comp_def, List.ofFn_succ, Fin.cons_zero, Fin.cons_succ] using this
      rw [e1, e2]
      simp only [reduceCtorEq, if_false]
      have h1 : ∀ x : BOp ℝ, attachC cw ops (fun p q => G p (x :: q)) = _ := fun x =>
        ih (fun p q => G p (x :: q)) fun a b => (hj a b).comp (measurable_const.prodMk measurable_id)
      generalize typeFlavors ops .creation = bl at h1 ⊢
      generalize typeFlavors ops .annihilation = bl' at h1 ⊢
      simp only [h1]
      have hmm := (hj bl.length bl'.length).comp ((measurable_fst.comp measurable_fst).prodMk
          ((measurable_snd.comp measurable_fst).prodMk measurable_snd) :
            Measurable fun z : (BOp ℝ × (Fin bl.length → BOp ℝ)) × (Fin bl'.length → BOp ℝ) =>
              (z.1.1, (z.1.2, z.2)))
      have hi : Measurable fun z : BOp ℝ × (Fin bl.length → BOp ℝ) => ∫⁻ q, G (List.ofFn z.2) (z.1 :: List.ofFn q)
          ∂(listMeasure β (flavEnv nf) cw bl') := Measurable.lintegral_prod_right' (ν := listMeasure β (flavEnv nf) cw bl') hmm
      have hm : Measurable fun x : BOp ℝ => ∫⁻ p, ∫⁻ q, G (List.ofFn p) (x :: List.ofFn q)
          ∂(listMeasure β (flavEnv nf) cw bl') ∂(listMeasure β (flavEnv nf) cw bl) :=
        Measurable.lintegral_prod_right' (ν := listMeasure β (flavEnv nf) cw bl) hi
      rw [hr (fun x => ENNReal.ofReal (listDens (flavEnv nf) cw bl) * ENNReal.ofReal (listDens (flavEnv nf) cw bl') *
        ∫⁻ p, ∫⁻ q, G (List.ofFn p) (x :: List.ofFn q)
          ∂(listMeasure β (flavEnv nf) cw bl') ∂(listMeasure β (flavEnv nf) cw bl)) (hm.const_mul _),
        lintegral_const_mul _ hm, hld]
      have hc : ∀ p : Fin bl.length → BOp ℝ, ∫⁻ q, G (List.ofFn p) (List.ofFn q) ∂(listMeasure β (flavEnv nf) cw (o.flavor :: bl')) =
          ∫⁻ x, ∫⁻ q, G (List.ofFn p) (x :: List.ofFn q) ∂(listMeasure β (flavEnv nf) cw bl')
            ∂(blockMeasure β (flavEnv nf) cw o.flavor) := by
        intro p
        have hq : Measurable fun q : Fin (bl'.length + 1) → BOp ℝ => G (List.ofFn p) (List.ofFn q) :=
          (hG bl.length (bl'.length + 1)).comp (measurable_const.prodMk measurable_id)
        have := listMeasure_cons β (flavEnv nf) cw o.flavor bl' _ hq
        simp only [List.ofFn_succ, Fin.cons_zero, Fin.cons_succ] at this
        rw [← this]
        simp only [← List.ofFn_succ]
      simp only [hc]
      rw [lintegral_lintegral_swap (f := fun (x : BOp ℝ) (p : Fin bl.length → BOp ℝ) => ∫⁻ q, G (List.ofFn p) (x :: List.ofFn q)
          ∂(listMeasure β (flavEnv nf) cw bl')) hi.aemeasurable]
      ring

/-! ### Flavors -/

theorem nnr_drawList {α : Type} {m : Rand ℝ α} (hm : NonnegR m) (n : ℕ) : NonnegR (drawList m n) := by
  induction n with
  | zero => exact nnr_ret _
  | succ n ih => exact nnr_bind hm fun _ => nnr_bind ih fun _ => nnr_ret _

/-- The list of flavors. -/
def flavList {nf n : ℕ} (fs : Fin n → Fin nf) : List ℕ := List.ofFn fun i => (fs i : ℕ)

theorem sum_range_fin (nf : ℕ) (F : ℕ → ℝ≥0∞) : ((List.range nf).map F).sum = ∑ f : Fin nf, F f := by
  rw [Fin.sum_univ_eq_sum_range, ← List.toFinset_range, List.sum_toFinset _ List.nodup_range]

theorem meanE_drawFlavors (nf n : ℕ) : ∀ F : List ℕ → ℝ≥0∞,
    meanE (drawList (unif (List.range nf)) n) F =
      ENNReal.ofReal (1 / (nf : ℝ) ^ n) * ∑ fs : Fin n → Fin nf, F (flavList fs) := by
  induction n with
  | zero =>
    intro F
    rw [drawList, meanE_ret]
    simp [flavList]
  | succ n ih =>
    intro F
    rw [drawList, meanE_bind (nnr_unif _)]
    simp only [meanE_bind (nnr_drawList (nnr_unif _) _), meanE_ret, ih]
    rw [meanE_mul_left, meanE_unif, List.length_range, sum_range_fin nf (fun f => ∑ fs : Fin n → Fin nf, F (f :: flavList fs)),
      ← mul_assoc, ← ENNReal.ofReal_mul (by positivity), ← (Fin.consEquiv fun _ => Fin nf).sum_comp, Fintype.sum_prod_type]
    congr 1
    · congr 1
      rw [pow_succ]
      field_simp
    · refine Finset.sum_congr rfl fun f _ => Finset.sum_congr rfl fun fs _ => ?_
      congr 1
      simp [flavList, Fin.consEquiv, List.ofFn_succ]

/-! ### Picking operators -/

theorem meanE_of_mean {α : Type} {m m' : Rand ℝ α} (h : NonnegR m) (h' : NonnegR m')
    (he : ∀ F : α → ℝ, mean m F = mean m' F) (G : α → ℝ≥0∞) : meanE m G = meanE m' G := by
  classical
  set s : Finset α := (m.map (·.2) + m'.map (·.2)).toFinset with hs
  have key : ∀ n : Rand ℝ α, NonnegR n → (∀ p ∈ n, p.2 ∈ s) → meanE n G =
      ∑ v ∈ s, G v * ENNReal.ofReal (mean n fun a => if a = v then (1 : ℝ) else 0) := by
    intro n hn hsub
    have : ∀ p ∈ n, G p.2 = ∑ v ∈ s, G v * ENNReal.ofReal (if p.2 = v then (1 : ℝ) else 0) := by
      intro p hp
      rw [Finset.sum_eq_single p.2]
      · simp
      · intro v _ hv; rw [if_neg fun e => hv e.symm]; simp
      · intro hh; exact absurd (hsub p hp) hh
    rw [meanE_congr (g := fun a => ∑ v ∈ s, G v * ENNReal.ofReal (if a = v then (1 : ℝ) else 0)) this, meanE_sum]
    refine Finset.sum_congr rfl fun v _ => ?_
    rw [meanE_mul_left, meanE_ofReal hn (fun a => if a = v then (1 : ℝ) else 0) fun a => by positivity]
  rw [key m h fun p hp => ?_, key m' h' fun p hp => ?_]
  · refine Finset.sum_congr rfl fun v _ => ?_
    rw [he]
  · rw [hs, Multiset.mem_toFinset, Multiset.mem_add]
    exact Or.inr (Multiset.mem_map_of_mem _ hp)
  · rw [hs, Multiset.mem_toFinset, Multiset.mem_add]
    exact Or.inl (Multiset.mem_map_of_mem _ hp)

theorem nnr_frontIdx (n : ℕ) : ∀ N, NonnegR (frontIdx ℝ N n) := by
  induction n with
  | zero => exact fun N => nnr_ret _
  | succ n ih => exact fun N => nnr_bind (nnr_unif _) fun _ => nnr_bind (ih _) fun _ => nnr_ret _

theorem nnr_pickFlavors (ops : ℕ → List (BOp ℝ)) (m : ℕ → ℕ) (fs : List ℕ) : NonnegR (pickFlavors ops m fs) := by
  induction fs with
  | nil => exact nnr_ret _
  | cons f fs ih =>
    rw [pickFlavors]
    split_ifs
    · exact ih
    · exact nnr_bind (nnr_bind (nnr_frontIdx _ _) fun _ => nnr_ret _) fun _ => nnr_bind ih fun _ => nnr_ret _

theorem nnr_pickBlocks (ops : ℕ → List (BOp ℝ)) (m : ℕ → ℕ) (bs : List ℕ) : NonnegR (pickBlocks ops m bs) := by
  induction bs with
  | nil => exact nnr_ret _
  | cons b bs ih => exact nnr_bind (nonneg_pickOps _ _) fun _ => nnr_bind ih fun _ => nnr_ret _

open Classical in
/-- Picking operators of given flavors as a sum over the sets of labels. -/
theorem meanE_pickFlavors (nf : ℕ) (cw : CWin) (bl : List ℕ) (hbl : ∀ b ∈ bl, b < nf) {n : ℕ} (y : Fin n → BOp ℝ)
    (hy : Function.Injective y) (hf : ∀ i, (y i).2 < nf)
    (hen : ∀ b < nf, bl.count b ≤ (blockOps (flavEnv nf) cw.win (List.ofFn y) b).length)
    (G : Multiset (BOp ℝ) → ℝ≥0∞) :
    meanE (pickFlavors (blockOps (flavEnv nf) cw.win (List.ofFn y)) (bl.count ·) (List.range nf)) (fun p => G p) =
      ∑ S : Finset (Fin n), (if Hit (flavEnv nf) cw bl (S.val.map y) then
        ENNReal.ofReal (facs (flavEnv nf) bl * pickP (flavEnv nf) cw bl (Sᶜ.val.map y)) else 0) * G (S.val.map y) := by
  have hnd : (List.ofFn y).Nodup := List.nodup_ofFn.2 hy
  have hfl : ∀ o ∈ List.ofFn y, o.2 < nf := by
    intro o ho
    obtain ⟨i, rfl⟩ := (List.mem_ofFn' y o).1 ho
    exact hf i
  have hcoe : ∀ (S : Finset (Fin n)), ((S.toList.map y : List (BOp ℝ)) : Multiset (BOp ℝ)) = S.val.map y := by
    intro S
    rw [← Multiset.map_coe, Finset.coe_toList]
  rw [meanE_of_mean (nnr_pickFlavors _ _ _) (nnr_pickBlocks _ _ _)
    (mean_pickFlavors _ (fun f => (blockOps_ok (flavEnv nf) cw.win hnd f).1) _ _ fun f hf' => hen f (List.mem_range.1 hf'))]
  have hpt : ∀ r ∈ (pickBlocks (blockOps (flavEnv nf) cw.win (List.ofFn y)) (bl.count ·) (List.range nf) : Rand ℝ _),
      G r.2 = ∑ S : Finset (Fin n), G (S.val.map y) *
        ENNReal.ofReal (if r.2.Perm (S.toList.map y) then (1 : ℝ) else 0) := by
    intro r hr
    obtain ⟨h1, h2⟩ := mem_pickBlocks_sub (blockOps_ok (flavEnv nf) cw.win hnd) _ (List.nodup_range)
        (fun b hb => hen b (List.mem_range.1 hb)) hr
    obtain ⟨S, hS, uS⟩ := exists_labels y _ h1 (fun o ho => by
      obtain ⟨b, _, hb⟩ := h2 o ho
      exact (List.mem_filter.1 hb).1) hy
    rw [Finset.sum_eq_single S]
    · rw [if_pos hS, ENNReal.ofReal_one, mul_one, ← hcoe, Multiset.coe_eq_coe.2 hS]
    · intro T _ hT
      rw [if_neg fun h => hT (uS T h)]; simp
    · intro h; exact absurd (Finset.mem_univ _) h
  rw [meanE_congr (g := fun r => ∑ S : Finset (Fin n), G (S.val.map y) *
        ENNReal.ofReal (if r.Perm (S.toList.map y) then (1 : ℝ) else 0)) hpt, meanE_sum]
  refine Finset.sum_congr rfl fun S _ => ?_
  rw [meanE_mul_left, meanE_ofReal (nnr_pickBlocks _ _ _) (fun r : List (BOp ℝ) =>
    (if r.Perm (S.toList.map y) then (1 : ℝ) else 0)) (fun r => by positivity)]
  have := mean_pick_hit (flavEnv nf) cw (fun f hf => hf) bl hbl _ hnd hfl hen _ ((Finset.nodup_toList S).map hy)
      (Sᶜ.val.map y) (by rw [hcoe]; exact map_compl_add S y)
  rw [show List.range nf = List.range (flavEnv nf).ns from rfl, this, hcoe, mul_comm]
  congr 1
  split_ifs <;> simp

end CTHyb
