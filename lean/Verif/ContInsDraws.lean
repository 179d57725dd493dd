import Verif.ContInsLemmas

/-!
The draws of `insDrawsC` as one integral over all new operators.
-/

namespace CTHyb

open Rand MeasureTheory ENNReal

/-- A creation and an annihilation operator. -/
abbrev OpPair := BOp ℝ × BOp ℝ

/-- The window is part of `[0, β]`, not empty, and `open_random` has no margin. -/
structure CWin.OK (β : ℝ) (cw : CWin) : Prop where
  lo_nonneg : 0 ≤ cw.lo
  lt : cw.lo < cw.hi
  le : cw.hi ≤ β
  eps : cw.eps = 0

/-- The draws of `insDrawsC` if the blocks are `bl`. -/
noncomputable def pairC (E : PEnv) (cw : CWin) : List ℕ → (List (ℕ × OpPair) → ℝ≥0∞) → ℝ≥0∞
  | [], G => G []
  | b :: bl, G =>
    randOpC cw (blockFlavors E b) fun p => randOpC cw (blockFlavors E b) fun q =>
      pairC E cw bl fun l => G ((b, p, q) :: l)

theorem measurable_meanE {X α : Type} [MeasurableSpace X] (m : Rand ℝ α) (f : X → α → ℝ≥0∞)
    (hf : ∀ p ∈ m, Measurable fun x => f x p.2) : Measurable fun x => meanE m (f x) := by
  unfold meanE
  induction m using Multiset.induction_on with
  | empty => simp
  | cons p m ih =>
    simp only [Multiset.map_cons, Multiset.sum_cons]
    exact ((hf p (Multiset.mem_cons_self _ _)).const_mul _).add
      (ih fun q hq => hf q (Multiset.mem_cons_of_mem hq))

theorem measurable_openRandom (lo hi eps : ℝ) : Measurable (openRandomU lo hi eps) := by
  unfold openRandomU openRandom; fun_prop

theorem measurable_randOpC {X : Type} [MeasurableSpace X] (cw : CWin) (fl : List ℕ) (F : X → BOp ℝ → ℝ≥0∞)
    (hF : Measurable fun z : X × BOp ℝ => F z.1 z.2) : Measurable fun x => randOpC cw fl (F x) := by
  unfold randOpC
  have : Measurable fun z : X × ℝ =>
      meanE (unif fl) fun f => F z.1 (openRandomU cw.lo cw.hi cw.eps z.2, f) := by
    refine measurable_meanE _ (fun (z : X × ℝ) f => F z.1 (openRandomU cw.lo cw.hi cw.eps z.2, f))
      fun p _ => ?_
    have := measurable_openRandom cw.lo cw.hi cw.eps
    exact hF.comp (measurable_fst.prodMk ((this.comp measurable_snd).prodMk measurable_const))
  exact this.lintegral_prod_right'

/-- `G` of the list of blocks and pairs. -/
abbrev onList (bl : List ℕ) (G : List (ℕ × OpPair) → ℝ≥0∞) (s : Fin bl.length → OpPair) : ℝ≥0∞ :=
  G (List.ofFn fun i => (bl.get i, s i))

theorem onList_cons (b : ℕ) (bl : List ℕ) (G : List (ℕ × OpPair) → ℝ≥0∞) (z : OpPair)
    (s : Fin bl.length → OpPair) :
    onList (b :: bl) G (Fin.cons z s : Fin (bl.length + 1) → OpPair) =
      onList bl (fun l => G ((b, z) :: l)) s := by
  unfold onList
  congr 1
  exact List.ofFn_succ

theorem measurable_cons (k : ℕ) :
    Measurable fun z : OpPair × (Fin k → OpPair) => (Fin.cons z.1 z.2 : Fin (k + 1) → OpPair) := by
  rw [measurable_pi_iff]
  intro i
  refine Fin.cases ?_ (fun j => ?_) i
  · exact measurable_fst
  · exact (measurable_pi_apply j).comp measurable_snd

theorem measurable_pairC {X : Type} [MeasurableSpace X] (E : PEnv) (cw : CWin) (bl : List ℕ) :
    ∀ G : X → List (ℕ × OpPair) → ℝ≥0∞,
    Measurable (fun z : X × (Fin bl.length → OpPair) => onList bl (G z.1) z.2) →
    Measurable fun x => pairC E cw bl (G x) := by
  induction bl generalizing X with
  | nil =>
    intro G hG
    have : (fun x => pairC E cw [] (G x)) = fun x => onList [] (G x) (fun i => i.elim0) := by
      funext x; rfl
    rw [this]
    exact hG.comp (measurable_id.prodMk measurable_const)
  | cons b bl ih =>
    intro G hG
    refine measurable_randOpC cw _ _ ?_
    refine measurable_randOpC cw _ (fun (z : X × BOp ℝ) q => pairC E cw bl fun l => G z.1 ((b, z.2, q) :: l)) ?_
    refine ih (fun (z : (X × BOp ℝ) × BOp ℝ) l => G z.1.1 ((b, z.1.2, z.2) :: l)) ?_
    have := hG.comp ((measurable_fst.comp (measurable_fst.comp measurable_fst)).prodMk
      ((measurable_cons bl.length).comp
        (((measurable_snd.comp (measurable_fst.comp measurable_fst)).prodMk
          (measurable_snd.comp measurable_fst)).prodMk measurable_snd)) :
        Measurable fun z : ((X × BOp ℝ) × BOp ℝ) × (Fin bl.length → OpPair) =>
          (z.1.1.1, (Fin.cons (z.1.1.2, z.1.2) z.2 : Fin (bl.length + 1) → OpPair)))
    have e : (fun z : ((X × BOp ℝ) × BOp ℝ) × (Fin bl.length → OpPair) =>
        onList bl (fun l => G z.1.1.1 ((b, z.1.1.2, z.1.2) :: l)) z.2) =
        fun z => onList (b :: bl) (G z.1.1.1) (Fin.cons (z.1.1.2, z.1.2) z.2 : Fin (bl.length + 1) → OpPair) :=
      funext fun z => (onList_cons b bl (G z.1.1.1) (z.1.1.2, z.1.2) z.2).symm
    exact e ▸ this

/-- Operators of block `b` in the window. -/
noncomputable def blockMeasure (β : ℝ) (E : PEnv) (cw : CWin) (b : ℕ) : Measure (BOp ℝ) :=
  (opMeasure β E.nf).restrict (region cw (blockFlavors E b))

instance (β : ℝ) (E : PEnv) (cw : CWin) (b : ℕ) : SigmaFinite (blockMeasure β E cw b) := by
  unfold blockMeasure; infer_instance

/-- Probability density of one operator of block `b`. -/
noncomputable def blockDens (E : PEnv) (cw : CWin) (b : ℕ) : ℝ :=
  1 / ((cw.hi - cw.lo) * (blockFlavors E b).length)

theorem randOpC_block {β : ℝ} {cw : CWin} (hcw : cw.OK β) (E : PEnv) (b : ℕ) {G : BOp ℝ → ℝ≥0∞}
    (hG : Measurable G) : randOpC cw (blockFlavors E b) G =
      ENNReal.ofReal (blockDens E cw b) * ∫⁻ o, G o ∂(blockMeasure β E cw b) :=
  randOpC_eq hcw.lo_nonneg hcw.lt hcw.le hcw.eps (List.nodup_range.filter _)
    (fun f hf => List.mem_range.1 (List.mem_filter.1 hf).1) hG

/-- Probability density of the operators of one kind if the blocks are `bl`. -/
noncomputable def listDens (E : PEnv) (cw : CWin) (bl : List ℕ) : ℝ := (bl.map (blockDens E cw)).prod

theorem blockDens_nonneg {β : ℝ} {cw : CWin} (hcw : cw.OK β) (E : PEnv) (b : ℕ) : 0 ≤ blockDens E cw b := by
  have := hcw.lt
  unfold blockDens
  have : 0 < cw.hi - cw.lo := by linarith
  positivity

theorem listDens_nonneg {β : ℝ} {cw : CWin} (hcw : cw.OK β) (E : PEnv) (bl : List ℕ) : 0 ≤ listDens E cw bl := by
  refine List.prod_nonneg fun x hx => ?_
  obtain ⟨b, _, rfl⟩ := List.mem_map.1 hx
  exact blockDens_nonneg hcw E b

/-- The pairs drawn for the blocks `bl`, before normalization. -/
noncomputable def pairMeasure (β : ℝ) (E : PEnv) (cw : CWin) (bl : List ℕ) : Measure (Fin bl.length → OpPair) :=
  Measure.pi fun i => (blockMeasure β E cw (bl.get i)).prod (blockMeasure β E cw (bl.get i))

theorem pairMeasure_cons (β : ℝ) (E : PEnv) (cw : CWin) (b : ℕ) (bl : List ℕ)
    (F : (Fin (bl.length + 1) → OpPair) → ℝ≥0∞) (hF : Measurable F) :
    ∫⁻ s, F s ∂(pairMeasure β E cw (b :: bl)) =
      ∫⁻ z, ∫⁻ s, F (Fin.cons z s) ∂(pairMeasure β E cw bl)
        ∂((blockMeasure β E cw b).prod (blockMeasure β E cw b)) := by
  have h := measurePreserving_piFinSuccAbove (n := bl.length) (α := fun _ => OpPair) (fun i =>
    (blockMeasure β E cw ((b :: bl).get i)).prod (blockMeasure β E cw ((b :: bl).get i))) 0
  have hF' : Measurable fun z : OpPair × (Fin bl.length → OpPair) =>
      F (Fin.cons z.1 z.2 : Fin (bl.length + 1) → OpPair) := hF.comp (measurable_cons _)
  have h2 := h.lintegral_comp hF'
  have e : ∀ s : Fin (bl.length + 1) → OpPair,
      (Fin.cons (MeasurableEquiv.piFinSuccAbove (fun _ => OpPair) 0 s).1
        (MeasurableEquiv.piFinSuccAbove (fun _ => OpPair) 0 s).2 : Fin (bl.length + 1) → OpPair) = s := by
    intro s
    funext i
    refine Fin.cases rfl (fun j => rfl) i
  simp only [e] at h2
  exact h2.trans (lintegral_prod _ hF'.aemeasurable)

theorem pairC_eq {β : ℝ} {cw : CWin} (hcw : cw.OK β) (E : PEnv) (bl : List ℕ) :
    ∀ G : List (ℕ × OpPair) → ℝ≥0∞, Measurable (onList bl G) →
    pairC E cw bl G = ENNReal.ofReal (listDens E cw bl ^ 2) * ∫⁻ s, onList bl G s ∂(pairMeasure β E cw bl) := by
  induction bl with
  | nil =>
    intro G hG
    have : ∀ s : Fin ([] : List ℕ).length → OpPair, onList [] G s = G [] := fun s => rfl
    simp only [pairC, listDens, this, lintegral_const, pairMeasure, List.map_nil, List.prod_nil, one_pow,
      ENNReal.ofReal_one, one_mul]
    rw [Measure.pi_univ]
    simp
  | cons b bl ih =>
    intro G hG
    have hpq : Measurable fun z : OpPair × (Fin bl.length → OpPair) =>
        onList bl (fun l => G ((b, z.1) :: l)) z.2 := by
      have := hG.comp (measurable_cons bl.length)
      refine (funext fun z => ?_ : (fun z : OpPair × (Fin bl.length → OpPair) =>
        onList bl (fun l => G ((b, z.1) :: l)) z.2) = _) ▸ this
      exact (onList_cons b bl G z.1 z.2).symm
    have h1 : ∀ z : OpPair, pairC E cw bl (fun l => G ((b, z) :: l)) = ENNReal.ofReal (listDens E cw bl ^ 2) *
        ∫⁻ s, onList bl (fun l => G ((b, z) :: l)) s ∂(pairMeasure β E cw bl) := fun z =>
      ih _ (hpq.comp (measurable_const.prodMk measurable_id))
    haveI : SigmaFinite (pairMeasure β E cw bl) := by unfold pairMeasure; infer_instance
    have hI : Measurable fun z : OpPair => pairC E cw bl (fun l => G ((b, z) :: l)) := by
      simp only [h1]
      exact hpq.lintegral_prod_right'.const_mul _
    rw [show pairC E cw (b :: bl) G = randOpC cw (blockFlavors E b) fun p =>
      randOpC cw (blockFlavors E b) fun q => pairC E cw bl fun l => G ((b, p, q) :: l) from rfl]
    have h2 : ∀ p, randOpC cw (blockFlavors E b) (fun q => pairC E cw bl fun l => G ((b, p, q) :: l)) =
        ENNReal.ofReal (blockDens E cw b) * ∫⁻ q, pairC E cw bl (fun l => G ((b, p, q) :: l))
          ∂(blockMeasure β E cw b) := fun p =>
      randOpC_block hcw E b (hI.comp (measurable_const.prodMk measurable_id))
    simp only [h2]
    rw [randOpC_block hcw E b (hI.lintegral_prod_right'.const_mul _), lintegral_const_mul _
      hI.lintegral_prod_right', ← lintegral_prod _ hI.aemeasurable]
    simp only [h1]
    rw [lintegral_const_mul _ hpq.lintegral_prod_right', pairMeasure_cons _ _ _ _ _ _ hG]
    simp only [← mul_assoc]
    congr 1
    · rw [← ENNReal.ofReal_mul (blockDens_nonneg hcw E b), ← ENNReal.ofReal_mul
        (mul_nonneg (blockDens_nonneg hcw E b) (blockDens_nonneg hcw E b))]
      congr 1
      simp only [listDens, List.map_cons, List.prod_cons]
      ring
    · refine lintegral_congr fun z => lintegral_congr fun s => ?_
      exact (onList_cons b bl G z s).symm

theorem insDrawsC_eq {β : ℝ} {cw : CWin} (hcw : cw.OK β) (E : PEnv) (k : ℕ) :
    ∀ G : List (ℕ × OpPair) → ℝ≥0∞, (∀ bl : List ℕ, Measurable (onList bl G)) →
    insDrawsC E cw k G = meanE (blockDraws ℝ E.ns k) fun bl => pairC E cw bl G := by
  induction k with
  | zero =>
    intro G _
    rw [blockDraws, meanE_ret]; rfl
  | succ k ih =>
    intro G hG
    rw [blockDraws, meanE_bind (nnr_unif _)]
    refine meanE_congr fun b _ => ?_
    rw [meanE_bind (nonneg_blockDraws _ _)]
    simp only [meanE_ret]
    have hpq : ∀ bl : List ℕ, Measurable fun z : OpPair × (Fin bl.length → OpPair) =>
        onList bl (fun l => G ((b.2, z.1) :: l)) z.2 := by
      intro bl
      have := (hG (b.2 :: bl)).comp (measurable_cons bl.length)
      refine (funext fun z => ?_ : (fun z : OpPair × (Fin bl.length → OpPair) =>
        onList bl (fun l => G ((b.2, z.1) :: l)) z.2) = _) ▸ this
      exact (onList_cons b.2 bl G z.1 z.2).symm
    have hI : ∀ bl, Measurable fun z : OpPair => pairC E cw bl (fun l => G ((b.2, z) :: l)) := fun bl =>
      measurable_pairC E cw bl (fun (z : OpPair) l => G ((b.2, z) :: l)) (hpq bl)
    have h1 : ∀ p q, insDrawsC E cw k (fun l => G ((b.2, p, q) :: l)) =
        meanE (blockDraws ℝ E.ns k) fun bl => pairC E cw bl fun l => G ((b.2, p, q) :: l) := fun p q =>
      ih _ fun bl => (hpq bl).comp (measurable_const.prodMk measurable_id)
    simp only [h1]
    have hr : ∀ (F : BOp ℝ → List ℕ → ℝ≥0∞), (∀ bl, Measurable fun o => F o bl) →
        randOpC cw (blockFlavors E b.2) (fun o => meanE (blockDraws ℝ E.ns k) (F o)) =
        meanE (blockDraws ℝ E.ns k) fun bl => randOpC cw (blockFlavors E b.2) fun o => F o bl := by
      intro F hF
      rw [randOpC_block hcw E b.2 (measurable_meanE _ _ fun p _ => hF _), lintegral_meanE _ _ _ fun p _ => hF _,
        ← meanE_mul_left]
      exact meanE_congr fun bl _ => (randOpC_block hcw E b.2 (hF _)).symm
    have h2 : ∀ p, randOpC cw (blockFlavors E b.2) (fun q => meanE (blockDraws ℝ E.ns k) fun bl =>
        pairC E cw bl fun l => G ((b.2, p, q) :: l)) =
        meanE (blockDraws ℝ E.ns k) fun bl => randOpC cw (blockFlavors E b.2) fun q =>
          pairC E cw bl fun l => G ((b.2, p, q) :: l) := fun p =>
      hr _ fun bl => (hI bl).comp (measurable_const.prodMk measurable_id)
    simp only [h2]
    rw [hr _ fun bl => measurable_randOpC cw _ _ (hI bl)]
    rfl

/-- The operators of one kind drawn for the blocks `bl`, before normalization. -/
noncomputable def listMeasure (β : ℝ) (E : PEnv) (cw : CWin) (bl : List ℕ) : Measure (Fin bl.length → BOp ℝ) :=
  Measure.pi fun i => blockMeasure β E cw (bl.get i)

instance (β : ℝ) (E : PEnv) (cw : CWin) (bl : List ℕ) : SigmaFinite (listMeasure β E cw bl) := by
  unfold listMeasure; infer_instance

/-- The draws of `insDrawsC`: first the blocks, then all operators. -/
theorem insDrawsC_lintegral {β : ℝ} {cw : CWin} (hcw : cw.OK β) (E : PEnv) (k : ℕ)
    (g : List ℕ → List (BOp ℝ) → List (BOp ℝ) → ℝ≥0∞)
    (hg : ∀ bl : List ℕ, Measurable fun z : (Fin bl.length → BOp ℝ) × (Fin bl.length → BOp ℝ) =>
      g bl (List.ofFn z.1) (List.ofFn z.2)) :
    insDrawsC E cw k (fun l => g (l.map (·.1)) (l.map (·.2.1)) (l.map (·.2.2))) =
      meanE (blockDraws ℝ E.ns k) fun bl => ENNReal.ofReal (listDens E cw bl ^ 2) *
        ∫⁻ p, ∫⁻ q, g bl (List.ofFn p) (List.ofFn q) ∂(listMeasure β E cw bl) ∂(listMeasure β E cw bl) := by
  set G : List (ℕ × OpPair) → ℝ≥0∞ := fun l => g (l.map (·.1)) (l.map (·.2.1)) (l.map (·.2.2)) with hG
  have e : ∀ (bl : List ℕ) (s : Fin bl.length → OpPair), onList bl G s =
      g bl (List.ofFn fun i => (s i).1) (List.ofFn fun i => (s i).2) := by
    intro bl s
    simp only [onList, hG, List.map_ofFn, Function.comp_def]
    rw [show (fun i => bl.get i) = bl.get from rfl, List.ofFn_get]
  have hmeas : ∀ bl, Measurable (onList bl G) := by
    intro bl
    have : (onList bl G) = (fun z : (Fin bl.length → BOp ℝ) × (Fin bl.length → BOp ℝ) =>
      g bl (List.ofFn z.1) (List.ofFn z.2)) ∘ (MeasurableEquiv.arrowProdEquivProdArrow (BOp ℝ) (BOp ℝ)
        (Fin bl.length)) := funext fun s => e bl s
    rw [this]
    exact (hg bl).comp (MeasurableEquiv.measurable _)
  rw [insDrawsC_eq hcw E k G hmeas]
  refine meanE_congr fun bl _ => ?_
  rw [pairC_eq hcw E _ G (hmeas _)]
  congr 1
  have h := measurePreserving_arrowProdEquivProdArrow (BOp ℝ) (BOp ℝ) (Fin bl.2.length)
    (fun i => blockMeasure β E cw (bl.2.get i)) (fun i => blockMeasure β E cw (bl.2.get i))
  have h2 := h.lintegral_comp (hg bl.2)
  refine (lintegral_congr fun s => ?_).trans (h2.trans (lintegral_prod _ (hg bl.2).aemeasurable))
  exact e bl.2 s

end CTHyb
