import Verif.GMeasHeatLemmas
import Mathlib.Data.Fin.VecNotation
import Mathlib.Tactic.FinCases
import Mathlib.Analysis.Normed.Unbundled.RingSeminorm

/-!
Lemmas for the measurement of the Green's functions in equilibrium: the values of one measurement in a state of the simulation as sums
over the configurations of a block.
-/

set_option linter.unusedSectionVars false

namespace CTHyb

open Matrix Rand

variable {𝕜 : Type} [RCLike 𝕜] [DecidableEq 𝕜] {N : ℕ} {A : CodeArgs 𝕜 N} {tau : ℤ → ℝ}

/-- A permutation of an image is an image of a permutation. -/
theorem perm_map_lift {α β : Type} {f : α → β} (hf : Function.Injective f) {l : List β} {u : List α} (h : l.Perm (u.map f)) :
    ∃ v : List α, v.Perm u ∧ v.map f = l := by
  have h1 : l ∈ Set.range (List.map f) := by
    rw [Set.range_list_map]
    intro x hx
    obtain ⟨y, -, rfl⟩ := List.mem_map.1 (h.mem_iff.1 hx)
    exact ⟨y, rfl⟩
  obtain ⟨v, rfl⟩ := h1
  exact ⟨v, (List.map_perm_map_iff hf).1 h, rfl⟩

theorem gOps_eq {f g : BOp ℤ → TPsi ℝ} {v : List (BOp ℤ)} {w : Fin r → BOp ℤ} {wl : List (TPsi ℝ)} (off n : ℕ) (hv : v.length = n)
    (hw : ∀ i : Fin r, wl[2 * i.1 + off]? = some (g (w i))) :
    gOps (v.map f) wl off n r = Sum.elim (fun i => f (v.getD i.1 (0, 0))) (fun i => g (w i)) := by
  subst hv
  funext k
  rcases k with i | i
  · simp only [gOps, Sum.elim_inl]
    rw [List.getD_eq_getElem?_getD, List.getD_eq_getElem?_getD, List.getElem?_map, List.getElem?_eq_getElem i.2]
    rfl
  · simp only [gOps, Sum.elim_inr]
    rw [List.getD_eq_getElem?_getD, hw i]
    rfl

/-- The operators of a state with a worm of the Green's functions. -/
theorem state_frame (hA : A.OK) (ht : Function.Injective tau) {x : WCfg ℤ} {s : CodeState A (Option (Worm ℤ))}
    (hs : SimInv A.env A.Inv (pmDet A.P) s.1) (h : Reps A tau (codeWops tau) x s) {r : ℕ} (hg : isGreen r x = true)
    {m : PM (OpTime ℝ) 𝕜} (hm : s.1.cfg.M = .ok m) :
    ∃ γc γd : Fin m.cd.act.length ⊕ Fin r → BOp ℤ, Frame γc γd x ∧
      gOps m.c.act (wormOps s.1.cfg.worm) 0 m.cd.act.length r = mkOp tau .annihilation ∘ γc ∧
      gOps m.cd.act (wormOps s.1.cfg.worm) 1 m.cd.act.length r = mkOp tau .creation ∘ γd ∧
      GOK A.G (mkOp tau .annihilation ∘ γc) (mkOp tau .creation ∘ γd)
        (blk (m.inverse A.P) 0 0 m.cd.act.length m.cd.act.length) := by
  obtain ⟨w, hw, hk⟩ := isGreen_some hg
  have hn := h.nodup hs
  obtain ⟨m', hm', hinv⟩ := hs.inv
  obtain rfl : m' = m := by rw [hm] at hm'; exact (Except.ok.inj hm').symm
  have hcd : m'.cd.act.Perm (x.cd.map (mkOp tau .creation)) := by
    have := h.cd; rw [hm] at this; exact this
  have hc : m'.c.act.Perm (x.c.map (mkOp tau .annihilation)) := by
    have := h.c; rw [hm] at this; exact this
  have hlen : m'.c.act.length = m'.cd.act.length := by
    have := (C60_lawful A hA).len _ hs.inv; rw [hm] at this; exact this
  obtain ⟨vc, pc, ec⟩ := perm_map_lift (mkOp_inj ht .annihilation) hc
  obtain ⟨vd, pd, ed⟩ := perm_map_lift (mkOp_inj ht .creation) hcd
  have lc : vc.length = m'.cd.act.length := by rw [← hlen, ← ec, List.length_map]
  have ld : vd.length = m'.cd.act.length := by rw [← ed, List.length_map]
  have hwl : wormOps s.1.cfg.worm = pairOps (mkOp tau .annihilation ∘ wormC r w) (mkOp tau .creation ∘ wormCd r w) := by
    rw [h.wops, hw, green_wops tau hk]
  have hlu : (pairOps (mkOp tau .annihilation ∘ wormC r w) (mkOp tau .creation ∘ wormCd r w)).length = 2 * r := by
    rw [pairOps, interleave_length _ _ (by simp), List.length_ofFn]
  have hget : ∀ i : Fin r, (wormOps s.1.cfg.worm)[2 * i.1 + 0]? = some (mkOp tau .annihilation (gwc r x i)) ∧
      (wormOps s.1.cfg.worm)[2 * i.1 + 1]? = some (mkOp tau .creation (gwd r x i)) := by
    intro i
    have hi := i.2
    have h1 := interleave_getD (⟨⟨0, 0⟩, .creation, 0⟩ : TPsi ℝ) (List.ofFn (mkOp tau .annihilation ∘ wormC r w))
      (List.ofFn (mkOp tau .creation ∘ wormCd r w)) (by simp) i.1 (by simp)
    rw [getD_ofFn, getD_ofFn] at h1
    have e1 : gwc r x = wormC r w := by unfold gwc; rw [hw]; rfl
    have e2 : gwd r x = wormCd r w := by unfold gwd; rw [hw]; rfl
    rw [hwl, e1, e2]
    have l1 : 2 * i.1 < (pairOps (mkOp tau .annihilation ∘ wormC r w) (mkOp tau .creation ∘ wormCd r w)).length := by
      rw [hlu]; omega
    have l2 : 2 * i.1 + 1 < (pairOps (mkOp tau .annihilation ∘ wormC r w) (mkOp tau .creation ∘ wormCd r w)).length := by
      rw [hlu]; omega
    refine ⟨?_, ?_⟩
    · rw [Nat.add_zero, List.getElem?_eq_getElem l1]
      refine congrArg some (Eq.trans ?_ h1.1)
      rw [List.getD_eq_getElem?_getD]
      erw [List.getElem?_eq_getElem l1]
      rfl
    · rw [List.getElem?_eq_getElem l2]
      refine congrArg some (Eq.trans ?_ h1.2)
      rw [List.getD_eq_getElem?_getD]
      erw [List.getElem?_eq_getElem l2]
      rfl
  let γc : Fin m'.cd.act.length ⊕ Fin r → BOp ℤ := Sum.elim (fun i => vc.getD i.1 (0, 0)) (gwc r x)
  let γd : Fin m'.cd.act.length ⊕ Fin r → BOp ℤ := Sum.elim (fun i => vd.getD i.1 (0, 0)) (gwd r x)
  have ofc : ∀ (n : ℕ) (v : List (BOp ℤ)), v.length = n → (List.ofFn fun i : Fin n => v.getD i.1 (0, 0)) = v := by
    intro n v hv
    subst hv
    refine List.ext_getElem (by simp) fun i h1 h2 => ?_
    rw [List.getElem_ofFn, List.getD_eq_getElem?_getD, List.getElem?_eq_getElem h2]
    rfl
  have oc : List.ofFn (γc ∘ .inl) = vc := ofc _ _ lc
  have od : List.ofFn (γd ∘ .inl) = vd := ofc _ _ ld
  have hf : Frame γc γd x := ⟨by rw [oc]; exact pc, by rw [od]; exact pd, rfl, rfl, hg⟩
  refine ⟨γc, γd, hf, ?_, ?_, ?_⟩
  · rw [← ec, gOps_eq 0 _ lc fun i => (hget i).1]
    funext k
    rcases k with i | i <;> rfl
  · have := gOps_eq (f := mkOp tau .creation) 1 _ ld fun i => (hget i).2
    rw [ed] at this
    rw [this]
    funext k
    rcases k with i | i <;> rfl
  · refine C36_from_matrix A.P A.G hA.blocks m' hinv _ r rfl _ _ ?_ ?_ ?_
    · rw [← ec, ← oc, List.map_ofFn]
      rfl
    · rw [Function.comp_assoc, ← List.map_ofFn, od, ed]
    · have := hf.times hn
      rw [List.map_append, allOps_map, allOps_map] at this
      exact List.nodup_append_comm.1 this

section draw
variable {X : Type} [Fintype X] {c : X → WCfg ℤ}

/-- The mean over the rows and columns kept is a mean over blocks. -/
theorem draw_block {n r : ℕ} {γc γd : Fin n ⊕ Fin r → BOp ℤ} {x : WCfg ℤ} (hf : Frame γc γd x)
    (hn : ((x.ops tau (codeWops tau)).map Psi.time).Nodup) (maxOps : ℕ) (hr : r ≤ maxOps) (W h : X → ℝ) (v : List ℕ → List ℕ → ℝ) (κ : ℝ)
    (hv : ∀ jr jc, v jr jc = κ * (blockSum r c h (unionC r x, unionD r x, (gRows n r maxOps jc).toFinset.image γc,
        (gRows n r maxOps jr).toFinset.image γd) /
      blockSum r c W (unionC r x, unionD r x, (gRows n r maxOps jc).toFinset.image γc, (gRows n r maxOps jr).toFinset.image γd))) :
    mean (shuffleRand n) (fun jr => mean (shuffleRand n) fun jc => v jr jc) = κ * blockMean r maxOps c W h x := by
  have ic := hf.injC hn
  have id' := hf.injD hn
  have kc : (unionC r x).card - r = n := by
    rw [hf.unionC_eq, Finset.card_image_of_injective _ ic, Finset.card_univ, Fintype.card_sum, Fintype.card_fin, Fintype.card_fin,
      Nat.add_sub_cancel]
  have kd : (unionD r x).card - r = n := by
    rw [hf.unionD_eq, Finset.card_image_of_injective _ id', Finset.card_univ, Fintype.card_sum, Fintype.card_fin, Fintype.card_fin,
      Nat.add_sub_cancel]
  let F : Finset (BOp ℤ) → Finset (BOp ℤ) → ℝ := fun C R =>
    blockSum r c h (unionC r x, unionD r x, C, R) / blockSum r c W (unionC r x, unionD r x, C, R)
  have e1 : ∀ jr, mean (shuffleRand n) (fun jc => v jr jc) =
      κ * ((∑ C ∈ blockSets maxOps (unionC r x) (gwc r x), F C ((gRows n r maxOps jr).toFinset.image γd)) /
        n.choose (keptNum n r maxOps)) := by
    intro jr
    have h1 := mean_keptSet n r maxOps hr fun B => κ * F ((B.disjSum Finset.univ).image γc) ((gRows n r maxOps jr).toFinset.image γd)
    have h2 := sum_blockSets ic (keptNum n r maxOps) fun C => κ * F C ((gRows n r maxOps jr).toFinset.image γd)
    rw [h2] at h1
    refine Eq.trans (mean_congr fun jc => ?_) (h1.trans ?_)
    · rw [hv, gRows_toFinset]
    · unfold blockSets
      rw [kc, ← hf.wc, hf.unionC_eq, ← Finset.mul_sum, mul_div_assoc]
      rfl
  have h1 := mean_keptSet n r maxOps hr fun B =>
    κ * ((∑ C ∈ blockSets maxOps (unionC r x) (gwc r x), F C ((B.disjSum Finset.univ).image γd)) / n.choose (keptNum n r maxOps))
  have h2 := sum_blockSets id' (keptNum n r maxOps) fun R =>
    κ * ((∑ C ∈ blockSets maxOps (unionC r x) (gwc r x), F C R) / n.choose (keptNum n r maxOps))
  rw [h2] at h1
  refine Eq.trans (mean_congr fun jr => ?_) (h1.trans ?_)
  · rw [e1, gRows_toFinset]
  · unfold blockMean
    have e : blockSets maxOps (unionD r x) (gwd r x) =
        (Finset.powersetCard (keptNum n r maxOps + r) (Finset.univ.image γd)).filter (fun C => ∀ i, γd (.inr i) ∈ C) := by
      unfold blockSets
      rw [kd, ← hf.wd, hf.unionD_eq]
      rfl
    rw [kc, kd, Finset.sum_comm, ← e, ← Finset.mul_sum, ← Finset.sum_div]
    change κ * (_ / _) / _ = _
    rw [mul_div_assoc, div_div]

end draw

/-! ### One measurement -/

/-- No element of the matrix is smaller than 1e-10 times another one without being zero. -/
def GResolved {n r : ℕ} (M : Matrix (Fin n ⊕ (Fin r ⊕ Fin r)) (Fin n ⊕ (Fin r ⊕ Fin r)) 𝕜) : Prop :=
  ∀ i j i' j', ‖M i j‖ < 1e-10 * ‖M i' j'‖ → M i j = 0

theorem cutoff_resolved {n r : ℕ} {M : Matrix (Fin n ⊕ (Fin r ⊕ Fin r)) (Fin n ⊕ (Fin r ⊕ Fin r)) 𝕜} (h : GResolved M)
    (rows cols : List (Fin n ⊕ Fin r)) (i j) (hij : ‖M i j‖ < gCutoff M rows cols) : M i j = 0 := by
  unfold gCutoff at hij
  set S := Finset.univ.filter fun p : (Fin n ⊕ (Fin r ⊕ Fin r)) × (Fin n ⊕ (Fin r ⊕ Fin r)) => gKept rows p.1 && gKept cols p.2
  rcases S.eq_empty_or_nonempty with hS | hS
  · rw [hS, Finset.sup_empty] at hij
    have := norm_nonneg (M i j)
    simp only [bot_eq_zero', NNReal.coe_zero, mul_zero] at hij
    linarith
  · obtain ⟨p, -, hp⟩ := Finset.exists_mem_eq_sup S hS fun p => ‖M p.1 p.2‖₊
    rw [hp] at hij
    exact h i j p.1 p.2 hij

/-- The sign of the state. -/
theorem state_sign (hA : A.OK) {x : WCfg ℤ} {s : CodeState A (Option (Worm ℤ))}
    (hs : SimInv A.env A.Inv (pmDet A.P) s.1) (h : Reps A tau (codeWops tau) x s) (hx : cfgW A tau (codeWops tau) x ≠ 0)
    (hv : ∀ w, x.worm = some w → w.Valid)
    {n r : ℕ} {γc γd : Fin n ⊕ Fin r → BOp ℤ} (hf : Frame γc γd x) :
    exchWeight (trOf A) A.G (mkOp tau .annihilation ∘ γc) (mkOp tau .creation ∘ γd) .inr .inr = signedW A tau x ∧
    s.1.cfg.sign = wPhase (NormedField.toAbsoluteValue 𝕜)
      (exchWeight (trOf A) A.G (mkOp tau .annihilation ∘ γc) (mkOp tau .creation ∘ γd) .inr .inr) := by
  have hn := h.nodup hs
  obtain ⟨-, -, e⟩ := hf.exch_same hn hf.green hv hn rfl rfl hf.wc hf.wd
  have e1 : exchWeight (trOf A) A.G (mkOp tau .annihilation ∘ γc) (mkOp tau .creation ∘ γd) .inr .inr = signedW A tau x := by
    rw [exchWeight_signedW γc γd Sum.inr_injective Sum.inr_injective (hf.times hn)]
    exact signedW_same e (((exchCfg_ops (tau := tau) γc γd Sum.inr_injective Sum.inr_injective).map Psi.time).nodup_iff.2 (hf.times hn))
  refine ⟨e1, ?_⟩
  rw [e1]
  unfold wPhase
  change _ = signedW A tau x / ((‖signedW A tau x‖ : ℝ) : 𝕜)
  rw [norm_signedW, ← weight_sign hA hs h, mul_div_cancel_left₀]
  exact RCLike.ofReal_ne_zero.2 hx

theorem sum_gRows_one {n maxOps : ℕ} (hr : 1 ≤ maxOps) (js : List ℕ) {V : Type} [AddCommMonoid V] (f : (Fin 1 → Fin n ⊕ Fin 1) → V) :
    ((gRows n 1 maxOps js).map fun k => f fun _ => k).sum = ∑ a ∈ tuples (gRows n 1 maxOps js).toFinset, f a := by
  have hnd := (C36_reduction n 1 maxOps hr js).1
  rw [← List.sum_toFinset _ hnd]
  refine Finset.sum_nbij (fun k _ => k) ?_ ?_ ?_ fun _ _ => rfl
  · intro k hk
    simp only [tuples, Finset.mem_filter, Finset.mem_univ, true_and]
    exact ⟨Function.injective_of_subsingleton _, fun _ => hk⟩
  · intro k _ k' _ h
    exact congrFun h 0
  · intro a ha
    simp only [tuples, Finset.coe_filter, Finset.mem_univ, true_and, Set.mem_ofPred_eq] at ha
    exact ⟨a 0, ha.2 0, funext fun i => by rw [Subsingleton.elim i 0]⟩

theorem nodup_g2Quads {n : ℕ} {cols rows : List (Fin n ⊕ Fin 2)} (hc : cols.Nodup) (hr : rows.Nodup) : (g2Quads cols rows).Nodup := by
  unfold g2Quads
  rw [List.nodup_flatMap]
  refine ⟨fun a _ => ?_, hc.imp fun {a a'} hne => ?_⟩
  · rw [List.nodup_flatMap]
    refine ⟨fun b _ => ?_, hr.imp fun {b b'} hne => ?_⟩
    · rw [List.nodup_flatMap]
      refine ⟨fun c' _ => (hr.filter _).map fun d d' h => by simpa using h, (hc.filter _).imp fun {c' c''} hne => ?_⟩
      intro q h1 h2
      simp only [List.mem_map] at h1 h2
      obtain ⟨_, -, rfl⟩ := h1
      obtain ⟨_, -, e⟩ := h2
      simp only [Prod.mk.injEq] at e
      exact hne e.2.2.1.symm
    · intro q h1 h2
      simp only [List.mem_map, List.mem_flatMap] at h1 h2
      obtain ⟨_, -, _, -, rfl⟩ := h1
      obtain ⟨_, -, _, -, e⟩ := h2
      simp only [Prod.mk.injEq] at e
      exact hne e.2.1.symm
  · intro q h1 h2
    simp only [List.mem_map, List.mem_flatMap] at h1 h2
    obtain ⟨_, -, _, -, _, -, rfl⟩ := h1
    obtain ⟨_, -, _, -, _, -, e⟩ := h2
    simp only [Prod.mk.injEq] at e
    exact hne e.1.symm

theorem sum_g2Quads {n maxOps : ℕ} (hr : 2 ≤ maxOps) (jc jr : List ℕ) {V : Type} [AddCommMonoid V]
    (f : (Fin 2 → Fin n ⊕ Fin 2) → (Fin 2 → Fin n ⊕ Fin 2) → V) :
    ((g2Quads (gRows n 2 maxOps jc) (gRows n 2 maxOps jr)).map fun q => f ![q.1, q.2.2.1] ![q.2.1, q.2.2.2]).sum =
      ∑ a ∈ tuples (gRows n 2 maxOps jc).toFinset, ∑ b ∈ tuples (gRows n 2 maxOps jr).toFinset, f a b := by
  have hnc := (C36_reduction n 2 maxOps hr jc).1
  have hnr := (C36_reduction n 2 maxOps hr jr).1
  have inj2 : ∀ a : Fin 2 → Fin n ⊕ Fin 2, Function.Injective a ↔ a 0 ≠ a 1 := by
    intro a
    constructor
    · intro h e
      exact absurd (h e) (by decide)
    · intro h i j hij
      fin_cases i <;> fin_cases j <;> first | rfl | (exfalso; exact h hij) | (exfalso; exact h hij.symm)
  rw [← List.sum_toFinset _ (nodup_g2Quads hnc hnr), ← Finset.sum_product']
  refine Finset.sum_nbij (fun q => (![q.1, q.2.2.1], ![q.2.1, q.2.2.2])) ?_ ?_ ?_ fun _ _ => rfl
  · rintro ⟨a, b, c', d'⟩ hq
    obtain ⟨h1, h2, h3, h4, h5, h6⟩ := (mem_g2Quads _ _ a b c' d').1 (List.mem_toFinset.1 hq)
    simp only [tuples, Finset.mem_product, Finset.mem_filter, Finset.mem_univ, true_and, inj2, Fin.forall_fin_two, List.mem_toFinset]
    exact ⟨⟨h5, h1, h3⟩, h6, h2, h4⟩
  · rintro ⟨a, b, c', d'⟩ - ⟨a', b', c'', d''⟩ - h
    simp only [Prod.mk.injEq] at h
    have e1 := congrFun h.1 0
    have e2 := congrFun h.1 1
    have e3 := congrFun h.2 0
    have e4 := congrFun h.2 1
    simp only [Matrix.cons_val_zero, Matrix.cons_val_one] at e1 e2 e3 e4
    rw [e1, e2, e3, e4]
  · rintro ⟨a, b⟩ hab
    simp only [Finset.coe_product, Set.mem_prod, tuples, Finset.mem_coe, Finset.mem_filter, Finset.mem_univ, true_and, inj2,
      Fin.forall_fin_two, List.mem_toFinset] at hab
    obtain ⟨⟨h5, h1, h3⟩, h6, h2, h4⟩ := hab
    refine ⟨(a 0, b 0, a 1, b 1), ?_, ?_⟩
    · rw [Finset.mem_coe, List.mem_toFinset]
      exact (mem_g2Quads _ _ _ _ _ _).2 ⟨h1, h2, h3, h4, h5, h6⟩
    · refine Prod.ext ?_ ?_ <;> (funext i; fin_cases i <;> rfl)

theorem linear_div (L : 𝕜 →ₗ[ℝ] ℝ) (z : 𝕜) (t : ℝ) : L (z / (t : 𝕜)) = L z / t := by
  rw [div_eq_inv_mul, ← RCLike.ofReal_inv, ← RCLike.real_smul_eq_coe_mul, map_smul, smul_eq_mul, div_eq_inv_mul]

section values
variable {X : Type} [Fintype X] {c : X → WCfg ℤ} {nf : ℕ} {G : Finset ℤ} {kinds : List WormKind}

/-- The sums over exchanges in the measurement as sums over a block. -/
theorem exch_ratio {n r : ℕ} {γc γd : Fin n ⊕ Fin r → BOp ℤ} {x : WCfg ℤ}
    (hR : Reprs A tau (codeWops tau) (OnGrid nf G kinds) c)
    (hf : Frame γc γd x) (hx : OnGrid nf G kinds x) (hn : ((x.ops tau (codeWops tau)).map Psi.time).Nodup)
    (C R : Finset (Fin n ⊕ Fin r)) (Φ : (Fin r → BOp ℤ) → (Fin r → BOp ℤ) → 𝕜) (L : 𝕜 →ₗ[ℝ] ℝ) (beta : ℝ) :
    L (∑ a ∈ tuples C, ∑ b ∈ tuples R, Φ (γc ∘ a) (γd ∘ b) *
        exchWeight (trOf A) A.G (mkOp tau .annihilation ∘ γc) (mkOp tau .creation ∘ γd) a b /
        ((beta * ∑ a ∈ tuples C, ∑ b ∈ tuples R,
          ‖exchWeight (trOf A) A.G (mkOp tau .annihilation ∘ γc) (mkOp tau .creation ∘ γd) a b‖ : ℝ) : 𝕜)) =
      1 / beta * (blockSum r c (fun j => L (Φ (gwc r (c j)) (gwd r (c j)) * signedW A tau (c j)))
          (unionC r x, unionD r x, C.image γc, R.image γd) /
        blockSum r c (fun j => cfgW A tau (codeWops tau) (c j)) (unionC r x, unionD r x, C.image γc, R.image γd)) := by
  have h1 := hf.exch_sum hR hx hn C R (fun a b w => L (Φ a b * w)) (fun a b => by rw [mul_zero, map_zero])
  have h2 := hf.exch_sum (V := ℝ) hR hx hn C R (fun _ _ w => ‖w‖) (fun a b => norm_zero)
  simp only [← Finset.sum_div]
  rw [linear_div, h2]
  simp only [map_sum]
  rw [h1]
  unfold blockSum
  simp only [norm_signedW]
  rw [mul_comm beta, ← div_div, div_eq_mul_one_div _ beta, mul_comm]

/-- One measurement of the one-particle Green's function. -/
theorem green1_block (hA : A.OK) (hR : Reprs A tau (codeWops tau) (OnGrid nf G kinds) c)
    {x : WCfg ℤ} (hx : OnGrid nf G kinds x) (hgood : x.Good A tau (codeWops tau)) {s : CodeState A (Option (Worm ℤ))}
    (hs : SimInv A.env A.Inv (pmDet A.P) s.1) (h : Reps A tau (codeWops tau) x s)
    {m : PM (OpTime ℝ) 𝕜} (hm : s.1.cfg.M = .ok m) {γc γd : Fin m.cd.act.length ⊕ Fin 1 → BOp ℤ} (hf : Frame γc γd x)
    (ec : gOps m.c.act (wormOps s.1.cfg.worm) 0 m.cd.act.length 1 = mkOp tau .annihilation ∘ γc)
    (ed : gOps m.cd.act (wormOps s.1.cfg.worm) 1 m.cd.act.length 1 = mkOp tau .creation ∘ γd)
    (hok : GOK A.G (mkOp tau .annihilation ∘ γc) (mkOp tau .creation ∘ γd)
        (blk (m.inverse A.P) 0 0 m.cd.act.length m.cd.act.length))
    {aux : Fin 1 ⊕ Fin 1 → Fin 1 ⊕ Fin 1 → 𝕜} {d : 𝕜} {Mx} (hM : gStateM A 1 s m aux = some (d, Mx)) (hres : GResolved Mx)
    (hz : ∀ k l, Mx (gPos l) (gPos k) = 0 → Mx (gPos l) (.inr (.inr 0)) * Mx (.inr (.inr 0)) (gPos k) = 0)
    (maxOps : ℕ) (hr : 1 ≤ maxOps) (φ : TPsi ℝ → TPsi ℝ → 𝕜) (L : 𝕜 →ₗ[ℝ] ℝ) (jr jc : List ℕ) :
    L (green1Value A maxOps φ s aux jr jc) = 1 / A.beta *
      (blockSum 1 c (fun j => L (φ (mkOp tau .annihilation (gwc 1 (c j) 0)) (mkOp tau .creation (gwd 1 (c j) 0)) *
            (-(bubbleSign OpTime.time (mkOp tau .annihilation (gwc 1 (c j) 0)) (mkOp tau .creation (gwd 1 (c j) 0)) : 𝕜)) *
            signedW A tau (c j)))
          (unionC 1 x, unionD 1 x, (gRows m.cd.act.length 1 maxOps jc).toFinset.image γc,
            (gRows m.cd.act.length 1 maxOps jr).toFinset.image γd) /
        blockSum 1 c (fun j => cfgW A tau (codeWops tau) (c j))
          (unionC 1 x, unionD 1 x, (gRows m.cd.act.length 1 maxOps jc).toFinset.image γc,
            (gRows m.cd.act.length 1 maxOps jr).toFinset.image γd)) := by
  obtain ⟨e1, e2⟩ := state_sign hA hs h hgood.weight (fun w hw => (hx.worm w hw).1) hf
  have hw : exchWeight (trOf A) A.G (mkOp tau .annihilation ∘ γc) (mkOp tau .creation ∘ γd) .inr .inr ≠ 0 := by
    rw [e1, ← norm_ne_zero_iff, norm_signedW]; exact hgood.weight
  have hM' := hM
  unfold gStateM at hM'
  simp only [ec, ed] at hM'
  obtain ⟨data, hd, hsum⟩ := C36_g1_estimator_partial (NormedField.toAbsoluteValue 𝕜)
    (fun t => by change ‖((t : ℝ) : 𝕜)‖ = |t|; rw [RCLike.norm_ofReal]) OpTime.time A.beta (trOf A) A.G _ _ aux _ hok hw maxOps jr jc
    (gCutoff Mx (gRows m.cd.act.length 1 maxOps jr) (gRows m.cd.act.length 1 maxOps jc)) d Mx hM'
    (fun i j hij => cutoff_resolved hres _ _ i j hij) (fun k _ l _ => hz k l)
  have hval : green1Value A maxOps φ s aux jr jc = (data.map fun y =>
      φ ((mkOp tau .annihilation ∘ γc) y.1) ((mkOp tau .creation ∘ γd) y.2.1) * y.2.2).sum := by
    unfold green1Value
    rw [hm]
    simp only [hM, ec, ed, e2]
    have hd' : measureG1 (fun z : 𝕜 => ‖z‖) OpTime.time A.beta A.G (mkOp tau .annihilation ∘ γc) (mkOp tau .creation ∘ γd) aux
      (blk (m.inverse A.P) 0 0 m.cd.act.length m.cd.act.length)
      (wPhase (NormedField.toAbsoluteValue 𝕜)
        (exchWeight (trOf A) A.G (mkOp tau .annihilation ∘ γc) (mkOp tau .creation ∘ γd) .inr .inr)) maxOps jr jc
      (gCutoff Mx (gRows m.cd.act.length 1 maxOps jr) (gRows m.cd.act.length 1 maxOps jc)) = some data := hd
    rw [hd']
    rfl
  rw [hval, hsum fun k l => φ ((mkOp tau .annihilation ∘ γc) k) ((mkOp tau .creation ∘ γd) l)]
  have hn := h.nodup hs
  have key := exch_ratio hR hf hx hn (gRows m.cd.act.length 1 maxOps jc).toFinset (gRows m.cd.act.length 1 maxOps jr).toFinset
    (fun a b => φ (mkOp tau .annihilation (a 0)) (mkOp tau .creation (b 0)) *
      (-(bubbleSign OpTime.time (mkOp tau .annihilation (a 0)) (mkOp tau .creation (b 0)) : 𝕜))) L A.beta
  rw [← key]
  simp only [← sum_gRows_one hr]
  rfl

/-- One measurement of the two-particle Green's function. -/
theorem green2_block (hA : A.OK) (hR : Reprs A tau (codeWops tau) (OnGrid nf G kinds) c)
    {x : WCfg ℤ} (hx : OnGrid nf G kinds x) (hgood : x.Good A tau (codeWops tau)) {s : CodeState A (Option (Worm ℤ))}
    (hs : SimInv A.env A.Inv (pmDet A.P) s.1) (h : Reps A tau (codeWops tau) x s)
    {m : PM (OpTime ℝ) 𝕜} (hm : s.1.cfg.M = .ok m) {γc γd : Fin m.cd.act.length ⊕ Fin 2 → BOp ℤ} (hf : Frame γc γd x)
    (ec : gOps m.c.act (wormOps s.1.cfg.worm) 0 m.cd.act.length 2 = mkOp tau .annihilation ∘ γc)
    (ed : gOps m.cd.act (wormOps s.1.cfg.worm) 1 m.cd.act.length 2 = mkOp tau .creation ∘ γd)
    (hok : GOK A.G (mkOp tau .annihilation ∘ γc) (mkOp tau .creation ∘ γd)
        (blk (m.inverse A.P) 0 0 m.cd.act.length m.cd.act.length))
    {aux : Fin 2 ⊕ Fin 2 → Fin 2 ⊕ Fin 2 → 𝕜} {d : 𝕜} {Mx} (hM : gStateM A 2 s m aux = some (d, Mx)) (hres : GResolved Mx)
    (maxOps : ℕ) (hr : 2 ≤ maxOps) (φ : TPsi ℝ → TPsi ℝ → TPsi ℝ → TPsi ℝ → 𝕜) (L : 𝕜 →ₗ[ℝ] ℝ) (jr jc : List ℕ) :
    L (green2Value A maxOps φ s aux jr jc) = 1 / A.beta *
      (blockSum 2 c (fun j => L (φ (mkOp tau .annihilation (gwc 2 (c j) 0)) (mkOp tau .creation (gwd 2 (c j) 0))
            (mkOp tau .annihilation (gwc 2 (c j) 1)) (mkOp tau .creation (gwd 2 (c j) 1)) * signedW A tau (c j)))
          (unionC 2 x, unionD 2 x, (gRows m.cd.act.length 2 maxOps jc).toFinset.image γc,
            (gRows m.cd.act.length 2 maxOps jr).toFinset.image γd) /
        blockSum 2 c (fun j => cfgW A tau (codeWops tau) (c j))
          (unionC 2 x, unionD 2 x, (gRows m.cd.act.length 2 maxOps jc).toFinset.image γc,
            (gRows m.cd.act.length 2 maxOps jr).toFinset.image γd)) := by
  obtain ⟨e1, e2⟩ := state_sign hA hs h hgood.weight (fun w hw => (hx.worm w hw).1) hf
  have hw : exchWeight (trOf A) A.G (mkOp tau .annihilation ∘ γc) (mkOp tau .creation ∘ γd) .inr .inr ≠ 0 := by
    rw [e1, ← norm_ne_zero_iff, norm_signedW]; exact hgood.weight
  have hM' := hM
  unfold gStateM at hM'
  simp only [ec, ed] at hM'
  obtain ⟨data, hd, -, hsum⟩ := C36_g2_estimator (NormedField.toAbsoluteValue 𝕜)
    (fun t => by change ‖((t : ℝ) : 𝕜)‖ = |t|; rw [RCLike.norm_ofReal]) A.beta (trOf A) A.G _ _ aux _ hok hw maxOps jr jc
    (gCutoff Mx (gRows m.cd.act.length 2 maxOps jr) (gRows m.cd.act.length 2 maxOps jc)) d Mx hM'
    (fun i j hij => cutoff_resolved hres _ _ i j hij)
  have hval : green2Value A maxOps φ s aux jr jc = (data.map fun y =>
      φ ((mkOp tau .annihilation ∘ γc) y.1.1) ((mkOp tau .creation ∘ γd) y.1.2.1) ((mkOp tau .annihilation ∘ γc) y.1.2.2.1)
        ((mkOp tau .creation ∘ γd) y.1.2.2.2) * y.2).sum := by
    unfold green2Value
    rw [hm]
    simp only [hM, ec, ed, e2]
    have hd' : measureG2 (fun z : 𝕜 => ‖z‖) A.beta A.G (mkOp tau .annihilation ∘ γc) (mkOp tau .creation ∘ γd) aux
      (blk (m.inverse A.P) 0 0 m.cd.act.length m.cd.act.length)
      (wPhase (NormedField.toAbsoluteValue 𝕜)
        (exchWeight (trOf A) A.G (mkOp tau .annihilation ∘ γc) (mkOp tau .creation ∘ γd) .inr .inr)) maxOps jr jc
      (gCutoff Mx (gRows m.cd.act.length 2 maxOps jr) (gRows m.cd.act.length 2 maxOps jc)) = some data := hd
    rw [hd']
    rfl
  rw [hval, hsum fun q => φ ((mkOp tau .annihilation ∘ γc) q.1) ((mkOp tau .creation ∘ γd) q.2.1)
    ((mkOp tau .annihilation ∘ γc) q.2.2.1) ((mkOp tau .creation ∘ γd) q.2.2.2)]
  have hn := h.nodup hs
  have key := exch_ratio hR hf hx hn (gRows m.cd.act.length 2 maxOps jc).toFinset (gRows m.cd.act.length 2 maxOps jr).toFinset
    (fun a b => φ (mkOp tau .annihilation (a 0)) (mkOp tau .creation (b 0)) (mkOp tau .annihilation (a 1)) (mkOp tau .creation (b 1)))
    L A.beta
  rw [← key]
  simp only [← sum_g2Quads hr]
  rfl

end values

end CTHyb
