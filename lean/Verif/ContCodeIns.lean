import Verif.ContCodeWorm

/-!
Insertion and removal of worms, moves of worms and the connection of worm spaces by the code in continuous time.
-/

namespace CTHyb

open Rand MeasureTheory ENNReal

/-- Outcome of a proposal: `none` if it returns `false`. -/
abbrev WOut := Option (Mv ℝ (Option (Worm ℝ)) × ℝ)

/-- `propose_by_trace_impl` (src/moves/moves.ipp:1041-1109): expectation value of `G` of the proposal. -/
noncomputable def tracePropG (nf : ℕ) (cw : CWin) (k : WormKind) (ws : ℝ) (x : WCfg ℝ) (G : WOut → ℝ≥0∞) : ℝ≥0∞ :=
  match x.worm with
  | some _ => meanE (tracePropose nf cw.win k ws x) G
  | none =>
    timesC cw k.numTimes fun ts =>
    meanE (coin (1 / 2)) fun b =>
    if b then
      meanE (drawList (unif (List.range nf)) k.numFlavors) fun fs =>
      G (some (⟨[], [], [], [], some ⟨k, ts, fs⟩⟩, ws * (cw.hi - cw.lo) ^ k.numTimes * (nf : ℝ) ^ k.numFlavors))
    else
      meanE (unif (List.range nf)) fun f =>
      G (some (⟨[], [], [], [], some ⟨k, ts, List.replicate k.numFlavors f⟩⟩, ws * (cw.hi - cw.lo) ^ k.numTimes * (nf : ℝ)))

/-- `propose_by_trace_hyb_impl` (src/moves/moves.ipp:1111-1240): expectation value of `G` of the proposal. -/
noncomputable def hybPropG (nf : ℕ) (cw : CWin) (k : WormKind) (ws : ℝ) (x : WCfg ℝ) (G : WOut → ℝ≥0∞) : ℝ≥0∞ :=
  match x.worm with
  | some u =>
    let ncd := fun f => (flavorOps cw.win x.cd f).length
    let nc := fun f => (flavorOps cw.win x.c f).length
    let mcd := wormCount u.operators .creation
    let mc := wormCount u.operators .annihilation
    attachC cw u.operators fun p q =>
    G (some (⟨[], [], p, q, none⟩,
      ((1 / pickFac nf (fun f => ncd f + mcd f) (fun f => nc f + mc f) mcd mc)
        / (1 / (cw.hi - cw.lo) ^ u.operators.length))
        * (1 / (ws * (cw.hi - cw.lo) ^ k.numTimes * (nf : ℝ) ^ k.numFlavors))))
  | none =>
    timesC cw k.numTimes fun ts =>
    meanE (drawList (unif (List.range nf)) k.numFlavors) fun fs =>
    meanE (hybPick nf cw k ws ⟨k, ts, fs⟩ x) G

/-- `WormInsertionRemover::propose` (src/moves/moves.ipp:1012-1039). -/
noncomputable def wormInsRemG (nf : ℕ) (cw : CWin) (k : WormKind) (spaceWeight rate : ℝ) (x : WCfg ℝ) (G : WOut → ℝ≥0∞) : ℝ≥0∞ :=
  if x.worm.any fun u => !wormInWin cw.win u then G none
  else
    meanE (coin (1 / 2)) fun b =>
    if b then tracePropG nf cw k (spaceWeight / rate) x G else hybPropG nf cw k (spaceWeight / rate) x G

/-- First step of `transition_between_config_spaces` (src/impurity.ipp:558-566). -/
noncomputable def wormTransG (nf : ℕ) (cw : CWin) (kinds : List WormKind) (spaceWeight : WormKind → ℝ) (x : WCfg ℝ)
    (G : WOut → ℝ≥0∞) : ℝ≥0∞ :=
  match x.worm with
  | none => meanE (unif kinds) fun k => wormInsRemG nf cw k (spaceWeight k) (1 / (kinds.length : ℝ)) x G
  | some u => wormInsRemG nf cw u.kind (spaceWeight u.kind) (1 / (kinds.length : ℝ)) x G

/-- The loop of `WormMover::propose` (src/moves/moves.ipp:948-964) with `n` iterations left. -/
noncomputable def moverLoopG (cw : CWin) (d : ℝ) (u : Worm ℝ) (G0 : ℝ≥0∞) (G : ℕ → ℝ → ℝ≥0∞) : ℕ → ℝ≥0∞
  | 0 => G0
  | n + 1 =>
    meanE (unif (List.range u.kind.numTimes)) fun i =>
    match u.getTime i with
    | none => G0
    | some t =>
      if cw.win.inWin t then
        moverTimeC cw d t fun t' => if cw.win.inWin t' then G i t' else moverLoopG cw d u G0 G n
      else moverLoopG cw d u G0 G n

/-- `WormMover::propose` (src/moves/moves.ipp:930-972). -/
noncomputable def moverG (cw : CWin) (k : WormKind) (d : ℝ) (x : WCfg ℝ) (G : WOut → ℝ≥0∞) : ℝ≥0∞ :=
  match x.worm with
  | none => G none
  | some u =>
    if u.kind = k then
      moverLoopG cw d u (G none) (fun i t' => G (some (⟨[], [], [], [], some { u with times := u.times.set i t' }⟩, 1))) u.kind.numTimes
    else G none

/-- `EqualTimeG1_TwoTimeG2_Connector::propose` (src/moves/moves.ipp:1384-1515). -/
noncomputable def connectG (nf : ℕ) (cw : CWin) (wG1 wG2 : ℝ) (x : WCfg ℝ) (G : WOut → ℝ≥0∞) : ℝ≥0∞ :=
  match x.worm with
  | some ⟨.equalTime 1, [t], [f0, f1]⟩ =>
    ∫⁻ v in Set.Ico (0 : ℝ) 1,
    meanE (coin (1 / 2)) fun b =>
    if b then
      meanE (unif (List.range nf)) fun f2 =>
      meanE (unif (List.range nf)) fun f3 =>
      G (some (⟨[], [], [], [], some ⟨.corr 2, [t, openRandomU cw.lo cw.hi cw.eps v], [f0, f1, f2, f3]⟩⟩,
        (wG2 / wG1) * (nf : ℝ) * (nf : ℝ) * (cw.hi - cw.lo)))
    else G none
  | some ⟨.corr 2, [t, t1], [f0, f1, _, _]⟩ =>
    if cw.win.inWin t1 then
      meanE (coin (1 / 2)) fun b =>
      if b then
        G (some (⟨[], [], [], [], some ⟨.equalTime 1, [t], [f0, f1]⟩⟩, (wG1 / wG2) / ((nf : ℝ) * (nf : ℝ) * (cw.hi - cw.lo))))
      else G none
    else G none
  | _ => G none

variable {𝕜 : Type} [RCLike 𝕜] {N : ℕ} {A : CodeArgs 𝕜 N} {x : WCfg ℝ} {s : CodeState A (Option (Worm ℝ))}
  {Z : Set ℝ} {cw : CWin} {ψ : CfgFun (Option (Worm ℝ)) ℝ≥0∞} {F : CodeState A (Option (Worm ℝ)) → ℝ≥0∞}

/-! ### Measurability -/

theorem flavList_of {nf : ℕ} {n : ℕ} {fs : List ℕ} (hl : fs.length = n) (hf : ∀ f ∈ fs, f < nf) :
    ∃ gs : Fin n → Fin nf, flavList gs = fs := by
  subst hl
  refine ⟨fun i => ⟨fs[i], hf _ (List.getElem_mem _)⟩, ?_⟩
  unfold flavList
  exact List.ofFn_getElem

theorem meas_wormAcc {Ω : Type} [MeasurableSpace Ω] {nf : ℕ} {w : CfgFun (Option (Worm ℝ)) ℝ} {χ : CfgFun (Option (Worm ℝ)) ℝ≥0∞}
    (hw : w.WMeas nf) (hχ : χ.WMeas nf) {k : WormKind} {t : Ω → Fin k.numTimes → ℝ} (ht : Measurable t) {fs : List ℕ}
    (hl : fs.length = k.numFlavors) (hf : ∀ f ∈ fs, f < nf) (p q : List (BOp ℝ)) (c : ℝ) :
    Measurable fun u => accE w χ x ⟨p, q, [], [], some ⟨k, List.ofFn (t u), fs⟩⟩ c := by
  obtain ⟨gs, rfl⟩ := flavList_of hl hf
  have h0 : Measurable fun _ : Ω => (Fin.elim0 : Fin 0 → BOp ℝ) := measurable_const
  have e : ∀ {B : Type} (H : CfgFun (Option (Worm ℝ)) B) (u : Ω),
      H.after x ⟨p, q, [], [], some ⟨k, List.ofFn (t u), flavList gs⟩⟩ =
      H ((x.cd : Multiset (BOp ℝ)) - p + ms (Fin.elim0 : Fin 0 → BOp ℝ)) ((x.c : Multiset (BOp ℝ)) - q + ms (Fin.elim0 : Fin 0 → BOp ℝ))
        (some (mkW k (t u) gs)) := fun H u => rfl
  refine meas_accE measurable_const ?_ ?_
  · simp only [e]
    exact meas_addW hw _ _ ht gs h0 h0
  · simp only [e]
    exact meas_addW hχ _ _ ht gs h0 h0

theorem operators_ty (k : WormKind) (ts ts' : List ℝ) (fs : List ℕ) :
    (⟨k, ts, fs⟩ : Worm ℝ).operators.map (fun o => (o.type, o.flavor)) =
      (⟨k, ts', fs⟩ : Worm ℝ).operators.map fun o => (o.type, o.flavor) := by
  cases k <;> simp [Worm.operators, List.map_flatMap]

theorem wormCount_times (k : WormKind) (ts ts' : List ℝ) (fs : List ℕ) (ty : OpType) :
    wormCount (⟨k, ts, fs⟩ : Worm ℝ).operators ty = wormCount (⟨k, ts', fs⟩ : Worm ℝ).operators ty := by
  funext f
  have := congrArg (List.countP fun p : OpType × ℕ => decide (p.1 = ty) && p.2 == f) (operators_ty k ts ts' fs)
  rw [List.countP_map, List.countP_map] at this
  exact this

theorem operators_length_times (k : WormKind) (ts ts' : List ℝ) (fs : List ℕ) :
    (⟨k, ts, fs⟩ : Worm ℝ).operators.length = (⟨k, ts', fs⟩ : Worm ℝ).operators.length := by
  have := congrArg List.length (operators_ty k ts ts' fs)
  simpa using this

theorem meas_hybPick {nf : ℕ} {w : CfgFun (Option (Worm ℝ)) ℝ} {χ : CfgFun (Option (Worm ℝ)) ℝ≥0∞}
    (hw : w.WMeas nf) (hχ : χ.WMeas nf) (k : WormKind) (ws : ℝ) {fs : List ℕ} (hl : fs.length = k.numFlavors) (hf : ∀ f ∈ fs, f < nf) :
    Measurable fun t : Fin k.numTimes → ℝ => propE w χ x (hybPick nf cw k ws ⟨k, List.ofFn t, fs⟩ x) := by
  have e : ∀ t : Fin k.numTimes → ℝ, propE w χ x (hybPick nf cw k ws ⟨k, List.ofFn t, fs⟩ x) =
      if (List.range nf).any (fun f => decide ((flavorOps cw.win x.cd f).length < wormCount (⟨k, [], fs⟩ : Worm ℝ).operators .creation f) ||
        decide ((flavorOps cw.win x.c f).length < wormCount (⟨k, [], fs⟩ : Worm ℝ).operators .annihilation f)) then 0
      else meanE (pickFlavors (flavorOps cw.win x.cd) (wormCount (⟨k, [], fs⟩ : Worm ℝ).operators .creation) (List.range nf)) fun p =>
        meanE (pickFlavors (flavorOps cw.win x.c) (wormCount (⟨k, [], fs⟩ : Worm ℝ).operators .annihilation) (List.range nf)) fun q =>
        accE w χ x ⟨p, q, [], [], some ⟨k, List.ofFn t, fs⟩⟩
          ((1 / (cw.hi - cw.lo) ^ (⟨k, [], fs⟩ : Worm ℝ).operators.length / (1 / pickFac nf (fun f => (flavorOps cw.win x.cd f).length)
            (fun f => (flavorOps cw.win x.c f).length) (wormCount (⟨k, [], fs⟩ : Worm ℝ).operators .creation)
              (wormCount (⟨k, [], fs⟩ : Worm ℝ).operators .annihilation)))
            * ws * (cw.hi - cw.lo) ^ k.numTimes * (nf : ℝ) ^ k.numFlavors) := by
    intro t
    unfold hybPick propE
    simp only [wormCount_times k (List.ofFn t) [], operators_length_times k (List.ofFn t) []]
    split_ifs
    · exact meanE_ret _ _
    · rw [meanE_bind (nnr_pickFlavors _ _ _)]
      refine meanE_congr fun p _ => ?_
      rw [meanE_bind (nnr_pickFlavors _ _ _)]
      refine meanE_congr fun q _ => ?_
      rw [meanE_ret]
  simp only [e]
  split_ifs
  · exact measurable_const
  · exact measurable_meanE _ _ fun p _ => measurable_meanE _ _ fun q _ => meas_wormAcc hw hχ measurable_id hl hf _ _ _

/-! ### Insertion and removal -/

theorem len_pos (hs : At A Z cw x s) : 0 < cw.hi - cw.lo := sub_pos.2 hs.win.lt

theorem worm_reg {nf : ℕ} {k : WormKind} {ts : List ℝ} {fs : List ℕ}
    (h1 : ts.length = k.numTimes) (h2 : ∀ t ∈ ts, t ∉ Z ∧ cw.win.inWin t = true)
    (h3 : fs.length = k.numFlavors) (h4 : ∀ f ∈ fs, f < nf) : WormReg nf Z ⟨k, ts, fs⟩ :=
  ⟨⟨h1, h3⟩, h4, fun t ht => (h2 t ht).1⟩

theorem hold_trace (hA : A.OK) (hG : Measurable fun q : TPsi ℝ × TPsi ℝ => A.G q.1 q.2) (hs : At A Z cw x s) (hnf : 0 < A.P.nf)
    (k : WormKind) {ws : ℝ} (hws : 0 < ws) (hψ : ψ.WMeas A.P.nf)
    (hin : ∀ u, x.worm = some u → ∀ t ∈ u.times, cw.win.inWin t = true) (hF : ReadsCfg A (Reg A.P.nf Z) s ψ F) :
    Hold (ψ.at x) (tracePropG A.P.nf cw k ws x (codeAcc A s F)) (traceE A.P.nf cw k ws (codeW A) ψ x)
      (traceE A.P.nf cw k ws (codeW A) (fun _ _ _ => 1) x) := by
  have hlen := len_pos hs
  have hn : (0 : ℝ) < (A.P.nf : ℝ) := Nat.cast_pos.2 hnf
  have hW := (C83_weight hA hG).1
  unfold tracePropG traceE
  rcases hxw : x.worm with _ | w
  · simp only
    have hm : ∀ χ : CfgFun (Option (Worm ℝ)) ℝ≥0∞, χ.WMeas A.P.nf → Measurable fun t : Fin k.numTimes → ℝ =>
        meanE (coin (1 / 2)) fun b => if b then meanE (drawList (unif (List.range A.P.nf)) k.numFlavors) fun fs =>
          accE (codeW A) χ x ⟨[], [], [], [], some ⟨k, List.ofFn t, fs⟩⟩ (ws * (cw.hi - cw.lo) ^ k.numTimes * (A.P.nf : ℝ) ^ k.numFlavors)
        else meanE (unif (List.range A.P.nf)) fun f =>
          accE (codeW A) χ x ⟨[], [], [], [], some ⟨k, List.ofFn t, List.replicate k.numFlavors f⟩⟩
            (ws * (cw.hi - cw.lo) ^ k.numTimes * (A.P.nf : ℝ)) := by
      intro χ hχ
      refine measurable_meanE _ _ fun b _ => ?_
      split_ifs
      · refine measurable_meanE _ _ fun fs hfs => ?_
        have hfs := mem_drawList hfs
        exact meas_wormAcc hW hχ measurable_id hfs.1 (fun f hf => List.mem_range.1 (hfs.2 f hf)) _ _ _
      · refine measurable_meanE _ _ fun f hf => ?_
        have hf := List.mem_range.1 (mem_unif (R := ℝ) hf)
        exact meas_wormAcc hW hχ measurable_id (by simp) (fun g hg => by rw [List.eq_of_mem_replicate hg]; exact hf) _ _ _
    refine hold_times hs _ (fun ts hl ht => ?_) (hm ψ hψ) (hm _ (wmeas_one _))
    have hins : ∀ fs : List ℕ, fs.length = k.numFlavors ∧ (∀ f ∈ fs, f < A.P.nf) → ∀ c : ℝ, 0 < c →
        MvCont A.P.nf Z cw.win x ⟨[], [], [], [], some ⟨k, ts, fs⟩⟩ c := by
      intro fs hfs c hc
      have hg : WormReg A.P.nf Z ⟨k, ts, fs⟩ := worm_reg hl ht hfs.1 hfs.2
      refine mvCont_worm hc (fun u hu => by rw [← Option.some.inj hu]; exact hg) ?_
      rw [hxw, wl_inside hg.1 fun t ht' => (ht t ht').2]
      exact List.Perm.refl _
    refine hold_mean probE_coin fun b _ => ?_
    split_ifs
    · refine hold_mean (probE_of (nnr_drawList (nnr_unif _) _) (prob_drawList _ (by simpa using hnf) _)) fun fs hfs => ?_
      have hfs := mem_drawList hfs
      exact hold_acc hA hs (hins _ ⟨hfs.1, fun f hf => List.mem_range.1 (hfs.2 f hf)⟩ _ (by positivity)) hF
    · refine hold_mean (meanE_unif_one (by simpa using hnf)) fun f hf => ?_
      have hf := List.mem_range.1 (mem_unif (R := ℝ) hf)
      exact hold_acc hA hs (hins _ ⟨by simp, fun g hg => by rw [List.eq_of_mem_replicate hg]; exact hf⟩ _ (by positivity)) hF
  · simp only
    have hrem : ∀ c : ℝ, 0 < c → MvCont A.P.nf Z cw.win x ⟨[], [], [], [], none⟩ c := by
      intro c hc
      refine mvCont_worm hc (by simp) ?_
      rw [hxw, wl_inside (hs.reg.2 w hxw).1 (hin w hxw)]
      exact List.Perm.refl _
    have hlen' : 0 < cw.win.len := hlen
    refine hold_prop hA hs ?_ ?_ hF
    · unfold tracePropose
      rw [hxw]
      refine probE_bind nnr_coin probE_coin fun b => ?_
      split_ifs <;> exact meanE_ret _ _
    · intro p hp mv c h
      unfold tracePropose at hp
      rw [hxw] at hp
      obtain ⟨b, -, q, hq, e⟩ := mem_bind hp
      rw [e] at h
      split_ifs at hq
      · rw [mem_ret hq, Option.some.injEq, Prod.mk.injEq] at h
        obtain ⟨rfl, rfl⟩ := h
        exact hrem _ (by positivity)
      · rw [mem_ret hq, Option.some.injEq, Prod.mk.injEq] at h
        obtain ⟨rfl, rfl⟩ := h
        exact hrem _ (by positivity)
      · rw [mem_ret hq] at h; simp at h

theorem hold_hyb (hA : A.OK) (hG : Measurable fun q : TPsi ℝ × TPsi ℝ => A.G q.1 q.2) (hs : At A Z cw x s) (hnf : 0 < A.P.nf)
    (k : WormKind) {ws : ℝ} (hws : 0 < ws) (hψ : ψ.WMeas A.P.nf)
    (hin : ∀ u, x.worm = some u → ∀ t ∈ u.times, cw.win.inWin t = true) (hF : ReadsCfg A (Reg A.P.nf Z) s ψ F) :
    Hold (ψ.at x) (hybPropG A.P.nf cw k ws x (codeAcc A s F)) (hybE A.P.nf cw k ws (codeW A) ψ x)
      (hybE A.P.nf cw k ws (codeW A) (fun _ _ _ => 1) x) := by
  have hlen := len_pos hs
  have hn : (0 : ℝ) < (A.P.nf : ℝ) := Nat.cast_pos.2 hnf
  have hW := (C83_weight hA hG).1
  obtain ⟨ncd, nc⟩ := hs.nodup
  have hops : ∀ l : List (BOp ℝ), l.Nodup → ∀ f, (flavorOps cw.win l f).Nodup := fun l hl f => hl.filter _
  have hfl : ∀ l : List (BOp ℝ), ∀ f, ∀ o ∈ flavorOps cw.win l f, o.2 = f := by
    intro l f o ho
    rw [flavorOps, List.mem_filter, Bool.and_eq_true, beq_iff_eq] at ho
    exact ho.2.2
  unfold hybPropG hybE
  rcases hxw : x.worm with _ | w
  · simp only
    have hm : ∀ χ : CfgFun (Option (Worm ℝ)) ℝ≥0∞, χ.WMeas A.P.nf → Measurable fun t : Fin k.numTimes → ℝ =>
        meanE (drawList (unif (List.range A.P.nf)) k.numFlavors) fun fs =>
          propE (codeW A) χ x (hybPick A.P.nf cw k ws ⟨k, List.ofFn t, fs⟩ x) := by
      intro χ hχ
      refine measurable_meanE _ _ fun fs hfs => ?_
      have hfs := mem_drawList hfs
      exact meas_hybPick hW hχ k ws hfs.1 fun f hf => List.mem_range.1 (hfs.2 f hf)
    refine hold_times hs _ (fun ts hl ht => ?_) (hm ψ hψ) (hm _ (wmeas_one _))
    refine hold_mean (probE_of (nnr_drawList (nnr_unif _) _) (prob_drawList _ (by simpa using hnf) _)) fun fs hfs => ?_
    have hfs := mem_drawList hfs
    have hg : WormReg A.P.nf Z ⟨k, ts, fs.2⟩ := worm_reg hl ht hfs.1 fun f hf => List.mem_range.1 (hfs.2 f hf)
    refine hold_prop hA hs ?_ ?_ hF
    · unfold hybPick
      simp only
      split_ifs with hany
      · exact meanE_ret _ _
      · have hen := fun f (hf : f ∈ List.range A.P.nf) (hc : _ = true) => hany (List.any_eq_true.2 ⟨f, hf, hc⟩)
        simp only [Bool.or_eq_true, decide_eq_true_eq] at hen
        refine probE_bind (nnr_pickFlavors _ _ _) (probE_of (nnr_pickFlavors _ _ _) ?_) fun _ =>
          probE_bind (nnr_pickFlavors _ _ _) (probE_of (nnr_pickFlavors _ _ _) ?_) fun _ => meanE_ret _ _
        · rw [mean_pickFlavors _ (hops x.cd ncd) _ _ fun f hf => not_lt.1 fun hlt => hen f hf (Or.inl hlt), prob_pickBlocks]
        · rw [mean_pickFlavors _ (hops x.c nc) _ _ fun f hf => not_lt.1 fun hlt => hen f hf (Or.inr hlt), prob_pickBlocks]
    · intro p hp mv c h
      unfold hybPick at hp
      simp only at hp
      split_ifs at hp with hany
      · rw [mem_ret hp] at h; simp at h
      · obtain ⟨u, hu, q3, hq3, e3⟩ := mem_bind hp
        obtain ⟨v, hv, q4, hq4, e4⟩ := mem_bind hq3
        rw [e3, e4, mem_ret hq4, Option.some.injEq, Prod.mk.injEq] at h
        obtain ⟨rfl, rfl⟩ := h
        have hen := fun f (hf : f < A.P.nf) (hc : _ = true) => hany (List.any_eq_true.2 ⟨f, List.mem_range.2 hf, hc⟩)
        simp only [Bool.or_eq_true, decide_eq_true_eq] at hen
        obtain ⟨n1, m1⟩ := mem_pickFlavors (hops x.cd ncd) (hfl x.cd) _ List.nodup_range hu
        obtain ⟨n2, m2⟩ := mem_pickFlavors (hops x.c nc) (hfl x.c) _ List.nodup_range hv
        have sub : ∀ l : List (BOp ℝ), ∀ f, ∀ o ∈ flavorOps cw.win l f, o ∈ l ∧ cw.win.inWin o.1 = true := by
          intro l f o ho
          rw [flavorOps, List.mem_filter, Bool.and_eq_true] at ho
          exact ⟨ho.1, ho.2.1⟩
        refine ⟨⟨n1, fun o ho => (sub _ _ o (m1 o ho).2).1⟩, ⟨n2, fun o ho => (sub _ _ o (m2 o ho).2).1⟩, by simp, by simp,
          Or.inr (Or.inl ⟨rfl, rfl⟩), ?_, fun u hu => by rw [← Option.some.inj hu]; exact hg,
          win_of (fun o ho => (sub _ _ o (m1 o ho).2).2) (fun o ho => (sub _ _ o (m2 o ho).2).2) (by simp) (by simp) ?_⟩
        · have := pickFac_pos (nf := A.P.nf) (ncd := fun f => (flavorOps cw.win x.cd f).length)
            (nc := fun f => (flavorOps cw.win x.c f).length)
            (fun f hf => not_lt.1 fun hlt => hen f hf (Or.inl hlt)) (fun f hf => not_lt.1 fun hlt => hen f hf (Or.inr hlt))
          positivity
        · rw [hxw, wl_inside hg.1 fun t ht' => (ht t ht').2]
          exact List.Perm.refl _
  · simp only
    obtain ⟨hv, hwf, -⟩ := hs.reg.2 w hxw
    have hof := operators_flavor A.P.nf w hv hwf
    have hm : ∀ (χ : CfgFun (Option (Worm ℝ)) ℝ≥0∞), χ.WMeas A.P.nf → ∀ (c : ℝ) m n, Measurable fun p : Lab m n =>
        accE (codeW A) χ x ⟨[], [], List.ofFn p.1, List.ofFn p.2, none⟩ c := by
      intro χ hχ c m n
      have e : ∀ {B : Type} (H : CfgFun (Option (Worm ℝ)) B) (p : Lab m n),
          H.after x ⟨[], [], List.ofFn p.1, List.ofFn p.2, none⟩ =
            H ((x.cd : Multiset (BOp ℝ)) + ms p.1) ((x.c : Multiset (BOp ℝ)) + ms p.2) none := fun H p => by
        unfold CfgFun.after
        simp only [Multiset.coe_nil, tsub_zero]
      refine meas_accE measurable_const ?_ ?_
      · simp only [e]
        exact meas_add hW.none _ _ measurable_fst measurable_snd
      · simp only [e]
        exact meas_add hχ.none _ _ measurable_fst measurable_snd
    refine hold_attach hs _ (fun a b hab => ?_) (hm ψ hψ _) (hm _ (wmeas_one _) _)
    have up : ∀ o ∈ a ++ b, o.1 ∉ Z ∧ o.2 < A.P.nf := by
      intro o ho
      obtain ⟨i1, q, i2, i3⟩ := hab o ho
      exact ⟨i1.1, i3 ▸ hof q i2⟩
    refine hold_acc hA hs ⟨by simp, by simp, fun o ho => up o (List.mem_append_left _ ho), fun o ho => up o (List.mem_append_right _ ho),
      Or.inl ⟨rfl, rfl⟩, ?_, by simp,
      win_of (by simp) (by simp) (fun o ho => (hab o (List.mem_append_left _ ho)).1.2)
        (fun o ho => (hab o (List.mem_append_right _ ho)).1.2) ?_⟩ hF
    · have := pickFac_pos (nf := A.P.nf)
        (ncd := fun f => (flavorOps cw.win x.cd f).length + wormCount w.operators .creation f)
        (nc := fun f => (flavorOps cw.win x.c f).length + wormCount w.operators .annihilation f)
        (mcd := wormCount w.operators .creation) (mc := wormCount w.operators .annihilation)
        (fun f _ => Nat.le_add_left _ _) (fun f _ => Nat.le_add_left _ _)
      positivity
    · rw [hxw, wl_inside hv (hin w hxw)]
      exact List.Perm.refl _

theorem hold_wormInsRem (hA : A.OK) (hG : Measurable fun q : TPsi ℝ × TPsi ℝ => A.G q.1 q.2) (hs : At A Z cw x s) (hnf : 0 < A.P.nf)
    (k : WormKind) {w rate : ℝ} (hw : 0 < w) (hr : 0 < rate) (hψ : ψ.WMeas A.P.nf) (hF : ReadsCfg A (Reg A.P.nf Z) s ψ F) :
    Hold (ψ.at x) (wormInsRemG A.P.nf cw k w rate x (codeAcc A s F)) (wormInsRemE A.P.nf cw k w rate (codeW A) ψ x)
      (wormInsRemE A.P.nf cw k w rate (codeW A) (fun _ _ _ => 1) x) := by
  unfold wormInsRemG wormInsRemE
  split_ifs with h0
  · exact hold_rej hs hF
  · have hin : ∀ u, x.worm = some u → ∀ t ∈ u.times, cw.win.inWin t = true := by
      intro u hu
      refine (wormInWin_iff _ u (hs.reg.2 u hu).1).1 ?_
      rw [hu] at h0
      simpa using h0
    refine hold_mean probE_coin fun b _ => ?_
    split_ifs
    · exact hold_trace hA hG hs hnf k (div_pos hw hr) hψ hin hF
    · exact hold_hyb hA hG hs hnf k (div_pos hw hr) hψ hin hF

/-- `WormInsertionRemover` of the code. -/
theorem hold_insRem (hA : A.OK) (hG : Measurable fun q : TPsi ℝ × TPsi ℝ => A.G q.1 q.2) (hs : At A Z cw x s) (hnf : 0 < A.P.nf)
    {kinds : List WormKind} (h0 : 0 < kinds.length) {sw : WormKind → ℝ} (hsw : ∀ k, 0 < sw k) (hψ : ψ.WMeas A.P.nf)
    (hF : ReadsCfg A (Reg A.P.nf Z) s ψ F) :
    Hold (ψ.at x) (wormTransG A.P.nf cw kinds sw x (codeAcc A s F)) (wormTransE A.P.nf cw kinds sw (codeW A) ψ x)
      (wormTransE A.P.nf cw kinds sw (codeW A) (fun _ _ _ => 1) x) := by
  have hr : (0 : ℝ) < 1 / (kinds.length : ℝ) := one_div_pos.2 (Nat.cast_pos.2 h0)
  unfold wormTransG wormTransE
  rcases hxw : x.worm with _ | w
  · exact hold_mean (meanE_unif_one h0) fun k _ => hold_wormInsRem hA hG hs hnf k.2 (hsw _) hr hψ hF
  · exact hold_wormInsRem hA hG hs hnf w.kind (hsw _) hr hψ hF

/-! ### Moves of a worm -/

theorem probE_coin9 : meanE (coin (9 / 10)) (fun _ => 1) = 1 := by
  have h0 : NonnegR (coin (9 / 10 : ℝ)) := by
    intro p hp
    unfold coin at hp
    rw [Multiset.insert_eq_cons, Multiset.mem_cons, Multiset.mem_singleton] at hp
    rcases hp with rfl | rfl <;> norm_num
  refine probE_of h0 ?_
  rw [mean_coin]
  norm_num

theorem inWin_meas (cw : CWin) : MeasurableSet {t | cw.win.inWin t = true} := by
  have : {t | cw.win.inWin t = true} = Set.Icc cw.lo cw.hi := by
    ext t
    simp [CWin.win]
  rw [this]
  exact measurableSet_Icc

theorem hold_moverLoop (hs : At A Z cw x s) {d : ℝ} (hd : 0 < d) {u : Worm ℝ} (hk : 0 < u.kind.numTimes) {c G0 : ℝ≥0∞}
    (h0 : Hold c G0 0 0) {h f g : ℕ → ℝ → ℝ≥0∞}
    (hh : ∀ i t t', u.getTime i = some t → cw.win.inWin t = true → t' ∉ Z → cw.win.inWin t' = true → Hold c (h i t') (f i t') (g i t'))
    (hf : ∀ i, Measurable (f i)) (hg : ∀ i, Measurable (g i)) (n : ℕ) :
    Hold c (moverLoopG cw d u G0 h n) (moverLoopC cw d u f n) (moverLoopC cw d u g n) := by
  induction n with
  | zero => exact h0
  | succ n ih =>
    refine hold_mean (meanE_unif_one (by simpa using hk)) fun i _ => ?_
    rcases hi : u.getTime i.2 with _ | t
    · simp only
      exact h0
    simp only
    split_ifs with hin
    · unfold moverTimeC
      refine hold_mean probE_coin9 fun b _ => ?_
      have hm : ∀ (f : ℝ → ℝ≥0∞) (e : ℝ≥0∞), Measurable f → ∀ y : ℝ → ℝ, Measurable y →
          Measurable fun v => if cw.win.inWin (y v) = true then f (y v) else e := fun f e hf y hy =>
        (Measurable.ite (inWin_meas cw) hf measurable_const).comp hy
      have hy : Measurable fun v => if b.2 = true then shiftedTime d t v else openRandomU cw.lo cw.hi cw.eps v := by
        cases b.2
        · simpa using measurable_openRandomU cw
        · simpa using measurable_shiftedTime d t
      refine hold_int unit_univ ?_ (hm _ _ (hf i.2) _ hy) (hm _ _ (hg i.2) _ hy)
      have hz : ∀ᵐ v ∂(volume.restrict (Set.Ico (0 : ℝ) 1)), (if b.2 = true then shiftedTime d t v else openRandomU cw.lo cw.hi cw.eps v) ∉ Z := by
        cases b.2
        · simpa using ae_preimage hs.count (openRandomU_inj hs.win.lt hs.win.eps)
        · simpa using ae_preimage hs.count (shiftedTime_inj hd t)
      filter_upwards [hz] with v hv'
      generalize (if b.2 = true then shiftedTime d t v else openRandomU cw.lo cw.hi cw.eps v) = t' at hv' ⊢
      split_ifs with hw
      · exact hh i.2 t _ hi hin hv' hw
      · exact ih
    · exact ih

/-- `WormMover` of the code, for worms with one time. -/
theorem hold_mover (hA : A.OK) (hG : Measurable fun q : TPsi ℝ × TPsi ℝ => A.G q.1 q.2) (hs : At A Z cw x s) (k : WormKind)
    (hk : k.numTimes = 1) {d : ℝ} (hd : 0 < d) (hψ : ψ.WMeas A.P.nf) (hF : ReadsCfg A (Reg A.P.nf Z) s ψ F) :
    Hold (ψ.at x) (moverG cw k d x (codeAcc A s F)) (moverE cw k d (codeW A) ψ x) (moverE cw k d (codeW A) (fun _ _ _ => 1) x) := by
  have hW := (C83_weight hA hG).1
  unfold moverG moverE
  rcases hxw : x.worm with _ | ⟨k', ts, fs⟩
  · exact hold_rej hs hF
  simp only
  split_ifs with hkk
  swap
  · exact hold_rej hs hF
  obtain ⟨hv, hwf, hwt⟩ := hs.reg.2 _ hxw
  subst hkk
  have hl : ts.length = 1 := hv.1.trans hk
  obtain ⟨t0, rfl⟩ := List.length_eq_one_iff.1 hl
  have hset : ∀ i t', i < 1 → ([t0] : List ℝ).set i t' = [t'] := fun i t' hi => by
    obtain rfl : i = 0 := by omega
    rfl
  have hm : ∀ χ : CfgFun (Option (Worm ℝ)) ℝ≥0∞, χ.WMeas A.P.nf → ∀ i, Measurable fun t' =>
      accE (codeW A) χ x ⟨[], [], [], [], some ⟨k', ([t0] : List ℝ).set i t', fs⟩⟩ 1 := by
    intro χ hχ i
    have e : ∀ t' : ℝ, ([t0] : List ℝ).set i t' = List.ofFn fun _ : Fin k'.numTimes => if i < 1 then t' else t0 := by
      intro t'
      rw [List.ofFn_const, hk]
      split_ifs with hi
      · exact hset i t' hi
      · rw [List.set_eq_of_length_le (by simpa [Nat.one_le_iff_ne_zero] using hi)]; rfl
    simp only [e]
    refine meas_wormAcc hW hχ (measurable_pi_lambda _ fun _ => ?_) hv.2 hwf _ _ _
    split_ifs
    · exact measurable_id
    · exact measurable_const
  refine hold_moverLoop hs hd (by show 0 < k'.numTimes; omega) (hold_rej hs hF) ?_ (hm ψ hψ) (hm _ (wmeas_one _)) _
  intro i t t' hi hin hz hw
  have hi1 : i < 1 := by
    unfold Worm.getTime at hi
    simp only [hk] at hi
    by_contra hc
    rw [if_neg hc] at hi
    simp at hi
  have ht0 : t = t0 := by
    obtain rfl : i = 0 := by omega
    unfold Worm.getTime at hi
    simp only [hk] at hi
    simpa using hi.symm
  subst ht0
  rw [show (⟨k', ([t] : List ℝ).set i t', fs⟩ : Worm ℝ) = ⟨k', [t'], fs⟩ by rw [hset i t' hi1]]
  refine hold_acc hA hs (mvCont_worm one_pos (fun u hu => ?_) ?_) hF
  · rw [← Option.some.inj hu]
    exact ⟨⟨hk.symm, hv.2⟩, hwf, fun t ht => by rw [List.mem_singleton.1 ht]; exact hz⟩
  · rw [hxw, wl_inside hv fun t ht => by rw [List.mem_singleton.1 ht]; exact hin,
      wl_inside (w := ⟨k', [t'], fs⟩) ⟨hk.symm, hv.2⟩ fun t ht => by rw [List.mem_singleton.1 ht]; exact hw]

/-! ### Connection of equal-time G1 and two-time G2 -/

/-- `EqualTimeG1_TwoTimeG2_Connector` of the code. -/
theorem hold_connect (hA : A.OK) (hG : Measurable fun q : TPsi ℝ × TPsi ℝ => A.G q.1 q.2) (hs : At A Z cw x s) (hnf : 0 < A.P.nf)
    {w1 w2 : ℝ} (h1 : 0 < w1) (h2 : 0 < w2) (hψ : ψ.WMeas A.P.nf) (hF : ReadsCfg A (Reg A.P.nf Z) s ψ F) :
    Hold (ψ.at x) (connectG A.P.nf cw w1 w2 x (codeAcc A s F)) (connectE A.P.nf cw w1 w2 (codeW A) ψ x)
      (connectE A.P.nf cw w1 w2 (codeW A) (fun _ _ _ => 1) x) := by
  have hlen := len_pos hs
  have hn : (0 : ℝ) < (A.P.nf : ℝ) := Nat.cast_pos.2 hnf
  have hW := (C83_weight hA hG).1
  have hrange : meanE (unif (List.range A.P.nf)) (fun _ => 1) = 1 := meanE_unif_one (by simpa using hnf)
  unfold connectG connectE
  split
  · next t f0 f1 hxw =>
    simp only [hxw]
    obtain ⟨hv, hwf, hwt⟩ := hs.reg.2 _ hxw
    simp only [List.mem_cons, List.not_mem_nil, or_false] at hwf hwt
    have hfs : ∀ f2 f3, f2 < A.P.nf → f3 < A.P.nf → ∀ f ∈ [f0, f1, f2, f3], f < A.P.nf := by
      intro f2 f3 hf2 hf3 f hf
      simp only [List.mem_cons, List.not_mem_nil, or_false] at hf
      rcases hf with rfl | rfl | rfl | rfl
      exacts [hwf _ (Or.inl rfl), hwf _ (Or.inr rfl), hf2, hf3]
    have hm : ∀ χ : CfgFun (Option (Worm ℝ)) ℝ≥0∞, χ.WMeas A.P.nf → Measurable fun v =>
        meanE (coin (1 / 2)) fun b => if b then meanE (unif (List.range A.P.nf)) fun f2 => meanE (unif (List.range A.P.nf)) fun f3 =>
          accE (codeW A) χ x ⟨[], [], [], [], some ⟨.corr 2, [t, openRandomU cw.lo cw.hi cw.eps v], [f0, f1, f2, f3]⟩⟩
            ((w2 / w1) * (A.P.nf : ℝ) * (A.P.nf : ℝ) * (cw.hi - cw.lo)) else 0 := by
      intro χ hχ
      refine measurable_meanE _ _ fun b _ => ?_
      split_ifs
      · refine measurable_meanE _ _ fun f2 hf2 => measurable_meanE _ _ fun f3 hf3 => ?_
        have hf2 := List.mem_range.1 (mem_unif (R := ℝ) hf2)
        have hf3 := List.mem_range.1 (mem_unif (R := ℝ) hf3)
        have ht : Measurable fun v => (![t, openRandomU cw.lo cw.hi cw.eps v] : Fin (WormKind.corr 2).numTimes → ℝ) :=
          measurable_pi_iff.2 fun i => by
            fin_cases i
            · exact measurable_const
            · exact measurable_openRandomU cw
        exact meas_wormAcc (k := .corr 2) hW hχ ht rfl (hfs _ _ hf2 hf3) [] [] _
      · exact measurable_const
    refine hold_int unit_univ ?_ (hm ψ hψ) (hm _ (wmeas_one _))
    filter_upwards [ae_openRandom hs] with v hv'
    refine hold_mean probE_coin fun b _ => ?_
    split_ifs
    · refine hold_mean hrange fun f2 hf2 => hold_mean hrange fun f3 hf3 => ?_
      have hf2 := List.mem_range.1 (mem_unif (R := ℝ) hf2)
      have hf3 := List.mem_range.1 (mem_unif (R := ℝ) hf3)
      refine hold_acc hA hs (mvCont_worm (by positivity) (fun u hu => ?_) ?_) hF
      · rw [← Option.some.inj hu]
        refine ⟨⟨rfl, rfl⟩, hfs _ _ hf2 hf3, fun u hu => ?_⟩
        simp only [List.mem_cons, List.not_mem_nil, or_false] at hu
        rcases hu with rfl | rfl
        exacts [hwt _ rfl, hv'.1]
      · rw [hxw, wl_g1, wl_g2]
        simp [List.filter_cons, hv'.2]
    · exact hold_rej hs hF
  · next t t1 f0 f1 f2 f3 hxw =>
    simp only [hxw]
    obtain ⟨hv, hwf, hwt⟩ := hs.reg.2 _ hxw
    split_ifs with hin
    · refine hold_mean probE_coin fun b _ => ?_
      split_ifs
      · refine hold_acc hA hs (mvCont_worm (by positivity) (fun u hu => ?_) ?_) hF
        · rw [← Option.some.inj hu]
          refine ⟨⟨rfl, rfl⟩, fun f hf => hwf f ?_, fun u hu => hwt u ?_⟩
          · simp only [List.mem_cons, List.not_mem_nil, or_false] at hf ⊢
            tauto
          · simp only [List.mem_cons, List.not_mem_nil, or_false] at hu ⊢
            tauto
        · rw [hxw, wl_g1, wl_g2]
          simp [List.filter_cons, hin]
      · exact hold_rej hs hF
    · exact hold_rej hs hF
  · next h1 h2 =>
    split
    · next hxw => exact absurd hxw (h1 _ _ _)
    · next hxw => exact absurd hxw (h2 _ _ _ _ _ _)
    · exact hold_rej hs hF

end CTHyb
