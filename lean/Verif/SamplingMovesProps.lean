import Verif.SamplingRunProps

/-!
The updaters of the code on a grid of times: each of them satisfies what `C61_stationary` demands.
-/

set_option linter.unusedSectionVars false

namespace CTHyb

open Matrix Rand

variable {𝕜 : Type} [RCLike 𝕜] [DecidableEq 𝕜] {N : ℕ} {T : Type} [DecidableEq T] [Inhabited T]

section spec

/-- Configurations with all times on the grid `G`, flavors below `nf`, worms of the given types and as many creation as
annihilation operators in the bath. -/
structure OnGrid (nf : ℕ) (G : Finset T) (kinds : List WormKind) (x : WCfg T) : Prop where
  cd_nodup : x.cd.Nodup
  c_nodup : x.c.Nodup
  cd_mem : ∀ o ∈ x.cd, o.1 ∈ G ∧ o.2 < nf
  c_mem : ∀ o ∈ x.c, o.1 ∈ G ∧ o.2 < nf
  order : x.cd.length = x.c.length
  worm : ∀ w, x.worm = some w → w.Valid ∧ w.kind ∈ kinds ∧ (∀ f ∈ w.flavors, f < nf) ∧ ∀ t ∈ w.times, t ∈ G

/-- The window fits the grid: its length is the number of times inside times the spacing, and no time lies on an edge. -/
structure GridOK (tau : T → ℝ) (G : Finset T) (δ lo hi : ℝ) : Prop where
  lt : lo < hi
  strict : ∀ t ∈ G, tau t ≠ lo ∧ tau t ≠ hi
  len : hi - lo = δ * (G.filter fun t => lo ≤ tau t ∧ tau t ≤ hi).card
  full : ∀ t, lo ≤ tau t → tau t ≤ hi → t ∈ G

end spec

/-- Bath operator of the proposals as operator. -/
def bop (ty : OpType) (o : BOp T) : Psi (OpTime T) := ⟨⟨o.1, 0⟩, ty, o.2⟩

/-- Operators of a worm. -/
def wl (w : Option (Worm T)) : List (Psi (OpTime T)) := w.elim [] Worm.operators

theorem mkOp_eq (tau : T → ℝ) (ty : OpType) (o : BOp T) : mkOp tau ty o = mapOp tau (bop ty o) := rfl

theorem wormOps_code (tau : T → ℝ) (w : Option (Worm T)) : wormOps (codeWops tau w) = (wl w).map (mapOp tau) := by
  cases w <;> rfl

/-- What leaves the trace. -/
def outOps (x : WCfg T) (mv : Mv T (Option (Worm T))) : List (Psi (OpTime T)) :=
  mv.cdRem.map (bop .creation) ++ mv.cRem.map (bop .annihilation) ++ wl x.worm

/-- What enters. -/
def inOps (mv : Mv T (Option (Worm T))) : List (Psi (OpTime T)) :=
  mv.cdAdd.map (bop .creation) ++ mv.cAdd.map (bop .annihilation) ++ wl mv.worm

/-- Properties of the outcomes of the proposals on the grid. -/
structure MvGrid (nf : ℕ) (G : Finset T) (kinds : List WormKind) (win : Win T ℝ) (x : WCfg T)
    (mv : Mv T (Option (Worm T))) (corr : ℝ) : Prop where
  cdRem : mv.cdRem.Nodup ∧ ∀ o ∈ mv.cdRem, o ∈ x.cd
  cRem : mv.cRem.Nodup ∧ ∀ o ∈ mv.cRem, o ∈ x.c
  cdAdd : ∀ o ∈ mv.cdAdd, o.1 ∈ G ∧ o.2 < nf
  cAdd : ∀ o ∈ mv.cAdd, o.1 ∈ G ∧ o.2 < nf
  shape : (mv.cdRem = [] ∧ mv.cRem = []) ∨ (mv.cdAdd = [] ∧ mv.cAdd = []) ∨
    (mv.cdRem.length ≤ 1 ∧ mv.cdAdd.length ≤ 1 ∧ mv.cRem = [] ∧ mv.cAdd = []) ∨
    (mv.cRem.length ≤ 1 ∧ mv.cAdd.length ≤ 1 ∧ mv.cdRem = [] ∧ mv.cdAdd = [])
  corr : 0 < corr
  worm : ∀ w, mv.worm = some w → w.Valid ∧ w.kind ∈ kinds ∧ (∀ f ∈ w.flavors, f < nf) ∧ ∀ t ∈ w.times, t ∈ G
  win : ((outOps x mv).filter fun o => !win.inWin o.time.time).Perm ((inOps mv).filter fun o => !win.inWin o.time.time)

theorem operators_time (w : Worm T) (hv : w.Valid) : ∀ o ∈ w.operators, o.time.time ∈ w.times := by
  have hget : ∀ i, i < w.times.length → w.times.getD i default ∈ w.times := by
    intro i hi
    rw [List.getD_eq_getElem _ _ hi]; exact List.getElem_mem hi
  obtain ⟨h1, -⟩ := hv
  intro o ho
  unfold Worm.operators at ho
  split at ho <;> rename_i k hk <;> rw [hk] at h1 <;> simp only [WormKind.numTimes] at h1 <;>
    obtain ⟨i, hi, ho⟩ := List.mem_flatMap.1 ho <;> have hi := List.mem_range.1 hi <;>
    simp only [List.mem_cons, List.not_mem_nil, or_false] at ho <;> rcases ho with rfl | rfl <;>
    exact hget _ (by omega)

theorem count_map_filter {α β : Type} [DecidableEq β] (f : α → β) (q : α → Bool) (l l' : List α)
    (h : (l.filter q).Perm (l'.filter q)) (o : β) (ho : ∀ a, f a = o → q a = true) :
    (l.map f).count o = (l'.map f).count o := by
  have key : ∀ l : List α, (l.map f).count o = ((l.filter q).map f).count o := by
    intro l
    induction l with
    | nil => rfl
    | cons a l ih =>
      by_cases hq : q a = true
      · rw [List.filter_cons_of_pos hq, List.map_cons, List.map_cons, List.count_cons, List.count_cons, ih]
      · rw [List.filter_cons_of_neg hq, List.map_cons, List.count_cons, ih, if_neg, add_zero]
        intro hc
        exact hq (ho a (by simpa using hc))
  rw [key l, key l', (h.map f).count_eq]

variable {A : CodeArgs 𝕜 N} {tau : T → ℝ} {G : Finset T} {δ lo hi : ℝ} {kinds : List WormKind}

theorem gridWin_ok (h : GridOK tau G δ lo hi) : (gridWin tau G lo hi).OK := by
  refine ⟨Finset.nodup_toList _, ?_, ?_, sub_pos.2 h.lt⟩
  · rw [gridWin, Finset.length_toList]
    by_contra hc
    have h0 := h.len
    rw [Nat.eq_zero_of_not_pos hc] at h0
    have := h.lt
    simp at h0; linarith
  · intro t ht
    simp only [gridWin, Finset.mem_toList, Finset.mem_filter] at ht ⊢
    exact decide_eq_true ht.2

theorem gridWin_delta (h : GridOK tau G δ lo hi) : (gridWin tau G lo hi).delta = δ := by
  have hp := (gridWin_ok h).pos
  unfold Win.delta
  rw [div_eq_iff (Nat.cast_ne_zero.2 hp.ne')]
  simp only [gridWin, Finset.length_toList]
  exact h.len

theorem mem_gridWin {t : T} : t ∈ (gridWin tau G lo hi).grid ↔ t ∈ G ∧ (gridWin tau G lo hi).inWin t = true := by
  simp [gridWin]

theorem gridWin_strict (h : GridOK tau G δ lo hi) {t : T} (ht : t ∈ G) (hin : (gridWin tau G lo hi).inWin t = true) :
    lo < tau t ∧ tau t < hi := by
  simp only [gridWin, decide_eq_true_eq] at hin
  exact ⟨lt_of_le_of_ne hin.1 (h.strict t ht).1.symm, lt_of_le_of_ne hin.2 (h.strict t ht).2⟩

theorem OnGrid.ok {x : WCfg T} {nf : ℕ} (h : OnGrid nf G kinds x) : WCfg.OK nf (gridWin tau G lo hi) kinds x :=
  ⟨⟨h.cd_nodup, h.c_nodup, fun o ho => ⟨(h.cd_mem o ho).2, fun hin => mem_gridWin.2 ⟨(h.cd_mem o ho).1, hin⟩⟩,
    fun o ho => ⟨(h.c_mem o ho).2, fun hin => mem_gridWin.2 ⟨(h.c_mem o ho).1, hin⟩⟩⟩,
    fun w hw => ⟨(h.worm w hw).1, (h.worm w hw).2.1, (h.worm w hw).2.2.1,
      fun t ht hin => mem_gridWin.2 ⟨(h.worm w hw).2.2.2 t ht, hin⟩⟩⟩

/-- On the grid the outcomes are admissible. -/
theorem MvGrid.mvOK {x : WCfg T} {mv : Mv T (Option (Worm T))} {corr : ℝ} (hG : GridOK tau G δ lo hi)
    (hx : OnGrid A.P.nf G kinds x) (h : MvGrid A.P.nf G kinds (gridWin tau G lo hi) x mv corr) :
    MvOK A tau (codeWops tau) lo hi x mv corr := by
  refine ⟨List.subperm_of_subset h.cdRem.1 h.cdRem.2, List.subperm_of_subset h.cRem.1 h.cRem.2,
    fun o ho => (h.cdAdd o ho).2, fun o ho => (h.cAdd o ho).2, h.shape, h.corr, fun o ho => ?_⟩
  have e1 : mv.cdRem.map (mkOp tau .creation) ++ mv.cRem.map (mkOp tau .annihilation) ++
      wormOps (codeWops tau x.worm) = (outOps x mv).map (mapOp tau) := by
    rw [wormOps_code]; simp [outOps, Function.comp_def]; rfl
  have e2 : mv.cdAdd.map (mkOp tau .creation) ++ mv.cAdd.map (mkOp tau .annihilation) ++
      wormOps (codeWops tau mv.worm) = (inOps mv).map (mapOp tau) := by
    rw [wormOps_code]; simp [inOps, Function.comp_def]; rfl
  rw [e1, e2] at ho
  have hwl : ∀ w : Option (Worm T), (∀ u, w = some u → u.Valid ∧ ∀ t ∈ u.times, t ∈ G) →
      ∀ a ∈ wl w, a.time.time ∈ G := by
    intro w hw a ha
    cases w with
    | none => simp [wl] at ha
    | some u => exact (hw u rfl).2 _ (operators_time u (hw u rfl).1 a ha)
  have hmem : ∀ a ∈ outOps x mv ++ inOps mv, a.time.time ∈ G := by
    intro a ha
    simp only [outOps, inOps, List.mem_append, List.mem_map] at ha
    rcases ha with ((⟨b, hb, rfl⟩ | ⟨b, hb, rfl⟩) | ha) | ((⟨b, hb, rfl⟩ | ⟨b, hb, rfl⟩) | ha)
    · exact (hx.cd_mem b (h.cdRem.2 b hb)).1
    · exact (hx.c_mem b (h.cRem.2 b hb)).1
    · exact hwl _ (fun u hu => ⟨(hx.worm u hu).1, (hx.worm u hu).2.2.2⟩) a ha
    · exact (h.cdAdd b hb).1
    · exact (h.cAdd b hb).1
    · exact hwl _ (fun u hu => ⟨(h.worm u hu).1, (h.worm u hu).2.2.2⟩) a ha
  by_contra hc
  have hex : ∃ a ∈ outOps x mv ++ inOps mv, mapOp tau a = o := by
    by_contra hn
    push Not at hn
    refine ho ?_
    rw [List.count_eq_zero_of_not_mem, List.count_eq_zero_of_not_mem]
    · intro hm
      obtain ⟨a, ha, e⟩ := List.mem_map.1 hm
      exact hn a (List.mem_append_right _ ha) e
    · intro hm
      obtain ⟨a, ha, e⟩ := List.mem_map.1 hm
      exact hn a (List.mem_append_left _ ha) e
  obtain ⟨a, ha, rfl⟩ := hex
  refine ho (count_map_filter _ (fun o => !(gridWin tau G lo hi).inWin o.time.time) _ _ h.win _ fun b hb => ?_)
  have htime : tau b.time.time = tau a.time.time := by
    have := congrArg (fun o => o.time.time) hb
    exact this
  rw [Bool.not_eq_true']
  by_contra hin
  rw [Bool.not_eq_false] at hin
  have hin' : (gridWin tau G lo hi).inWin a.time.time = true := by
    simp only [gridWin] at hin ⊢
    rw [← htime]; exact hin
  exact hc (gridWin_strict hG (hmem a ha) hin')

/-- The outcomes do not leave the grid. -/
theorem MvGrid.closed {x y : WCfg T} {mv : Mv T (Option (Worm T))} {corr : ℝ} {win : Win T ℝ} {nf : ℕ}
    (hx : OnGrid nf G kinds x) (h : MvGrid nf G kinds win x mv corr) (hl : Leads x mv y)
    (hy : y.Good A tau (codeWops tau)) : OnGrid nf G kinds y := by
  obtain ⟨l1, l2, l3⟩ := hl
  have hn := hy.nodup
  rw [PCfg.ops, List.map_append, List.map_append] at hn
  have n1 := (List.nodup_append.1 (List.nodup_append.1 hn).1).1
  have n2 := (List.nodup_append.1 (List.nodup_append.1 hn).1).2.1
  rw [List.map_map] at n1 n2
  have hmem : ∀ (a b c d : List (BOp T)), (a : Multiset (BOp T)) - b + c = d → (∀ o ∈ a, o.1 ∈ G ∧ o.2 < nf) →
      (∀ o ∈ c, o.1 ∈ G ∧ o.2 < nf) → ∀ o ∈ d, o.1 ∈ G ∧ o.2 < nf := by
    intro a b c d e h1 h2 o ho
    have : o ∈ (d : Multiset (BOp T)) := ho
    rw [← e, Multiset.mem_add] at this
    rcases this with h | h
    · exact h1 o (Multiset.mem_of_le (Multiset.sub_le_self _ _) h)
    · exact h2 o h
  refine ⟨n1.of_map _, n2.of_map _, hmem _ _ _ _ l1 hx.cd_mem h.cdAdd, hmem _ _ _ _ l2 hx.c_mem h.cAdd, ?_,
    fun w hw => h.worm w (l3.trans hw)⟩
  have hw := hy.weight
  unfold cfgW CodeArgs.weight at hw
  rw [norm_ne_zero_iff] at hw
  have hd := left_ne_zero_of_mul hw
  unfold timeDet listDet at hd
  by_contra hne
  refine hd (dif_neg fun e => hne ?_)
  simpa [timeSort] using e

/-- The updaters of the code in terms of the grid. -/
theorem propOK_of (hG : GridOK tau G δ lo hi) {sw : WormKind → ℝ}
    {prop : WCfg T → Rand ℝ (Option (Mv T (Option (Worm T)) × ℝ))}
    (h1 : ∀ x, OnGrid A.P.nf G kinds x → ∀ p ∈ prop x, ∀ mv c, p.2 = some (mv, c) →
      MvGrid A.P.nf G kinds (gridWin tau G lo hi) x mv c)
    (h2 : BalancedW δ wormDim (spaceEta sw) (OnGrid A.P.nf G kinds) prop)
    (h3 : ∀ x, OnGrid A.P.nf G kinds x → mean (prop x) (fun _ => 1) = 1) :
    PropOK A tau (codeWops tau) (OnGrid A.P.nf G kinds) δ wormDim (spaceEta sw) lo hi prop :=
  ⟨fun x hx _ p hp mv c e => (h1 x hx p hp mv c e).mvOK hG hx, h2, h3,
    fun x hx p hp mv c e _ hl hy => (h1 x hx p hp mv c e).closed hx hl hy⟩

/-- Updates of the bath alone. -/
theorem balanced_worm {ok : WCfg T → Prop} {sw : WormKind → ℝ}
    {prop : WCfg T → Rand ℝ (Option (Mv T (Option (Worm T)) × ℝ))} (hb : Balanced δ bathDim ok prop)
    (hw : ∀ x, ok x → ∀ p ∈ prop x, ∀ mv c, p.2 = some (mv, c) → mv.worm = x.worm) :
    BalancedW δ wormDim (spaceEta sw) ok prop := by
  intro w x y hx hy hwx hwy
  have zero : ∀ x y, ok x → x.worm ≠ y.worm → flow w prop x y = 0 := by
    intro x y hx hne
    refine mean_eq_zero fun p hp => ?_
    rcases ho : p.2 with _ | ⟨mv, c⟩
    · rfl
    · change (if Leads x mv y then _ else _) = _
      rw [if_neg]
      rintro ⟨-, -, h⟩
      exact hne ((hw x hx p hp mv c ho).symm.trans h)
  by_cases he : x.worm = y.worm
  · have := hb w x y hx hy hwx hwy
    unfold wormDim spaceEta
    rw [he, pow_add, pow_add]
    linear_combination (y.worm.elim 1 (fun w => sw w.kind)) * δ ^ (y.worm.elim 0 fun w => w.kind.numTimes) * this
  · rw [zero x y hx he, zero y x hy (Ne.symm he), mul_zero, mul_zero]

theorem balancedW_mono {ok ok' : WCfg T → Prop} {dim : WCfg T → ℕ} {eta : WCfg T → ℝ}
    {prop : WCfg T → Rand ℝ (Option (Mv T (Option (Worm T)) × ℝ))} (h : BalancedW δ dim eta ok prop)
    (hi : ∀ x, ok' x → ok x) : BalancedW δ dim eta ok' prop :=
  fun w x y hx hy => h w x y (hi x hx) (hi y hy)

/-- Changes of the bath inside the window, and of the worm. -/
theorem win_of {win : Win T ℝ} {x : WCfg T} {mv : Mv T (Option (Worm T))}
    (h1 : ∀ o ∈ mv.cdRem, win.inWin o.1 = true) (h2 : ∀ o ∈ mv.cRem, win.inWin o.1 = true)
    (h3 : ∀ o ∈ mv.cdAdd, win.inWin o.1 = true) (h4 : ∀ o ∈ mv.cAdd, win.inWin o.1 = true)
    (h5 : ((wl x.worm).filter fun o => !win.inWin o.time.time).Perm ((wl mv.worm).filter fun o => !win.inWin o.time.time)) :
    ((outOps x mv).filter fun o => !win.inWin o.time.time).Perm ((inOps mv).filter fun o => !win.inWin o.time.time) := by
  have hz : ∀ (ty : OpType) (l : List (BOp T)), (∀ o ∈ l, win.inWin o.1 = true) →
      (l.map (bop ty)).filter (fun o => !win.inWin o.time.time) = [] := by
    intro ty l h
    rw [List.filter_eq_nil_iff]
    intro a ha
    obtain ⟨o, ho, rfl⟩ := List.mem_map.1 ha
    simp [bop, h o ho]
  simp only [outOps, inOps, List.filter_append, hz _ _ h1, hz _ _ h2, hz _ _ h3, hz _ _ h4, List.nil_append]
  exact h5

/-! ### Insertion and removal of pairs -/

theorem mem_insDraws {E : PEnv} {win : Win T ℝ} {k : ℕ} : ∀ {p : ℝ × List (ℕ × BOp T × BOp T)}, p ∈ insDraws E win k →
    p.2.length = k ∧ ∀ e ∈ p.2, e.1 < E.ns ∧ (e.2.1.1 ∈ win.grid ∧ e.2.1.2 < E.nf) ∧ e.2.2.1 ∈ win.grid ∧ e.2.2.2 < E.nf := by
  have hop : ∀ {b : ℕ} {p : ℝ × BOp T}, p ∈ randOp win (blockFlavors E b) → p.2.1 ∈ win.grid ∧ p.2.2 < E.nf := by
    intro b p hp
    obtain ⟨t, ht, q, hq, e⟩ := mem_bind hp
    obtain ⟨f, hf, q', hq', e'⟩ := mem_bind hq
    rw [e, e', mem_ret hq']
    have := mem_unif hf
    rw [blockFlavors, List.mem_filter] at this
    exact ⟨mem_unif ht, List.mem_range.1 this.1⟩
  induction k with
  | zero => intro p hp; rw [mem_ret hp]; simp
  | succ k ih =>
    intro p hp
    obtain ⟨b, hb, q1, hq1, e1⟩ := mem_bind hp
    obtain ⟨u, hu, q2, hq2, e2⟩ := mem_bind hq1
    obtain ⟨v, hv, q3, hq3, e3⟩ := mem_bind hq2
    obtain ⟨l, hl, q4, hq4, e4⟩ := mem_bind hq3
    rw [e1, e2, e3, e4, mem_ret hq4]
    obtain ⟨i1, i2⟩ := ih hl
    refine ⟨by simp [i1], fun e he => ?_⟩
    rcases List.mem_cons.1 he with rfl | he
    · exact ⟨List.mem_range.1 (mem_unif hb), hop hu, hop hv⟩
    · exact i2 e he

variable {nf : ℕ} {sw : WormKind → ℝ}

theorem ir_grid (E : PEnv) (hfl : ∀ b < E.ns, 0 < (blockFlavors E b).length) (rank : ℕ) (hG : GridOK tau G δ lo hi)
    (x : WCfg T) (hx : OnGrid E.nf G kinds x) :
    ∀ p ∈ irPropose E (gridWin tau G lo hi) rank x, ∀ mv c, p.2 = some (mv, c) →
      MvGrid E.nf G kinds (gridWin tau G lo hi) x mv c ∧ mv.worm = x.worm := by
  have hlen : (0 : ℝ) < (gridWin tau G lo hi).len ^ (2 * rank) := pow_pos (gridWin_ok hG).len_pos _
  intro p hp mv c h
  obtain ⟨b, -, q, hq, e⟩ := mem_bind hp
  rw [e] at h
  split_ifs at hq
  · obtain ⟨l, hl, q1, hq1, e1⟩ := mem_bind hq
    rw [e1, mem_ret hq1, Option.some.injEq, Prod.mk.injEq] at h
    obtain ⟨rfl, rfl⟩ := h
    obtain ⟨-, hm⟩ := mem_insDraws hl
    have a1 : ∀ o ∈ l.2.map (·.2.1), o.1 ∈ (gridWin tau G lo hi).grid ∧ o.2 < E.nf := by
      intro o ho
      obtain ⟨e, he, rfl⟩ := List.mem_map.1 ho
      exact (hm e he).2.1
    have a2 : ∀ o ∈ l.2.map (·.2.2), o.1 ∈ (gridWin tau G lo hi).grid ∧ o.2 < E.nf := by
      intro o ho
      obtain ⟨e, he, rfl⟩ := List.mem_map.1 ho
      exact (hm e he).2.2
    refine ⟨⟨by simp, by simp, fun o ho => ⟨(mem_gridWin.1 (a1 o ho).1).1, (a1 o ho).2⟩,
      fun o ho => ⟨(mem_gridWin.1 (a2 o ho).1).1, (a2 o ho).2⟩, Or.inl ⟨rfl, rfl⟩, ?_, hx.worm,
      win_of (by simp) (by simp) (fun o ho => (mem_gridWin.1 (a1 o ho).1).2) (fun o ho => (mem_gridWin.1 (a2 o ho).1).2)
        (List.Perm.refl _)⟩, rfl⟩
    rw [insCorr_eq]
    refine mul_pos hlen (Finset.prod_pos fun b hb => ?_)
    have h1 : (0 : ℝ) < ((blockFlavors E b).length : ℝ) := Nat.cast_pos.2 (hfl b (Finset.mem_range.1 hb))
    exact div_pos (pow_pos h1 _) (mul_pos (fallingFac_pos (Nat.le_add_left _ _)) (fallingFac_pos (Nat.le_add_left _ _)))
  · obtain ⟨bl, hbl, q1, hq1, e1⟩ := mem_bind hq
    split_ifs at hq1 with hany
    · rw [e1, mem_ret hq1] at h; simp at h
    · obtain ⟨r, hr, q2, hq2, e2⟩ := mem_bind hq1
      rw [e1, e2, mem_ret hq2, Option.some.injEq, Prod.mk.injEq] at h
      obtain ⟨rfl, rfl⟩ := h
      have hen : ∀ b ∈ List.range E.ns, bl.2.count b ≤ (blockOps E (gridWin tau G lo hi) x.cd b).length ∧
          bl.2.count b ≤ (blockOps E (gridWin tau G lo hi) x.c b).length := by
        intro b hb
        have := fun hc => hany (List.any_eq_true.2 ⟨b, hb, hc⟩)
        rw [Bool.or_eq_true, decide_eq_true_eq, decide_eq_true_eq] at this
        exact ⟨not_lt.1 fun h => this (Or.inl h), not_lt.1 fun h => this (Or.inr h)⟩
      obtain ⟨⟨s1, hs1, es1⟩, s2, hs2, es2⟩ := mem_remDraws hx.cd_nodup hx.c_nodup _ List.nodup_range hen hr
      obtain ⟨n1, m1⟩ := mem_pickBlocks_sub (fun b => blockOps_ok E _ hx.cd_nodup b) _ List.nodup_range
        (fun b hb => (hen b hb).1) hs1
      obtain ⟨n2, m2⟩ := mem_pickBlocks_sub (fun b => blockOps_ok E _ hx.c_nodup b) _ List.nodup_range
        (fun b hb => (hen b hb).2) hs2
      rw [es1] at n1 m1
      rw [es2] at n2 m2
      have k1 : ∀ o ∈ r.2.1, o ∈ x.cd ∧ (gridWin tau G lo hi).inWin o.1 = true := by
        intro o ho
        obtain ⟨b, -, hb⟩ := m1 o ho
        rw [blockOps, List.mem_filter, Bool.and_eq_true] at hb
        exact ⟨hb.1, hb.2.1⟩
      have k2 : ∀ o ∈ r.2.2, o ∈ x.c ∧ (gridWin tau G lo hi).inWin o.1 = true := by
        intro o ho
        obtain ⟨b, -, hb⟩ := m2 o ho
        rw [blockOps, List.mem_filter, Bool.and_eq_true] at hb
        exact ⟨hb.1, hb.2.1⟩
      refine ⟨⟨⟨n1, fun o ho => (k1 o ho).1⟩, ⟨n2, fun o ho => (k2 o ho).1⟩, by simp, by simp, Or.inr (Or.inl ⟨rfl, rfl⟩), ?_,
        hx.worm, win_of (fun o ho => (k1 o ho).2) (fun o ho => (k2 o ho).2) (by simp) (by simp) (List.Perm.refl _)⟩, rfl⟩
      rw [remCorr_eq]
      refine mul_pos (inv_pos.2 hlen) (Finset.prod_pos fun b hb => ?_)
      have h1 : (0 : ℝ) < ((blockFlavors E b).length : ℝ) := Nat.cast_pos.2 (hfl b (Finset.mem_range.1 hb))
      have hb' := hen b (List.mem_range.2 (Finset.mem_range.1 hb))
      exact div_pos (mul_pos (fallingFac_pos hb'.1) (fallingFac_pos hb'.2)) (pow_pos h1 _)

/-- `InsertionRemovalUpdater`. -/
theorem ir_ok (hG : GridOK tau G δ lo hi) (hns : 0 < A.P.ns) (hs : ∀ f, f < A.P.nf → A.P.sector f < A.P.ns)
    (hfl : ∀ b < A.P.ns, 0 < (blockFlavors A.P b).length) (rank : ℕ) :
    PropOK A tau (codeWops tau) (OnGrid A.P.nf G kinds) δ wormDim (spaceEta sw) lo hi
      (irPropose A.P (gridWin tau G lo hi) rank) := by
  refine propOK_of hG (fun x hx p hp mv c e => (ir_grid A.P hfl rank hG x hx p hp mv c e).1) ?_ fun x _ => ?_
  · refine balanced_worm ?_ fun x hx p hp mv c e => (ir_grid A.P hfl rank hG x hx p hp mv c e).2
    have := C06_detailed_balance (W := Option (Worm T)) A.P (gridWin tau G lo hi) (gridWin_ok hG) hs rank
    rw [gridWin_delta hG] at this
    exact fun w x y hx hy => this w x y hx.ok.bath hy.ok.bath
  · exact C06_normalized A.P _ (gridWin_ok hG) hns hfl rank x

/-! ### Changes of the flavor and of the time of a bath operator -/

theorem replace_grid {win : Win T ℝ} (x : WCfg T) (hx : OnGrid nf G kinds x) (b : Bool) (o o' : BOp T)
    (ho : o ∈ winOps win (if b then x.cd else x.c)) (h1 : o'.1 ∈ G) (h2 : o'.2 < nf) (h3 : win.inWin o'.1 = true) :
    MvGrid nf G kinds win x (replaceMv b o o' x.worm) 1 := by
  rw [winOps, List.mem_filter] at ho
  cases b
  · simp only [Bool.false_eq_true, if_false] at ho
    refine ⟨by simp [replaceMv], ?_, by simp [replaceMv], ?_, ?_, one_pos, hx.worm, win_of ?_ ?_ ?_ ?_ (List.Perm.refl _)⟩ <;>
      simp [replaceMv, ho.1, ho.2, h1, h2, h3]
  · simp only [if_true] at ho
    refine ⟨?_, by simp [replaceMv], ?_, by simp [replaceMv], ?_, one_pos, hx.worm, win_of ?_ ?_ ?_ ?_ (List.Perm.refl _)⟩ <;>
      simp [replaceMv, ho.1, ho.2, h1, h2, h3]

theorem replaceMv_worm {W : Type} (b : Bool) (o o' : BOp T) (w : W) : (replaceMv b o o' w).worm = w := by
  cases b <;> rfl

/-- `OperatorPairFlavorUpdater`. -/
theorem flavor_ok (hG : GridOK tau G δ lo hi) (hnf : 0 < A.P.nf) :
    PropOK A tau (codeWops tau) (OnGrid A.P.nf G kinds) δ wormDim (spaceEta sw) lo hi
      (flavorPropose A.P.nf (gridWin tau G lo hi)) := by
  have key : ∀ x : WCfg T, OnGrid A.P.nf G kinds x → ∀ p ∈ flavorPropose A.P.nf (gridWin tau G lo hi) x, ∀ mv c,
      p.2 = some (mv, c) → MvGrid A.P.nf G kinds (gridWin tau G lo hi) x mv c ∧ mv.worm = x.worm := by
    intro x hx p hp mv c h
    unfold flavorPropose at hp
    split_ifs at hp
    · rw [mem_ret hp] at h; simp at h
    · obtain ⟨b, -, q1, hq1, e1⟩ := mem_bind hp
      obtain ⟨o, ho, q2, hq2, e2⟩ := mem_bind hq1
      obtain ⟨f, hf, q3, hq3, e3⟩ := mem_bind hq2
      rw [e1, e2, e3, mem_ret hq3, Option.some.injEq, Prod.mk.injEq] at h
      obtain ⟨rfl, rfl⟩ := h
      have ho : o.2 ∈ winOps (gridWin tau G lo hi) (if b.2 then x.cd else x.c) := by
        have := mem_unif ho
        rcases hb : b.2 <;> rw [hb] at this <;> simpa using this
      have ho' := ho
      rw [winOps, List.mem_filter] at ho'
      have hmem : o.2.1 ∈ G := by
        cases hb : b.2
        · rw [hb] at ho'; exact (hx.c_mem _ (by simpa using ho'.1)).1
        · rw [hb] at ho'; exact (hx.cd_mem _ (by simpa using ho'.1)).1
      exact ⟨replace_grid x hx b.2 o.2 _ ho hmem (List.mem_range.1 (mem_unif (R := ℝ) hf)) ho'.2, replaceMv_worm _ _ _ _⟩
  refine propOK_of hG (fun x hx p hp mv c e => (key x hx p hp mv c e).1) ?_ fun x _ => ?_
  · exact balanced_worm (fun w x y hx hy => C08_flavor_balance A.P.nf δ (gridWin tau G lo hi) w x y hx.ok.bath hy.ok.bath)
      fun x hx p hp mv c e => (key x hx p hp mv c e).2
  · unfold flavorPropose
    split_ifs with h
    · simp
    · push Not at h
      simp only [mean_bind, mean_coin, mean_ret, if_true, Bool.false_eq_true, if_false]
      rw [prob_unif _ (by simpa using hnf), prob_unif _ (Nat.pos_of_ne_zero h.1), prob_unif _ (Nat.pos_of_ne_zero h.2)]
      norm_num

/-- `SingleOperatorShiftUpdater`. -/
theorem shift_ok {tau : ℤ → ℝ} {G : Finset ℤ} (hG : GridOK tau G δ lo hi) (maxDist : ℕ → ℕ)
    (hd : ∀ f f', f < A.P.nf → f' < A.P.nf → A.P.sector f = A.P.sector f' → maxDist f = maxDist f') :
    PropOK A tau (codeWops tau) (OnGrid A.P.nf G kinds) δ wormDim (spaceEta sw) lo hi
      (shiftPropose A.P (gridWin tau G lo hi) maxDist) := by
  have key : ∀ x : WCfg ℤ, OnGrid A.P.nf G kinds x → ∀ p ∈ shiftPropose A.P (gridWin tau G lo hi) maxDist x, ∀ mv c,
      p.2 = some (mv, c) → MvGrid A.P.nf G kinds (gridWin tau G lo hi) x mv c ∧ mv.worm = x.worm := by
    intro x hx p hp mv c h
    unfold shiftPropose at hp
    simp only at hp
    split_ifs at hp
    · rw [mem_ret hp] at h; simp at h
    · obtain ⟨o, ho, q1, hq1, e1⟩ := mem_bind hp
      obtain ⟨f, hf, q2, hq2, e2⟩ := mem_bind hq1
      obtain ⟨s, -, q3, hq3, e3⟩ := mem_bind hq2
      split_ifs at hq3 with hin
      · rw [e1, e2, e3, mem_ret hq3, Option.some.injEq, Prod.mk.injEq] at h
        obtain ⟨rfl, rfl⟩ := h
        have ho : o.2.2 ∈ winOps (gridWin tau G lo hi) (if o.2.1 then x.cd else x.c) := by
          rcases List.mem_append.1 (mem_unif ho) with h | h <;> obtain ⟨a, ha, e⟩ := List.mem_map.1 h <;> rw [← e] <;>
            simpa using ha
        have ho' := ho
        rw [winOps, List.mem_filter] at ho'
        have hfo : o.2.2.2 < A.P.nf := by
          cases hb : o.2.1
          · rw [hb] at ho'; exact (hx.c_mem _ (by simpa using ho'.1)).2
          · rw [hb] at ho'; exact (hx.cd_mem _ (by simpa using ho'.1)).2
        have hf2 : f.2 < A.P.nf := by
          obtain ⟨b, -, q, hq, e⟩ := mem_bind hf
          rw [e]
          split_ifs at hq
          · rw [mem_ret hq]; exact hfo
          · have := mem_unif hq
            rw [blockFlavors, List.mem_filter] at this
            exact List.mem_range.1 this.1
        have hin' := hin
        simp only [gridWin, decide_eq_true_eq] at hin'
        exact ⟨replace_grid x hx o.2.1 o.2.2 _ ho (hG.full _ hin'.1 hin'.2) hf2 hin, replaceMv_worm _ _ _ _⟩
      · rw [e1, e2, e3, mem_ret hq3] at h; simp at h
  refine propOK_of hG (fun x hx p hp mv c e => (key x hx p hp mv c e).1) ?_ fun x hx => ?_
  · exact balanced_worm (fun w x y hx hy => C08_shift_balance_partial A.P δ (gridWin tau G lo hi) maxDist hd w x y
      hx.ok.bath hy.ok.bath) fun x hx p hp mv c e => (key x hx p hp mv c e).2
  · unfold shiftPropose
    simp only
    split_ifs with h
    · simp
    · simp only [mean_bind]
      refine (mean_congr_mem (g := fun _ => (1 : ℝ)) fun o ho => ?_).trans (prob_unif _ (Nat.pos_of_ne_zero h))
      have hfo : o.2.2.2 < A.P.nf := by
        rcases List.mem_append.1 (mem_unif ho) with h | h <;> obtain ⟨a, ha, e⟩ := List.mem_map.1 h <;> rw [← e] <;>
          rw [winOps, List.mem_filter] at ha
        · exact (hx.cd_mem a ha.1).2
        · exact (hx.c_mem a ha.1).2
      have hgen : mean (genNewFlavor ℝ A.P o.2.2.2) (fun _ => 1) = 1 := by
        refine prob_unif _ (List.length_pos_of_mem (a := o.2.2.2) ?_)
        rw [blockFlavors, List.mem_filter]
        exact ⟨List.mem_range.2 hfo, by simp⟩
      have hst : mean (unif (stepList (maxDist o.2.2.2))) (fun _ => 1) = (1 : ℝ) :=
        prob_unif _ (by simp [stepList])
      have hin : ∀ s f, mean (if (gridWin tau G lo hi).inWin (o.2.2.1 + s) then
          ret (some (replaceMv o.2.1 o.2.2 (o.2.2.1 + s, f) x.worm, (1 : ℝ))) else ret none) (fun _ => (1 : ℝ)) = 1 := by
        intro s f; split_ifs <;> simp
      simp only [hin, hst, mean_coin, if_true, Bool.false_eq_true, if_false, mean_ret, hgen]
      norm_num

end CTHyb
