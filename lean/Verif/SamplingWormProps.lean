import Verif.SamplingMovesProps

/-!
Continuation of `Verif.SamplingMovesProps`: insertion and removal with a single flavor, and the updates of worms.
-/

set_option linter.unusedSectionVars false

namespace CTHyb

open Matrix Rand

variable {𝕜 : Type} [RCLike 𝕜] [DecidableEq 𝕜] {N : ℕ} {T : Type} [DecidableEq T] [Inhabited T]
variable {A : CodeArgs 𝕜 N} {tau : T → ℝ} {G : Finset T} {δ lo hi : ℝ} {kinds : List WormKind} {nf : ℕ} {sw : WormKind → ℝ}

/-! ### One pair of a single flavor -/

theorem mem_diagDraws {win : Win T ℝ} {f k : ℕ} : ∀ {p : ℝ × List (BOp T × BOp T)}, p ∈ diagDraws win f k →
    p.2.length = k ∧ ∀ e ∈ p.2, (e.1.1 ∈ win.grid ∧ e.1.2 = f) ∧ e.2.1 ∈ win.grid ∧ e.2.2 = f := by
  induction k with
  | zero => intro p hp; rw [mem_ret hp]; simp
  | succ k ih =>
    intro p hp
    obtain ⟨t, ht, q1, hq1, e1⟩ := mem_bind hp
    obtain ⟨u, hu, q2, hq2, e2⟩ := mem_bind hq1
    obtain ⟨l, hl, q3, hq3, e3⟩ := mem_bind hq2
    rw [e1, e2, e3, mem_ret hq3]
    obtain ⟨i1, i2⟩ := ih hl
    refine ⟨by simp [i1], fun e he => ?_⟩
    rcases List.mem_cons.1 he with rfl | he
    · exact ⟨⟨mem_unif ht, rfl⟩, mem_unif hu, rfl⟩
    · exact i2 e he

theorem prob_diagDraws (win : Win T ℝ) (hw : win.OK) (f k : ℕ) : mean (diagDraws win f k) (fun _ => 1) = (1 : ℝ) := by
  induction k with
  | zero => simp [diagDraws]
  | succ k ih => simp only [diagDraws, mean_bind, mean_ret, ih, prob_unif _ hw.pos]

/-- `InsertionRemovalDiagonalUpdater` with one pair; for more pairs see `C07_violated`. -/
theorem diag_ok (hG : GridOK tau G δ lo hi) (hnf : 0 < A.P.nf) :
    PropOK A tau (codeWops tau) (OnGrid A.P.nf G kinds) δ wormDim (spaceEta sw) lo hi
      (diagPropose A.P.nf (gridWin tau G lo hi) 1) := by
  have hlen := (gridWin_ok hG).len_pos
  have key : ∀ x : WCfg T, OnGrid A.P.nf G kinds x → ∀ p ∈ diagPropose A.P.nf (gridWin tau G lo hi) 1 x, ∀ mv c,
      p.2 = some (mv, c) → MvGrid A.P.nf G kinds (gridWin tau G lo hi) x mv c ∧ mv.worm = x.worm := by
    intro x hx p hp mv c h
    rw [diagPropose_eq] at hp
    obtain ⟨f, hf, q1, hq1, e1⟩ := mem_bind hp
    have hf : f.2 < A.P.nf := List.mem_range.1 (mem_unif hf)
    obtain ⟨b, -, q2, hq2, e2⟩ := mem_bind hq1
    rw [e1, e2] at h
    split_ifs at hq2
    · obtain ⟨l, hl, q3, hq3, e3⟩ := mem_bind hq2
      rw [e3, mem_ret hq3, Option.some.injEq, Prod.mk.injEq] at h
      obtain ⟨rfl, rfl⟩ := h
      have hm := (mem_diagDraws hl).2
      have a1 : ∀ o ∈ l.2.map (·.1), o.1 ∈ (gridWin tau G lo hi).grid ∧ o.2 < A.P.nf := by
        intro o ho
        obtain ⟨e, he, rfl⟩ := List.mem_map.1 ho
        exact ⟨(hm e he).1.1, (hm e he).1.2 ▸ hf⟩
      have a2 : ∀ o ∈ l.2.map (·.2), o.1 ∈ (gridWin tau G lo hi).grid ∧ o.2 < A.P.nf := by
        intro o ho
        obtain ⟨e, he, rfl⟩ := List.mem_map.1 ho
        exact ⟨(hm e he).2.1, (hm e he).2.2 ▸ hf⟩
      refine ⟨⟨by simp, by simp, fun o ho => ⟨(mem_gridWin.1 (a1 o ho).1).1, (a1 o ho).2⟩,
        fun o ho => ⟨(mem_gridWin.1 (a2 o ho).1).1, (a2 o ho).2⟩, Or.inl ⟨rfl, rfl⟩, ?_, hx.worm,
        win_of (by simp) (by simp) (fun o ho => (mem_gridWin.1 (a1 o ho).1).2) (fun o ho => (mem_gridWin.1 (a2 o ho).1).2)
          (List.Perm.refl _)⟩, rfl⟩
      have c1 : ∀ n : ℕ, (0 : ℝ) < ((n + 1).choose 1 : ℕ) := fun n => Nat.cast_pos.2 (Nat.choose_pos (by omega))
      have := c1 (flavorOps (gridWin tau G lo hi) x.cd f.2).length
      have := c1 (flavorOps (gridWin tau G lo hi) x.c f.2).length
      positivity
    · unfold diagRem at hq2
      split_ifs at hq2 with hle
      · rw [mem_ret hq2] at h; simp at h
      · push Not at hle
        obtain ⟨u, hu, q3, hq3, e3⟩ := mem_bind hq2
        obtain ⟨v, hv, q4, hq4, e4⟩ := mem_bind hq3
        rw [e3, e4, mem_ret hq4, Option.some.injEq, Prod.mk.injEq] at h
        obtain ⟨rfl, rfl⟩ := h
        obtain ⟨-, n1, m1⟩ := mem_pickOps hle.1 (hx.cd_nodup.filter _) hu
        obtain ⟨-, n2, m2⟩ := mem_pickOps hle.2 (hx.c_nodup.filter _) hv
        have k1 : ∀ o ∈ u.2, o ∈ x.cd ∧ (gridWin tau G lo hi).inWin o.1 = true := by
          intro o ho
          have := m1 o ho
          rw [flavorOps, List.mem_filter, Bool.and_eq_true] at this
          exact ⟨this.1, this.2.1⟩
        have k2 : ∀ o ∈ v.2, o ∈ x.c ∧ (gridWin tau G lo hi).inWin o.1 = true := by
          intro o ho
          have := m2 o ho
          rw [flavorOps, List.mem_filter, Bool.and_eq_true] at this
          exact ⟨this.1, this.2.1⟩
        refine ⟨⟨⟨n1, fun o ho => (k1 o ho).1⟩, ⟨n2, fun o ho => (k2 o ho).1⟩, by simp, by simp, Or.inr (Or.inl ⟨rfl, rfl⟩), ?_,
          hx.worm, win_of (fun o ho => (k1 o ho).2) (fun o ho => (k2 o ho).2) (by simp) (by simp) (List.Perm.refl _)⟩, rfl⟩
        have c1 : (0 : ℝ) < ((flavorOps (gridWin tau G lo hi) x.cd f.2).length.choose 1 : ℕ) :=
          Nat.cast_pos.2 (Nat.choose_pos hle.1)
        have c2 : (0 : ℝ) < ((flavorOps (gridWin tau G lo hi) x.c f.2).length.choose 1 : ℕ) :=
          Nat.cast_pos.2 (Nat.choose_pos hle.2)
        positivity
  refine propOK_of hG (fun x hx p hp mv c e => (key x hx p hp mv c e).1) ?_ fun x _ => ?_
  · refine balanced_worm ?_ fun x hx p hp mv c e => (key x hx p hp mv c e).2
    have := C07_rank_one_partial (W := Option (Worm T)) A.P.nf (gridWin tau G lo hi) (gridWin_ok hG)
    rw [gridWin_delta hG] at this
    exact fun w x y hx hy => this w x y hx.ok.bath hy.ok.bath
  · rw [diagPropose_eq]
    have h1 : ∀ f, mean (diagIns (gridWin tau G lo hi) 1 x f) (fun _ => (1 : ℝ)) = 1 := by
      intro f
      simp only [diagIns, mean_bind, mean_ret, prob_diagDraws _ (gridWin_ok hG)]
    have h2 : ∀ f, mean (diagRem (gridWin tau G lo hi) 1 x f) (fun _ => (1 : ℝ)) = 1 := by
      intro f
      unfold diagRem
      split_ifs
      · simp
      · simp only [mean_bind, mean_ret, prob_pickOps]
    simp only [mean_bind, mean_coin, if_true, Bool.false_eq_true, if_false, h1, h2]
    rw [show (1 / 2 * 1 + (1 - 1 / 2) * 1 : ℝ) = 1 by norm_num]
    exact prob_unif _ (by simpa using hnf)

/-! ### Worms -/

/-- The worm fits the grid. -/
def WormGrid (nf : ℕ) (G : Finset T) (kinds : List WormKind) (w : Worm T) : Prop :=
  w.Valid ∧ w.kind ∈ kinds ∧ (∀ f ∈ w.flavors, f < nf) ∧ ∀ t ∈ w.times, t ∈ G

theorem wl_inside {win : Win T ℝ} {w : Worm T} (hv : w.Valid) (h : ∀ t ∈ w.times, win.inWin t = true) :
    (wl (some w)).filter (fun o => !win.inWin o.time.time) = [] := by
  rw [List.filter_eq_nil_iff]
  intro o ho
  simp [h _ (operators_time w hv o ho)]

theorem prob_drawList {α : Type} (g : List α) (hg : 0 < g.length) (n : ℕ) :
    mean (drawList (unif g : Rand ℝ α) n) (fun _ => (1 : ℝ)) = 1 := by
  induction n with
  | zero => simp [drawList]
  | succ n ih => simp only [drawList, mean_bind, mean_ret, ih, prob_unif _ hg]

theorem mem_pickFlavors {ops : ℕ → List (BOp T)} (hops : ∀ f, (ops f).Nodup) (hfl : ∀ f, ∀ o ∈ ops f, o.2 = f) {m : ℕ → ℕ}
    (fs : List ℕ) (hfs : fs.Nodup) : ∀ {p : ℝ × List (BOp T)}, p ∈ pickFlavors ops m fs →
    p.2.Nodup ∧ ∀ o ∈ p.2, o.2 ∈ fs ∧ o ∈ ops o.2 := by
  induction fs with
  | nil => intro p hp; rw [mem_ret hp]; simp
  | cons f fs ih =>
    intro p hp
    have hn := List.nodup_cons.1 hfs
    unfold pickFlavors at hp
    split_ifs at hp
    · obtain ⟨h1, h2⟩ := ih hn.2 hp
      exact ⟨h1, fun o ho => ⟨List.mem_cons_of_mem _ (h2 o ho).1, (h2 o ho).2⟩⟩
    · obtain ⟨u, hu, q, hq, e1⟩ := mem_bind hp
      obtain ⟨r, hr, q2, hq2, e2⟩ := mem_bind hq
      rw [e1, e2, mem_ret hq2]
      obtain ⟨i1, i2⟩ := ih hn.2 hr
      obtain ⟨js, -, q3, hq3, e3⟩ := mem_bind hu
      have hperm := frontShuffle_perm js.2 0 (ops f)
      have hu1 : u.2.Nodup := by
        rw [e3, mem_ret hq3]; exact (hperm.nodup_iff.2 (hops f)).sublist (List.take_sublist _ _)
      have hu2 : ∀ o ∈ u.2, o ∈ ops f := by
        rw [e3, mem_ret hq3]; exact fun o ho => hperm.mem_iff.1 (List.mem_of_mem_take ho)
      refine ⟨List.Nodup.append hu1 i1 fun o ho ho' => ?_, fun o ho => ?_⟩
      · exact hn.1 (hfl f o (hu2 o ho) ▸ (i2 o ho').1)
      · rcases List.mem_append.1 ho with h | h
        · have := hfl f o (hu2 o h)
          rw [this]
          exact ⟨List.mem_cons_self, hu2 o h⟩
        · exact ⟨List.mem_cons_of_mem _ (i2 o h).1, (i2 o h).2⟩

theorem mem_attachDraws {win : Win T ℝ} : ∀ (ops : List (Psi (OpTime T))) {p : ℝ × List (BOp T) × List (BOp T)},
    p ∈ attachDraws win ops → (∀ o ∈ p.2.1, o.1 ∈ win.grid ∧ ∃ q ∈ ops, q.flavor = o.2) ∧
      ∀ o ∈ p.2.2, o.1 ∈ win.grid ∧ ∃ q ∈ ops, q.flavor = o.2 := by
  intro ops
  induction ops with
  | nil => intro p hp; rw [mem_ret hp]; simp
  | cons a ops ih =>
    intro p hp
    obtain ⟨t, ht, q, hq, e1⟩ := mem_bind hp
    obtain ⟨r, hr, q2, hq2, e2⟩ := mem_bind hq
    rw [e1, e2, mem_ret hq2]
    obtain ⟨i1, i2⟩ := ih hr
    have ht := mem_unif ht
    have lift : ∀ o : BOp T, (o.1 ∈ win.grid ∧ ∃ q ∈ ops, q.flavor = o.2) → o.1 ∈ win.grid ∧ ∃ q ∈ a :: ops, q.flavor = o.2 :=
      fun o ⟨h1, q, h2, h3⟩ => ⟨h1, q, List.mem_cons_of_mem _ h2, h3⟩
    split_ifs
    · refine ⟨fun o ho => ?_, fun o ho => lift o (i2 o ho)⟩
      rcases List.mem_cons.1 ho with rfl | ho
      · exact ⟨ht, a, List.mem_cons_self, rfl⟩
      · exact lift o (i1 o ho)
    · refine ⟨fun o ho => lift o (i1 o ho), fun o ho => ?_⟩
      rcases List.mem_cons.1 ho with rfl | ho
      · exact ⟨ht, a, List.mem_cons_self, rfl⟩
      · exact lift o (i2 o ho)

theorem prob_attachDraws (win : Win T ℝ) (hw : win.OK) (ops : List (Psi (OpTime T))) :
    mean (attachDraws win ops) (fun _ => (1 : ℝ)) = 1 := by
  induction ops with
  | nil => simp [attachDraws]
  | cons a ops ih => simp only [attachDraws, mean_bind, mean_ret, ih, prob_unif _ hw.pos]

theorem prob_pickBlocks (ops : ℕ → List (BOp T)) (m : ℕ → ℕ) (bs : List ℕ) :
    mean (pickBlocks ops m bs) (fun _ => (1 : ℝ)) = 1 := by
  induction bs with
  | nil => simp [pickBlocks]
  | cons b bs ih => simp only [pickBlocks, mean_bind, mean_ret, ih, prob_pickOps]

theorem pickFac_pos {ncd nc mcd mc : ℕ → ℕ} (h1 : ∀ f < nf, mcd f ≤ ncd f) (h2 : ∀ f < nf, mc f ≤ nc f) :
    (0 : ℝ) < pickFac nf ncd nc mcd mc := by
  rw [pickFac_eq]
  exact mul_pos (Finset.prod_pos fun f hf => fallingFac_pos (h1 f (Finset.mem_range.1 hf)))
    (Finset.prod_pos fun f hf => fallingFac_pos (h2 f (Finset.mem_range.1 hf)))

theorem mvGrid_worm {win : Win T ℝ} {x : WCfg T} {w : Option (Worm T)} {c : ℝ} (hc : 0 < c)
    (hw : ∀ u, w = some u → WormGrid nf G kinds u)
    (h : ((wl x.worm).filter fun o => !win.inWin o.time.time).Perm ((wl w).filter fun o => !win.inWin o.time.time)) :
    MvGrid nf G kinds win x ⟨[], [], [], [], w⟩ c :=
  ⟨by simp, by simp, by simp, by simp, Or.inl ⟨rfl, rfl⟩, hc, hw, win_of (by simp) (by simp) (by simp) (by simp) h⟩

theorem worm_new {k : WormKind} {ts : List T} {fs : List ℕ} (hk : k ∈ kinds)
    (h1 : ts.length = k.numTimes ∧ ∀ t ∈ ts, t ∈ (gridWin tau G lo hi).grid)
    (h2 : fs.length = k.numFlavors ∧ ∀ f ∈ fs, f < nf) : WormGrid nf G kinds ⟨k, ts, fs⟩ :=
  ⟨⟨h1.1, h2.1⟩, hk, h2.2, fun t ht => (mem_gridWin.1 (h1.2 t ht)).1⟩

theorem trace_grid (hG : GridOK tau G δ lo hi) (hnf : 0 < nf) {k : WormKind} (hk : k ∈ kinds) {ws : ℝ} (hws : 0 < ws)
    (x : WCfg T) (hx : OnGrid nf G kinds x)
    (hin : ∀ w, x.worm = some w → ∀ t ∈ w.times, (gridWin tau G lo hi).inWin t = true) :
    (∀ p ∈ tracePropose nf (gridWin tau G lo hi) k ws x, ∀ mv c, p.2 = some (mv, c) →
      MvGrid nf G kinds (gridWin tau G lo hi) x mv c) ∧
    mean (tracePropose nf (gridWin tau G lo hi) k ws x) (fun _ => (1 : ℝ)) = 1 := by
  have hlen := (gridWin_ok hG).len_pos
  have hn : (0 : ℝ) < (nf : ℝ) := Nat.cast_pos.2 hnf
  unfold tracePropose
  rcases hxw : x.worm with _ | w
  · simp only
    constructor
    · intro p hp mv c h
      obtain ⟨ts, hts, q1, hq1, e1⟩ := mem_bind hp
      have hts := mem_drawList hts
      have hins : ∀ fs : List ℕ, fs.length = k.numFlavors ∧ (∀ f ∈ fs, f < nf) → ∀ c : ℝ, 0 < c →
          MvGrid nf G kinds (gridWin tau G lo hi) x ⟨[], [], [], [], some ⟨k, ts.2, fs⟩⟩ c := by
        intro fs hfs c hc
        have hg := worm_new (tau := tau) hk hts hfs
        refine mvGrid_worm hc (fun u hu => by rw [← Option.some.inj hu]; exact hg) ?_
        rw [hxw, wl_inside hg.1 fun t ht => (mem_gridWin.1 (hts.2 t ht)).2]
        exact List.Perm.refl _
      obtain ⟨b', -, q2, hq2, e2⟩ := mem_bind hq1
      split_ifs at hq2
      · obtain ⟨fs, hfs, q3, hq3, e3⟩ := mem_bind hq2
        rw [e1, e2, e3, mem_ret hq3, Option.some.injEq, Prod.mk.injEq] at h
        obtain ⟨rfl, rfl⟩ := h
        have hfs := mem_drawList hfs
        exact hins _ ⟨hfs.1, fun f hf => List.mem_range.1 (hfs.2 f hf)⟩ _ (by positivity)
      · obtain ⟨f, hf, q3, hq3, e3⟩ := mem_bind hq2
        rw [e1, e2, e3, mem_ret hq3, Option.some.injEq, Prod.mk.injEq] at h
        obtain ⟨rfl, rfl⟩ := h
        have hf := mem_unif hf
        exact hins _ ⟨by simp, fun g hg => by rw [List.eq_of_mem_replicate hg]; exact List.mem_range.1 hf⟩ _ (by positivity)
    · simp only [mean_bind, mean_coin, if_true, Bool.false_eq_true, if_false, mean_ret]
      rw [prob_drawList _ (by simpa using hnf), prob_unif _ (by simpa using hnf),
        show (1 / 2 * 1 + (1 - 1 / 2) * 1 : ℝ) = 1 by norm_num]
      exact prob_drawList _ (gridWin_ok hG).pos _
  · simp only
    have hrem : ∀ c : ℝ, 0 < c → MvGrid nf G kinds (gridWin tau G lo hi) x ⟨[], [], [], [], none⟩ c := by
      intro c hc
      refine mvGrid_worm hc (by simp) ?_
      rw [hxw, wl_inside (hx.worm w hxw).1 (hin w hxw)]
      exact List.Perm.refl _
    constructor
    · intro p hp mv c h
      obtain ⟨b, -, q, hq, e⟩ := mem_bind hp
      rw [e] at h
      split_ifs at hq
      · rw [mem_ret hq, Option.some.injEq, Prod.mk.injEq] at h
        obtain ⟨rfl, rfl⟩ := h
        exact hrem _ (by positivity)
      · rw [mem_ret hq, Option.some.injEq, Prod.mk.injEq] at h
        obtain ⟨rfl, rfl⟩ := h
        exact hrem _ (by positivity)
      · rw [mem_ret hq] at h; simp at h
    · simp only [mean_bind, mean_coin, if_true, Bool.false_eq_true, if_false, mean_ret]
      split_ifs <;> rw [mean_ret] <;> norm_num

theorem hyb_grid (hG : GridOK tau G δ lo hi) (hnf : 0 < nf) {k : WormKind} (hk : k ∈ kinds) {ws : ℝ} (hws : 0 < ws)
    (x : WCfg T) (hx : OnGrid nf G kinds x)
    (hin : ∀ w, x.worm = some w → ∀ t ∈ w.times, (gridWin tau G lo hi).inWin t = true) :
    (∀ p ∈ hybPropose nf (gridWin tau G lo hi) k ws x, ∀ mv c, p.2 = some (mv, c) →
      MvGrid nf G kinds (gridWin tau G lo hi) x mv c) ∧
    mean (hybPropose nf (gridWin tau G lo hi) k ws x) (fun _ => (1 : ℝ)) = 1 := by
  have hlen := (gridWin_ok hG).len_pos
  have hn : (0 : ℝ) < (nf : ℝ) := Nat.cast_pos.2 hnf
  have hops : ∀ l : List (BOp T), l.Nodup → ∀ f, (flavorOps (gridWin tau G lo hi) l f).Nodup :=
    fun l hl f => hl.filter _
  have hfl : ∀ l : List (BOp T), ∀ f, ∀ o ∈ flavorOps (gridWin tau G lo hi) l f, o.2 = f := by
    intro l f o ho
    rw [flavorOps, List.mem_filter, Bool.and_eq_true, beq_iff_eq] at ho
    exact ho.2.2
  unfold hybPropose
  rcases hxw : x.worm with _ | w
  · simp only
    constructor
    · intro p hp mv c h
      obtain ⟨ts, hts, q1, hq1, e1⟩ := mem_bind hp
      have hts := mem_drawList hts
      obtain ⟨fs, hfs, q2, hq2, e2⟩ := mem_bind hq1
      have hfs := mem_drawList hfs
      rw [e1, e2] at h
      split_ifs at hq2 with hany
      · rw [mem_ret hq2] at h; simp at h
      · obtain ⟨u, hu, q3, hq3, e3⟩ := mem_bind hq2
        obtain ⟨v, hv, q4, hq4, e4⟩ := mem_bind hq3
        rw [e3, e4, mem_ret hq4, Option.some.injEq, Prod.mk.injEq] at h
        obtain ⟨rfl, rfl⟩ := h
        have hen := fun f (hf : f < nf) (hc : _ = true) => hany (List.any_eq_true.2 ⟨f, List.mem_range.2 hf, hc⟩)
        simp only [Bool.or_eq_true, decide_eq_true_eq] at hen
        obtain ⟨n1, m1⟩ := mem_pickFlavors (hops x.cd hx.cd_nodup) (hfl x.cd) _ List.nodup_range hu
        obtain ⟨n2, m2⟩ := mem_pickFlavors (hops x.c hx.c_nodup) (hfl x.c) _ List.nodup_range hv
        have sub : ∀ l : List (BOp T), ∀ f, ∀ o ∈ flavorOps (gridWin tau G lo hi) l f,
            o ∈ l ∧ (gridWin tau G lo hi).inWin o.1 = true := by
          intro l f o ho
          rw [flavorOps, List.mem_filter, Bool.and_eq_true] at ho
          exact ⟨ho.1, ho.2.1⟩
        have hg := worm_new (tau := tau) hk hts ⟨hfs.1, fun f hf => List.mem_range.1 (hfs.2 f hf)⟩
        refine ⟨⟨n1, fun o ho => (sub _ _ o (m1 o ho).2).1⟩, ⟨n2, fun o ho => (sub _ _ o (m2 o ho).2).1⟩, by simp, by simp,
          Or.inr (Or.inl ⟨rfl, rfl⟩), ?_, fun u hu => by rw [← Option.some.inj hu]; exact hg,
          win_of (fun o ho => (sub _ _ o (m1 o ho).2).2) (fun o ho => (sub _ _ o (m2 o ho).2).2) (by simp) (by simp) ?_⟩
        · have := pickFac_pos (nf := nf) (ncd := fun f => (flavorOps (gridWin tau G lo hi) x.cd f).length)
            (nc := fun f => (flavorOps (gridWin tau G lo hi) x.c f).length)
            (fun f hf => not_lt.1 fun hlt => hen f hf (Or.inl hlt)) (fun f hf => not_lt.1 fun hlt => hen f hf (Or.inr hlt))
          positivity
        · rw [hxw, wl_inside hg.1 fun t ht => (mem_gridWin.1 (hts.2 t ht)).2]
          exact List.Perm.refl _
    · simp only [mean_bind]
      refine Eq.trans (mean_congr_mem (g := fun _ => (1 : ℝ)) fun ts _ => Eq.trans (mean_congr_mem (g := fun _ => (1 : ℝ)) fun fs _ => ?_)
        (prob_drawList _ (by simpa using hnf) _)) (prob_drawList _ (gridWin_ok hG).pos _)
      split_ifs with hany
      · simp
      · have hen := fun f (hf : f ∈ List.range nf) (hc : _ = true) => hany (List.any_eq_true.2 ⟨f, hf, hc⟩)
        simp only [Bool.or_eq_true, decide_eq_true_eq] at hen
        simp only [mean_bind, mean_ret]
        rw [mean_pickFlavors _ (hops x.c hx.c_nodup) _ _ fun f hf => not_lt.1 fun hlt => hen f hf (Or.inr hlt),
          prob_pickBlocks, mean_pickFlavors _ (hops x.cd hx.cd_nodup) _ _ fun f hf => not_lt.1 fun hlt => hen f hf (Or.inl hlt),
          prob_pickBlocks]
  · simp only
    obtain ⟨hv, -, hwf, -⟩ := hx.worm w hxw
    constructor
    · intro p hp mv c h
      obtain ⟨r, hr, q, hq, e⟩ := mem_bind hp
      rw [e, mem_ret hq, Option.some.injEq, Prod.mk.injEq] at h
      obtain ⟨rfl, rfl⟩ := h
      obtain ⟨m1, m2⟩ := mem_attachDraws _ hr
      have hof := operators_flavor nf w hv hwf
      have up : ∀ o : BOp T, (o.1 ∈ (gridWin tau G lo hi).grid ∧ ∃ q ∈ w.operators, q.flavor = o.2) → o.1 ∈ G ∧ o.2 < nf :=
        fun o ⟨h1, q, h2, h3⟩ => ⟨(mem_gridWin.1 h1).1, h3 ▸ hof q h2⟩
      refine ⟨by simp, by simp, fun o ho => up o (m1 o ho), fun o ho => up o (m2 o ho), Or.inl ⟨rfl, rfl⟩, ?_, by simp,
        win_of (by simp) (by simp) (fun o ho => (mem_gridWin.1 (m1 o ho).1).2) (fun o ho => (mem_gridWin.1 (m2 o ho).1).2) ?_⟩
      · have := pickFac_pos (nf := nf)
          (ncd := fun f => (flavorOps (gridWin tau G lo hi) x.cd f).length + wormCount w.operators .creation f)
          (nc := fun f => (flavorOps (gridWin tau G lo hi) x.c f).length + wormCount w.operators .annihilation f)
          (mcd := wormCount w.operators .creation) (mc := wormCount w.operators .annihilation)
          (fun f _ => Nat.le_add_left _ _) (fun f _ => Nat.le_add_left _ _)
        positivity
      · rw [hxw, wl_inside hv (hin w hxw)]
        exact List.Perm.refl _
    · simp only [mean_bind, mean_ret, prob_attachDraws _ (gridWin_ok hG)]

theorem insrem_grid (hG : GridOK tau G δ lo hi) (hnf : 0 < nf) {k : WormKind} (hk : k ∈ kinds) {w rate : ℝ} (hw : 0 < w)
    (hr : 0 < rate) (x : WCfg T) (hx : OnGrid nf G kinds x) :
    (∀ p ∈ wormInsRem nf (gridWin tau G lo hi) k w rate x, ∀ mv c, p.2 = some (mv, c) →
      MvGrid nf G kinds (gridWin tau G lo hi) x mv c) ∧
    mean (wormInsRem nf (gridWin tau G lo hi) k w rate x) (fun _ => (1 : ℝ)) = 1 := by
  unfold wormInsRem
  split_ifs with h0
  · exact ⟨fun p hp mv c h => by rw [mem_ret hp] at h; simp at h, by simp⟩
  · have hin : ∀ w, x.worm = some w → ∀ t ∈ w.times, (gridWin tau G lo hi).inWin t = true := by
      intro u hu
      refine (wormInWin_iff _ u (hx.worm u hu).1).1 ?_
      rw [hu] at h0
      simpa using h0
    have h1 := trace_grid hG hnf hk (div_pos hw hr) x hx hin
    have h2 := hyb_grid hG hnf hk (div_pos hw hr) x hx hin
    constructor
    · intro p hp mv c h
      obtain ⟨b, -, q, hq, e⟩ := mem_bind hp
      rw [e] at h
      split_ifs at hq
      · exact h1.1 q hq mv c h
      · exact h2.1 q hq mv c h
    · simp only [mean_bind, mean_coin, if_true, Bool.false_eq_true, if_false, h1.2, h2.2]
      norm_num

/-- `WormInsertionRemover`. -/
theorem wormTransition_ok (hG : GridOK tau G δ lo hi) (hnf : 0 < A.P.nf) (h0 : 0 < kinds.length) (hnd : kinds.Nodup)
    (hkf : ∀ k ∈ kinds, 0 < k.numFlavors) (hsw : ∀ k, 0 < sw k) :
    PropOK A tau (codeWops tau) (OnGrid A.P.nf G kinds) δ wormDim (spaceEta sw) lo hi
      (wormTransition A.P.nf (gridWin tau G lo hi) kinds sw) := by
  have hr : (0 : ℝ) < 1 / (kinds.length : ℝ) := one_div_pos.2 (Nat.cast_pos.2 h0)
  refine propOK_of hG (fun x hx p hp mv c e => ?_) ?_ fun x hx => ?_
  · unfold wormTransition at hp
    rcases hxw : x.worm with _ | w
    · rw [hxw] at hp
      obtain ⟨k, hk, q, hq, e'⟩ := mem_bind hp
      exact (insrem_grid hG hnf (mem_unif hk) (hsw _) hr x hx).1 q hq mv c (e' ▸ e)
    · rw [hxw] at hp
      exact (insrem_grid hG hnf (hx.worm w hxw).2.1 (hsw _) hr x hx).1 p hp mv c e
  · have := C09_insrem_balance A.P.nf (gridWin tau G lo hi) (gridWin_ok hG) kinds hnd hkf sw hsw
    rw [gridWin_delta hG] at this
    exact balancedW_mono this fun x hx => hx.ok
  · unfold wormTransition
    rcases hxw : x.worm with _ | w
    · simp only [mean_bind]
      exact (mean_congr_mem (g := fun _ => (1 : ℝ)) fun k hk =>
        (insrem_grid hG hnf (mem_unif hk) (hsw _) hr x hx).2).trans (prob_unif _ h0)
    · exact (insrem_grid hG hnf (hx.worm w hxw).2.1 (hsw _) hr x hx).2

/-! ### Cutting hybridization lines -/

theorem greenWorm_valid {rank : ℕ} {p q : List (BOp T)} (hp : p.length = rank) (hq : q.length = rank) :
    (greenWorm rank p q).Valid := by
  have len : ∀ {β : Type} (f g : BOp T × BOp T → β), ((q.zip p).flatMap fun o => [f o, g o]).length = 2 * rank := by
    intro β f g
    rw [List.length_flatMap]
    simp [List.length_zip, hp, hq, mul_comm]
  exact ⟨len _ _, len _ _⟩

theorem flatMap_pairs_perm {α : Type} {n : ℕ} (f g : ℕ → α) :
    ((List.range n).flatMap fun i => [f i, g i]).Perm ((List.range n).map g ++ (List.range n).map f) := by
  classical
  induction n with
  | zero => simp
  | succ n ih =>
    rw [List.range_succ, List.flatMap_append, List.map_append, List.map_append]
    refine (ih.append_right _).trans ?_
    simp only [List.flatMap_cons, List.flatMap_nil, List.map_cons, List.map_nil, List.append_nil]
    rw [List.perm_iff_count]
    intro a
    simp only [List.count_append, List.count_cons, List.count_nil]
    omega

/-- The operators of the worm are the operators cut out of the bath. -/
theorem wl_green {rank : ℕ} (w : Worm T) (hk : w.kind = .green rank) :
    (wl (some w)).Perm ((greenOps rank w 1).map (bop .creation) ++ (greenOps rank w 0).map (bop .annihilation)) := by
  rw [(greenOps_eq rank w hk).1, (greenOps_eq rank w hk).2]
  simp only [wl, Option.elim_some, Worm.operators, hk, List.map_map]
  exact flatMap_pairs_perm _ _

theorem mem_of_zip_flatMap {α β : Type} {p q : List α} {f : α → β} {b : β}
    (h : b ∈ (q.zip p).flatMap fun o => [f o.1, f o.2]) : ∃ a, (a ∈ p ∨ a ∈ q) ∧ b = f a := by
  obtain ⟨o, ho, hb⟩ := List.mem_flatMap.1 h
  have := List.of_mem_zip (a := o.1) (b := o.2) ho
  simp only [List.mem_cons, List.not_mem_nil, or_false] at hb
  rcases hb with rfl | rfl
  · exact ⟨o.1, Or.inr this.1, rfl⟩
  · exact ⟨o.2, Or.inl this.2, rfl⟩

theorem green_grid (rank : ℕ) (hk : WormKind.green rank ∈ kinds) {ws : ℝ} (hws : 0 < ws) (win : Win T ℝ)
    (x : WCfg T) (hx : OnGrid nf G kinds x) :
    (∀ p ∈ greenStep rank ws x, ∀ mv c, p.2 = some (mv, c) → MvGrid nf G kinds win x mv c ∧
      (∀ w, x.worm = some w → w.kind = .green rank) ∧ ∀ w, mv.worm = some w → w.kind = .green rank) ∧
    mean (greenStep rank ws x) (fun _ => (1 : ℝ)) = 1 := by
  unfold greenStep
  split_ifs with hall
  · unfold greenPropose
    rcases hxw : x.worm with _ | w
    · simp only
      split_ifs with hlt
      · exact ⟨fun p hp mv c h => by rw [mem_ret hp] at h; simp at h, by simp⟩
      · constructor
        · intro p hp mv c h
          obtain ⟨u, hu, q3, hq3, e3⟩ := mem_bind hp
          obtain ⟨v, hv, q4, hq4, e4⟩ := mem_bind hq3
          rw [e3, e4, mem_ret hq4, Option.some.injEq, Prod.mk.injEq] at h
          obtain ⟨rfl, rfl⟩ := h
          have hle := not_lt.1 hlt
          obtain ⟨l1, n1, m1⟩ := mem_pickOps hle hx.cd_nodup hu
          obtain ⟨l2, n2, m2⟩ := mem_pickOps (hx.order ▸ hle) hx.c_nodup hv
          have hval := greenWorm_valid l1 l2
          have hops := (greenWorm_iff rank (greenWorm rank u.2 v.2) hval rfl u.2 v.2 l1 l2).1 rfl
          have hall : ∀ a, (a ∈ u.2 ∨ a ∈ v.2) → a.1 ∈ G ∧ a.2 < nf := by
            rintro a (h | h)
            · exact hx.cd_mem a (m1 a h)
            · exact hx.c_mem a (m2 a h)
          refine ⟨⟨⟨n1, m1⟩, ⟨n2, m2⟩, by simp, by simp, Or.inr (Or.inl ⟨rfl, rfl⟩), ?_, ?_, ?_⟩, by simp,
            fun w hw => by rw [← Option.some.inj hw]; rfl⟩
          · have := fallingFac_pos (R := ℝ) hle
            positivity
          · intro w hw
            rw [← Option.some.inj hw]
            refine ⟨hval, hk, fun f hf => ?_, fun t ht => ?_⟩
            · obtain ⟨a, ha, rfl⟩ := mem_of_zip_flatMap (f := fun a : BOp T => a.2) hf
              exact (hall a ha).2
            · obtain ⟨a, ha, rfl⟩ := mem_of_zip_flatMap (f := fun a : BOp T => a.1) ht
              exact (hall a ha).1
          · refine List.Perm.filter _ ?_
            have := wl_green (greenWorm rank u.2 v.2) rfl
            rw [← hops.1, ← hops.2] at this
            have hz : wl (none : Option (Worm T)) = [] := rfl
            simp only [outOps, inOps, List.map_nil, List.nil_append, hxw, hz, List.append_nil]
            exact this.symm
        · simp only [mean_bind, mean_ret, prob_pickOps]
    · simp only
      have hkw : w.kind = .green rank := by rw [hxw] at hall; simpa using hall
      obtain ⟨hv, -, hwf, hwt⟩ := hx.worm w hxw
      constructor
      · intro p hp mv c h
        rw [mem_ret hp, Option.some.injEq, Prod.mk.injEq] at h
        obtain ⟨rfl, rfl⟩ := h
        have ht : w.times.length = 2 * rank := by rw [hv.1, hkw]; rfl
        have hf : w.flavors.length = 2 * rank := by rw [hv.2, hkw]; rfl
        have get : ∀ j, j < 2 * rank → w.times.getD j default ∈ G ∧ w.flavors.getD j 0 < nf := by
          intro j hj
          rw [List.getD_eq_getElem _ _ (ht ▸ hj), List.getD_eq_getElem _ _ (hf ▸ hj)]
          exact ⟨hwt _ (List.getElem_mem _), hwf _ (List.getElem_mem _)⟩
        refine ⟨⟨by simp, by simp, ?_, ?_, Or.inl ⟨rfl, rfl⟩, ?_, by simp, ?_⟩, fun u hu => by
          rw [← Option.some.inj hu]; exact hkw, by simp⟩
        · rw [(greenOps_eq rank w hkw).2]
          intro o ho
          obtain ⟨i, hi, rfl⟩ := List.mem_map.1 ho
          exact get _ (by have := List.mem_range.1 hi; omega)
        · rw [(greenOps_eq rank w hkw).1]
          intro o ho
          obtain ⟨i, hi, rfl⟩ := List.mem_map.1 ho
          exact get _ (by have := List.mem_range.1 hi; omega)
        · have := fallingFac_pos (R := ℝ) (Nat.le_add_left rank x.cd.length)
          positivity
        · refine List.Perm.filter _ ?_
          have := wl_green w hkw
          have hz : wl (none : Option (Worm T)) = [] := rfl
          simp only [outOps, inOps, List.map_nil, List.nil_append, hxw, hz, List.append_nil]
          exact this
      · simp
  · exact ⟨fun p hp mv c h => by rw [mem_ret hp] at h; simp at h, by simp⟩

/-- `GWormInsertionRemover`. -/
theorem green_ok (hG : GridOK tau G δ lo hi) (rank : ℕ) (hk : WormKind.green rank ∈ kinds) (hsw : ∀ k, 0 < sw k) :
    PropOK A tau (codeWops tau) (OnGrid A.P.nf G kinds) δ wormDim (spaceEta sw) lo hi
      (greenStep rank (sw (.green rank))) := by
  refine propOK_of hG (fun x hx p hp mv c e => ((green_grid rank hk (hsw _) _ x hx).1 p hp mv c e).1) ?_
    fun x hx => (green_grid rank hk (hsw _) (gridWin tau G lo hi) x hx).2
  intro w x y hx hy hwx hwy
  have zero : ∀ x y : WCfg T, OnGrid A.P.nf G kinds x → ¬ ((∀ w, x.worm = some w → w.kind = .green rank) ∧
      ∀ w, y.worm = some w → w.kind = .green rank) → flow w (greenStep rank (sw (.green rank))) x y = 0 := by
    intro x y hx hn
    refine mean_eq_zero fun p hp => ?_
    rcases ho : p.2 with _ | ⟨mv, c⟩
    · rfl
    · refine if_neg fun hl => hn ?_
      obtain ⟨-, h1, h2⟩ := (green_grid rank hk (hsw _) (gridWin tau G lo hi) x hx).1 p hp mv c ho
      exact ⟨h1, fun w hw => h2 w (hl.2.2.trans hw)⟩
  by_cases h : (∀ w, x.worm = some w → w.kind = .green rank) ∧ ∀ w, y.worm = some w → w.kind = .green rank
  · have hgr : ∀ x : WCfg T, (∀ w, x.worm = some w → w.kind = .green rank) →
        greenStep rank (sw (.green rank)) x = greenPropose rank (sw (.green rank)) x := by
      intro x h
      unfold greenStep
      rw [if_pos]
      rcases hxw : x.worm with _ | u
      · rfl
      · simpa using h u hxw
    have hok : ∀ x : WCfg T, OnGrid A.P.nf G kinds x → (∀ w, x.worm = some w → w.kind = .green rank) → GreenOK rank x :=
      fun x hx h => ⟨hx.cd_nodup, hx.c_nodup, hx.order, fun w hw => ⟨(hx.worm w hw).1, h w hw⟩⟩
    have := C09_green_balance (T := T) rank δ sw hsw w x y (hok x hx h.1) (hok y hy h.2) hwx hwy
    unfold flow at this ⊢
    rw [hgr x h.1, hgr y h.2]
    exact this
  · rw [zero x y hx h, zero y x hy fun h' => h h'.symm]
    ring

/-! ### Connection of equal-time G1 and two-time G2 -/

theorem wl_g1 (t : T) (f0 f1 : ℕ) : wl (some ⟨.equalTime 1, [t], [f0, f1]⟩) =
    [⟨⟨t, 1⟩, .creation, f0⟩, ⟨⟨t, 0⟩, .annihilation, f1⟩] := by
  simp [wl, Worm.operators]

theorem wl_g2 (t t1 : T) (f0 f1 f2 f3 : ℕ) : wl (some ⟨.corr 2, [t, t1], [f0, f1, f2, f3]⟩) =
    [⟨⟨t, 1⟩, .creation, f0⟩, ⟨⟨t, 0⟩, .annihilation, f1⟩, ⟨⟨t1, 1⟩, .creation, f2⟩, ⟨⟨t1, 0⟩, .annihilation, f3⟩] := by
  simp [wl, Worm.operators, List.range_succ]

/-- `EqualTimeG1_TwoTimeG2_Connector`. -/
theorem connect_ok (hG : GridOK tau G δ lo hi) (hnf : 0 < A.P.nf) (h1 : WormKind.equalTime 1 ∈ kinds)
    (h2 : WormKind.corr 2 ∈ kinds) (hsw : ∀ k, 0 < sw k) :
    PropOK A tau (codeWops tau) (OnGrid A.P.nf G kinds) δ wormDim (spaceEta sw) lo hi
      (connectPropose A.P.nf (gridWin tau G lo hi) (sw (.equalTime 1)) (sw (.corr 2))) := by
  have hlen := (gridWin_ok hG).len_pos
  have hn : (0 : ℝ) < (A.P.nf : ℝ) := Nat.cast_pos.2 hnf
  have hs1 := hsw (.equalTime 1)
  have hs2 := hsw (.corr 2)
  refine propOK_of hG (fun x hx p hp mv c h => ?_) ?_ fun x hx => ?_
  · unfold connectPropose at hp
    split at hp
    · next t f0 f1 hxw =>
      obtain ⟨hv, -, hwf, hwt⟩ := hx.worm _ hxw
      obtain ⟨t1, ht1, q1, hq1, e1⟩ := mem_bind hp
      obtain ⟨b, -, q2, hq2, e2⟩ := mem_bind hq1
      split_ifs at hq2
      · obtain ⟨f2, hf2, q3, hq3, e3⟩ := mem_bind hq2
        obtain ⟨f3, hf3, q4, hq4, e4⟩ := mem_bind hq3
        rw [e1, e2, e3, e4, mem_ret hq4, Option.some.injEq, Prod.mk.injEq] at h
        obtain ⟨rfl, rfl⟩ := h
        have ht1 := mem_gridWin.1 (mem_unif ht1)
        have hf2 := List.mem_range.1 (mem_unif (R := ℝ) hf2)
        have hf3 := List.mem_range.1 (mem_unif (R := ℝ) hf3)
        simp only [List.mem_cons, List.not_mem_nil, or_false] at hwf hwt
        refine mvGrid_worm (by positivity) (fun u hu => ?_) ?_
        · rw [← Option.some.inj hu]
          refine ⟨⟨rfl, rfl⟩, h2, fun f hf => ?_, fun u hu => ?_⟩
          · simp only [List.mem_cons, List.not_mem_nil, or_false] at hf
            rcases hf with rfl | rfl | rfl | rfl
            exacts [hwf _ (Or.inl rfl), hwf _ (Or.inr rfl), hf2, hf3]
          · simp only [List.mem_cons, List.not_mem_nil, or_false] at hu
            rcases hu with rfl | rfl
            exacts [hwt _ rfl, ht1.1]
        · rw [hxw, wl_g1, wl_g2]
          simp [List.filter_cons, ht1.2]
      · rw [e1, e2, mem_ret hq2] at h; simp at h
    · next t t1 f0 f1 f2 f3 hxw =>
      obtain ⟨hv, -, hwf, hwt⟩ := hx.worm _ hxw
      split_ifs at hp with hin
      · obtain ⟨b, -, q2, hq2, e2⟩ := mem_bind hp
        split_ifs at hq2
        · rw [e2, mem_ret hq2, Option.some.injEq, Prod.mk.injEq] at h
          obtain ⟨rfl, rfl⟩ := h
          refine mvGrid_worm (by positivity) (fun u hu => ?_) ?_
          · rw [← Option.some.inj hu]
            refine ⟨⟨rfl, rfl⟩, h1, fun f hf => hwf f ?_, fun u hu => hwt u ?_⟩
            · simp only [List.mem_cons, List.not_mem_nil, or_false] at hf ⊢
              tauto
            · simp only [List.mem_cons, List.not_mem_nil, or_false] at hu ⊢
              tauto
          · rw [hxw, wl_g1, wl_g2]
            simp [List.filter_cons, hin]
        · rw [e2, mem_ret hq2] at h; simp at h
      · rw [mem_ret hp] at h; simp at h
    · rw [mem_ret hp] at h; simp at h
  · have := C11_connector_balance A.P.nf (gridWin tau G lo hi) (gridWin_ok hG) kinds sw hsw
    rw [gridWin_delta hG] at this
    exact balancedW_mono this fun x hx => hx.ok
  · have hr : mean (unif (List.range A.P.nf)) (fun _ => (1 : ℝ)) = 1 := prob_unif _ (by simpa using hnf)
    unfold connectPropose
    split
    · simp only [mean_bind, mean_coin, if_true, Bool.false_eq_true, if_false, mean_ret, hr]
      rw [show (1 / 2 * 1 + (1 - 1 / 2) * 1 : ℝ) = 1 by norm_num]
      exact prob_unif _ (gridWin_ok hG).pos
    · split_ifs
      · simp only [mean_bind, mean_coin, if_true, Bool.false_eq_true, if_false, mean_ret]
        norm_num
      · simp
    · simp

/-! ### Changing the flavors and the times of a worm -/

theorem mem_flavorDraws {nf : ℕ} {win : Win T ℝ} {w : Worm T} : ∀ (l : List ℕ) {p : ℝ × List ℕ}, p ∈ flavorDraws nf win w l →
    p.2.length = l.length ∧ ∀ i (h : i < l.length), ((w.getTime (w.kind.timeIndex l[i])).any win.inWin = true ∧ p.2.getD i 0 < nf) ∨
      ((w.getTime (w.kind.timeIndex l[i])).any win.inWin = false ∧ p.2.getD i 0 = w.flavors.getD l[i] 0) := by
  intro l
  induction l with
  | nil => intro p hp; rw [mem_ret hp]; simp
  | cons f fs ih =>
    intro p hp
    obtain ⟨g, hg, q, hq, e1⟩ := mem_bind hp
    obtain ⟨r, hr, q2, hq2, e2⟩ := mem_bind hq
    rw [e1, e2, mem_ret hq2]
    obtain ⟨i1, i2⟩ := ih hr
    refine ⟨by simp [i1], fun i hi => ?_⟩
    rcases i with _ | i
    · simp only [List.getElem_cons_zero, List.getD_cons_zero]
      split_ifs at hg with hin
      · exact Or.inl ⟨hin, List.mem_range.1 (mem_unif (R := ℝ) hg)⟩
      · exact Or.inr ⟨by simpa using hin, mem_ret hg⟩
    · simp only [List.getElem_cons_succ, List.getD_cons_succ]
      exact i2 i (by simpa using hi)

theorem prob_flavorDraws {nf : ℕ} (hnf : 0 < nf) (win : Win T ℝ) (w : Worm T) (l : List ℕ) :
    mean (flavorDraws nf win w l) (fun _ => (1 : ℝ)) = 1 := by
  induction l with
  | nil => simp [flavorDraws]
  | cons f fs ih =>
    simp only [flavorDraws, mean_bind, mean_ret, ih]
    split_ifs
    · exact prob_unif _ (by simpa using hnf)
    · simp

/-- Operators outside the window are not changed if the flavors there are not. -/
theorem wl_flavors {win : Win T ℝ} {w : Worm T} (hv : w.Valid) (fs : List ℕ)
    (h : ∀ i < w.kind.numFlavors, (w.getTime (w.kind.timeIndex i)).any win.inWin = false → fs.getD i 0 = w.flavors.getD i 0) :
    ((wl (some w)).filter fun o => !win.inWin o.time.time) =
      (wl (some { w with flavors := fs })).filter fun o => !win.inWin o.time.time := by
  have gt : ∀ i, i < w.kind.numTimes → w.getTime i = some (w.times.getD i default) := by
    intro i hi
    have hi' : i < w.times.length := by rw [hv.1]; exact hi
    unfold Worm.getTime
    rw [if_pos hi, List.getD_eq_getElem _ _ hi', List.getElem?_eq_getElem hi']
  have key : ∀ i < w.kind.numFlavors, w.kind.timeIndex i < w.kind.numTimes →
      win.inWin (w.times.getD (w.kind.timeIndex i) default) = false → fs.getD i 0 = w.flavors.getD i 0 := by
    intro i hi ht hf
    exact h i hi (by rw [gt _ ht]; simpa using hf)
  have pair : ∀ (t t' : OpTime T) (a b : OpType) (f g f' g' : ℕ), (win.inWin t.time = false → f' = f) →
      (win.inWin t'.time = false → g' = g) →
      ([⟨t, a, f⟩, ⟨t', b, g⟩] : List (Psi (OpTime T))).filter (fun o => !win.inWin o.time.time) =
      ([⟨t, a, f'⟩, ⟨t', b, g'⟩] : List (Psi (OpTime T))).filter (fun o => !win.inWin o.time.time) := by
    intro t t' a b f g f' g' h1 h2
    cases e1 : win.inWin t.time <;> cases e2 : win.inWin t'.time <;> simp [e1, e2] <;>
      simp_all
  simp only [wl, Option.elim_some, Worm.operators]
  rcases hk : w.kind with m | m | m <;> rw [hk] at key <;> simp only [List.filter_flatMap] <;>
    refine List.flatMap_congr fun i hi => pair _ _ _ _ _ _ _ _ (fun e => key _ ?_ ?_ ?_) (fun e => key _ ?_ ?_ ?_) <;>
    have := List.mem_range.1 hi <;> simp only [WormKind.numFlavors, WormKind.numTimes, WormKind.timeIndex] <;>
    first
      | omega
      | exact e
      | (rw [show 2 * i / 2 = i by omega]; exact e)
      | (rw [show (2 * i + 1) / 2 = i by omega]; exact e)

/-- `WormFlavorChanger`. -/
theorem flavorChange_ok (hG : GridOK tau G δ lo hi) (hnf : 0 < A.P.nf) :
    PropOK A tau (codeWops tau) (OnGrid A.P.nf G kinds) δ wormDim (spaceEta sw) lo hi
      (flavorChangePropose A.P.nf (gridWin tau G lo hi)) := by
  refine propOK_of hG (fun x hx p hp mv c h => ?_) ?_ fun x hx => ?_
  · unfold flavorChangePropose at hp
    rcases hxw : x.worm with _ | w
    · rw [hxw] at hp
      rw [mem_ret hp] at h; simp at h
    · rw [hxw] at hp
      obtain ⟨hv, hk, hwf, hwt⟩ := hx.worm w hxw
      obtain ⟨fs, hfs, q, hq, e⟩ := mem_bind hp
      obtain ⟨l1, l2⟩ := mem_flavorDraws _ hfs
      rw [List.length_range] at l1
      simp only at hq
      split_ifs at hq
      · rw [e, mem_ret hq] at h; simp at h
      · rw [e, mem_ret hq, Option.some.injEq, Prod.mk.injEq] at h
        obtain ⟨rfl, rfl⟩ := h
        refine mvGrid_worm one_pos (fun u hu => ?_) ?_
        · rw [← Option.some.inj hu]
          refine ⟨⟨hv.1, l1⟩, hk, fun f hf => ?_, hwt⟩
          obtain ⟨i, hi, rfl⟩ := List.getElem_of_mem hf
          have hi' : i < (List.range w.kind.numFlavors).length := by simpa [l1] using hi
          rw [← List.getD_eq_getElem _ 0]
          rcases l2 i hi' with h | h
          · exact h.2
          · rw [h.2, List.getElem_range]
            have : i < w.flavors.length := by rw [hv.2]; simpa using hi'
            rw [List.getD_eq_getElem _ _ this]
            exact hwf _ (List.getElem_mem _)
        · rw [hxw, wl_flavors hv fs.2 fun i hi hout => ?_]
          have hi' : i < (List.range w.kind.numFlavors).length := by simpa using hi
          rcases l2 i hi' with h | h
          · rw [List.getElem_range] at h
            rw [hout] at h; simp at h
          · simpa using h.2
  · exact balancedW_mono (C10_flavor_balance A.P.nf (gridWin tau G lo hi) kinds δ sw) fun x hx => hx.ok
  · unfold flavorChangePropose
    rcases hxw : x.worm with _ | w
    · simp
    · simp only [mean_bind]
      refine (mean_congr (g := fun _ => (1 : ℝ)) fun fs => ?_).trans (prob_flavorDraws hnf _ _ _)
      split_ifs <;> simp

theorem prob_moverTime {win : Win ℤ ℝ} (hw : win.OK) (maxDist : ℕ) (t : ℤ) :
    mean (moverTime win maxDist t) (fun _ => (1 : ℝ)) = 1 := by
  unfold moverTime
  simp only [mean_bind, mean_coin, if_true, Bool.false_eq_true, if_false, mean_ret]
  rw [prob_unif _ hw.pos, prob_unif _ (by simp [stepList])]
  norm_num

/-- `WormMover` for worms with one time; for more times see `C10_mover_violated`. -/
theorem mover_ok {tau : ℤ → ℝ} {G : Finset ℤ} (hG : GridOK tau G δ lo hi) (maxDist : ℕ) (hone : ∀ k ∈ kinds, k.numTimes = 1) :
    PropOK A tau (codeWops tau) (OnGrid A.P.nf G kinds) δ wormDim (spaceEta sw) lo hi
      (moverPropose (gridWin tau G lo hi) maxDist) := by
  refine propOK_of hG (fun x hx p hp mv c h => ?_) ?_ fun x hx => ?_
  · unfold moverPropose at hp
    rcases hxw : x.worm with _ | w
    · rw [hxw] at hp
      rw [mem_ret hp] at h; simp at h
    · rw [hxw] at hp
      obtain ⟨hv, hk, hwf, hwt⟩ := hx.worm w hxw
      obtain ⟨r, hr, q, hq, e⟩ := mem_bind hp
      rw [e] at h
      rw [hone _ hk] at hr
      rcases hr2 : r.2 with _ | ⟨i, t'⟩
      · rw [hr2] at hq
        rw [mem_ret hq] at h; simp at h
      · rw [hr2] at hq
        rw [mem_ret hq, Option.some.injEq, Prod.mk.injEq] at h
        obtain ⟨rfl, rfl⟩ := h
        obtain ⟨j, hj, q1, hq1, e1⟩ := mem_bind hr
        have hj := List.mem_range.1 (mem_unif (R := ℝ) hj)
        rw [hone _ hk] at hj
        have hl : w.times.length = 1 := by rw [hv.1, hone _ hk]
        obtain ⟨t, ht⟩ := List.length_eq_one_iff.1 hl
        have hg : w.getTime j.2 = some t := by
          rw [getTime_some w hv _ (by rw [hone _ hk]; exact hj), show j.2 = 0 by omega, ht]; rfl
        rw [hg] at hq1
        simp only at hq1
        have hnone : ∀ q1 : ℝ × Option (ℕ × ℤ), q1 ∈ moverLoop (gridWin tau G lo hi) maxDist w 0 → q1.2 = none := by
          intro q1 h; rw [mem_ret h]
        split_ifs at hq1 with hin
        · obtain ⟨u, hu, q2, hq2, e2⟩ := mem_bind hq1
          split_ifs at hq2 with hin'
          · rw [e1, e2, mem_ret hq2, Option.some.injEq, Prod.mk.injEq] at hr2
            obtain ⟨hi, rfl⟩ := hr2
            have hset : w.times.set i u.2 = [u.2] := by
              rw [ht, ← hi, show j.2 = 0 by omega]; rfl
            have hin2 := hin'
            simp only [gridWin, decide_eq_true_eq] at hin2
            refine mvGrid_worm one_pos (fun v hv' => ?_) ?_
            · rw [← Option.some.inj hv']
              refine ⟨⟨by simpa using hv.1, hv.2⟩, hk, hwf, fun s hs => ?_⟩
              simp only [hset, List.mem_singleton] at hs
              rw [hs]; exact hG.full _ hin2.1 hin2.2
            · rw [hxw, wl_inside hv (fun s hs => by rw [ht, List.mem_singleton] at hs; rw [hs]; exact hin),
                wl_inside (w := { w with times := w.times.set i u.2 }) ⟨by simpa using hv.1, hv.2⟩ (fun s hs => by
                  simp only [hset, List.mem_singleton] at hs; rw [hs]; exact hin')]
          · rw [e1, e2, hnone _ hq2] at hr2; simp at hr2
        · rw [e1, hnone _ hq1] at hr2; simp at hr2
  · exact balancedW_mono (C10_mover_balance_partial A.P.nf (gridWin tau G lo hi) (gridWin_ok hG) kinds maxDist hone δ sw)
      fun x hx => hx.ok
  · unfold moverPropose
    rcases hxw : x.worm with _ | w
    · simp
    · obtain ⟨hv, hk, -⟩ := hx.worm w hxw
      simp only [mean_bind]
      have hloop : mean (moverLoop (gridWin tau G lo hi) maxDist w w.kind.numTimes) (fun _ => (1 : ℝ)) = 1 := by
        rw [hone _ hk, moverLoop_succ _ _ _ hv]
        simp only [moverLoop, mean_ret, ite_self, prob_moverTime (gridWin_ok hG)]
        exact prob_unif _ (by simp [hone _ hk])
      refine (mean_congr (g := fun _ => (1 : ℝ)) fun r => ?_).trans hloop
      rcases r with _ | ⟨i, t'⟩ <;> simp

end CTHyb
