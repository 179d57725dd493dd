import Verif.ContCodeMoves

/-!
The worm updates of the code in continuous time: the code side of `Verif.ContWorm` and `Verif.ContSweep`, where the acceptance test is
made by `codeStep` (the update of the simulation), and a proposal which returns `false` changes nothing.
-/

namespace CTHyb

open Rand MeasureTheory ENNReal

variable {𝕜 : Type} [RCLike 𝕜] {N : ℕ} {A : CodeArgs 𝕜 N} {x : WCfg ℝ} {s : CodeState A (Option (Worm ℝ))}
  {Z : Set ℝ} {cw : CWin} {ψ : CfgFun (Option (Worm ℝ)) ℝ≥0∞} {F : CodeState A (Option (Worm ℝ)) → ℝ≥0∞}

/-- A worm which can occur: no time in `Z`. -/
def WormReg (nf : ℕ) (Z : Set ℝ) (u : Worm ℝ) : Prop := u.Valid ∧ (∀ f ∈ u.flavors, f < nf) ∧ ∀ t ∈ u.times, t ∉ Z

theorem mvCont_worm {nf : ℕ} {win : Win ℝ ℝ} {w : Option (Worm ℝ)} {c : ℝ} (hc : 0 < c)
    (hw : ∀ u, w = some u → WormReg nf Z u)
    (h : ((wl x.worm).filter fun o => !win.inWin o.time.time).Perm ((wl w).filter fun o => !win.inWin o.time.time)) :
    MvCont nf Z win x ⟨[], [], [], [], w⟩ c :=
  ⟨by simp, by simp, by simp, by simp, Or.inl ⟨rfl, rfl⟩, hc, hw, win_of (by simp) (by simp) (by simp) (by simp) h⟩

theorem At.nodup (hs : At A Z cw x s) : x.cd.Nodup ∧ x.c.Nodup := by
  have hn := (hs.reps.codeCfg hs.inv).1
  rw [PCfg.ops, List.map_append, List.map_append] at hn
  exact ⟨((List.nodup_append.1 (List.nodup_append.1 hn).1).1.of_map _).of_map _,
    ((List.nodup_append.1 (List.nodup_append.1 hn).1).2.1.of_map _).of_map _⟩

theorem At.order (hA : A.OK) (hs : At A Z cw x s) : x.cd.length = x.c.length := by
  have h1 := (hs.reps.good hA hs.inv).weight
  rw [← hs.reps.codeW hs.inv] at h1
  simpa using codeW_card A h1

/-! ### Changing the flavors of a worm -/

/-- `WormFlavorChanger` of the code. -/
noncomputable def codeChange (A : CodeArgs 𝕜 N) (cw : CWin) (x : WCfg ℝ) (s : CodeState A (Option (Worm ℝ)))
    (F : CodeState A (Option (Worm ℝ)) → ℝ≥0∞) : ℝ≥0∞ :=
  meanE (flavorChangePropose A.P.nf cw.win x) (codeAcc A s F)

theorem hold_change (hA : A.OK) (hs : At A Z cw x s) (hnf : 0 < A.P.nf) (hF : ReadsCfg A (Reg A.P.nf Z) s ψ F) :
    Hold (ψ.at x) (codeChange A cw x s F) (changeE A.P.nf cw (codeW A) ψ x) (changeE A.P.nf cw (codeW A) (fun _ _ _ => 1) x) := by
  refine hold_prop hA hs ?_ ?_ hF
  · unfold flavorChangePropose
    rcases x.worm with _ | w
    · exact meanE_ret _ _
    · refine probE_bind (nnr_flavorDraws _ _ _ _) (probE_of (nnr_flavorDraws _ _ _ _) (prob_flavorDraws hnf _ _ _)) fun fs => ?_
      simp only
      split_ifs <;> exact meanE_ret _ _
  · intro p hp mv c h
    unfold flavorChangePropose at hp
    rcases hxw : x.worm with _ | w
    · rw [hxw] at hp
      rw [mem_ret hp] at h; simp at h
    · rw [hxw] at hp
      obtain ⟨hv, hwf, hwt⟩ := hs.reg.2 w hxw
      obtain ⟨fs, hfs, q, hq, e⟩ := mem_bind hp
      obtain ⟨l1, l2⟩ := mem_flavorDraws _ hfs
      rw [List.length_range] at l1
      simp only at hq
      split_ifs at hq
      · rw [e, mem_ret hq] at h; simp at h
      · rw [e, mem_ret hq, Option.some.injEq, Prod.mk.injEq] at h
        obtain ⟨rfl, rfl⟩ := h
        refine mvCont_worm one_pos (fun u hu => ?_) ?_
        · rw [← Option.some.inj hu]
          refine ⟨⟨hv.1, l1⟩, fun f hf => ?_, hwt⟩
          obtain ⟨i, hi, rfl⟩ := List.getElem_of_mem hf
          have hi' : i < (List.range w.kind.numFlavors).length := by simpa [l1] using hi
          rw [← List.getD_eq_getElem _ 0]
          rcases l2 i hi' with h | h
          · exact h.2
          · rw [h.2, List.getElem_range]
            have : i < w.flavors.length := by rw [hv.2]; simpa using hi'
            rw [List.getD_eq_getElem _ _ this]
            exact hwf _ (List.getElem_mem _)
        · rw [hxw, wl_flavors hv fs.2 fun i hi hout => ?_]
          have hi' : i < (List.range w.kind.numFlavors).length := by simpa using hi
          rcases l2 i hi' with h | h
          · rw [List.getElem_range] at h
            rw [hout] at h; simp at h
          · simpa using h.2

/-! ### Green's function worms cut out of the bath -/

/-- `GWormInsertionRemover` of the code. -/
noncomputable def codeGreen (A : CodeArgs 𝕜 N) (rank : ℕ) (ws : ℝ) (x : WCfg ℝ) (s : CodeState A (Option (Worm ℝ)))
    (F : CodeState A (Option (Worm ℝ)) → ℝ≥0∞) : ℝ≥0∞ :=
  meanE (greenStep rank ws x) (codeAcc A s F)

theorem greenE_eq_step (rank : ℕ) (ws : ℝ) (w : CfgFun (Option (Worm ℝ)) ℝ) (ψ : CfgFun (Option (Worm ℝ)) ℝ≥0∞) (x : WCfg ℝ) :
    greenE rank ws w ψ x = propE w ψ x (greenStep rank ws x) := by
  unfold greenE greenStep
  rcases hxw : x.worm with _ | u
  · simp
  · simp only [Option.all_some, decide_eq_true_eq]
    split_ifs
    · rfl
    · simp [propE, meanE_ret]

theorem green_cont (hA : A.OK) (hs : At A Z cw x s) (rank : ℕ) {ws : ℝ} (hws : 0 < ws) :
    ∀ p ∈ greenStep rank ws x, ∀ mv c, p.2 = some (mv, c) → MvCont A.P.nf Z cw.win x mv c := by
  obtain ⟨ncd, nc⟩ := hs.nodup
  have hord := hs.order hA
  unfold greenStep
  split_ifs with hall
  · unfold greenPropose
    rcases hxw : x.worm with _ | w
    · simp only
      split_ifs with hlt
      · exact fun p hp mv c h => by rw [mem_ret hp] at h; simp at h
      · intro p hp mv c h
        obtain ⟨u, hu, q3, hq3, e3⟩ := mem_bind hp
        obtain ⟨v, hv, q4, hq4, e4⟩ := mem_bind hq3
        rw [e3, e4, mem_ret hq4, Option.some.injEq, Prod.mk.injEq] at h
        obtain ⟨rfl, rfl⟩ := h
        have hle := not_lt.1 hlt
        obtain ⟨l1, n1, m1⟩ := mem_pickOps hle ncd hu
        obtain ⟨l2, n2, m2⟩ := mem_pickOps (hord ▸ hle) nc hv
        have hval := greenWorm_valid l1 l2
        have hops := (greenWorm_iff rank (greenWorm rank u.2 v.2) hval rfl u.2 v.2 l1 l2).1 rfl
        have hall : ∀ a, (a ∈ u.2 ∨ a ∈ v.2) → a.1 ∉ Z ∧ a.2 < A.P.nf := by
          rintro a (h | h)
          · have := List.mem_append_left x.c (m1 a h)
            exact ⟨hs.reg.1 a this, flavor_lt hs this⟩
          · have := List.mem_append_right x.cd (m2 a h)
            exact ⟨hs.reg.1 a this, flavor_lt hs this⟩
        refine ⟨⟨n1, m1⟩, ⟨n2, m2⟩, by simp, by simp, Or.inr (Or.inl ⟨rfl, rfl⟩), ?_, ?_, ?_⟩
        · have := fallingFac_pos (R := ℝ) hle
          positivity
        · intro w hw
          rw [← Option.some.inj hw]
          refine ⟨hval, fun f hf => ?_, fun t ht => ?_⟩
          · obtain ⟨a, ha, rfl⟩ := mem_of_zip_flatMap (f := fun a : BOp ℝ => a.2) hf
            exact (hall a ha).2
          · obtain ⟨a, ha, rfl⟩ := mem_of_zip_flatMap (f := fun a : BOp ℝ => a.1) ht
            exact (hall a ha).1
        · refine List.Perm.filter _ ?_
          have := wl_green (greenWorm rank u.2 v.2) rfl
          rw [← hops.1, ← hops.2] at this
          have hz : wl (none : Option (Worm ℝ)) = [] := rfl
          simp only [outOps, inOps, List.map_nil, List.nil_append, hxw, hz, List.append_nil]
          exact this.symm
    · simp only
      have hkw : w.kind = .green rank := by rw [hxw] at hall; simpa using hall
      obtain ⟨hv, hwf, hwt⟩ := hs.reg.2 w hxw
      intro p hp mv c h
      rw [mem_ret hp, Option.some.injEq, Prod.mk.injEq] at h
      obtain ⟨rfl, rfl⟩ := h
      have ht : w.times.length = 2 * rank := by rw [hv.1, hkw]; rfl
      have hf : w.flavors.length = 2 * rank := by rw [hv.2, hkw]; rfl
      have get : ∀ j, j < 2 * rank → w.times.getD j default ∉ Z ∧ w.flavors.getD j 0 < A.P.nf := by
        intro j hj
        rw [List.getD_eq_getElem _ _ (ht ▸ hj), List.getD_eq_getElem _ _ (hf ▸ hj)]
        exact ⟨hwt _ (List.getElem_mem _), hwf _ (List.getElem_mem _)⟩
      refine ⟨by simp, by simp, ?_, ?_, Or.inl ⟨rfl, rfl⟩, ?_, by simp, ?_⟩
      · rw [(greenOps_eq rank w hkw).2]
        intro o ho
        obtain ⟨i, hi, rfl⟩ := List.mem_map.1 ho
        exact get _ (by have := List.mem_range.1 hi; omega)
      · rw [(greenOps_eq rank w hkw).1]
        intro o ho
        obtain ⟨i, hi, rfl⟩ := List.mem_map.1 ho
        exact get _ (by have := List.mem_range.1 hi; omega)
      · have := fallingFac_pos (R := ℝ) (Nat.le_add_left rank x.cd.length)
        positivity
      · refine List.Perm.filter _ ?_
        have := wl_green w hkw
        have hz : wl (none : Option (Worm ℝ)) = [] := rfl
        simp only [outOps, inOps, List.map_nil, List.nil_append, hxw, hz, List.append_nil]
        exact this
  · exact fun p hp mv c h => by rw [mem_ret hp] at h; simp at h

theorem hold_green (hA : A.OK) (hs : At A Z cw x s) (rank : ℕ) {ws : ℝ} (hws : 0 < ws) (hF : ReadsCfg A (Reg A.P.nf Z) s ψ F) :
    Hold (ψ.at x) (codeGreen A rank ws x s F) (greenE rank ws (codeW A) ψ x) (greenE rank ws (codeW A) (fun _ _ _ => 1) x) := by
  rw [greenE_eq_step, greenE_eq_step]
  refine hold_prop hA hs ?_ (green_cont hA hs rank hws) hF
  unfold greenStep
  split_ifs
  · unfold greenPropose
    rcases x.worm with _ | w
    · simp only
      split_ifs
      · exact meanE_ret _ _
      · exact probE_bind (nonneg_pickOps _ _) (probE_pickOps _ _) fun _ =>
          probE_bind (nonneg_pickOps _ _) (probE_pickOps _ _) fun _ => meanE_ret _ _
    · exact meanE_ret _ _
  · exact meanE_ret _ _

/-! ### Random times -/

theorem measurable_openRandomU (cw : CWin) : Measurable (openRandomU cw.lo cw.hi cw.eps) := by
  unfold openRandomU openRandom
  fun_prop

theorem meas_cons {Ω α : Type} [MeasurableSpace Ω] [MeasurableSpace α] {n : ℕ} {a : Ω → α} {v : Ω → Fin n → α}
    (ha : Measurable a) (hv : Measurable v) : Measurable fun u => (Fin.cons (a u) (v u) : Fin (n + 1) → α) := by
  refine measurable_pi_iff.2 fun i => ?_
  refine Fin.cases ?_ (fun j => ?_) i
  · simpa using ha
  · simp only [Fin.cons_succ]
    exact (measurable_pi_apply j).comp hv

theorem measurable_timesC {Ω : Type} [MeasurableSpace Ω] (cw : CWin) (n : ℕ) : ∀ f : Ω → List ℝ → ℝ≥0∞,
    (Measurable fun p : Ω × (Fin n → ℝ) => f p.1 (List.ofFn p.2)) → Measurable fun u => timesC cw n (f u) := by
  induction n generalizing Ω with
  | zero =>
    intro f hf
    have := hf.comp (measurable_id.prodMk (measurable_const (a := (Fin.elim0 : Fin 0 → ℝ))))
    exact this
  | succ n ih =>
    intro f hf
    refine Measurable.lintegral_prod_right' (f := fun p : Ω × ℝ =>
      timesC cw n fun ts => f p.1 (openRandomU cw.lo cw.hi cw.eps p.2 :: ts)) ?_
    refine ih (fun (p : Ω × ℝ) ts => f p.1 (openRandomU cw.lo cw.hi cw.eps p.2 :: ts)) ?_
    have h1 : Measurable fun p : (Ω × ℝ) × (Fin n → ℝ) =>
        (p.1.1, (Fin.cons (openRandomU cw.lo cw.hi cw.eps p.1.2) p.2 : Fin (n + 1) → ℝ)) :=
      (measurable_fst.comp measurable_fst).prodMk (meas_cons ((measurable_openRandomU cw).comp (measurable_snd.comp measurable_fst)) measurable_snd)
    refine (congrArg Measurable (funext fun p => ?_)).mp (hf.comp h1)
    simp [List.ofFn_succ]

theorem ae_openRandom (hs : At A Z cw x s) : ∀ᵐ u ∂(volume.restrict (Set.Ico (0 : ℝ) 1)),
    openRandomU cw.lo cw.hi cw.eps u ∉ Z ∧ cw.win.inWin (openRandomU cw.lo cw.hi cw.eps u) = true := by
  filter_upwards [ae_restrict_mem measurableSet_Ico, ae_preimage hs.count (openRandomU_inj hs.win.lt hs.win.eps)] with u hm hz
  refine ⟨hz, ?_⟩
  have h1 := hs.win.lt
  simp only [CWin.win, Bool.and_eq_true, decide_eq_true_eq]
  unfold openRandomU openRandom
  rw [hs.win.eps]
  constructor <;> nlinarith [hm.1, hm.2]

theorem hold_times (hs : At A Z cw x s) {c : ℝ≥0∞} (n : ℕ) : ∀ {h f g : List ℝ → ℝ≥0∞},
    (∀ ts : List ℝ, ts.length = n → (∀ t ∈ ts, t ∉ Z ∧ cw.win.inWin t = true) → Hold c (h ts) (f ts) (g ts)) →
    (Measurable fun p : Fin n → ℝ => f (List.ofFn p)) → (Measurable fun p : Fin n → ℝ => g (List.ofFn p)) →
    Hold c (timesC cw n h) (timesC cw n f) (timesC cw n g) := by
  induction n with
  | zero => exact fun hh _ _ => hh [] rfl (by simp)
  | succ n ih =>
    intro h f g hh hf hg
    have hcons : ∀ f : List ℝ → ℝ≥0∞, (Measurable fun p : Fin (n + 1) → ℝ => f (List.ofFn p)) →
        Measurable fun p : ℝ × (Fin n → ℝ) => f (openRandomU cw.lo cw.hi cw.eps p.1 :: List.ofFn p.2) := by
      intro f hf
      have h1 : Measurable fun p : ℝ × (Fin n → ℝ) => (Fin.cons (openRandomU cw.lo cw.hi cw.eps p.1) p.2 : Fin (n + 1) → ℝ) :=
        meas_cons ((measurable_openRandomU cw).comp measurable_fst) measurable_snd
      refine (congrArg Measurable (funext fun p => ?_)).mp (hf.comp h1)
      simp [List.ofFn_succ]
    refine hold_int unit_univ ?_ (measurable_timesC cw n _ (hcons f hf)) (measurable_timesC cw n _ (hcons g hg))
    filter_upwards [ae_openRandom hs] with u hu
    refine ih (fun ts hl ht => hh _ (by simp [hl]) fun t ht' => ?_) ((hcons f hf).comp (measurable_const.prodMk measurable_id))
      ((hcons g hg).comp (measurable_const.prodMk measurable_id))
    rcases List.mem_cons.1 ht' with rfl | ht'
    · exact hu
    · exact ht t ht'

theorem measurable_attachC {Ω : Type} [MeasurableSpace Ω] (cw : CWin) (os : List (Psi (OpTime ℝ))) :
    ∀ f : Ω → List (BOp ℝ) → List (BOp ℝ) → ℝ≥0∞,
    (∀ m n, Measurable fun p : Ω × Lab m n => f p.1 (List.ofFn p.2.1) (List.ofFn p.2.2)) → Measurable fun u => attachC cw os (f u) := by
  induction os generalizing Ω with
  | nil =>
    intro f hf
    exact (hf 0 0).comp (measurable_id.prodMk (measurable_const (a := ((Fin.elim0, Fin.elim0) : Lab 0 0))))
  | cons o os ih =>
    intro f hf
    refine Measurable.lintegral_prod_right' (f := fun p : Ω × ℝ => attachC cw os fun a b =>
      if o.type = .creation then f p.1 ((openRandomU cw.lo cw.hi cw.eps p.2, o.flavor) :: a) b
      else f p.1 a ((openRandomU cw.lo cw.hi cw.eps p.2, o.flavor) :: b)) ?_
    refine ih (fun (p : Ω × ℝ) a b => if o.type = .creation then f p.1 ((openRandomU cw.lo cw.hi cw.eps p.2, o.flavor) :: a) b
      else f p.1 a ((openRandomU cw.lo cw.hi cw.eps p.2, o.flavor) :: b)) fun m n => ?_
    have hop : Measurable fun p : (Ω × ℝ) × Lab m n => ((openRandomU cw.lo cw.hi cw.eps p.1.2, o.flavor) : BOp ℝ) :=
      ((measurable_openRandomU cw).comp (measurable_snd.comp measurable_fst)).prodMk measurable_const
    have h1 : Measurable fun p : (Ω × ℝ) × Lab m n => p.2.1 := measurable_fst.comp measurable_snd
    have h2 : Measurable fun p : (Ω × ℝ) × Lab m n => p.2.2 := measurable_snd.comp measurable_snd
    split_ifs
    · have := (hf (m + 1) n).comp ((measurable_fst.comp measurable_fst).prodMk ((meas_cons hop h1).prodMk h2))
      refine (congrArg Measurable (funext fun p => ?_)).mp this
      simp [List.ofFn_succ]
    · have := (hf m (n + 1)).comp ((measurable_fst.comp measurable_fst).prodMk (h1.prodMk (meas_cons hop h2)))
      refine (congrArg Measurable (funext fun p => ?_)).mp this
      simp [List.ofFn_succ]

theorem hold_attach (hs : At A Z cw x s) {c : ℝ≥0∞} (os : List (Psi (OpTime ℝ))) : ∀ {h f g : List (BOp ℝ) → List (BOp ℝ) → ℝ≥0∞},
    (∀ a b, (∀ o ∈ a ++ b, (o.1 ∉ Z ∧ cw.win.inWin o.1 = true) ∧ ∃ q ∈ os, q.flavor = o.2) → Hold c (h a b) (f a b) (g a b)) →
    (∀ m n, Measurable fun p : Lab m n => f (List.ofFn p.1) (List.ofFn p.2)) →
    (∀ m n, Measurable fun p : Lab m n => g (List.ofFn p.1) (List.ofFn p.2)) →
    Hold c (attachC cw os h) (attachC cw os f) (attachC cw os g) := by
  induction os with
  | nil => exact fun hh _ _ => hh [] [] (by simp)
  | cons o os ih =>
    intro h f g hh hf hg
    have hcons : ∀ f : List (BOp ℝ) → List (BOp ℝ) → ℝ≥0∞, (∀ m n, Measurable fun p : Lab m n => f (List.ofFn p.1) (List.ofFn p.2)) →
        ∀ m n, Measurable fun p : ℝ × Lab m n =>
          if o.type = .creation then f ((openRandomU cw.lo cw.hi cw.eps p.1, o.flavor) :: List.ofFn p.2.1) (List.ofFn p.2.2)
          else f (List.ofFn p.2.1) ((openRandomU cw.lo cw.hi cw.eps p.1, o.flavor) :: List.ofFn p.2.2) := by
      intro f hf m n
      have hop : Measurable fun p : ℝ × Lab m n => ((openRandomU cw.lo cw.hi cw.eps p.1, o.flavor) : BOp ℝ) :=
        ((measurable_openRandomU cw).comp measurable_fst).prodMk measurable_const
      have h1 : Measurable fun p : ℝ × Lab m n => p.2.1 := measurable_fst.comp measurable_snd
      have h2 : Measurable fun p : ℝ × Lab m n => p.2.2 := measurable_snd.comp measurable_snd
      split_ifs
      · have := (hf (m + 1) n).comp ((meas_cons hop h1).prodMk h2)
        refine (congrArg Measurable (funext fun p => ?_)).mp this
        simp [List.ofFn_succ]
      · have := (hf m (n + 1)).comp (h1.prodMk (meas_cons hop h2))
        refine (congrArg Measurable (funext fun p => ?_)).mp this
        simp [List.ofFn_succ]
    refine hold_int unit_univ ?_ (measurable_attachC cw os _ (hcons f hf)) (measurable_attachC cw os _ (hcons g hg))
    filter_upwards [ae_openRandom hs] with u hu
    refine ih (fun a b hab => ?_) (fun m n => (hcons f hf m n).comp (measurable_const.prodMk measurable_id))
      (fun m n => (hcons g hg m n).comp (measurable_const.prodMk measurable_id))
    have key : ∀ a' b', (∀ e ∈ a' ++ b', e = (openRandomU cw.lo cw.hi cw.eps u, o.flavor) ∨ e ∈ a ++ b) →
        Hold c (h a' b') (f a' b') (g a' b') := by
      intro a' b' hab'
      refine hh _ _ fun e he => ?_
      rcases hab' e he with rfl | he
      · exact ⟨hu, o, List.mem_cons_self, rfl⟩
      · obtain ⟨i1, q, i2, i3⟩ := hab e he
        exact ⟨i1, q, List.mem_cons_of_mem _ i2, i3⟩
    split_ifs
    · refine key _ _ fun e he => ?_
      simpa [or_assoc] using he
    · refine key _ _ fun e he => ?_
      simp only [List.mem_append, List.mem_cons] at he ⊢
      tauto

end CTHyb
