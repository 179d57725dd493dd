import Verif.ContCodeHyb
import Verif.SamplingSymProps

/-!
# The loop of `update` in continuous time

Sweeps with global updates between them, as transitions of the states of the simulation with real random numbers; baths in which
the global updates are safe.  Specification: `wFlow` (Verif/ContWormProps.lean), `Follows` (Verif/ContCodeRun.lean).
-/

namespace CTHyb

open Rand MeasureTheory ENNReal

variable {𝕜 : Type} [RCLike 𝕜] {N : ℕ}

/-- `global_updates` (src/impurity.ipp:625-693): `n` is the present number of windows, `ps` the exchanges in the order in which they
are executed. -/
def globalK (nf nStd n : ℕ) (kinds movers : List WormKind) (d : WormKind → ℝ) (ps : List (ℕ → ℕ)) : List KMove :=
  KMove.setWin 1 :: (transitionK nf kinds movers d ++ [KMove.globals (max nStd 10) ps, KMove.setWin n])

/-- The loop of `update` (src/impurity.ipp:212-257) with `k` sweeps done before; `plan`: rank of each sweep and order of the
exchanges of flavors after it. -/
def updateK (nf nStd nGlobal : ℕ) (fl sh : Bool) (maxDist : ℕ → ℝ) (kinds movers : List WormKind) (d : WormKind → ℝ) :
    ℕ → List (ℕ × List (ℕ → ℕ)) → List KMove
  | _, [] => []
  | k, (rank, ps) :: plan => sweepK nf nStd rank fl sh maxDist kinds movers d ++
      ((if (k + 1) % nGlobal = 0 then globalK nf nStd (max (nStd / rank) 1) kinds movers d ps else []) ++
        updateK nf nStd nGlobal fl sh maxDist kinds movers d (k + 1) plan)

variable {A : CodeArgs 𝕜 N} {x : WCfg ℝ} {ψ : CfgFun (Option (Worm ℝ)) ℝ≥0∞}

/-! ### Lemmas -/

theorem follows_append {kinds : List WormKind} {L L' : List KMove} {st : SavedState} (h : Follows A kinds st L)
    (h' : Follows A kinds (L.foldl (fun st m => m.window st) st) L') : Follows A kinds st (L ++ L') := by
  induction L generalizing st with
  | nil => exact h'
  | cons m L ih => exact ⟨h.1, ih h.2 h'⟩

theorem transitionK_window {nf : ℕ} {kinds movers : List WormKind} {d : WormKind → ℝ} :
    ∀ m ∈ transitionK nf kinds movers d, ∀ st, m.window st = st := by
  intro m hm st
  unfold transitionK at hm
  split_ifs at hm
  · simp at hm
  all_goals
    simp only [List.mem_flatten, List.mem_replicate] at hm
    obtain ⟨l, ⟨-, rfl⟩, hm⟩ := hm
    simp only [List.mem_append, List.mem_cons, List.not_mem_nil, or_false, List.mem_map] at hm
  · rcases hm with (((((rfl | rfl) | rfl) | rfl) | ⟨k, hk', rfl⟩) | rfl) <;> rfl
  · rcases hm with ((((rfl | rfl) | rfl) | ⟨k, hk', rfl⟩) | rfl) <;> rfl
  · rcases hm with ((((rfl | rfl) | rfl) | ⟨k, hk', rfl⟩) | rfl) <;> rfl
  · rcases hm with (((rfl | rfl) | ⟨k, hk', rfl⟩) | rfl) <;> rfl

theorem foldl_window {L : List KMove} (h : ∀ m ∈ L, ∀ st, m.window st = st) (st : SavedState) :
    L.foldl (fun st m => m.window st) st = st := by
  induction L generalizing st with
  | nil => rfl
  | cons m L ih => rw [List.foldl_cons, h m List.mem_cons_self, ih fun m hm => h m (List.mem_cons_of_mem _ hm)]

theorem updateK_follows {nf nStd nGlobal : ℕ} {fl sh : Bool} {maxDist : ℕ → ℝ} {kinds movers : List WormKind} {d : WormKind → ℝ}
    (hd : (∀ f, 0 < maxDist f) ∧ ∀ f f', A.P.sector f = A.P.sector f' → maxDist f = maxDist f') (hk : kinds.Nodup)
    (hg : kinds ≠ [] → .green 1 ∈ kinds) (hm : ∀ k ∈ movers, k.numTimes = 1 ∧ 0 < d k)
    (hsh : ∀ v ∈ Set.Ico (0 : ℝ) 1, (CGlob.shift (v * A.beta)).Safe A) (plan : List (ℕ × List (ℕ → ℕ)))
    (hp : ∀ q ∈ plan, ∀ p ∈ q.2, (CGlob.swap p).OK A.P.nf A.beta ∧ (CGlob.swap p).Safe A) (k : ℕ) (st : SavedState) :
    Follows A kinds st (updateK nf nStd nGlobal fl sh maxDist kinds movers d k plan) := by
  have hsweep : ∀ rank, ∀ m ∈ sweepK nf nStd rank fl sh maxDist kinds movers d, ∀ st, m.Allowed A kinds st :=
    fun rank => sweepK_allowed hd hk hg hm
  have htrans : ∀ m ∈ transitionK nf kinds movers d, ∀ st, m.Allowed A kinds st := by
    intro m hm'
    refine hsweep 1 m ?_
    simp only [sweepK, List.mem_cons, List.mem_flatten, List.mem_replicate]
    refine Or.inr ⟨_, ⟨by omega, rfl⟩, ?_⟩
    simp only [positionK, List.mem_append]
    exact Or.inl (Or.inr hm')
  induction plan generalizing k st with
  | nil => trivial
  | cons q plan ih =>
    obtain ⟨rank, ps⟩ := q
    have ih' := ih fun q hq => hp q (List.mem_cons_of_mem _ hq)
    refine follows_append (follows_of (hsweep rank) st) (follows_append ?_ (ih' _ _))
    split_ifs with h0
    · refine ⟨le_refl 1, follows_append (follows_of htrans _) ?_⟩
      rw [foldl_window transitionK_window]
      exact ⟨⟨rfl, le_trans (by norm_num) (le_max_right nStd 10), hp (rank, ps) List.mem_cons_self, hsh⟩, le_max_right _ _, trivial⟩
    · trivial

/-- **C83** (the loop of `update`).  Any number of sweeps with the global updates between them, whatever ranks and orders of the exchanges
are drawn: if the configuration is distributed with the weight of the code at the beginning, so it is at the end. -/
theorem C83_loop_partial (hA : A.OK) (hG : Measurable fun q : TPsi ℝ × TPsi ℝ => A.G q.1 q.2) (hβ : 0 < A.beta)
    (hnf : 0 < A.P.nf) (hns : 0 < A.P.ns) (hfl : ∀ b < A.P.ns, 0 < (blockFlavors A.P b).length) (kinds movers : List WormKind)
    (hkf : ∀ k ∈ kinds, 0 < k.numFlavors) (hk : kinds.Nodup) (hg : kinds ≠ [] → .green 1 ∈ kinds) {sw : WormKind → ℝ} (hsw : ∀ k, 0 < sw k)
    {maxDist : ℕ → ℝ} (hd : (∀ f, 0 < maxDist f) ∧ ∀ f f', A.P.sector f = A.P.sector f' → maxDist f = maxDist f')
    {d : WormKind → ℝ} (hm : ∀ k ∈ movers, k.numTimes = 1 ∧ 0 < d k) (hψ : ψ.WMeas A.P.nf) (nStd nGlobal k : ℕ) (fl sh : Bool)
    (hsh : ∀ v ∈ Set.Ico (0 : ℝ) 1, (CGlob.shift (v * A.beta)).Safe A) (plan : List (ℕ × List (ℕ → ℕ)))
    (hp : ∀ q ∈ plan, ∀ p ∈ q.2, (CGlob.swap p).OK A.P.nf A.beta ∧ (CGlob.swap p).Safe A)
    {st : SavedState} (hst : WindowOK 0 st) (σ : WCfg ℝ → CodeState A (Option (Worm ℝ)))
    (hσ : ∀ x, (codeW A).at x ≠ 0 → Reg A.P.nf (edges A.beta) x → TimesIn A.beta x → Stands A st x (σ x)) :
    wFlow A.beta A.P.nf kinds sw (fun _ _ _ => 1) (codeW A) (fun x => contRun A kinds sw (fun s => ψ.at (cfgOf A s))
        (updateK A.P.nf nStd nGlobal fl sh maxDist kinds movers d k plan) (σ x)) =
      wFlow A.beta A.P.nf kinds sw (fun _ _ _ => 1) (codeW A) ψ.at :=
  C83_code_stationary_partial hA hG hβ hnf hns hfl kinds hkf hsw hψ _ (updateK_follows hd hk hg hm hsh plan hp k st) hst σ hσ
    (reads_cfgOf ψ)

/-! ### Baths in which the global updates are safe -/

/-- **C83** (safe global updates).  A bath with the symmetry of the update, up to factors of rows and columns: no factor of the
determinant becomes zero. -/
theorem C83_safe (hA : A.OK) (heps : A.eps = 0) {m : CGlob} (hm : m.OK A.P.nf A.beta) (u v : BOp ℝ → 𝕜)
    (hu : ∀ o, u o ≠ 0) (hv : ∀ o, v o ≠ 0)
    (hG : ∀ o o' : BOp ℝ, (0 < o.1 ∧ o.1 < A.beta) → (0 < o'.1 ∧ o'.1 < A.beta) → o.2 < A.P.nf → o'.2 < A.P.nf → o.1 ≠ o'.1 →
      A.G (mkOp id .annihilation (m.bop A.beta o)) (mkOp id .creation (m.bop A.beta o')) =
        u o * v o' * A.G (mkOp id .annihilation o) (mkOp id .creation o')) : m.Safe A := by
  classical
  intro x hx hreg ht cds cs p1 p2
  have hcfg : CodeCfg A.P.nf x := by
    by_contra h
    rw [codeW_at, if_neg h] at hx
    exact hx rfl
  rw [codeW_at, if_pos hcfg] at hx
  have hn := hcfg.1
  have hn' := m.act_nodup A.beta hreg ht hn
  have htc : ∀ o ∈ x.c, 0 < o.1 ∧ o.1 < A.beta := fun o ho => ht (mkOp id .annihilation o) (by
    rw [PCfg.ops]; exact List.mem_append_left _ (List.mem_append_right _ (List.mem_map_of_mem ho)))
  have htd : ∀ o ∈ x.cd, 0 < o.1 ∧ o.1 < A.beta := fun o ho => ht (mkOp id .creation o) (by
    rw [PCfg.ops]; exact List.mem_append_left _ (List.mem_append_left _ (List.mem_map_of_mem ho)))
  rw [PCfg.ops, List.map_append, List.map_append] at hn hn'
  have hn1 := (List.nodup_append.1 hn).1
  have n1 := (List.nodup_append.1 hn1).1
  have n2 := (List.nodup_append.1 hn1).2.1
  have n3 := (List.nodup_append.1 hn1).2.2
  have m1 := (List.nodup_append.1 (List.nodup_append.1 hn').1).1
  have m2 := (List.nodup_append.1 (List.nodup_append.1 hn').1).2.1
  have hfo : ∀ b : BOp ℝ, b.2 < A.P.nf → (m.bop A.beta b).2 < A.P.nf := by
    intro b hb
    cases m with
    | swap p => exact (hm _ hb).1
    | shift s => exact hb
  have hw : timeDet A.G (x.c.map (mkOp id .annihilation)) (x.cd.map (mkOp id .creation)) ≠ 0 := by
    unfold cfgW CodeArgs.weight at hx
    rw [norm_ne_zero_iff] at hx
    exact left_ne_zero_of_mul hx
  rw [timeDet_eq _ _ _ n2 n1] at hw
  have hw := right_ne_zero_of_mul hw
  have key : timeDet A.G ((m.act A.beta x).c.map (mkOp id .annihilation)) ((m.act A.beta x).cd.map (mkOp id .creation)) ≠ 0 := by
    rw [timeDet_eq _ _ _ m2 m1]
    refine mul_ne_zero (pow_ne_zero _ (by simp)) ?_
    have e0 : ∀ (l : List (BOp ℝ)) (l' : List (BOp ℝ)), listDet A.G (l.map (mkOp id .annihilation)) (l'.map (mkOp id .creation)) =
        listDet (fun o o' => A.G (mkOp id .annihilation o) (mkOp id .creation o')) l l' := by
      intro l l'
      have := listDet_scale (fun o o' => A.G (mkOp id .annihilation o) (mkOp id .creation o')) A.G
        (mkOp id .annihilation) (mkOp id .creation) (fun _ => 1) (fun _ => 1) l l' (fun _ _ _ _ => by ring)
      rw [this]; simp
    rw [e0] at hw ⊢
    unfold CGlob.act
    rw [listDet_scale (fun o o' => A.G (mkOp id .annihilation o) (mkOp id .creation o')) _ (m.bop A.beta) (m.bop A.beta) u v]
    · refine mul_ne_zero (mul_ne_zero ?_ ?_) hw
      · exact List.prod_ne_zero (by simpa using fun a b _ => hu (a, b))
      · exact List.prod_ne_zero (by simpa using fun a b _ => hv (a, b))
    · intro o ho o' ho'
      refine hG o o' (htc o ho) (htd o' ho') (hcfg.2.2 o ho) (hcfg.2.1 o' ho') fun e => ?_
      refine n3 (mkOp id .creation o').time ?_ (mkOp id .annihilation o).time ?_ ?_
      · exact List.mem_map_of_mem (List.mem_map_of_mem ho')
      · exact List.mem_map_of_mem (List.mem_map_of_mem ho)
      · simp [mkOp, e]
  have k1 := (p1.map Psi.time).nodup_iff.2 m1
  have k2 := (p2.map Psi.time).nodup_iff.2 m2
  rw [heps]
  refine noSmall_of_ne (normAbs 𝕜) A.G A.lu hA.lu_prod hA.lu_len A.blockOf A.P.ns (C60_lawful A hA).glob.blocks cds cs ?_ k2 k1 ?_
  · intro o ho
    rw [A.blockOf_lt]
    rcases List.mem_append.1 ho with h | h
    · obtain ⟨b, hb, rfl⟩ := List.mem_map.1 (p1.subset h)
      obtain ⟨b', hb', rfl⟩ := List.mem_map.1 hb
      exact ⟨hfo _ (hcfg.2.1 b' hb'), hA.sectors _ (hfo _ (hcfg.2.1 b' hb'))⟩
    · obtain ⟨b, hb, rfl⟩ := List.mem_map.1 (p2.subset h)
      obtain ⟨b', hb', rfl⟩ := List.mem_map.1 hb
      exact ⟨hfo _ (hcfg.2.2 b' hb'), hA.sectors _ (hfo _ (hcfg.2.2 b' hb'))⟩
  · rw [timeDet_congr A.G p2 p1 k2 k1]; exact key

/-- **C83** (safe shifts).  Shifts in a bath with an antiperiodic hybridization function. -/
theorem C83_safe_shift (hA : A.OK) (heps : A.eps = 0) {h : ℕ → ℕ → ℝ → 𝕜} (hh : AntiPer A h) {s : ℝ} (hs : 0 ≤ s ∧ s < A.beta) :
    (CGlob.shift s).Safe A := by
  refine C83_safe hA heps (m := .shift s) hs (fun o => if o.1 + s > A.beta then -1 else 1)
    (fun o => if o.1 + s > A.beta then -1 else 1) (fun o => by split_ifs <;> simp) (fun o => by split_ifs <;> simp) ?_
  intro o o' ho ho' _ _ hne
  rw [hh.eq, hh.eq]
  show h o.2 o'.2 (timeShift A.beta s o.1 - timeShift A.beta s o'.1) = _ * h o.2 o'.2 (o.1 - o'.1)
  unfold timeShift
  by_cases h1 : A.beta < o.1 + s <;> by_cases h2 : A.beta < o'.1 + s
  · simp [h1, h2]
  · simp only [h1, h2, if_true, if_false]
    have := hh.anti o.2 o'.2 (o.1 + s - A.beta - (o'.1 + s)) (by linarith [ho.1, ho'.2, ho.2, ho'.1]) (by linarith [ho.1, ho'.2, ho.2, ho'.1])
    rw [show o.1 + s - A.beta - (o'.1 + s) + A.beta = o.1 - o'.1 by ring] at this
    rw [this]; ring
  · simp only [h1, h2, if_true, if_false]
    have := hh.anti o.2 o'.2 (o.1 - o'.1) (by linarith [ho.1, ho'.2, ho.2, ho'.1]) (by linarith [ho.1, ho'.2, ho.2, ho'.1])
    rw [show o.1 + s - (o'.1 + s - A.beta) = o.1 - o'.1 + A.beta by ring, this]
    ring
  · simp [h1, h2]

/-- **C83** (safe exchanges).  Exchanges of flavors which leave the hybridization function unchanged. -/
theorem C83_safe_swap (hA : A.OK) (heps : A.eps = 0) {p : ℕ → ℕ} (hp : (CGlob.swap p).OK A.P.nf A.beta)
    (hG : ∀ a b : TPsi ℝ, a.flavor < A.P.nf → b.flavor < A.P.nf → A.G (exchangeOp p a) (exchangeOp p b) = A.G a b) :
    (CGlob.swap p).Safe A :=
  C83_safe hA heps hp (fun _ => 1) (fun _ => 1) (fun _ => one_ne_zero) (fun _ => one_ne_zero) fun o o' _ _ h1 h2 _ => by
    rw [one_mul, one_mul]; exact hG (mkOp id .annihilation o) (mkOp id .creation o') h1 h2

/-- The function computed from a table is antiperiodic, whatever the table. -/
theorem antiPer_table {ntau : ℕ} {F : ℕ → ℕ → ℕ → 𝕜} (hG : A.G = hybG A.beta ntau F) :
    AntiPer A fun f f' t => hybG A.beta ntau F ⟨⟨t, 0⟩, .annihilation, f⟩ ⟨⟨0, 0⟩, .creation, f'⟩ where
  eq := fun a b => by
    rw [hG, hybG_eq, hybG_eq]
    simp only [sub_zero]
  anti := fun f f' x h1 h2 => by
    have h3 : ¬ x + A.beta < 0 := by linarith
    rw [hybG_eq, hybG_eq]
    simp only [sub_zero, if_pos h2, if_neg h3]
    split_ifs
    · rw [one_smul, neg_smul, one_smul, neg_neg]
    · simp

/-- **C83** (tables, safe shifts).  In the bath of any table of the hybridization function all shifts are safe. -/
theorem C83_table_shift (hA : A.OK) (heps : A.eps = 0) (hβ : 0 < A.beta) {ntau : ℕ} {F : ℕ → ℕ → ℕ → 𝕜} (hG : A.G = hybG A.beta ntau F) :
    ∀ v ∈ Set.Ico (0 : ℝ) 1, (CGlob.shift (v * A.beta)).Safe A := fun v hv =>
  C83_safe_shift hA heps (antiPer_table hG) ⟨mul_nonneg hv.1 hβ.le, by
    have := mul_lt_mul_of_pos_right hv.2 hβ
    rwa [one_mul] at this⟩

/-! ### Concrete cases -/

/-- Shifts in the bath of a table with three points. -/
example : ∀ v ∈ Set.Ico (0 : ℝ) 1, (CGlob.shift (v * 4)).Safe exTable := 
  C83_table_shift exTable_ok rfl (show (0 : ℝ) < 4 by norm_num) (ntau := 2) (F := fun f f' i => if f = 0 ∧ f' = 0 then 1 / 2 + i else 0) rfl


theorem exCode_safe {m : CGlob} (hm : m.OK 1 4) : m.Safe exCode :=
  C83_safe exCode_ok rfl hm (fun _ => 1) (fun _ => 1) (fun _ => one_ne_zero) (fun _ => one_ne_zero) fun _ _ _ _ _ _ _ => by
    rw [one_mul, one_mul]; rfl

theorem exCode_safe_shift : ∀ v ∈ Set.Ico (0 : ℝ) 1, (CGlob.shift (v * exCode.beta)).Safe exCode := fun v hv =>
  exCode_safe ⟨mul_nonneg hv.1 (by norm_num [exCode]), by
    show v * 4 < 4
    linarith [hv.2]⟩

/-- Two sweeps with global updates after each of them. -/
example : ∃ σ : WCfg ℝ → CodeState exCode (Option (Worm ℝ)),
    wFlow 4 1 [.equalTime 1, .corr 2, .green 1] (fun k => 1 + k.numFlavors) (fun _ _ _ => 1) (codeW exCode)
        (fun x => contRun exCode [.equalTime 1, .corr 2, .green 1] (fun k => 1 + k.numFlavors) (fun s => exPsiR.at (cfgOf exCode s))
          (updateK 1 4 1 true true (fun _ => 1 / 2) [.equalTime 1, .corr 2, .green 1] [.equalTime 1] (fun _ => 1 / 2) 0
            [(1, [id]), (2, [id, id])]) (σ x)) =
      wFlow 4 1 [.equalTime 1, .corr 2, .green 1] (fun k => 1 + k.numFlavors) (fun _ _ _ => 1) (codeW exCode) exPsiR.at := by
  obtain ⟨σ, hσ⟩ := exists_stands exCode_ok (n := 4) (by norm_num)
  refine ⟨σ, ?_⟩
  have hid : (CGlob.swap id).OK 1 4 := fun f hf => ⟨hf, rfl⟩
  refine C83_loop_partial exCode_ok measurable_const (by norm_num [exCode]) (by norm_num [exCode]) (by norm_num [exCode]) exCode_flavors
    [.equalTime 1, .corr 2, .green 1] [.equalTime 1] (by decide) (by decide) (by simp) (fun k => by positivity)
    ⟨fun _ => by norm_num, fun _ _ _ => rfl⟩ (by simp [WormKind.numTimes]) (exPsiR_wmeas 1) 4 1 0 true true exCode_safe_shift
    [(1, [id]), (2, [id, id])] (fun q hq p hp => ?_) ⟨by norm_num, rfl, by norm_num, dvd_zero _⟩ σ hσ
  have : p = id := by
    simp only [List.mem_cons, List.not_mem_nil, or_false] at hq
    rcases hq with rfl | rfl <;> simpa using hp
  subst this
  exact ⟨hid, exCode_safe hid⟩

/-- The global updates in the state with one pair: the configuration is shifted by a random time, which never is rejected as the
hybridization function is constant and the weight of a pair does not depend on its times. -/
example : ∃ s : CodeState exCode (Option (Worm ℝ)), Reps exCode id (codeWops id) exPairI s ∧
    contRun exCode [] (fun _ => 1) (fun s => exPsiR.at (cfgOf exCode s)) [.setWin 1, .globals 10 [id], .setWin 3, .pair 1] s =
      sweepE exCode.P [] (fun _ => 1) (codeW exCode) exPsiR
        [.swap id, .globalShift 4, .bath (.pair (winAt 4 ⟨2, 0, true, 3⟩) 1)] exPairI := by
  obtain ⟨s, hs⟩ := exPairI_stands (n := 2) (by norm_num)
  have hid : (CGlob.swap id).OK 1 4 := fun f hf => ⟨hf, rfl⟩
  refine ⟨s, hs.reps, C83_code_run exCode_ok measurable_const (by norm_num [exCode]) (by norm_num [exCode]) (by norm_num [exCode])
    exCode_flavors _ (by simp) (fun _ => one_pos) (exPsiR_wmeas 1) _ ?_ ⟨by norm_num, rfl, by norm_num, dvd_zero _⟩ hs (reads_cfgOf _)⟩
  refine ⟨le_refl 1, ⟨rfl, by norm_num, fun p hp => ?_, exCode_safe_shift⟩, by show 1 ≤ 3; norm_num, trivial, trivial⟩
  rw [List.mem_singleton.1 hp]
  exact ⟨hid, exCode_safe hid⟩

/-- A global shift in the state with one pair does not throw. -/
example : ∃ s : CodeState exCode (Option (Worm ℝ)), GlobAt exCode s ∧ Reps exCode id (codeWops id) exPairI s ∧
    ∃ s', contGlobal exCode (.shift 1) 10 (1 / 2) s = some s' ∧ GlobAt exCode s' := by
  obtain ⟨s, hs⟩ := exPairI_stands (n := 1) (by norm_num)
  have hg : GlobAt exCode ({ s.1 with detVec := exCode.env.factors s.1.cfg.M }, s.2) :=
    ⟨⟨hs.inv.cons, hs.inv.inv, hs.inv.sign, hs.inv.trace, hs.inv.win, hs.inv.two⟩, (C60_lawful exCode exCode_ok).factors _ hs.inv.inv,
      congrArg SavedState.n hs.win, congrArg SavedState.posR hs.win⟩
  have hr : Reps exCode id (codeWops id) exPairI ({ s.1 with detVec := exCode.env.factors s.1.cfg.M }, s.2) :=
    ⟨hs.reps.cd, hs.reps.c, hs.reps.worm, hs.reps.wops⟩
  have h2 : (0 : ℝ) < √2 := by positivity
  have h3 : √2 < 3 / 2 := by
    rw [Real.sqrt_lt' (by norm_num)]
    norm_num
  have hb : exCode.beta = 4 := rfl
  have hy : Reg 1 {0, 4} ((CGlob.shift 1).act 4 exPairI) := by
    have h4 : ¬ (2 * √2 + 1 > 4) := by linarith
    have h5 : ¬ (√2 + 1 > 4) := by linarith
    refine ⟨?_, by simp [CGlob.act, exPairI]⟩
    simp only [CGlob.act, exPairI, List.map_cons, List.map_nil, CGlob.bop, operatorShift, timeShift, h4, h5, if_false]
    simp
    refine ⟨⟨?_, ?_⟩, ?_, ?_⟩ <;> intro h <;> linarith
  obtain ⟨s', e, h, -⟩ := C83_global_update (Z := {0, 4}) exCode_ok (m := .shift 1) ⟨by norm_num, by norm_num [exCode]⟩ (x := exPairI)
    ⟨by simp only [exPairI]; simp; constructor <;> intro h <;> linarith, by simp [exPairI]⟩ (by simp) (by simp [exCode]) hy
    (exCode_safe (m := .shift 1) ⟨by norm_num, by norm_num⟩ _ exPairI_weight hs.reg.mono
      (hr.strict hg.inv hs.reg ⟨(1, 0), tauEdge_zero _ _⟩ ⟨(1, 2), tauEdge_top _ 1 le_rfl⟩))
    hg hr (nwin := 10) (by norm_num) (1 / 2) (by norm_num)
  exact ⟨_, hg, hr, s', e, h⟩

/-- Two spins in equal baths with an antiperiodic hybridization function: the exchange of the spins and all shifts are safe. -/
theorem freeCode_safe : ((CGlob.swap fun f => 1 - f).OK 2 4 ∧ (CGlob.swap fun f => 1 - f).Safe freeCode) ∧
    ∀ v ∈ Set.Ico (0 : ℝ) 1, (CGlob.shift (v * freeCode.beta)).Safe freeCode := by
  have hb : freeCode.beta = 4 := rfl
  have hok : (CGlob.swap fun f => 1 - f).OK 2 4 := fun f hf => ⟨show 1 - f < 2 by omega, show 1 - (1 - f) = f by omega⟩
  refine ⟨⟨hok, C83_safe_swap freeCode_ok rfl hok fun a b ha hb => ?_⟩, fun v hv => C83_safe_shift freeCode_ok rfl freeCode_anti ?_⟩
  · have ha' : a.flavor < 2 := ha
    have hb' : b.flavor < 2 := hb
    show freeHyb (1 - a.flavor) (1 - b.flavor) _ = freeHyb a.flavor b.flavor _
    unfold freeHyb
    have : (1 - a.flavor = 1 - b.flavor) ↔ a.flavor = b.flavor := by omega
    simp only [this]
    rfl
  · rw [hb]
    exact ⟨by linarith [hv.1], by linarith [hv.2]⟩

theorem measurable_freeHyb : Measurable fun q : TPsi ℝ × TPsi ℝ => freeCode.G q.1 q.2 := by
  have h1 := measurable_time (o := fun q : TPsi ℝ × TPsi ℝ => q.1) measurable_fst
  have h2 := measurable_time (o := fun q : TPsi ℝ × TPsi ℝ => q.2) measurable_snd
  have f1 := measurable_flavor (o := fun q : TPsi ℝ × TPsi ℝ => q.1) measurable_fst
  have f2 := measurable_flavor (o := fun q : TPsi ℝ × TPsi ℝ => q.2) measurable_snd
  have ht : Measurable fun q : TPsi ℝ × TPsi ℝ => q.1.time.time - q.2.time.time := h1.sub h2
  show Measurable fun q : TPsi ℝ × TPsi ℝ => freeHyb q.1.flavor q.2.flavor (q.1.time.time - q.2.time.time)
  unfold freeHyb
  exact Measurable.ite (measurableSet_eq_fun f1 f2)
    (Measurable.ite (measurableSet_lt measurable_const ht) (ht.add_const 1) (ht.add_const 5).neg) measurable_const

/-- Two spins: global updates after every second sweep, with the exchange of the spins. -/
example : ∃ σ : WCfg ℝ → CodeState freeCode (Option (Worm ℝ)),
    wFlow 4 2 [.green 1, .equalTime 1] (fun k => 1 + k.numFlavors) (fun _ _ _ => 1) (codeW freeCode)
        (fun x => contRun freeCode [.green 1, .equalTime 1] (fun k => 1 + k.numFlavors) (fun s => exPsiR.at (cfgOf freeCode s))
          (updateK 2 4 2 true true (fun _ => 1 / 2) [.green 1, .equalTime 1] [.equalTime 1] (fun _ => 1 / 2) 0
            [(1, []), (2, [fun f => 1 - f]), (1, [])]) (σ x)) =
      wFlow 4 2 [.green 1, .equalTime 1] (fun k => 1 + k.numFlavors) (fun _ _ _ => 1) (codeW freeCode) exPsiR.at := by
  obtain ⟨σ, hσ⟩ := exists_stands freeCode_ok (n := 4) (by norm_num)
  refine ⟨σ, C83_loop_partial freeCode_ok measurable_freeHyb (show (0 : ℝ) < 4 by norm_num) Nat.two_pos Nat.two_pos freeMoves_ok.flavors
    [.green 1, .equalTime 1] [.equalTime 1] (by decide) (by decide) (by simp) (fun k => by positivity)
    ⟨fun _ => by norm_num, fun _ _ _ => rfl⟩ (by simp [WormKind.numTimes]) (exPsiR_wmeas 2) 4 2 0 true true freeCode_safe.2
    [(1, []), (2, [fun f => 1 - f]), (1, [])] (fun q hq p hp => ?_) ⟨by norm_num, rfl, by norm_num, dvd_zero _⟩ σ hσ⟩
  have : p = fun f => 1 - f := by
    simp only [List.mem_cons, List.not_mem_nil, or_false] at hq
    rcases hq with rfl | rfl | rfl <;> simpa using hp
  subst this
  exact freeCode_safe.1

end CTHyb
