import Verif.SamplingGlobalProps

/-!
The loop of `update` with sweeps and global updates: the weight of the configurations is stationary.
-/

set_option linter.unusedSectionVars false

namespace CTHyb

open Matrix Rand MeasureTheory

variable {𝕜 : Type} [RCLike 𝕜] [DecidableEq 𝕜] {N : ℕ}

section spec

/-- The window without the direction if there is only one position. -/
def winOf {Ket Bra ι : Type} (w : SWState Ket Bra ι) : SavedState :=
  ⟨w.posL, w.posR, w.n == 1 || w.dirLeft, w.n⟩

/-- The steps can be made one after the other, beginning with the window `st`. -/
def SRunOK (A : CodeArgs 𝕜 N) (a : MoveArgs) (M : ℕ) : SavedState → List (SStep A) → Prop
  | _, [] => True
  | st, .loc b :: rest => ∃ st' : SavedState,
    (∀ s : CodeState A (Option (Worm ℤ)), SimInv A.env A.Inv (pmDet A.P) s.1 → winOf s.1.sw = st →
      ∃ s1, b.shift s.1 = some s1 ∧ SimInv A.env A.Inv (pmDet A.P) s1 ∧ s1.cfg = s.1.cfg ∧ winOf s1.sw = st') ∧
    PropOK A a.tau (codeWops a.tau) (OnGrid A.P.nf a.G a.kinds) (A.beta / M) wormDim (spaceEta a.sw)
      (tauEdge A.beta st'.n st'.posR) (tauEdge A.beta st'.n st'.posL)
      (b.prop (tauEdge A.beta st'.n st'.posR) (tauEdge A.beta st'.n st'.posL)) ∧
    SRunOK A a M st' rest
  | st, .glob nwin gs :: rest => st = ⟨2, 0, true, 1⟩ ∧ 1 ≤ nwin ∧ (∀ g ∈ gs, ∃ inv, GDraw A a M g inv) ∧
    SRunOK A a M st rest

/-- An exchange of flavors which is its own inverse and never makes a factor of the determinant negligible. -/
structure SwapOK (A : CodeArgs 𝕜 N) (a : MoveArgs) (M : ℕ) (v : List ℕ) : Prop where
  perm : IsFlavorPerm A.P.nf v
  invol : Undoes A.P.nf v v
  small : ∀ x, OnGrid A.P.nf a.G a.kinds x → x.Good A a.tau (codeWops a.tau) → NoSmall A a.tau ((GMove.swap v).act M x)

/-- Shifts never make a factor negligible. -/
def ShiftOK (A : CodeArgs 𝕜 N) (a : MoveArgs) (M : ℕ) : Prop :=
  ∀ k < M, ∀ x, OnGrid A.P.nf a.G a.kinds x → x.Good A a.tau (codeWops a.tau) → NoSmall A a.tau ((GMove.shift k).act M x)

end spec

variable {A : CodeArgs 𝕜 N} {a : MoveArgs} {M : ℕ}

/-! ### The global updates of the driver -/

theorem same_refl {T W : Type} (x : PCfg T W) : x.Same x := ⟨List.Perm.refl _, List.Perm.refl _, rfl⟩

theorem map_undone {α : Type} {f : α → α} {l : List α} (h : ∀ o ∈ l, f o = o) : l.map f = l := by
  conv_rhs => rw [← List.map_id l]
  exact List.map_congr_left h

theorem act_undone {m m' : GMove} {x : WCfg ℤ} (h1 : ∀ o ∈ x.cd ++ x.c, m'.bop M (m.bop M o) = o)
    (h2 : ∀ w, x.worm = some w → m'.wact M (m.wact M w) = w) : (m'.act M (m.act M x)).Same x := by
  have e1 : (x.cd.map (m.bop M)).map (m'.bop M) = x.cd := by
    rw [List.map_map]; exact map_undone fun o ho => h1 o (List.mem_append_left _ ho)
  have e2 : (x.c.map (m.bop M)).map (m'.bop M) = x.c := by
    rw [List.map_map]; exact map_undone fun o ho => h1 o (List.mem_append_right _ ho)
  have e3 : (x.worm.map (m.wact M)).map (m'.wact M) = x.worm := by
    rcases hw : x.worm with _ | w
    · rfl
    · simp [h2 w hw]
  refine ⟨?_, ?_, e3⟩
  · exact List.Perm.of_eq e1
  · exact List.Perm.of_eq e2

theorem swap_undone {v : List ℕ} (hu : Undoes A.P.nf v v) {x : WCfg ℤ} (hx : OnGrid A.P.nf a.G a.kinds x) :
    ((GMove.swap v).act M ((GMove.swap v).act M x)).Same x := by
  refine act_undone (fun o ho => ?_) fun w hw => ?_
  · have hf : o.2 < A.P.nf := by
      rcases List.mem_append.1 ho with h | h
      · exact (hx.cd_mem o h).2
      · exact (hx.c_mem o h).2
    exact Prod.ext rfl (hu _ hf)
  · obtain ⟨-, -, h, -⟩ := hx.worm w hw
    simp only [GMove.wact, List.map_map, Function.comp_def]
    rw [map_undone fun f hf => hu f (h f hf)]

theorem shift_undone (ha : a.OK A M) {k k' : ℕ} (hk : (k + k') % M = 0) {x : WCfg ℤ} (hx : OnGrid A.P.nf a.G a.kinds x) :
    ((GMove.shift k').act M ((GMove.shift k).act M x)).Same x := by
  have key : ∀ t ∈ a.G, ((t + k) % M + k') % (M : ℤ) = t := by
    intro t ht
    rw [ha.G] at ht
    obtain ⟨h0, h1⟩ := Finset.mem_Ico.1 ht
    rw [Int.emod_add_emod, add_assoc]
    have e : ((k : ℤ) + k') % M = 0 := by exact_mod_cast hk
    rw [Int.add_emod, e, add_zero, Int.emod_emod_of_dvd _ dvd_rfl, Int.emod_eq_of_lt h0 h1]
  refine act_undone (fun o ho => ?_) fun w hw => ?_
  · have hf : o.1 ∈ a.G := by
      rcases List.mem_append.1 ho with h | h
      · exact (hx.cd_mem o h).1
      · exact (hx.c_mem o h).1
    exact Prod.ext (key _ hf) rfl
  · obtain ⟨-, -, -, h⟩ := hx.worm w hw
    simp only [GMove.wact, List.map_map, Function.comp_def]
    rw [map_undone fun f hf => key f (h f hf)]

/-- The exchange of flavors of the driver. -/
theorem swap_draw {v : List ℕ} (h : SwapOK A a M v) : GDraw A a M (ret (GMove.swap v)) id where
  ok := fun p hp => by rw [Multiset.mem_singleton.1 hp]; exact h.perm
  left := fun p hp x hx => by rw [Multiset.mem_singleton.1 hp]; exact swap_undone h.invol hx
  right := fun p hp x hx => by rw [Multiset.mem_singleton.1 hp]; exact swap_undone h.invol hx
  sym := fun h => rfl
  one := by rw [mean_ret]
  small := fun p hp x hx gx => by rw [Multiset.mem_singleton.1 hp]; exact h.small x hx gx

/-- The shift that undoes a shift. -/
def shiftBack (M : ℕ) : GMove → GMove
  | .swap v => .swap v
  | .shift k => .shift ((M - k) % M)

theorem shiftBack_perm {M : ℕ} : ((List.range M).map fun k => (M - k) % M).Perm (List.range M) := by
  have hnd : ((List.range M).map fun k => (M - k) % M).Nodup := by
    refine List.Nodup.map_on ?_ List.nodup_range
    intro x hx y hy h
    have hx := List.mem_range.1 hx
    have hy := List.mem_range.1 hy
    rcases Nat.eq_zero_or_pos x with rfl | hx0 <;> rcases Nat.eq_zero_or_pos y with rfl | hy0
    · rfl
    · rw [Nat.sub_zero, Nat.mod_self, Nat.mod_eq_of_lt (by omega)] at h; omega
    · rw [Nat.sub_zero, Nat.mod_self, Nat.mod_eq_of_lt (by omega)] at h; omega
    · rw [Nat.mod_eq_of_lt (by omega), Nat.mod_eq_of_lt (by omega)] at h; omega
  refine List.Subperm.perm_of_length_le (List.subperm_of_subset hnd fun y hy => ?_) (by simp)
  obtain ⟨k, hk, rfl⟩ := List.mem_map.1 hy
  exact List.mem_range.2 (Nat.mod_lt _ (by have := List.mem_range.1 hk; omega))

/-- The global shift of the driver. -/
theorem shift_draw (ha : a.OK A M) (h : ShiftOK A a M) :
    GDraw A a M (unif ((List.range M).map GMove.shift)) (shiftBack M) := by
  have hmem : ∀ p ∈ (unif ((List.range M).map GMove.shift) : Rand ℝ GMove), ∃ k < M, p.2 = .shift k := by
    intro p hp
    obtain ⟨m, hm, rfl⟩ := Multiset.mem_map.1 hp
    obtain ⟨k, hk, rfl⟩ := List.mem_map.1 (Multiset.mem_coe.1 hm)
    exact ⟨k, List.mem_range.1 hk, rfl⟩
  have hsum : ∀ k < M, (k + (M - k) % M) % M = 0 := by
    intro k hk
    rw [Nat.add_mod_mod, Nat.add_sub_cancel' hk.le, Nat.mod_self]
  refine ⟨fun p hp => ?_, fun p hp x hx => ?_, fun p hp x hx => ?_, fun f => ?_, ?_, fun p hp x hx gx => ?_⟩
  · obtain ⟨k, hk, e⟩ := hmem p hp
    rw [e]; exact hk
  · obtain ⟨k, hk, e⟩ := hmem p hp
    rw [e]; exact shift_undone ha (hsum k hk) hx
  · obtain ⟨k, hk, e⟩ := hmem p hp
    rw [e]; exact shift_undone ha (by rw [Nat.add_comm]; exact hsum k hk) hx
  · rw [mean_unif, mean_unif, List.map_map, List.map_map]
    congr 1
    have := (shiftBack_perm (M := M)).map fun k => f (GMove.shift k)
    rw [List.map_map] at this
    exact this.sum_eq
  · rw [mean_unif]
    have : (M : ℝ) ≠ 0 := by exact_mod_cast ha.grid.ne'
    simp [Function.comp_def, this]
  · obtain ⟨k, hk, e⟩ := hmem p hp
    rw [e]; exact h k hk x hx gx

/-! ### The whole run -/

section main
variable {X : Type} [Fintype X] [DecidableEq X] {c : X → WCfg ℤ}

/-- **C61, sweeps and global updates.**  A sequence of local updates, moves of the window and global updates acts on the
configurations as a Markov chain for which the weight is stationary. -/
theorem C61_sim_run (hA : A.OK) (ha : a.OK A M) (hR : Reprs A a.tau (codeWops a.tau) (OnGrid A.P.nf a.G a.kinds) c)
    (rd : CodeState A (Option (Worm ℤ)) → WCfg ℤ)
    (hrd : ∀ s x, Reps A a.tau (codeWops a.tau) x s → Reps A a.tau (codeWops a.tau) (rd s) s)
    (steps : List (SStep A)) (st : SavedState) (hok : SRunOK A a M st steps) :
    ∃ P : X → X → ℝ, (∀ i, ∑ j, P i j = 1) ∧
      (∀ j, ∑ i, gridW A a.tau (codeWops a.tau) (A.beta / M) wormDim (spaceEta a.sw) (c i) * P i j =
        gridW A a.tau (codeWops a.tau) (A.beta / M) wormDim (spaceEta a.sw) (c j)) ∧
      ∀ (F : CodeState A (Option (Worm ℤ)) → ℝ) (f : X → ℝ),
        (∀ s, SimInv A.env A.Inv (pmDet A.P) s.1 → ∀ j, Reps A a.tau (codeWops a.tau) (c j) s → F s = f j) →
        ∀ (s : CodeState A (Option (Worm ℤ))) (i : X), SimInv A.env A.Inv (pmDet A.P) s.1 → winOf s.1.sw = st →
          Reps A a.tau (codeWops a.tau) (c i) s → simRun A M a.tau rd F steps s = ∑ j, P i j * f j := by
  have ht : Function.Injective a.tau := by rw [ha.tau]; exact gridTau_inj ha.beta ha.grid
  have hM : (0 : ℝ) < M := by exact_mod_cast ha.grid
  have hδ : 0 < A.beta / M := div_pos ha.beta hM
  have he : ∀ x : WCfg ℤ, 0 < spaceEta a.sw x := by
    intro x
    unfold spaceEta
    rcases x.worm with _ | w
    · exact one_pos
    · exact ha.sw _
  have hsame : ∀ x y : WCfg ℤ, x.Same y → spaceEta a.sw x = spaceEta a.sw y ∧ wormDim x = wormDim y := by
    intro x y h
    constructor
    · unfold spaceEta; rw [h.2.2]
    · unfold wormDim bathDim; rw [h.1.length_eq, h.2.1.length_eq, h.2.2]
  have comp : ∀ (K P : X → X → ℝ), (∀ i, ∑ j, K i j = 1) → (∀ i, ∑ j, P i j = 1) →
      (∀ j, ∑ i, gridW A a.tau (codeWops a.tau) (A.beta / M) wormDim (spaceEta a.sw) (c i) * K i j =
        gridW A a.tau (codeWops a.tau) (A.beta / M) wormDim (spaceEta a.sw) (c j)) →
      (∀ j, ∑ i, gridW A a.tau (codeWops a.tau) (A.beta / M) wormDim (spaceEta a.sw) (c i) * P i j =
        gridW A a.tau (codeWops a.tau) (A.beta / M) wormDim (spaceEta a.sw) (c j)) →
      (∀ i, ∑ j, (∑ k, K i k * P k j) = 1) ∧
      (∀ j, ∑ i, gridW A a.tau (codeWops a.tau) (A.beta / M) wormDim (spaceEta a.sw) (c i) * (∑ k, K i k * P k j) =
        gridW A a.tau (codeWops a.tau) (A.beta / M) wormDim (spaceEta a.sw) (c j)) ∧
      ∀ (f : X → ℝ) (i : X), ∑ k, K i k * (∑ j, P k j * f j) = ∑ j, (∑ k, K i k * P k j) * f j := by
    intro K P k1 p1 k2 p2
    refine ⟨fun i => ?_, fun j => ?_, fun f i => ?_⟩
    · rw [Finset.sum_comm]
      simp only [← Finset.mul_sum, p1, mul_one]
      exact k1 i
    · simp only [Finset.mul_sum]
      rw [Finset.sum_comm, ← p2 j]
      refine Finset.sum_congr rfl fun k _ => ?_
      rw [← k2 k, Finset.sum_mul]
      exact Finset.sum_congr rfl fun i _ => by ring
    · simp only [Finset.sum_mul, Finset.mul_sum]
      rw [Finset.sum_comm]
      exact Finset.sum_congr rfl fun j _ => Finset.sum_congr rfl fun k _ => by ring
  induction steps generalizing st with
  | nil =>
    refine ⟨fun i j => if i = j then 1 else 0, by simp, by simp, fun F f hF s i hs _ h => ?_⟩
    simp [simRun, hF s hs i h]
  | cons b rest ih =>
    cases b with
    | loc b =>
      obtain ⟨st', h1, h2, h3⟩ := hok
      obtain ⟨P, p1, p2, p3⟩ := ih st' h3
      set prop := b.prop (tauEdge A.beta st'.n st'.posR) (tauEdge A.beta st'.n st'.posL) with hprop
      have k1 : ∀ i, ∑ j, stepK (cfgW A a.tau (codeWops a.tau)) prop c i j = 1 := by
        intro i
        have := stepK_apply (cfgW A a.tau (codeWops a.tau)) prop c i (fun _ => 1)
        simpa using this
      obtain ⟨c1, c2, c3⟩ := comp (stepK (cfgW A a.tau (codeWops a.tau)) prop c) P k1 p1 (stepK_stationary hR h2.bal) p2
      refine ⟨_, c1, c2, fun F f hF s i hs hst h => ?_⟩
      obtain ⟨s1, e1, i1, q1, w1⟩ := h1 s hs hst
      have hr : Reps A a.tau (codeWops a.tau) (c i) (s1, s.2) :=
        ⟨by rw [q1]; exact h.cd, by rw [q1]; exact h.c, h.worm, by rw [q1]; exact h.wops⟩
      have l1 : loEdge A (s1, s.2) = tauEdge A.beta st'.n st'.posR := by rw [← w1]; rfl
      have u1 : hiEdge A (s1, s.2) = tauEdge A.beta st'.n st'.posL := by rw [← w1]; rfl
      rw [simRun, e1, Option.elim_some, l1, u1, ← c3]
      rw [← l1, ← u1] at h2
      exact step_mean hA ht hδ he hsame hR h2 i1 hr (hrd _ _ hr) _ (fun k => ∑ j, P k j * f j)
        fun s' hs' hw j hj => p3 F f hF s' j hs' (by rw [hw]; exact w1) hj
    | glob nwin gs =>
      obtain ⟨rfl, h1, h2, h3⟩ := hok
      obtain ⟨P, p1, p2, p3⟩ := ih _ h3
      obtain ⟨K, k1, k2, k3⟩ := globRun_chain hA ha hR h1 (A.beta / M) gs h2
      obtain ⟨c1, c2, c3⟩ := comp K P k1 p1 k2 p2
      refine ⟨_, c1, c2, fun F f hF s i hs hst h => ?_⟩
      have hE := C60_lawful A hA
      unfold winOf at hst
      obtain ⟨-, t2, -, t4⟩ := (SavedState.mk.injEq ..).mp hst
      rw [simRun, ← c3]
      refine k3 (simRun A M a.tau rd F rest) (fun k => ∑ j, P k j * f j) (fun s' hs' j hj => ?_) _ i
        ⟨⟨hs.cons, hs.inv, hs.sign, hs.trace, hs.win, hs.two⟩, hE.factors _ hs.inv, t4, t2⟩ ⟨h.cd, h.c, h.worm, h.wops⟩
      refine p3 F f hF s' j hs'.inv ?_ hj
      have hl : s'.1.sw.posL = 2 := by have := hs'.inv.two; have := hs'.posR; omega
      simp [winOf, hs'.n, hs'.posR, hl]

theorem C61_sim_stationary (hA : A.OK) (ha : a.OK A M)
    (hR : Reprs A a.tau (codeWops a.tau) (OnGrid A.P.nf a.G a.kinds) c) (rd : CodeState A (Option (Worm ℤ)) → WCfg ℤ)
    (hrd : ∀ s x, Reps A a.tau (codeWops a.tau) x s → Reps A a.tau (codeWops a.tau) (rd s) s)
    (F : CodeState A (Option (Worm ℤ)) → ℝ) (f : X → ℝ)
    (hF : ∀ s, SimInv A.env A.Inv (pmDet A.P) s.1 → ∀ j, Reps A a.tau (codeWops a.tau) (c j) s → F s = f j)
    (steps : List (SStep A)) (st : SavedState) (hok : SRunOK A a M st steps)
    (s : X → CodeState A (Option (Worm ℤ))) (hs : ∀ i, SimInv A.env A.Inv (pmDet A.P) (s i).1)
    (hst : ∀ i, winOf (s i).1.sw = st) (h : ∀ i, Reps A a.tau (codeWops a.tau) (c i) (s i)) :
    ∑ i, gridW A a.tau (codeWops a.tau) (A.beta / M) wormDim (spaceEta a.sw) (c i) * simRun A M a.tau rd F steps (s i) =
      ∑ j, gridW A a.tau (codeWops a.tau) (A.beta / M) wormDim (spaceEta a.sw) (c j) * f j := by
  obtain ⟨P, -, p2, p3⟩ := C61_sim_run hA ha hR rd hrd steps st hok
  calc _ = ∑ i, ∑ j, gridW A a.tau (codeWops a.tau) (A.beta / M) wormDim (spaceEta a.sw) (c i) * P i j * f j := by
        refine Finset.sum_congr rfl fun i _ => ?_
        rw [p3 F f hF (s i) i (hs i) (hst i) (h i), Finset.mul_sum]
        exact Finset.sum_congr rfl fun j _ => by ring
    _ = ∑ j, (∑ i, gridW A a.tau (codeWops a.tau) (A.beta / M) wormDim (spaceEta a.sw) (c i) * P i j) * f j := by
        rw [Finset.sum_comm]
        exact Finset.sum_congr rfl fun j _ => by rw [Finset.sum_mul]
    _ = _ := Finset.sum_congr rfl fun j _ => by rw [p2]

/-! ### The loop of `update` -/

/-- The window without the direction if there is only one position. -/
def normWin (st : SavedState) : SavedState := { st with dirLeft := st.n == 1 || st.dirLeft }

theorem winOf_eq {Ket Bra ι : Type} (w : SWState Ket Bra ι) : winOf w = normWin (getState w) := rfl

theorem normWin_window {m : CMove} (hm : m.Allowed A a M) (st : SavedState) :
    normWin (m.window (normWin st)) = normWin (m.window st) := by
  obtain ⟨l, r, d, n⟩ := st
  cases m with
  | next =>
    by_cases h : n = 1
    · simp [normWin, CMove.window, stepPos, h]
    · have h' : (n == 1) = false := by simp [h]
      simp [normWin, CMove.window, h']
  | resize n' =>
    have h1 := hm.1
    simp only [normWin, CMove.window]
    by_cases h : n' = n
    · simp [h]
    · by_cases h2 : 2 ≤ n'
      · simp [h, h2]
      · have h3 : n' = 1 := by omega
        subst h3; simp [h]
  | _ => simp [normWin, CMove.window]

theorem normWin_ok {st : SavedState} : WindowOK M (normWin st) ↔ WindowOK M st :=
  ⟨fun h => ⟨h.1, h.2, h.3, h.4⟩, fun h => ⟨h.1, h.2, h.3, h.4⟩⟩

/-- Local moves: what is left must be possible with every window. -/
theorem srun_moves (hA : A.OK) (ha : a.OK A M) {rest : List (SStep A)} (Q : SavedState → Prop)
    (hrest : ∀ st, WindowOK M st → Q st → SRunOK A a M (normWin st) rest) (ms : List CMove) (hm : ∀ m ∈ ms, m.Allowed A a M)
    {st : SavedState} (hst : WindowOK M st) (hQ : Q (ms.foldl (fun st m => normWin (m.window st)) (normWin st))) :
    SRunOK A a M (normWin st) (ms.map (fun m => .loc (m.step A a)) ++ rest) := by
  induction ms generalizing st with
  | nil =>
    have e : normWin (normWin st) = normWin st := by simp [normWin]
    have := hrest (normWin st) (normWin_ok.2 hst) hQ
    rwa [e] at this
  | cons m ms ih =>
    have hm1 := hm m (by simp)
    have hw := window_ok hm1 hst
    rw [List.foldl_cons, normWin_window hm1] at hQ
    refine ⟨normWin (m.window st), fun s hs h => ?_, step_ok hA ha hm1 (normWin_ok.2 hw), ih (fun b hb => hm b (by simp [hb])) hw hQ⟩
    have hw' : WindowOK M (getState s.1.sw) := by
      rw [← normWin_ok, ← winOf_eq, h, normWin_ok]; exact hst
    obtain ⟨s1, e1, e2, e3, e4⟩ := shift_state hm1 hw' s hs rfl
    refine ⟨s1, e1, e2, e3, ?_⟩
    rw [winOf_eq, e4, ← normWin_window hm1, ← normWin_window hm1 st, ← winOf_eq, h]

theorem srun_setWin (ha : a.OK A M) {n : ℕ} (hn : 1 ≤ n) (hnM : 2 * n ∣ M) {st : SavedState}
    {rest : List (SStep A)} (h : SRunOK A a M ⟨2, 0, true, n⟩ rest) : SRunOK A a M st (.loc (setWinStep A n) :: rest) := by
  have hw : WindowOK M ⟨2, 0, true, n⟩ := ⟨hn, rfl, by show 2 ≤ 2 * n; omega, hnM⟩
  refine ⟨⟨2, 0, true, n⟩, fun s hs _ => ?_, ?_, h⟩
  · obtain ⟨w, e, k, n1, r0, l2⟩ := resize_ok hs hn
    obtain ⟨w', e', -, -, x, -⟩ := setWindowSize_ok hs.win.caches s.1.cfg.ops n 0 true
    have e2 : setWindowSize A.env.V n s.1.cfg.ops 0 true s.1.sw = some w := e
    have e3 : some w' = some w := by rw [← e', ← e2]
    obtain rfl := Option.some.inj e3
    refine ⟨{ s.1 with sw := w' }, by simp only [setWinStep, e2, Option.map_some], k, rfl, ?_⟩
    simp only [winOf, n1, r0, l2]
    by_cases h2 : 2 ≤ n
    · rw [(x h2).2.2]; simp [newDir]
    · have : n = 1 := by omega
      simp [this]
  · have hG := grid_ok ha.beta ha.grid hw
    rw [← ha.tau, ← ha.G] at hG
    exact none_ok hG

theorem fold_window {ms : List CMove} (h : ∀ m ∈ ms, ∀ st : SavedState, (m.window st).n = st.n) (st : SavedState) :
    (ms.foldl (fun st m => normWin (m.window st)) st).n = st.n := by
  induction ms generalizing st with
  | nil => rfl
  | cons m ms ih =>
    rw [List.foldl_cons, ih (fun b hb => h b (by simp [hb]))]
    exact h m (by simp) st

theorem fold_fixed {ms : List CMove} (h : ∀ m ∈ ms, ∀ st : SavedState, m.window st = st) {st : SavedState} (hst : normWin st = st) :
    ms.foldl (fun st m => normWin (m.window st)) st = st := by
  induction ms with
  | nil => rfl
  | cons m ms ih =>
    rw [List.foldl_cons, h m (by simp), hst]
    exact ih (fun b hb => h b (by simp [hb]))

theorem transition_window (nf : ℕ) (kinds movers : List WormKind) :
    ∀ m ∈ transitionMoves nf kinds movers, ∀ st : SavedState, m.window st = st := by
  intro m hm st
  cases m with
  | next | resize =>
    exfalso
    unfold transitionMoves at hm
    split_ifs at hm <;> simp at hm
  | _ => rfl

/-- After a sweep there are as many windows as the sweep has chosen: the number that `global_updates` keeps and restores. -/
theorem sweep_windows (nf nStd rank : ℕ) (fl sh : Bool) (kinds movers : List WormKind) (st : SavedState) :
    ((sweepCMoves nf nStd rank fl sh kinds movers).foldl (fun st m => normWin (m.window st)) st).n = max (nStd / rank) 1 := by
  unfold sweepCMoves
  rw [List.foldl_cons, fold_window]
  · simp only [normWin, CMove.window]
    split_ifs with h
    · exact h.symm
    all_goals rfl
  · intro m hm st
    rw [List.mem_flatten] at hm
    obtain ⟨l, hl, hm⟩ := hm
    rw [List.eq_of_mem_replicate hl] at hm
    cases m with
    | resize n =>
      exfalso
      unfold positionMoves at hm
      simp only [List.mem_append] at hm
      rcases hm with (h | h) | h
      · split_ifs at h <;> simp at h
      · have := transition_window _ _ _ _ h ⟨0, 0, true, n + 1⟩
        simp [CMove.window] at this
      · simp at h
    | _ => rfl

/-- What is demanded of the parameters of the loop. -/
structure LoopOK (A : CodeArgs 𝕜 N) (a : MoveArgs) (M : ℕ) (sh : Bool) (movers : List WormKind) : Prop where
  shift : sh = true → ∀ f f', f < A.P.nf → f' < A.P.nf → A.P.sector f = A.P.sector f' → a.maxDist f = a.maxDist f'
  green : a.kinds ≠ [] → WormKind.green 1 ∈ a.kinds
  movers : ∀ k ∈ movers, k.numTimes = 1
  even : 2 ∣ M
  globalShift : ShiftOK A a M

/-- The numbers of windows fit the grid, the exchanges are admissible. -/
def PlanOK (A : CodeArgs 𝕜 N) (a : MoveArgs) (M nStd : ℕ) (plan : List (ℕ × List (List ℕ))) : Prop :=
  ∀ q ∈ plan, 2 * max (nStd / q.1) 1 ∣ M ∧ ∀ v ∈ q.2, SwapOK A a M v

theorem srun_global (hA : A.OK) (ha : a.OK A M) {sh : Bool} {movers : List WormKind} (hl : LoopOK A a M sh movers) (nStd : ℕ) {n : ℕ}
    (hn : 1 ≤ n) (hnM : 2 * n ∣ M) {ord : List (List ℕ)} (ho : ∀ v ∈ ord, SwapOK A a M v) {rest : List (SStep A)}
    (h : SRunOK A a M ⟨2, 0, true, n⟩ rest) {st : SavedState} :
    SRunOK A a M st (globalSteps A a M nStd n movers ord ++ rest) := by
  unfold globalSteps
  rw [List.append_assoc, List.cons_append]
  refine srun_setWin ha le_rfl (by simpa using hl.even) ?_
  have h1 : WindowOK M ⟨2, 0, true, 1⟩ := ⟨le_rfl, rfl, le_rfl, by simpa using hl.even⟩
  refine srun_moves hA ha (fun st => st = ⟨2, 0, true, 1⟩) ?_ _ (transition_allowed movers hl.green hl.movers) h1
    (fold_fixed (transition_window _ _ _) rfl)
  rintro _ - rfl
  refine ⟨rfl, by omega, ?_, srun_setWin ha hn hnM h⟩
  intro g hg
  rcases List.mem_append.1 hg with hg | hg
  · obtain ⟨v, hv, rfl⟩ := List.mem_map.1 hg
    exact ⟨_, swap_draw (ho v hv)⟩
  · rw [List.mem_singleton.1 hg]
    exact ⟨_, shift_draw ha hl.globalShift⟩

theorem srun_update (hA : A.OK) (ha : a.OK A M) {sh : Bool} {movers : List WormKind} (hl : LoopOK A a M sh movers) (nStd nGlobal : ℕ)
    (fl : Bool) (plan : List (ℕ × List (List ℕ))) (hp : PlanOK A a M nStd plan) (k : ℕ) {st : SavedState} (hst : WindowOK M st) :
    SRunOK A a M (normWin st) (updateSteps A a M nStd nGlobal fl sh movers k plan) := by
  induction plan generalizing k st with
  | nil => trivial
  | cons q plan ih =>
    obtain ⟨rank, ord⟩ := q
    obtain ⟨hd, ho⟩ := hp (rank, ord) (by simp)
    have ih' := fun st hst => ih (fun b hb => hp b (by simp [hb])) (k + 1) (st := st) hst
    unfold updateSteps
    rw [List.append_assoc]
    refine srun_moves hA ha (fun _ => True) ?_ _ (sweep_allowed nStd rank fl sh movers hl.shift hl.green hl.movers hd) hst trivial
    intro st hst _
    split_ifs
    · have hw : WindowOK M ⟨2, 0, true, max (nStd / rank) 1⟩ :=
        ⟨le_max_right _ _, rfl, by show 2 ≤ 2 * max (nStd / rank) 1; omega, hd⟩
      refine srun_global hA ha hl nStd (le_max_right _ _) hd ho ?_
      have := ih' _ hw
      simpa [normWin] using this
    · exact ih' st hst

theorem mean_fsum {α : Type} (m : Rand ℝ α) (f : X → α → ℝ) : mean m (fun b => ∑ i, f i b) = ∑ i, mean m (f i) := by
  have e : ∀ s : Finset X, mean m (fun b => ∑ i ∈ s, f i b) = ∑ i ∈ s, mean m (f i) := by
    intro s
    induction s using Finset.induction_on with
    | empty => simp
    | insert i s hi ih => simp only [Finset.sum_insert hi]; rw [mean_add, ih]
  exact e _

/-- **C61, the loop of `update`** (src/impurity.ipp:205-260): any number of sweeps with random ranks, after every `nGlobal`-th of them the
global updates with their exchanges in random order and a random shift on the grid, applied to states representing each configuration:
if the configurations are distributed with their weight before, they are distributed with their weight afterwards.  Missing for the
full statement: worms with several times moved by WormMover (`C10_mover_violated`), exchanges which are not their own inverse
(`C50_sweep_not_stationary`), singular matrices (`C54_singular_accepted`). -/
theorem C61_loop_partial (hA : A.OK) (ha : a.OK A M)
    (hR : Reprs A a.tau (codeWops a.tau) (OnGrid A.P.nf a.G a.kinds) c) (rd : CodeState A (Option (Worm ℤ)) → WCfg ℤ)
    (hrd : ∀ s x, Reps A a.tau (codeWops a.tau) x s → Reps A a.tau (codeWops a.tau) (rd s) s)
    (F : CodeState A (Option (Worm ℤ)) → ℝ) (f : X → ℝ)
    (hF : ∀ s, SimInv A.env A.Inv (pmDet A.P) s.1 → ∀ j, Reps A a.tau (codeWops a.tau) (c j) s → F s = f j)
    {sh : Bool} {movers : List WormKind} (hl : LoopOK A a M sh movers) (nStd nGlobal : ℕ) (fl : Bool)
    (plan : Rand ℝ (List (ℕ × List (List ℕ)))) (h1 : plan.mean (fun _ => 1) = 1) (hp : ∀ q ∈ plan, PlanOK A a M nStd q.2) (k : ℕ)
    {st : SavedState} (hst : WindowOK M st)
    (s : X → CodeState A (Option (Worm ℤ))) (hs : ∀ i, SimInv A.env A.Inv (pmDet A.P) (s i).1)
    (hw : ∀ i, winOf (s i).1.sw = normWin st) (h : ∀ i, Reps A a.tau (codeWops a.tau) (c i) (s i)) :
    ∑ i, gridW A a.tau (codeWops a.tau) (A.beta / M) wormDim (spaceEta a.sw) (c i) *
        plan.mean (fun q => simRun A M a.tau rd F (updateSteps A a M nStd nGlobal fl sh movers k q) (s i)) =
      ∑ j, gridW A a.tau (codeWops a.tau) (A.beta / M) wormDim (spaceEta a.sw) (c j) * f j := by
  have e : ∀ i, gridW A a.tau (codeWops a.tau) (A.beta / M) wormDim (spaceEta a.sw) (c i) *
        plan.mean (fun q => simRun A M a.tau rd F (updateSteps A a M nStd nGlobal fl sh movers k q) (s i)) =
      plan.mean (fun q => gridW A a.tau (codeWops a.tau) (A.beta / M) wormDim (spaceEta a.sw) (c i) *
        simRun A M a.tau rd F (updateSteps A a M nStd nGlobal fl sh movers k q) (s i)) := fun i => (mean_mul_left _ _ _).symm
  simp only [e]
  rw [← mean_fsum, mean_congr_mem (m := plan) (g := fun _ => (∑ j, gridW A a.tau (codeWops a.tau) (A.beta / M) wormDim (spaceEta a.sw) (c j) * f j) * 1)]
  · rw [mean_mul_left, h1, mul_one]
  · intro q hq
    rw [mul_one]
    exact C61_sim_stationary hA ha hR rd hrd F f hF _ _ (srun_update hA ha hl nStd nGlobal fl q.2 (hp q hq) k hst) s hs hw h

end main

end CTHyb
