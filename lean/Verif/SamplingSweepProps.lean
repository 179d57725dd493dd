import Verif.SamplingSweep
import Verif.SamplingWormProps
import Verif.WormProps

/-!
Whole sweeps of the code sample the configurations according to their weight.

Specification.  `CMove.Allowed`: the calls for which this is true, with what is demanded of the parameters (`WormMover`: only
worms with one time, see `C10_mover_violated`; insertion and removal of several diagonal pairs is left out, see
`C07_violated`).  `WindowOK`: a window whose edges fit the grid.
-/

set_option linter.unusedSectionVars false

namespace CTHyb

open Matrix Rand MeasureTheory

variable {𝕜 : Type} [RCLike 𝕜] [DecidableEq 𝕜] {N : ℕ}

section spec

/-- The calls which keep the weight stationary. -/
def CMove.Allowed (A : CodeArgs 𝕜 N) (a : MoveArgs) (M : ℕ) : CMove → Prop
  | .insRem _ => True
  | .diag => True
  | .flavor => True
  | .shift => ∀ f f', f < A.P.nf → f' < A.P.nf → A.P.sector f = A.P.sector f' → a.maxDist f = a.maxDist f'
  | .worm => 0 < a.kinds.length
  | .green rank => WormKind.green rank ∈ a.kinds
  | .connect => WormKind.equalTime 1 ∈ a.kinds ∧ WormKind.corr 2 ∈ a.kinds
  | .wormMover k => k ∈ a.kinds ∧ k.numTimes = 1
  | .wormFlavor k => k ∈ a.kinds
  | .next => True
  | .resize n => 1 ≤ n ∧ 2 * n ∣ M

/-- What is demanded of the parameters: there are flavors and blocks, none of them without flavors, the worms are different and
have operators, their weights are positive. -/
structure MoveArgs.OK (A : CodeArgs 𝕜 N) (a : MoveArgs) (M : ℕ) : Prop where
  beta : 0 < A.beta
  grid : 0 < M
  tau : a.tau = gridTau A.beta M
  G : a.G = Finset.Ico 0 (M : ℤ)
  nf : 0 < A.P.nf
  ns : 0 < A.P.ns
  flavors : ∀ b < A.P.ns, 0 < (blockFlavors A.P b).length
  nodup : a.kinds.Nodup
  ops : ∀ k ∈ a.kinds, 0 < k.numFlavors
  sw : ∀ k, 0 < a.sw k

/-- A window whose edges fit the grid. -/
structure WindowOK (M : ℕ) (st : SavedState) : Prop where
  n : 1 ≤ st.n
  two : st.posL = st.posR + 2
  le : st.posL ≤ 2 * st.n
  dvd : 2 * st.n ∣ M

end spec

variable {A : CodeArgs 𝕜 N}

/-- The operators of a worm on the grid have pairwise different times exactly if its independent times are pairwise
different: no worm is lost as its operators are handed to the code, in particular no equal-time worm. -/
theorem C61_worm_times {tau : ℤ → ℝ} (ht : Function.Injective tau) (w : Worm ℤ) (hv : w.Valid) :
    ((wormOps (codeWops tau (some w))).map fun o => o.time).Nodup ↔ w.times.Nodup := by
  rw [← C49_distinct w hv, wormOps_code]
  have e : ((wl (some w)).map (mapOp tau)).map (fun o => o.time) =
      (w.operators.map fun o => o.time).map fun t => (⟨tau t.time, t.small⟩ : OpTime ℝ) := by
    simp [wl, mapOp, Function.comp_def]
  rw [e]
  refine List.nodup_map_iff ?_
  rintro ⟨a, b⟩ ⟨a', b'⟩ h
  simp only [OpTime.mk.injEq] at h
  rw [ht h.1, h.2]

/-- Concrete case: the equal-time worm of two particles. -/
example : ((wormOps (codeWops (fun t : ℤ => (t : ℝ)) (some ⟨.equalTime 2, [5], [0, 1, 1, 0]⟩))).map fun o => o.time).Nodup :=
  (C61_worm_times Int.cast_injective _ ⟨by decide, by decide⟩).2 (by decide)

/-! ### The grid -/

theorem gridTau_inj {beta : ℝ} (hb : 0 < beta) {M : ℕ} (hM : 0 < M) : Function.Injective (gridTau beta M) := by
  intro s t h
  have hM' : (0 : ℝ) < 2 * M := by positivity
  unfold gridTau at h
  rw [div_left_inj' hM'.ne'] at h
  have := mul_left_cancel₀ hb.ne' h
  have h2 : (s : ℝ) = t := by linarith
  exact_mod_cast h2

theorem gridTau_edge {beta : ℝ} (hb : 0 < beta) {n m : ℕ} (hn : 1 ≤ n) (hm : 0 < m) (p : ℕ) (t : ℤ) :
    (tauEdge beta n p < gridTau beta (2 * n * m) t ↔ (m * p : ℤ) ≤ t) ∧
      (gridTau beta (2 * n * m) t < tauEdge beta n p ↔ t < (m * p : ℤ)) := by
  have hn' : (0 : ℝ) < n := by exact_mod_cast hn
  have hm' : (0 : ℝ) < m := by exact_mod_cast hm
  have e : tauEdge beta n p = beta * (2 * (m * p : ℤ)) / (2 * (2 * n * m : ℕ)) := by
    unfold tauEdge
    push_cast
    field_simp
  have key : ∀ x y : ℤ, beta * (x : ℝ) / (2 * (2 * n * m : ℕ)) < beta * (y : ℝ) / (2 * (2 * n * m : ℕ)) ↔ x < y := by
    intro x y
    have hp : (0 : ℝ) < 2 * (2 * n * m : ℕ) := by push_cast; positivity
    rw [div_lt_div_iff_of_pos_right hp, mul_lt_mul_iff_of_pos_left hb]
    exact Int.cast_lt
  have e2 : gridTau beta (2 * n * m) t = beta * ((2 * t + 1 : ℤ) : ℝ) / (2 * (2 * n * m : ℕ)) := by
    unfold gridTau; push_cast; rfl
  have e3 : tauEdge beta n p = beta * ((2 * (m * p) : ℤ) : ℝ) / (2 * (2 * n * m : ℕ)) := by
    rw [e]; push_cast; rfl
  rw [e2, e3, key, key]
  omega

theorem grid_ok {beta : ℝ} (hb : 0 < beta) {M : ℕ} (hM : 0 < M) {st : SavedState} (h : WindowOK M st) :
    GridOK (gridTau beta M) (Finset.Ico 0 (M : ℤ)) (beta / M) (tauEdge beta st.n st.posR) (tauEdge beta st.n st.posL) := by
  obtain ⟨m, rfl⟩ := h.dvd
  have hn := h.n
  have hm : 0 < m := Nat.pos_of_ne_zero fun h0 => by simp [h0] at hM
  have hle := h.le
  have htwo := h.two
  have hn' : (0 : ℝ) < st.n := by exact_mod_cast hn
  have hm' : (0 : ℝ) < m := by exact_mod_cast hm
  have E := fun p t => gridTau_edge hb hn hm p t
  have ne : ∀ p t, gridTau beta (2 * st.n * m) t ≠ tauEdge beta st.n p := by
    intro p t he
    have h1 := (E p t).1; have h2 := (E p t).2
    rw [he] at h1 h2
    rcases lt_or_ge t (m * p : ℤ) with hx | hx
    · exact lt_irrefl _ (h2.2 hx)
    · exact lt_irrefl _ (h1.2 hx)
  have mem : ∀ t, tauEdge beta st.n st.posR ≤ gridTau beta (2 * st.n * m) t ∧
      gridTau beta (2 * st.n * m) t ≤ tauEdge beta st.n st.posL ↔ (m * st.posR : ℤ) ≤ t ∧ t < (m * st.posL : ℤ) := by
    intro t
    rw [← (E st.posR t).1, ← (E st.posL t).2]
    exact ⟨fun h => ⟨lt_of_le_of_ne h.1 (ne _ _).symm, lt_of_le_of_ne h.2 (ne _ _)⟩, fun h => ⟨h.1.le, h.2.le⟩⟩
  have hbound : (m * st.posL : ℤ) ≤ (2 * st.n * m : ℕ) := by
    have : m * st.posL ≤ m * (2 * st.n) := Nat.mul_le_mul_left m hle
    push_cast
    have h3 : ((m * st.posL : ℕ) : ℤ) ≤ ((m * (2 * st.n) : ℕ) : ℤ) := by exact_mod_cast this
    push_cast at h3
    linarith
  have hpos : (0 : ℤ) ≤ m * st.posR := by positivity
  have filt : (Finset.Ico 0 ((2 * st.n * m : ℕ) : ℤ)).filter (fun t => tauEdge beta st.n st.posR ≤ gridTau beta (2 * st.n * m) t ∧
      gridTau beta (2 * st.n * m) t ≤ tauEdge beta st.n st.posL) = Finset.Ico (m * st.posR : ℤ) (m * st.posL) := by
    ext t
    rw [Finset.mem_filter, mem, Finset.mem_Ico, Finset.mem_Ico]
    exact ⟨fun h => h.2, fun h => ⟨⟨hpos.trans h.1, h.2.trans_le hbound⟩, h⟩⟩
  refine ⟨?_, fun t _ => ⟨ne _ _, ne _ _⟩, ?_, fun t h1 h2 => ?_⟩
  · unfold tauEdge
    rw [div_lt_div_iff_of_pos_right (by positivity), mul_lt_mul_iff_of_pos_left hb, htwo]
    push_cast; linarith
  · rw [filt, Int.card_Ico, htwo]
    have : (m * ((st.posR + 2 : ℕ) : ℤ) - m * st.posR).toNat = 2 * m := by
      push_cast
      rw [show (m : ℤ) * (st.posR + 2) - m * st.posR = ((2 * m : ℕ) : ℤ) by push_cast; ring]
      exact Int.toNat_natCast _
    rw [this]
    unfold tauEdge
    push_cast
    field_simp
    ring
  · have := (mem t).1 ⟨h1, h2⟩
    exact Finset.mem_Ico.2 ⟨hpos.trans this.1, this.2.trans_le hbound⟩

theorem grid_times {beta : ℝ} (hb : 0 < beta) {M : ℕ} (hM : 0 < M) {t : ℤ} (ht : t ∈ Finset.Ico 0 (M : ℤ)) :
    0 < gridTau beta M t ∧ gridTau beta M t < beta := by
  obtain ⟨h0, h1⟩ := Finset.mem_Ico.1 ht
  have hM' : (0 : ℝ) < 2 * M := by positivity
  have h0' : (0 : ℝ) ≤ t := by exact_mod_cast h0
  have h1' : (t : ℝ) + 1 ≤ M := by exact_mod_cast h1
  unfold gridTau
  refine ⟨by positivity, ?_⟩
  rw [div_lt_iff₀ hM']
  nlinarith

/-! ### Updates which are called in one space only, and calls which change only the window -/

section
variable {tau : ℤ → ℝ} {G : Finset ℤ} {kinds : List WormKind} {δ lo hi : ℝ} {sw : WormKind → ℝ}

theorem none_ok (hG : GridOK tau G δ lo hi) :
    PropOK A tau (codeWops tau) (OnGrid A.P.nf G kinds) δ wormDim (spaceEta sw) lo hi (fun _ => Rand.ret none) := by
  refine propOK_of hG (fun x _ p hp mv c e => by rw [mem_ret hp] at e; simp at e) ?_ fun x _ => by simp
  intro w x y _ _ _ _
  simp [flow, mean_ret, accFlow]

theorem only_ok {k : WormKind} (hk : k ∈ kinds) {prop : WCfg ℤ → Rand ℝ (Option (Mv ℤ (Option (Worm ℤ)) × ℝ))}
    (h : PropOK A tau (codeWops tau) (OnGrid A.P.nf G [k]) δ wormDim (spaceEta sw) lo hi prop)
    (hkeep : ∀ x, OnGrid A.P.nf G [k] x → ∀ p ∈ prop x, ∀ mv c, p.2 = some (mv, c) →
      mv.worm.map Worm.kind = x.worm.map Worm.kind) :
    PropOK A tau (codeWops tau) (OnGrid A.P.nf G kinds) δ wormDim (spaceEta sw) lo hi (onlyKind k prop) := by
  have down : ∀ x, OnGrid A.P.nf G kinds x → x.worm.any (fun w => decide (w.kind = k)) = true → OnGrid A.P.nf G [k] x := by
    intro x hx hany
    refine ⟨hx.cd_nodup, hx.c_nodup, hx.cd_mem, hx.c_mem, hx.order, fun w hw => ?_⟩
    obtain ⟨h1, -, h3, h4⟩ := hx.worm w hw
    rw [hw] at hany
    exact ⟨h1, by simpa using hany, h3, h4⟩
  have up : ∀ x, OnGrid A.P.nf G [k] x → OnGrid A.P.nf G kinds x := by
    intro x hx
    refine ⟨hx.cd_nodup, hx.c_nodup, hx.cd_mem, hx.c_mem, hx.order, fun w hw => ?_⟩
    obtain ⟨h1, h2, h3, h4⟩ := hx.worm w hw
    exact ⟨h1, by rw [List.mem_singleton.1 h2]; exact hk, h3, h4⟩
  have off : ∀ x, ¬ x.worm.any (fun w => decide (w.kind = k)) = true → onlyKind k prop x = Rand.ret none :=
    fun x hx => if_neg hx
  have on : ∀ x, x.worm.any (fun w => decide (w.kind = k)) = true → onlyKind k prop x = prop x := fun x hx => if_pos hx
  refine ⟨fun x hx gx => ?_, fun w x y hx hy hwx hwy => ?_, fun x hx => ?_, fun x hx p hp mv c e y hl gy => ?_⟩
  · by_cases hany : x.worm.any (fun w => decide (w.kind = k)) = true
    · rw [on x hany]; exact h.adm x (down x hx hany) gx
    · rw [off x hany]
      intro p hp mv c e
      rw [mem_ret hp] at e; simp at e
  · have cross : ∀ x y, OnGrid A.P.nf G kinds x → x.worm.any (fun w => decide (w.kind = k)) = true →
        ¬ y.worm.any (fun w => decide (w.kind = k)) = true → flow w (onlyKind k prop) x y = 0 := by
      intro x y hx h1 h2
      unfold flow
      rw [on x h1]
      refine mean_eq_zero fun p hp => ?_
      rcases hp2 : p.2 with _ | ⟨mv, c⟩
      · rfl
      · refine if_neg fun hl => h2 ?_
        have hm := hkeep x (down x hx h1) p hp mv c hp2
        rw [← hl.2.2]
        rcases hxw : x.worm with _ | u
        · rw [hxw] at h1; simp at h1
        · rw [hxw] at h1 hm
          rcases hmw : mv.worm with _ | v
          · rw [hmw] at hm; simp at hm
          · rw [hmw] at hm
            simp at hm h1 ⊢
            rw [hm, h1]
    have zero : ∀ x y, ¬ x.worm.any (fun w => decide (w.kind = k)) = true → flow w (onlyKind k prop) x y = 0 := by
      intro x y h1
      unfold flow
      rw [off x h1, mean_ret]
      rfl
    by_cases h1 : x.worm.any (fun w => decide (w.kind = k)) = true
    · by_cases h2 : y.worm.any (fun w => decide (w.kind = k)) = true
      · have := h.bal w x y (down x hx h1) (down y hy h2) hwx hwy
        unfold flow at this ⊢
        rw [on x h1, on y h2]; exact this
      · rw [cross x y hx h1 h2, zero y x h2]; ring
    · by_cases h2 : y.worm.any (fun w => decide (w.kind = k)) = true
      · rw [zero x y h1, cross y x hy h2 h1]; ring
      · rw [zero x y h1, zero y x h2]; ring
  · by_cases hany : x.worm.any (fun w => decide (w.kind = k)) = true
    · rw [on x hany]; exact h.one x (down x hx hany)
    · rw [off x hany]; simp
  · by_cases hany : x.worm.any (fun w => decide (w.kind = k)) = true
    · rw [on x hany] at hp; exact up y (h.closed x (down x hx hany) p hp mv c e y hl gy)
    · rw [off x hany] at hp
      rw [mem_ret hp] at e; simp at e

end

theorem mover_kind (win : Win ℤ ℝ) (d : ℕ) (x : WCfg ℤ) : ∀ p ∈ moverPropose win d x, ∀ mv c, p.2 = some (mv, c) →
    mv.worm.map Worm.kind = x.worm.map Worm.kind := by
  intro p hp mv c e
  unfold moverPropose at hp
  rcases hxw : x.worm with _ | w
  · rw [hxw] at hp
    rw [mem_ret hp] at e; simp at e
  · rw [hxw] at hp
    obtain ⟨r, hr, q, hq, e1⟩ := mem_bind hp
    rw [e1] at e
    rcases hr2 : r.2 with _ | ⟨i, t'⟩
    · rw [hr2] at hq
      rw [mem_ret hq] at e; simp at e
    · rw [hr2] at hq
      rw [mem_ret hq, Option.some.injEq, Prod.mk.injEq] at e
      rw [← e.1]; rfl

theorem flavorChange_kind (nf : ℕ) (win : Win ℤ ℝ) (x : WCfg ℤ) : ∀ p ∈ flavorChangePropose nf win x, ∀ mv c,
    p.2 = some (mv, c) → mv.worm.map Worm.kind = x.worm.map Worm.kind := by
  intro p hp mv c e
  unfold flavorChangePropose at hp
  rcases hxw : x.worm with _ | w
  · rw [hxw] at hp
    rw [mem_ret hp] at e; simp at e
  · rw [hxw] at hp
    obtain ⟨r, hr, q, hq, e1⟩ := mem_bind hp
    rw [e1] at e
    simp only at hq
    split_ifs at hq
    · rw [mem_ret hq] at e; simp at e
    · rw [mem_ret hq, Option.some.injEq, Prod.mk.injEq] at e
      rw [← e.1]; rfl

/-! ### Sequences of calls -/

theorem step_ok (hA : A.OK) {a : MoveArgs} {M : ℕ} (ha : a.OK A M) {m : CMove} (hm : m.Allowed A a M) {st : SavedState}
    (hst : WindowOK M st) :
    PropOK A a.tau (codeWops a.tau) (OnGrid A.P.nf a.G a.kinds) (A.beta / M) wormDim (spaceEta a.sw)
      (tauEdge A.beta st.n st.posR) (tauEdge A.beta st.n st.posL)
      ((m.step A a).prop (tauEdge A.beta st.n st.posR) (tauEdge A.beta st.n st.posL)) := by
  have hG := grid_ok ha.beta ha.grid hst
  rw [← ha.tau, ← ha.G] at hG
  cases m with
  | insRem rank => exact ir_ok hG ha.ns hA.sectors ha.flavors rank
  | diag => exact diag_ok hG ha.nf
  | flavor => exact flavor_ok hG ha.nf
  | shift => exact shift_ok hG a.maxDist hm
  | worm => exact wormTransition_ok hG ha.nf hm ha.nodup ha.ops ha.sw
  | green rank => exact green_ok hG rank hm ha.sw
  | connect => exact connect_ok hG ha.nf hm.1 hm.2 ha.sw
  | wormMover k =>
    exact only_ok hm.1 (mover_ok hG (a.wormDist k) fun k' hk' => by rw [List.mem_singleton.1 hk']; exact hm.2)
      fun x _ => mover_kind _ _ x
  | wormFlavor k => exact only_ok hm (flavorChange_ok hG ha.nf) fun x _ => flavorChange_kind _ _ x
  | next => exact none_ok hG
  | resize n => exact none_ok hG

/-- The window after a call. -/
def CMove.window : CMove → SavedState → SavedState
  | .next, st =>
    let p := stepPos st.n (st.posR, st.posL, st.dirLeft)
    ⟨p.2.1, p.1, p.2.2, st.n⟩
  | .resize n, st => if n = st.n then st else ⟨2, 0, if 2 ≤ n then true else st.dirLeft, n⟩
  | _, st => st

theorem window_ok {a : MoveArgs} {M : ℕ} {m : CMove} (hm : m.Allowed A a M) {st : SavedState} (hst : WindowOK M st) :
    WindowOK M (m.window st) := by
  obtain ⟨h1, h2, h3, h4⟩ := hst
  cases m with
  | next =>
    refine ⟨h1, ?_, ?_, h4⟩ <;> simp only [CMove.window, stepPos] <;> split_ifs <;> simp only at * <;> omega
  | resize n =>
    simp only [CMove.window]
    split_ifs with h5
    · exact ⟨h1, h2, h3, h4⟩
    all_goals exact ⟨hm.1, rfl, by have := hm.1; show 2 ≤ 2 * n; omega, hm.2⟩
  | _ => exact ⟨h1, h2, h3, h4⟩

theorem shift_state {a : MoveArgs} {M : ℕ} {m : CMove} (hm : m.Allowed A a M) {st : SavedState} (hst : WindowOK M st)
    (s : CodeState A (Option (Worm ℤ))) (hs : SimInv A.env A.Inv (pmDet A.P) s.1) (hw : getState s.1.sw = st) :
    ∃ s1, (m.step A a).shift s.1 = some s1 ∧ SimInv A.env A.Inv (pmDet A.P) s1 ∧ s1.cfg = s.1.cfg ∧
      getState s1.sw = m.window st := by
  subst hw
  cases m with
  | next =>
    obtain ⟨w, e, k, n1, hp, t⟩ := moveNext_ok hs.win.caches hs.win.n_pos hs.two
    obtain ⟨w', e', hi, -⟩ := next_ok hs
    have e2 : moveNext A.env.V s.1.cfg.ops s.1.sw = some w := e
    rw [e2] at e'
    obtain rfl := Option.some.inj e'
    refine ⟨{ s.1 with sw := w }, by simp only [CMove.step, e2, Option.map_some], hi, rfl, ?_⟩
    simp only [CMove.window, getState] at hp n1 ⊢
    rw [← hp, n1]
  | resize n =>
    by_cases hn : n = s.1.sw.n
    · exact ⟨s.1, by simp only [CMove.step]; exact if_pos hn, hs, rfl, by
        simp only [CMove.window]; exact (if_pos hn).symm⟩
    · obtain ⟨w, e, k, n1, x, y⟩ := setWindowSize_ok hs.win.caches s.1.cfg.ops n 0 true
      obtain ⟨w', e', hi, -⟩ := resize_ok hs hm.1
      have e2 : setWindowSize A.env.V n s.1.cfg.ops 0 true s.1.sw = some w := e
      rw [e2] at e'
      obtain rfl := Option.some.inj e'
      refine ⟨{ s.1 with sw := w }, by simp only [CMove.step]; rw [if_neg hn, e2, Option.map_some], hi, rfl, ?_⟩
      simp only [CMove.window]
      rw [if_neg (by exact hn)]
      have h1 := hm.1
      by_cases h2 : 2 ≤ n
      · obtain ⟨a1, a2, a3⟩ := x h2
        have a4 : w.posL = 2 := by omega
        simp only [getState, a1, a4, a3, n1, h2, if_true, newDir]
      · obtain ⟨a1, a2, a3⟩ := y (by omega)
        have a4 : w.posL = 2 := by omega
        have a5 : w.dirLeft = s.1.sw.dirLeft := a3
        simp only [getState, a1, a4, a5, n1, h2, if_false]
  | _ => exact ⟨s.1, rfl, hs, rfl, rfl⟩

theorem run_ok (hA : A.OK) {a : MoveArgs} {M : ℕ} (ha : a.OK A M) (ms : List CMove) (hm : ∀ m ∈ ms, m.Allowed A a M)
    {st : SavedState} (hst : WindowOK M st) :
    RunOK A a.tau (codeWops a.tau) (OnGrid A.P.nf a.G a.kinds) (A.beta / M) wormDim (spaceEta a.sw) st
      (ms.map (CMove.step A a)) := by
  induction ms generalizing st with
  | nil => trivial
  | cons m ms ih =>
    have hm1 := hm m (by simp)
    have hw := window_ok hm1 hst
    exact ⟨m.window st, fun s hs h => shift_state hm1 hst s hs h, step_ok hA ha hm1 hw, ih (fun b hb => hm b (by simp [hb])) hw⟩

/-! ### There are finitely many configurations, and a state for each of them -/

theorem finite_lists {α : Type} {s : Set α} (hs : s.Finite) (n : ℕ) : {l : List α | l.length = n ∧ ∀ x ∈ l, x ∈ s}.Finite := by
  induction n with
  | zero => exact (Set.finite_singleton []).subset fun l hl => by simpa using hl.1
  | succ n ih =>
    refine ((hs.prod ih).image fun p => p.1 :: p.2).subset ?_
    rintro (_ | ⟨a, l⟩) ⟨h1, h2⟩
    · simp at h1
    · exact ⟨(a, l), ⟨h2 a (by simp), by simpa using h1, fun x hx => h2 x (by simp [hx])⟩, rfl⟩

/-- **C61, the configurations.**  On a grid there are finitely many configurations; each of those which can occur is
represented exactly once, in whatever order the lists of the code are. -/
theorem C61_reprs (A : CodeArgs 𝕜 N) (tau : ℤ → ℝ) (G : Finset ℤ) (kinds : List WormKind) (nf : ℕ) :
    ∃ (X : Type) (_ : Fintype X) (c : X → WCfg ℤ), Reprs A tau (codeWops tau) (OnGrid nf G kinds) c := by
  classical
  let mk : Finset (BOp ℤ) × Finset (BOp ℤ) × Option (Worm ℤ) → WCfg ℤ := fun p => ⟨p.1.toList, p.2.1.toList, p.2.2⟩
  let S : Set (Finset (BOp ℤ) × Finset (BOp ℤ) × Option (Worm ℤ)) :=
    {p | OnGrid nf G kinds (mk p) ∧ (mk p).Good A tau (codeWops tau)}
  have hW : {w : Worm ℤ | WormGrid nf G kinds w}.Finite := by
    have : {w : Worm ℤ | WormGrid nf G kinds w} ⊆ ⋃ k ∈ (kinds.toFinset : Set WormKind),
        ((fun p : List ℤ × List ℕ => (⟨k, p.1, p.2⟩ : Worm ℤ)) ''
          ({l : List ℤ | l.length = k.numTimes ∧ ∀ x ∈ l, x ∈ (G : Set ℤ)} ×ˢ
            {l : List ℕ | l.length = k.numFlavors ∧ ∀ x ∈ l, x ∈ Set.Iio nf})) := by
      rintro ⟨k, ts, fs⟩ ⟨⟨h1, h2⟩, h3, h4, h5⟩
      simp only [Set.mem_iUnion]
      exact ⟨k, by simpa using h3, (ts, fs), ⟨⟨h1, fun x hx => h5 x hx⟩, h2, fun x hx => h4 x hx⟩, rfl⟩
    refine Set.Finite.subset (Set.Finite.biUnion (Finset.finite_toSet _) fun k _ => ?_) this
    exact ((finite_lists (Finset.finite_toSet G) _).prod (finite_lists (Set.finite_Iio nf) _)).image _
  have hO : {w : Option (Worm ℤ) | ∀ u, w = some u → WormGrid nf G kinds u}.Finite := by
    refine ((hW.image some).union (Set.finite_singleton none)).subset ?_
    rintro (_ | w) h
    · exact Or.inr rfl
    · exact Or.inl ⟨w, h w rfl, rfl⟩
  have hS : S.Finite := by
    refine Set.Finite.subset ((Finset.finite_toSet (G ×ˢ Finset.range nf).powerset).prod
      ((Finset.finite_toSet (G ×ˢ Finset.range nf).powerset).prod hO)) ?_
    rintro ⟨p, q, w⟩ ⟨h, -⟩
    have e : ∀ o : BOp ℤ, o.1 ∈ G ∧ o.2 < nf → o ∈ G ×ˢ Finset.range nf := fun o ho =>
      Finset.mem_product.2 ⟨ho.1, Finset.mem_range.2 ho.2⟩
    exact ⟨Finset.mem_coe.2 (Finset.mem_powerset.2 fun o ho => e o (h.cd_mem o (Finset.mem_toList.2 ho))),
      Finset.mem_coe.2 (Finset.mem_powerset.2 fun o ho => e o (h.c_mem o (Finset.mem_toList.2 ho))), fun u hu => h.worm u hu⟩
  refine ⟨S, hS.fintype, fun p => mk p.1, fun i => i.2, fun i j h => ?_, fun x hx gx => ?_, fun x y e hx => ?_⟩
  · obtain ⟨h1, h2, h3⟩ := h
    refine Subtype.ext (Prod.ext ?_ (Prod.ext ?_ h3))
    · ext o; rw [← Finset.mem_toList, ← Finset.mem_toList]; exact h1.mem_iff
    · ext o; rw [← Finset.mem_toList, ← Finset.mem_toList]; exact h2.mem_iff
  · have hsame : (mk (x.cd.toFinset, x.c.toFinset, x.worm)).Same x :=
      ⟨List.toFinset_toList hx.cd_nodup, List.toFinset_toList hx.c_nodup, rfl⟩
    refine ⟨⟨(x.cd.toFinset, x.c.toFinset, x.worm), ?_, gx.of_same hsame.symm⟩, hsame⟩
    obtain ⟨s1, s2, s3⟩ := hsame
    exact ⟨s1.nodup_iff.2 hx.cd_nodup, s2.nodup_iff.2 hx.c_nodup, fun o ho => hx.cd_mem o (s1.mem_iff.1 ho),
      fun o ho => hx.c_mem o (s2.mem_iff.1 ho), by rw [s1.length_eq, s2.length_eq]; exact hx.order, hx.worm⟩
  · obtain ⟨s1, s2, s3⟩ := e
    exact ⟨s1.nodup_iff.1 hx.cd_nodup, s2.nodup_iff.1 hx.c_nodup, fun o ho => hx.cd_mem o (s1.mem_iff.2 ho),
      fun o ho => hx.c_mem o (s2.mem_iff.2 ho), by rw [← s1.length_eq, ← s2.length_eq]; exact hx.order,
      fun w hw => hx.worm w (s3.trans hw)⟩

/-- **C61, the states.**  For every configuration on the grid which can occur there is a state of the simulation
satisfying all invariants, with the window at the right end. -/
theorem C61_states (hA : A.OK) {a : MoveArgs} {M : ℕ} (ha : a.OK A M) {n : ℕ} (hn : 1 ≤ n) {x : WCfg ℤ}
    (hx : OnGrid A.P.nf a.G a.kinds x) (gx : x.Good A a.tau (codeWops a.tau)) :
    ∃ s : CodeState A (Option (Worm ℤ)), SimInv A.env A.Inv (pmDet A.P) s.1 ∧ Reps A a.tau (codeWops a.tau) x s ∧
      getState s.1.sw = ⟨2, 0, true, n⟩ := by
  have hE := C60_lawful A hA
  set cds := x.cd.map (mkOp a.tau .creation) with hcds
  set cs := x.c.map (mkOp a.tau .annihilation) with hcs
  set ops := x.sorted a.tau (codeWops a.tau) with hops
  have hperm : ops.Perm (x.ops a.tau (codeWops a.tau)) := x.sorted_perm
  have hsort : ops.Sorted := x.sorted_sorted gx.nodup
  have hw := gx.weight
  unfold cfgW CodeArgs.weight at hw
  rw [norm_ne_zero_iff, mul_ne_zero_iff] at hw
  have hlen : cs.length = cds.length := by simp [hcds, hcs, hx.order]
  have hnd := gx.nodup
  rw [PCfg.ops, List.map_append] at hnd
  have hnd : ((cds ++ cs).map Psi.time).Nodup := (List.nodup_append.1 hnd).1
  have hbl : ∀ o ∈ cds ++ cs, A.env.blockOf o.flavor < A.env.nb := by
    intro o ho
    have : o.flavor < A.P.nf := by
      rcases List.mem_append.1 ho with h | h
      · obtain ⟨b, hb, rfl⟩ := List.mem_map.1 h; exact (hx.cd_mem b hb).2
      · obtain ⟨b, hb, rfl⟩ := List.mem_map.1 h; exact (hx.c_mem b hb).2
    change A.blockOf o.flavor < A.P.ns
    rw [CodeArgs.blockOf, if_pos this]; exact hA.sectors _ this
  obtain ⟨b1, b2, b3⟩ := hE.glob.build cds cs hlen hnd hbl hw.1
  have binv := hE.build_inv cds cs hlen hnd hbl hw.1
  have htime : ∀ o ∈ ops, ∃ t ∈ a.G, o.time.time = a.tau t := by
    intro o ho
    have ho := hperm.mem_iff.1 ho
    rw [PCfg.ops, List.mem_append, List.mem_append] at ho
    rcases ho with (h | h) | h
    · obtain ⟨b, hb, rfl⟩ := List.mem_map.1 h; exact ⟨b.1, (hx.cd_mem b hb).1, rfl⟩
    · obtain ⟨b, hb, rfl⟩ := List.mem_map.1 h; exact ⟨b.1, (hx.c_mem b hb).1, rfl⟩
    · rw [wormOps_code] at h
      obtain ⟨b, hb, rfl⟩ := List.mem_map.1 h
      rcases hxw : x.worm with _ | w
      · rw [hxw] at hb; simp [wl] at hb
      · rw [hxw] at hb
        obtain ⟨v1, -, -, v4⟩ := hx.worm w hxw
        exact ⟨_, v4 _ (operators_time w v1 b hb), rfl⟩
  have hok : OpsOK A.env.V.beta ops := by
    refine ⟨hsort, fun o ho => ?_⟩
    obtain ⟨t, ht, e⟩ := htime o ho
    rw [ha.G] at ht
    have := grid_times ha.beta ha.grid ht
    rw [← ha.tau, ← e] at this
    constructor
    · rw [OpTime.le_def]; exact Or.inl this.1
    · rw [OpTime.le_def]; exact Or.inl this.2
  have hb : Bottom A.env.V (⟨n, 0, 0, true, [A.env.V.bra0], [A.env.V.ket0]⟩ :
    SWState (BK 𝕜) (BK 𝕜) (Fin (ebBrakets A.B A.p).length)) := ⟨rfl, rfl⟩
  obtain ⟨w, e1, e2, e3, e4, e5⟩ := setWindowSize_ok' ops n 0 true (reset_bottom hb) hb
  have hst : getState w = ⟨2, 0, true, n⟩ := by
    by_cases h2 : 2 ≤ n
    · obtain ⟨a1, a2, a3⟩ := e4 h2
      have a4 : w.posL = 2 := by omega
      simp only [getState, a1, a4, a3, e3, newDir, if_true]
    · obtain ⟨a1, a2, a3⟩ := e5 (by omega)
      have a4 : w.posL = 2 := by omega
      have a5 : w.dirLeft = true := a3
      simp only [getState, a1, a4, a5, e3]
  obtain ⟨p1, p2, -, p4⟩ := (SavedState.mk.injEq ..).mp hst
  let M' := A.env.build cds cs
  let pm := A.env.permFn (A.env.D.cdagg M') (A.env.D.cs M') (wormOps (codeWops a.tau x.worm))
  let cfg : Cfg (OpTime ℝ) 𝕜 (CodeDet 𝕜) := ⟨ops, M', fullTrace A.env.V ops,
    A.env.sgn (pmDet A.P M') * A.env.sgn (fullTrace A.env.V ops) * (pm : 𝕜), pm, codeWops a.tau x.worm⟩
  refine ⟨(⟨cfg, [], w⟩, x.worm), ⟨⟨hsort, ?_⟩, binv, ⟨rfl, ?_, hw.2, rfl⟩, rfl, ⟨hok, e2, ?_, ?_⟩, ?_⟩, ⟨b1, b2, rfl, rfl⟩, hst⟩
  · change (ops : Multiset (TPsi ℝ)) = (A.env.D.cdagg M' : Multiset (TPsi ℝ)) + (A.env.D.cs M' : Multiset (TPsi ℝ)) +
      (wormOps (codeWops a.tau x.worm) : Multiset (TPsi ℝ))
    rw [Multiset.coe_eq_coe.2 b1, Multiset.coe_eq_coe.2 b2, Multiset.coe_add, Multiset.coe_add]
    exact Multiset.coe_eq_coe.2 hperm
  · change pmDet A.P M' ≠ 0
    rw [b3]; exact hw.1
  · change 1 ≤ w.n; omega
  · change w.posR ≤ w.posL; omega
  · change w.posL = w.posR + 2; omega

/-! ### The main theorems -/

section main
variable {X : Type} [Fintype X] [DecidableEq X]

/-- **C61, the updates of the code.**  Take any sequence of calls of updaters and moves of the window.  If the
initial configuration is distributed according to its weight, so is the final one: expectation values of functions of the
configuration are unchanged.  `s i` is any state of the simulation which holds the configuration `c i`; `rd` reads the
configuration from the state in whatever order the lists are. -/
theorem C61_moves_partial (hA : A.OK) {a : MoveArgs} {M : ℕ} (ha : a.OK A M) {c : X → WCfg ℤ}
    (hR : Reprs A a.tau (codeWops a.tau) (OnGrid A.P.nf a.G a.kinds) c) (ms : List CMove) (hm : ∀ m ∈ ms, m.Allowed A a M)
    {st : SavedState} (hst : WindowOK M st) (rd : CodeState A (Option (Worm ℤ)) → WCfg ℤ)
    (hrd : ∀ s x, Reps A a.tau (codeWops a.tau) x s → Reps A a.tau (codeWops a.tau) (rd s) s)
    (F : CodeState A (Option (Worm ℤ)) → ℝ) (f : X → ℝ)
    (hF : ∀ s : CodeState A (Option (Worm ℤ)), SimInv A.env A.Inv (pmDet A.P) s.1 → ∀ j,
      Reps A a.tau (codeWops a.tau) (c j) s → F s = f j)
    (s : X → CodeState A (Option (Worm ℤ))) (hs : ∀ i, SimInv A.env A.Inv (pmDet A.P) (s i).1)
    (hw : ∀ i, getState (s i).1.sw = st) (hr : ∀ i, Reps A a.tau (codeWops a.tau) (c i) (s i)) :
    ∑ i, gridW A a.tau (codeWops a.tau) (A.beta / M) wormDim (spaceEta a.sw) (c i) *
        codeRun A a.tau (codeWops a.tau) rd F (ms.map (CMove.step A a)) (s i) =
      ∑ j, gridW A a.tau (codeWops a.tau) (A.beta / M) wormDim (spaceEta a.sw) (c j) * f j := by
  have hinj : Function.Injective a.tau := by rw [ha.tau]; exact gridTau_inj ha.beta ha.grid
  have hM : (0 : ℝ) < M := by exact_mod_cast ha.grid
  refine C61_stationary hA hinj (div_pos ha.beta hM) (fun x => ?_) (fun x y h => ?_) hR rd hrd F f hF _ st
    (run_ok hA ha ms hm hst) s hs hw hr
  · unfold spaceEta
    rcases x.worm with _ | w
    · exact one_pos
    · exact ha.sw _
  · constructor
    · unfold spaceEta; rw [h.2.2]
    · unfold wormDim bathDim; rw [h.1.length_eq, h.2.1.length_eq, h.2.2]

theorem transition_allowed {a : MoveArgs} {M : ℕ} (movers : List WormKind) (hg : a.kinds ≠ [] → WormKind.green 1 ∈ a.kinds)
    (hmv : ∀ k ∈ movers, k.numTimes = 1) :
    ∀ m ∈ transitionMoves A.P.nf a.kinds movers, m.Allowed A a M := by
  intro m hm
  unfold transitionMoves at hm
  split_ifs at hm with h0
  · simp at hm
  all_goals
    rw [List.mem_flatten] at hm
    obtain ⟨l, hl, hm⟩ := hm
    rw [List.eq_of_mem_replicate hl] at hm
    simp only [List.mem_append, List.mem_flatMap, List.mem_cons, List.not_mem_nil, or_false, List.append_nil] at hm
  · rcases hm with (((rfl | rfl) | rfl) | rfl) | ⟨k, hk, hm⟩
    · exact List.length_pos_of_ne_nil h0
    · exact hg h0
    · assumption
    · assumption
    · rcases hm with hm | rfl
      · split_ifs at hm with hkm
        · rw [List.mem_singleton.1 hm]; exact ⟨hk, hmv k hkm⟩
        · simp at hm
      · exact hk
  · rcases hm with ((rfl | rfl) | rfl) | ⟨k, hk, hm⟩
    · exact List.length_pos_of_ne_nil h0
    · exact hg h0
    · assumption
    · rcases hm with hm | rfl
      · split_ifs at hm with hkm
        · rw [List.mem_singleton.1 hm]; exact ⟨hk, hmv k hkm⟩
        · simp at hm
      · exact hk
  · rcases hm with ((rfl | rfl) | rfl) | ⟨k, hk, hm⟩
    · exact List.length_pos_of_ne_nil h0
    · exact hg h0
    · assumption
    · rcases hm with hm | rfl
      · split_ifs at hm with hkm
        · rw [List.mem_singleton.1 hm]; exact ⟨hk, hmv k hkm⟩
        · simp at hm
      · exact hk
  · rcases hm with (rfl | rfl) | ⟨k, hk, hm⟩
    · exact List.length_pos_of_ne_nil h0
    · exact hg h0
    · rcases hm with hm | rfl
      · split_ifs at hm with hkm
        · rw [List.mem_singleton.1 hm]; exact ⟨hk, hmv k hkm⟩
        · simp at hm
      · exact hk

theorem sweep_allowed {a : MoveArgs} {M : ℕ} (nStd rank : ℕ) (fl sh : Bool) (movers : List WormKind)
    (hsh : sh = true → CMove.shift.Allowed A a M) (hg : a.kinds ≠ [] → WormKind.green 1 ∈ a.kinds)
    (hmv : ∀ k ∈ movers, k.numTimes = 1) (hd : 2 * max (nStd / rank) 1 ∣ M) :
    ∀ m ∈ sweepCMoves A.P.nf nStd rank fl sh a.kinds movers, m.Allowed A a M := by
  have ht := transition_allowed (A := A) (a := a) (M := M) movers hg hmv
  intro m hm
  unfold sweepCMoves at hm
  simp only [List.mem_cons, List.mem_flatten] at hm
  rcases hm with rfl | ⟨l, hl, hm⟩
  · exact ⟨le_max_right _ _, hd⟩
  · rw [List.eq_of_mem_replicate hl, positionMoves] at hm
    simp only [List.mem_append, List.mem_singleton] at hm
    rcases hm with (((hm | hm) | hm) | hm) | rfl
    · rw [List.eq_of_mem_replicate hm]; trivial
    · split_ifs at hm
      · rw [List.eq_of_mem_replicate hm]; trivial
      · simp at hm
    · split_ifs at hm with h
      · rw [List.eq_of_mem_replicate hm]; exact hsh h
      · simp at hm
    · exact ht m hm
    · trivial

/-- **C61, sweeps.**  The same for any number of sweeps with any ranks, in the order of `do_one_sweep` and
`transition_between_config_spaces`.  Missing: the `WormMover` of worms with more than one time; see `C10_mover_violated`. -/
theorem C61_sweeps_partial (hA : A.OK) {a : MoveArgs} {M : ℕ} (ha : a.OK A M) {c : X → WCfg ℤ}
    (hR : Reprs A a.tau (codeWops a.tau) (OnGrid A.P.nf a.G a.kinds) c) (nStd : ℕ) (ranks : List ℕ) (fl sh : Bool)
    (movers : List WormKind) (hd : ∀ r ∈ ranks, 2 * max (nStd / r) 1 ∣ M)
    (hsh : sh = true → ∀ f f', f < A.P.nf → f' < A.P.nf → A.P.sector f = A.P.sector f' → a.maxDist f = a.maxDist f')
    (hg : a.kinds ≠ [] → WormKind.green 1 ∈ a.kinds) (hmv : ∀ k ∈ movers, k.numTimes = 1)
    {n : ℕ} (hn : 1 ≤ n) (hnM : 2 * n ∣ M) (rd : CodeState A (Option (Worm ℤ)) → WCfg ℤ)
    (hrd : ∀ s x, Reps A a.tau (codeWops a.tau) x s → Reps A a.tau (codeWops a.tau) (rd s) s)
    (F : CodeState A (Option (Worm ℤ)) → ℝ) (f : X → ℝ)
    (hF : ∀ s : CodeState A (Option (Worm ℤ)), SimInv A.env A.Inv (pmDet A.P) s.1 → ∀ j,
      Reps A a.tau (codeWops a.tau) (c j) s → F s = f j)
    (s : X → CodeState A (Option (Worm ℤ))) (hs : ∀ i, SimInv A.env A.Inv (pmDet A.P) (s i).1)
    (hw : ∀ i, getState (s i).1.sw = ⟨2, 0, true, n⟩) (hr : ∀ i, Reps A a.tau (codeWops a.tau) (c i) (s i)) :
    ∑ i, gridW A a.tau (codeWops a.tau) (A.beta / M) wormDim (spaceEta a.sw) (c i) *
        codeRun A a.tau (codeWops a.tau) rd F
          ((ranks.flatMap fun r => sweepCMoves A.P.nf nStd r fl sh a.kinds movers).map (CMove.step A a)) (s i) =
      ∑ j, gridW A a.tau (codeWops a.tau) (A.beta / M) wormDim (spaceEta a.sw) (c j) * f j := by
  refine C61_moves_partial hA ha hR _ (fun m hm => ?_) (st := ⟨2, 0, true, n⟩) ⟨hn, rfl, by show 2 ≤ 2 * n; omega, hnM⟩ rd hrd F f hF s hs hw hr
  obtain ⟨r, hr', hm⟩ := List.mem_flatMap.1 hm
  exact sweep_allowed nStd r fl sh movers hsh hg hmv (hd r hr') m hm

end main

/-- The configuration can be read from the state. -/
theorem exists_reader (A : CodeArgs 𝕜 N) (tau : ℤ → ℝ) : ∃ rd : CodeState A (Option (Worm ℤ)) → WCfg ℤ,
    ∀ s x, Reps A tau (codeWops tau) x s → Reps A tau (codeWops tau) (rd s) s := by
  classical
  refine ⟨fun s => if h : ∃ x, Reps A tau (codeWops tau) x s then h.choose else ⟨[], [], none⟩, fun s x hx => ?_⟩
  have h : ∃ x, Reps A tau (codeWops tau) x s := ⟨x, hx⟩
  simp only [dif_pos h]
  exact h.choose_spec

/-! ### A concrete case -/

/-- Eight points, the worms of the one-particle Green's function and of the density matrix. -/
noncomputable def exMoves : MoveArgs where
  tau := gridTau 4 8
  G := Finset.Ico 0 8
  kinds := [.green 1, .equalTime 1]
  sw := fun k => match k with
    | .green _ => 3
    | _ => 1 / 2
  maxDist := fun _ => 2
  wormDist := fun _ => 1

theorem exMoves_ok : exMoves.OK exCode 8 where
  beta := by norm_num [exCode]
  grid := by norm_num
  tau := rfl
  G := rfl
  nf := Nat.one_pos
  ns := Nat.one_pos
  flavors := by
    intro b hb
    obtain rfl : b = 0 := by simpa [exCode] using hb
    decide
  nodup := by simp [exMoves]
  ops := by
    intro k hk
    simp only [exMoves, List.mem_cons, List.not_mem_nil, or_false] at hk
    rcases hk with rfl | rfl <;> simp [WormKind.numFlavors]
  sw := by
    intro k
    unfold exMoves
    cases k <;> norm_num

theorem exPair_trace (s t : ℝ) : fullTrace (ebEnv exCode.B exCode.p 4)
    [⟨⟨s, 0⟩, .annihilation, 0⟩, ⟨⟨t, 0⟩, .creation, 0⟩] ≠ 0 := by
  change fullTrace (ebEnv (impBaseOf 1 oneLevel 2 id) ⟨exactSolve, 2, 3⟩ 4) _ ≠ 0
  have hB : (impBaseOf 1 oneLevel 2 id).Lawful := twoSectors_lawful
  rw [C57_exact hB exactSolve_ok (by norm_num) oneLevel_least (by
    intro μ hμ
    rcases (oneLevel_eig μ).1 hμ with rfl | rfl <;> norm_num)]
  refine mul_ne_zero (by simp) ?_
  have h := oneLevel_trace1 (fun _ => 1) (fun i : Fin (2 ^ 1) => Real.exp (-(4 - t) * (2 * (i.val : ℝ))))
    (fun i : Fin (2 ^ 1) => Real.exp (-(t - s) * (2 * (i.val : ℝ))))
    (fun i : Fin (2 ^ 1) => Real.exp (-(s - 0) * (2 * (i.val : ℝ))))
  have hm : timeOrderedMat oneLevel (impBaseOf 1 oneLevel 2 id).op 4
      [⟨⟨s, 0⟩, .annihilation, 0⟩, ⟨⟨t, 0⟩, .creation, 0⟩] 0 =
      diagonal (fun i : Fin (2 ^ 1) => Real.exp (-(4 - t) * (2 * (i.val : ℝ)))) *
        (cdagOp 1 0).map (Int.cast : ℤ → ℝ) *
      diagonal (fun i : Fin (2 ^ 1) => Real.exp (-(t - s) * (2 * (i.val : ℝ)))) *
        (cOp 1 0).map (Int.cast : ℤ → ℝ) *
      diagonal (fun i : Fin (2 ^ 1) => Real.exp (-(s - 0) * (2 * (i.val : ℝ)))) := by
    rw [← oneLevel_exp, ← oneLevel_exp, ← oneLevel_exp]; rfl
  rw [← hm, show (diagonal fun _ : Fin (2 ^ 1) => (1 : ℝ)) = 1 from diagonal_one, Matrix.one_mul] at h
  show trace (timeOrderedMat oneLevel (impBaseOf 1 oneLevel 2 id).op 4 _ 0) ≠ 0
  rw [h]
  simp [Real.exp_ne_zero]

/-- A pair hybridized with the bath. -/
def exPair : WCfg ℤ := ⟨[(5, 0)], [(1, 0)], none⟩

theorem exPair_good : OnGrid exCode.P.nf exMoves.G exMoves.kinds exPair ∧ exPair.Good exCode exMoves.tau (codeWops exMoves.tau) := by
  refine ⟨⟨by simp [exPair], by simp [exPair], by simp [exPair, exMoves, exCode], by simp [exPair, exMoves, exCode], rfl,
    by simp [exPair]⟩, ?_, ?_⟩
  · simp [PCfg.ops, exPair, mkOp, codeWops, wormOps, exMoves, gridTau]
  · have hs : exPair.sorted exMoves.tau (codeWops exMoves.tau) =
        [⟨⟨exMoves.tau 1, 0⟩, .annihilation, 0⟩, ⟨⟨exMoves.tau 5, 0⟩, .creation, 0⟩] := by
      refine sorted_unique (PCfg.sorted_sorted _ ?_) ?_ ((PCfg.sorted_perm _).trans ?_)
      · simp [PCfg.ops, exPair, mkOp, codeWops, wormOps, exMoves, gridTau]
      · simp [OpSet.Sorted, OpTime.lt_def, exMoves, gridTau]; norm_num
      · simp only [PCfg.ops, exPair, mkOp, codeWops, wormOps, List.map_cons, List.map_nil, List.cons_append, List.nil_append,
          Option.map_none, List.append_nil]
        exact List.Perm.swap _ _ _
    unfold cfgW CodeArgs.weight
    rw [hs, norm_ne_zero_iff]
    refine mul_ne_zero ?_ (exPair_trace _ _)
    rw [timeDet_eq _ _ _ (by simp [exPair]) (by simp [exPair]), listDet_eq _ _ _ 1 rfl rfl, Matrix.det_fin_one]
    simp [invs, exPair, exCode]

/-- Three sweeps with ranks 1, 2, 1, two standard windows, beginning with two windows: all hypotheses of
`C61_sweeps_partial` can be met, the configurations are those of the grid, and one of them is a pair hybridized with the bath.  The
function is the probability to be in the partition function space. -/
example : ∃ (X : Type) (_ : Fintype X) (_ : DecidableEq X) (c : X → WCfg ℤ) (s : X → CodeState exCode (Option (Worm ℤ)))
    (rd : CodeState exCode (Option (Worm ℤ)) → WCfg ℤ),
    Reprs exCode exMoves.tau (codeWops exMoves.tau) (OnGrid exCode.P.nf exMoves.G exMoves.kinds) c ∧
    (∃ i, (c i).Same exPair) ∧ (∀ i, Reps exCode exMoves.tau (codeWops exMoves.tau) (c i) (s i)) ∧
    ∑ i, gridW exCode exMoves.tau (codeWops exMoves.tau) (4 / (8 : ℕ)) wormDim (spaceEta exMoves.sw) (c i) *
        codeRun exCode exMoves.tau (codeWops exMoves.tau) rd (fun s => if s.2 = none then 1 else 0)
          (([1, 2, 1].flatMap fun r => sweepCMoves 1 2 r true true exMoves.kinds [.equalTime 1]).map
            (CMove.step exCode exMoves)) (s i) =
      ∑ j, gridW exCode exMoves.tau (codeWops exMoves.tau) (4 / (8 : ℕ)) wormDim (spaceEta exMoves.sw) (c j) *
        if (c j).worm = none then 1 else 0 := by
  classical
  obtain ⟨X, hX, c, hR⟩ := C61_reprs exCode exMoves.tau exMoves.G exMoves.kinds exCode.P.nf
  obtain ⟨rd, hrd⟩ := exists_reader exCode exMoves.tau
  have hst := fun i => C61_states exCode_ok exMoves_ok (n := 2) (by norm_num) (hR.mem i).1 (hR.mem i).2
  choose s h1 h2 h3 using hst
  refine ⟨X, hX, Classical.decEq X, c, s, rd, hR, hR.all _ exPair_good.1 exPair_good.2, h2, ?_⟩
  refine C61_sweeps_partial exCode_ok exMoves_ok hR 2 [1, 2, 1] true true [.equalTime 1] ?_ (fun _ _ _ _ _ _ => rfl)
    (fun _ => by simp [exMoves]) (by simp [WormKind.numTimes]) (n := 2) (by norm_num) (by norm_num) rd hrd _
    (fun j => if (c j).worm = none then 1 else 0) (fun s _ j hj => by rw [hj.worm]) s h1 h3 h2
  intro r hr
  simp only [List.mem_cons, List.not_mem_nil, or_false] at hr
  rcases hr with rfl | rfl | rfl <;> norm_num

end CTHyb
