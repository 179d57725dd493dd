import Verif.SamplingGlobal
import Verif.SamplingSweepProps

/-!
What a global update of the code does to a configuration on the grid.

Specification.  `GMove.bop`, `GMove.wact`, `GMove.act`: the transformation of a bath operator, of a worm and of a configuration.
-/

set_option linter.unusedSectionVars false

namespace CTHyb

open Matrix Rand MeasureTheory

variable {𝕜 : Type} [RCLike 𝕜] [DecidableEq 𝕜] {N : ℕ}

section spec

/-- A transformed bath operator: flavor `f` becomes `v[f]`, or the time moves `k` points round the circle. -/
def GMove.bop (M : ℕ) : GMove → BOp ℤ → BOp ℤ
  | .swap v, o => (o.1, v.getD o.2 0)
  | .shift k, o => ((o.1 + k) % M, o.2)

/-- A transformed worm. -/
def GMove.wact (M : ℕ) : GMove → Worm ℤ → Worm ℤ
  | .swap v, w => { w with flavors := w.flavors.map fun f => v.getD f 0 }
  | .shift k, w => { w with times := w.times.map fun t => (t + k) % M }

/-- A transformed configuration. -/
def GMove.act (M : ℕ) (m : GMove) (x : WCfg ℤ) : WCfg ℤ := ⟨x.cd.map (m.bop M), x.c.map (m.bop M), x.worm.map (m.wact M)⟩

/-- A permutation of the flavors, or a shift by less than one period. -/
def GMove.OK (nf M : ℕ) : GMove → Prop
  | .swap v => IsFlavorPerm nf v
  | .shift k => k < M

end spec

theorem shiftIdx_eq {M k : ℕ} (hk : k < M) {t : ℤ} (ht : t ∈ Finset.Ico 0 (M : ℤ)) : shiftIdx M k t = (t + k) % M := by
  obtain ⟨h0, h1⟩ := Finset.mem_Ico.1 ht
  unfold shiftIdx
  split_ifs with h
  · rw [← Int.sub_emod_right, Int.emod_eq_of_lt] <;> omega
  · rw [Int.emod_eq_of_lt] <;> omega

theorem shift_mem {M k : ℕ} (hM : 0 < M) (t : ℤ) : (t + k) % M ∈ Finset.Ico 0 (M : ℤ) :=
  Finset.mem_Ico.2 ⟨Int.emod_nonneg _ (by omega), Int.emod_lt_of_pos _ (by omega)⟩

theorem shift_tau {beta : ℝ} (hb : 0 < beta) {M k : ℕ} (hk : k < M) {t : ℤ} (ht : t ∈ Finset.Ico 0 (M : ℤ)) :
    shiftTime beta (k * (beta / M)) (gridTau beta M t) = gridTau beta M ((t + k) % M) := by
  rw [← shiftIdx_eq hk ht]
  have hM : (0 : ℝ) < M := by exact_mod_cast (by omega : 0 < M)
  have e : gridTau beta M t + k * (beta / M) = gridTau beta M (t + k) := by
    unfold gridTau; push_cast; field_simp; ring
  have hlt : beta < gridTau beta M (t + k) ↔ (M : ℤ) ≤ t + k := by
    unfold gridTau
    rw [lt_div_iff₀ (by positivity), mul_lt_mul_iff_of_pos_left hb]
    constructor
    · intro h
      have h2 : ((2 * M : ℤ) : ℝ) < ((2 * (t + k) + 1 : ℤ) : ℝ) := by push_cast at h ⊢; exact h
      have := Int.cast_lt.1 h2; omega
    · intro h
      have h2 : ((2 * M : ℤ) : ℝ) < ((2 * (t + k) + 1 : ℤ) : ℝ) := Int.cast_lt.2 (by omega)
      push_cast at h2 ⊢; exact h2
  unfold shiftTime shiftIdx
  rw [e]
  by_cases h : (M : ℤ) ≤ t + k
  · rw [if_pos (hlt.2 h), if_pos h]
    unfold gridTau; push_cast; field_simp; ring
  · rw [if_neg fun h' => h (hlt.1 h'), if_neg h]

/-- Concrete case: eight points on an interval of length 4, the sixth point moved by five points is the third one. -/
example : shiftTime (4 : ℝ) ((5 : ℕ) * (4 / (8 : ℕ))) (gridTau 4 8 5) = gridTau 4 8 2 := by
  have h := shift_tau (beta := 4) (by norm_num) (M := 8) (k := 5) (by norm_num) (t := 5) (by decide)
  rw [h]; rfl

theorem operators_times (g : ℤ → ℤ) (w : Worm ℤ) (hv : w.Valid) :
    ({ w with times := w.times.map g } : Worm ℤ).operators =
      w.operators.map fun o => ⟨⟨g o.time.time, o.time.small⟩, o.type, o.flavor⟩ := by
  rw [operators_eq_map, operators_eq_map, List.map_map]
  refine List.map_congr_left fun p hp => ?_
  have hp' : p < w.kind.numFlavors := List.mem_range.1 hp
  obtain ⟨k, t, f⟩ := w
  have hl : k.timeIndex p < t.length := by
    rw [show t.length = k.numTimes from hv.1]
    cases k <;> simp only [WormKind.timeIndex, WormKind.numTimes, WormKind.numFlavors] at hp' ⊢ <;> omega
  have e : (t.map g).getD (k.timeIndex p) default = g (t.getD (k.timeIndex p) default) := by
    simp [List.getD_eq_getElem?_getD, List.getElem?_eq_getElem hl]
  cases k <;> simp only [opSpec, Function.comp, e]

theorem operators_flavors (g : ℕ → ℕ) (w : Worm ℤ) (hv : w.Valid) :
    ({ w with flavors := w.flavors.map g } : Worm ℤ).operators = w.operators.map (exchangeOp g) := by
  rw [operators_eq_map, operators_eq_map, List.map_map]
  refine List.map_congr_left fun p hp => ?_
  have hp' : p < w.kind.numFlavors := List.mem_range.1 hp
  have hl : p < w.flavors.length := by rw [hv.2]; exact hp'
  obtain ⟨k, t, f⟩ := w
  have e : (f.map g).getD p 0 = g (f.getD p 0) := by
    simp only at hl
    simp [List.getD_eq_getElem?_getD, List.getElem?_eq_getElem hl]
  cases k <;> simp only [opSpec, exchangeOp, Function.comp, e, WormKind.timeIndex]

variable {A : CodeArgs 𝕜 N} {a : MoveArgs} {M : ℕ}

/-- The worm object of the code is transformed as it should be. -/
theorem GMove.worm_eq {nf : ℕ} {m : GMove} (hm : m.OK nf M) (w : Worm ℤ) (hv : w.Valid)
    (ht : ∀ t ∈ w.times, t ∈ Finset.Ico 0 (M : ℤ)) : m.worm M w = some (m.wact M w) := by
  cases m with
  | swap v =>
    have h := foldlM_flavor (fun f => v.getD f 0) w hv w.kind.numFlavors le_rfl
    rw [List.take_of_length_le (by rw [hv.2]), List.drop_of_length_le (by rw [hv.2]), List.append_nil] at h
    exact h
  | shift k =>
    have h := foldlM_time (shiftIdx M k) w hv w.kind.numTimes le_rfl
    rw [List.take_of_length_le (by rw [hv.1]), List.drop_of_length_le (by rw [hv.1]), List.append_nil] at h
    refine h.trans ?_
    have e : w.times.map (shiftIdx M k) = w.times.map fun t : ℤ => (t + (k : ℤ)) % (M : ℤ) :=
      List.map_congr_left fun t h => shiftIdx_eq hm (ht t h)
    simp only [GMove.wact, e]

/-- The operators of the code are transformed as they should be. -/
theorem GMove.op_eq (ha : a.OK A M) {nf : ℕ} {m : GMove} (hm : m.OK nf M) (ty : OpType) {o : BOp ℤ} (ho : o.1 ∈ a.G) :
    m.op A.beta M (mkOp a.tau ty o) = mkOp a.tau ty (m.bop M o) := by
  cases m with
  | swap v => rfl
  | shift k =>
    rw [ha.G] at ho
    simp only [GMove.op, shiftOp, mkOp, GMove.bop, ha.tau]
    rw [shift_tau ha.beta hm ho]

theorem GMove.wops_eq (ha : a.OK A M) {nf : ℕ} {m : GMove} (hm : m.OK nf M) (w : Worm ℤ) (hv : w.Valid)
    (ht : ∀ t ∈ w.times, t ∈ a.G) :
    codeWops a.tau (some (m.wact M w)) = (codeWops a.tau (some w)).map (List.map (m.op A.beta M)) := by
  cases m with
  | swap v =>
    simp only [codeWops, Option.map_some, GMove.wact, operators_flavors _ w hv, List.map_map]
    rfl
  | shift k =>
    simp only [codeWops, Option.map_some, GMove.wact, operators_times _ w hv, List.map_map]
    refine congrArg some (List.map_congr_left fun o ho => ?_)
    have h := ht _ (operators_time w hv o ho)
    rw [ha.G] at h
    simp only [Function.comp, mapOp, GMove.op, shiftOp, ha.tau]
    rw [shift_tau ha.beta hm h]

theorem GMove.act_ops (ha : a.OK A M) {m : GMove} (hm : m.OK A.P.nf M) {x : WCfg ℤ} (hx : OnGrid A.P.nf a.G a.kinds x) :
    (m.act M x).cd.map (mkOp a.tau .creation) = (x.cd.map (mkOp a.tau .creation)).map (m.op A.beta M) ∧
    (m.act M x).c.map (mkOp a.tau .annihilation) = (x.c.map (mkOp a.tau .annihilation)).map (m.op A.beta M) ∧
    codeWops a.tau (m.act M x).worm = (codeWops a.tau x.worm).map (List.map (m.op A.beta M)) := by
  refine ⟨?_, ?_, ?_⟩
  · simp only [GMove.act, List.map_map]
    exact List.map_congr_left fun o ho => (GMove.op_eq ha hm _ (hx.cd_mem o ho).1).symm
  · simp only [GMove.act, List.map_map]
    exact List.map_congr_left fun o ho => (GMove.op_eq ha hm _ (hx.c_mem o ho).1).symm
  · rcases hw : x.worm with _ | w
    · simp [GMove.act, hw, codeWops]
    · obtain ⟨v1, -, -, v4⟩ := hx.worm w hw
      simp only [GMove.act, hw, Option.map_some]
      exact GMove.wops_eq ha hm w v1 v4

/-- Every operator of a configuration on the grid has a time of the grid. -/
theorem OnGrid.time {nf : ℕ} {tau : ℤ → ℝ} {G : Finset ℤ} {kinds : List WormKind} {x : WCfg ℤ} (hx : OnGrid nf G kinds x) :
    ∀ o ∈ x.ops tau (codeWops tau), ∃ t ∈ G, o.time.time = tau t := by
  intro o ho
  rw [PCfg.ops, List.mem_append, List.mem_append] at ho
  rcases ho with (h | h) | h
  · obtain ⟨b, hb, rfl⟩ := List.mem_map.1 h; exact ⟨b.1, (hx.cd_mem b hb).1, rfl⟩
  · obtain ⟨b, hb, rfl⟩ := List.mem_map.1 h; exact ⟨b.1, (hx.c_mem b hb).1, rfl⟩
  · rw [wormOps_code] at h
    obtain ⟨b, hb, rfl⟩ := List.mem_map.1 h
    rcases hxw : x.worm with _ | w
    · rw [hxw] at hb; simp [wl] at hb
    · rw [hxw] at hb
      obtain ⟨v1, -, -, v4⟩ := hx.worm w hxw
      exact ⟨_, v4 _ (operators_time w v1 b hb), rfl⟩

theorem flavorPerm_inj {nf : ℕ} {v : List ℕ} (hv : IsFlavorPerm nf v) {f f' : ℕ} (hf : f < nf) (hf' : f' < nf)
    (h : v.getD f 0 = v.getD f' 0) : f = f' := by
  obtain ⟨h1, h2, -⟩ := hv
  rw [List.getD_eq_getElem _ _ (by omega), List.getD_eq_getElem _ _ (by omega)] at h
  exact (h2.getElem_inj_iff).1 h

theorem flavorPerm_lt {nf : ℕ} {v : List ℕ} (hv : IsFlavorPerm nf v) {f : ℕ} (hf : f < nf) : v.getD f 0 < nf := by
  obtain ⟨h1, -, h3⟩ := hv
  rw [List.getD_eq_getElem _ _ (by omega)]
  exact h3 _ (List.getElem_mem _)

theorem shift_inj {M k : ℕ} {s t : ℤ} (hs : s ∈ Finset.Ico 0 (M : ℤ)) (ht : t ∈ Finset.Ico 0 (M : ℤ))
    (h : (s + k) % M = (t + k) % M) : s = t := by
  obtain ⟨a1, a2⟩ := Finset.mem_Ico.1 hs
  obtain ⟨b1, b2⟩ := Finset.mem_Ico.1 ht
  have h1 : (s : ℤ) ≡ t [ZMOD M] := Int.ModEq.add_right_cancel' (k : ℤ) h
  have := h1
  unfold Int.ModEq at this
  rwa [Int.emod_eq_of_lt a1 a2, Int.emod_eq_of_lt b1 b2] at this

theorem GMove.bop_inj {nf : ℕ} {m : GMove} (hm : m.OK nf M) {o o' : BOp ℤ} (h1 : o.1 ∈ Finset.Ico 0 (M : ℤ) ∧ o.2 < nf)
    (h2 : o'.1 ∈ Finset.Ico 0 (M : ℤ) ∧ o'.2 < nf) (h : m.bop M o = m.bop M o') : o = o' := by
  cases m with
  | swap v =>
    simp only [GMove.bop, Prod.mk.injEq] at h
    exact Prod.ext h.1 (flavorPerm_inj hm h1.2 h2.2 h.2)
  | shift k =>
    simp only [GMove.bop, Prod.mk.injEq] at h
    exact Prod.ext (shift_inj h1.1 h2.1 h.1) h.2

theorem GMove.bop_mem (hM : 0 < M) {nf : ℕ} {m : GMove} (hm : m.OK nf M) {o : BOp ℤ}
    (h1 : o.1 ∈ Finset.Ico 0 (M : ℤ) ∧ o.2 < nf) : (m.bop M o).1 ∈ Finset.Ico 0 (M : ℤ) ∧ (m.bop M o).2 < nf := by
  cases m with
  | swap v => exact ⟨h1.1, flavorPerm_lt hm h1.2⟩
  | shift k => exact ⟨shift_mem hM _, h1.2⟩

/-- A global update does not leave the grid. -/
theorem GMove.act_grid (ha : a.OK A M) {m : GMove} (hm : m.OK A.P.nf M) {x : WCfg ℤ} (hx : OnGrid A.P.nf a.G a.kinds x) :
    OnGrid A.P.nf a.G a.kinds (m.act M x) := by
  have hG := ha.G
  obtain ⟨h1, h2, h3, h4, h5, h6⟩ := hx
  rw [hG] at h3 h4 h6 ⊢
  refine ⟨List.Nodup.map_on (fun o ho o' ho' h => GMove.bop_inj hm (h3 o ho) (h3 o' ho') h) h1,
    List.Nodup.map_on (fun o ho o' ho' h => GMove.bop_inj hm (h4 o ho) (h4 o' ho') h) h2, ?_, ?_, by simpa [GMove.act] using h5, ?_⟩
  · intro o ho
    obtain ⟨b, hb, rfl⟩ := List.mem_map.1 ho
    exact GMove.bop_mem ha.grid hm (h3 b hb)
  · intro o ho
    obtain ⟨b, hb, rfl⟩ := List.mem_map.1 ho
    exact GMove.bop_mem ha.grid hm (h4 b hb)
  · intro w hw
    obtain ⟨u, hu, rfl⟩ := Option.map_eq_some_iff.1 hw
    obtain ⟨⟨v1, v2⟩, k, f, t⟩ := h6 u hu
    cases m with
    | swap v =>
      refine ⟨⟨v1, by simpa [GMove.wact] using v2⟩, k, ?_, t⟩
      intro g hg
      obtain ⟨g', hg', rfl⟩ := List.mem_map.1 hg
      exact flavorPerm_lt hm (f g' hg')
    | shift k' =>
      refine ⟨⟨by simpa [GMove.wact] using v1, v2⟩, k, f, ?_⟩
      intro g hg
      obtain ⟨g', hg', rfl⟩ := List.mem_map.1 hg
      exact shift_mem ha.grid _

theorem GMove.ops_map (ha : a.OK A M) {m : GMove} (hm : m.OK A.P.nf M) {x : WCfg ℤ} (hx : OnGrid A.P.nf a.G a.kinds x) :
    (m.act M x).ops a.tau (codeWops a.tau) = (x.ops a.tau (codeWops a.tau)).map (m.op A.beta M) := by
  obtain ⟨e1, e2, e3⟩ := GMove.act_ops ha hm hx
  unfold PCfg.ops
  rw [e1, e2, e3]
  simp only [List.map_append]
  congr 1
  cases codeWops a.tau x.worm <;> simp [wormOps]

/-- A global update keeps the times different. -/
theorem GMove.act_nodup (ha : a.OK A M) {m : GMove} (hm : m.OK A.P.nf M) {x : WCfg ℤ} (hx : OnGrid A.P.nf a.G a.kinds x)
    (hn : ((x.ops a.tau (codeWops a.tau)).map Psi.time).Nodup) :
    (((m.act M x).ops a.tau (codeWops a.tau)).map Psi.time).Nodup := by
  rw [GMove.ops_map ha hm hx]
  cases m with
  | swap v =>
    have : ((x.ops a.tau (codeWops a.tau)).map ((GMove.swap v).op A.beta M)).map Psi.time =
        (x.ops a.tau (codeWops a.tau)).map Psi.time := by
      rw [List.map_map]; rfl
    rw [this]; exact hn
  | shift k =>
    have e : ((x.ops a.tau (codeWops a.tau)).map ((GMove.shift k).op A.beta M)).map Psi.time =
        ((x.ops a.tau (codeWops a.tau)).map Psi.time).map
          fun t => ({ t with time := shiftTime A.beta (k * (A.beta / M)) t.time } : OpTime ℝ) := by
      rw [List.map_map, List.map_map]; rfl
    rw [e]
    refine List.Nodup.map_on ?_ hn
    intro p hp q hq h
    obtain ⟨o, ho, rfl⟩ := List.mem_map.1 hp
    obtain ⟨o', ho', rfl⟩ := List.mem_map.1 hq
    obtain ⟨t, ht, et⟩ := hx.time o ho
    obtain ⟨t', ht', et'⟩ := hx.time o' ho'
    rw [ha.G] at ht ht'
    simp only [OpTime.mk.injEq] at h
    rw [et, et', ha.tau, shift_tau ha.beta hm ht, shift_tau ha.beta hm ht'] at h
    have htt := shift_inj ht ht' (gridTau_inj ha.beta ha.grid h.1)
    rw [htt, ← et'] at et
    have h3 : ∀ u u' : OpTime ℝ, u.time = u'.time → u.small = u'.small → u = u' := by
      intro u u' h1 h2
      cases u; cases u'
      simp only at h1 h2
      rw [h1, h2]
    exact h3 _ _ et h.2

/-- The transformation respects the order of the lists. -/
theorem GMove.act_same (m : GMove) {x y : WCfg ℤ} (h : x.Same y) : (m.act M x).Same (m.act M y) :=
  ⟨h.1.map _, h.2.1.map _, by simp [GMove.act, h.2.2]⟩

end CTHyb
