import Verif.ContCodeIns
import Verif.ContCodeStates
import Verif.SamplingGlobalProps

/-!
# Global updates of the simulation in continuous time

Specification.  `CGlob.act`: the transformed configuration, with `exchangeFlavor`, `operatorShift` etc. of `Verif.ContSweep`.
-/

namespace CTHyb

open Rand MeasureTheory ENNReal

variable {𝕜 : Type} [RCLike 𝕜] {N : ℕ}

/-- The global updates of the driver: an exchange of flavors (src/impurity.ipp:647-655), a shift by a real time
(impurity.ipp:670-680). -/
inductive CGlob where
  | swap (p : ℕ → ℕ)
  | shift (s : ℝ)

/-- What happens to an operator: `ExchangeFlavor` (src/moves/moves.hpp:25-37), `OperatorShift` (moves.hpp:41-64). -/
noncomputable def CGlob.op (beta : ℝ) : CGlob → TPsi ℝ → TPsi ℝ
  | .swap p => exchangeOp p
  | .shift s => shiftOp beta s

/-- What happens to the worm object: `WormExchangeFlavor` (moves.hpp:556-570), `WormShift` (moves.hpp:575-590); `none` if an
assertion fails. -/
noncomputable def CGlob.worm (beta : ℝ) : CGlob → Worm ℝ → Option (Worm ℝ)
  | .swap p => wormExchange p
  | .shift s => wormShift beta s

/-- `global_update` (src/moves/moves.ipp:810-895) with the random number `r`; without hybridized operators nothing happens, not
even to the worm (moves.ipp:821-823). -/
noncomputable def contGlobal (A : CodeArgs 𝕜 N) (m : CGlob) (nwin : ℕ) (r : ℝ)
    (s : CodeState A (Option (Worm ℝ))) : Option (CodeState A (Option (Worm ℝ))) :=
  (globalUpdate A.env.toGEnv (m.op A.beta) (List.map (m.op A.beta)) r nwin s.1).bind fun p =>
    if p.2 = true ∧ A.env.D.cdagg s.1.cfg.M ≠ [] then
      match s.2 with
      | none => some (p.1, none)
      | some w => (m.worm A.beta w).map fun w' => (p.1, some w')
    else some (p.1, s.2)

/-- Expectation value of `F` after the exchanges of flavors in this order and the shift by `random() * BETA` (src/impurity.ipp:633-690),
over the random numbers of all of them.  An exception contributes zero. -/
noncomputable def globRunC (A : CodeArgs 𝕜 N) (nwin : ℕ) (F : CodeState A (Option (Worm ℝ)) → ℝ≥0∞) :
    List (ℕ → ℕ) → CodeState A (Option (Worm ℝ)) → ℝ≥0∞
  | [], s => ∫⁻ v in Set.Ico (0 : ℝ) 1, (∫⁻ r in Set.Ico (0 : ℝ) 1, (contGlobal A (.shift (v * A.beta)) nwin r s).elim 0 F)
  | p :: ps, s => ∫⁻ r in Set.Ico (0 : ℝ) 1, (contGlobal A (.swap p) nwin r s).elim 0 (globRunC A nwin F ps)

/-! ### Specification -/

/-- **Specification.**  A transformed bath operator. -/
noncomputable def CGlob.bop (β : ℝ) : CGlob → BOp ℝ → BOp ℝ
  | .swap p => exchangeFlavor p
  | .shift s => operatorShift β s

/-- **Specification.**  A transformed worm. -/
noncomputable def CGlob.wact (β : ℝ) : CGlob → Worm ℝ → Worm ℝ
  | .swap p => wormExchangeFlavor p
  | .shift s => shiftWorm β s

/-- **Specification.**  A transformed configuration. -/
noncomputable def CGlob.act (β : ℝ) (m : CGlob) (x : WCfg ℝ) : WCfg ℝ := ⟨x.cd.map (m.bop β), x.c.map (m.bop β), x.worm.map (m.wact β)⟩

/-- **Specification.**  Flavors become flavors, or a shift by less than one period. -/
def CGlob.OK (nf : ℕ) (β : ℝ) : CGlob → Prop
  | .swap p => ∀ f, f < nf → p f < nf ∧ p (p f) = f
  | .shift s => 0 ≤ s ∧ s < β

/-- **Specification.**  No factor of the determinant of the configuration is negligible, whatever the order of the lists; see
`C54_singular_accepted` for what happens otherwise. -/
def NoSmallC (A : CodeArgs 𝕜 N) (x : WCfg ℝ) : Prop :=
  ∀ cds cs, cds.Perm (x.cd.map (mkOp id .creation)) → cs.Perm (x.c.map (mkOp id .annihilation)) →
    NoSmallFactor (normAbs 𝕜) A.eps (newFactors A.G A.lu A.blockOf A.P.ns cds cs)

/-- **Specification.**  A transformation of all operators never makes a factor of the determinant negligible. -/
def CGlob.Safe (A : CodeArgs 𝕜 N) (m : CGlob) : Prop := ∀ x, (codeW A).at x ≠ 0 → Reg A.P.nf ∅ x →
  (∀ o ∈ x.ops id (codeWops id), 0 < o.time.time ∧ o.time.time < A.beta) → NoSmallC A (m.act A.beta x)

/-- What holds between global updates. -/
structure GlobAt (A : CodeArgs 𝕜 N) (s : CodeState A (Option (Worm ℝ))) : Prop where
  inv : SimInv A.env A.Inv (pmDet A.P) s.1
  vec : s.1.detVec.prod = pmDet A.P s.1.cfg.M
  n : s.1.sw.n = 1
  posR : s.1.sw.posR = 0

/-! ### Lemmas -/

theorem operators_timesR (g : ℝ → ℝ) (w : Worm ℝ) (hv : w.Valid) :
    ({ w with times := w.times.map g } : Worm ℝ).operators =
      w.operators.map fun o => ⟨⟨g o.time.time, o.time.small⟩, o.type, o.flavor⟩ := by
  rw [operators_eq_map, operators_eq_map, List.map_map]
  refine List.map_congr_left fun p hp => ?_
  have hp' : p < w.kind.numFlavors := List.mem_range.1 hp
  obtain ⟨k, t, f⟩ := w
  have hl : k.timeIndex p < t.length := by
    rw [show t.length = k.numTimes from hv.1]
    cases k <;> simp only [WormKind.timeIndex, WormKind.numTimes, WormKind.numFlavors] at hp' ⊢ <;> omega
  have e : (t.map g).getD (k.timeIndex p) default = g (t.getD (k.timeIndex p) default) := by
    simp [List.getD_eq_getElem?_getD, List.getElem?_eq_getElem hl]
  cases k <;> simp only [opSpec, Function.comp, e]

theorem operators_flavorsR (g : ℕ → ℕ) (w : Worm ℝ) (hv : w.Valid) :
    ({ w with flavors := w.flavors.map g } : Worm ℝ).operators = w.operators.map (exchangeOp g) := by
  rw [operators_eq_map, operators_eq_map, List.map_map]
  refine List.map_congr_left fun p hp => ?_
  have hp' : p < w.kind.numFlavors := List.mem_range.1 hp
  have hl : p < w.flavors.length := by rw [hv.2]; exact hp'
  obtain ⟨k, t, f⟩ := w
  have e : (f.map g).getD p 0 = g (f.getD p 0) := by
    simp only at hl
    simp [List.getD_eq_getElem?_getD, List.getElem?_eq_getElem hl]
  cases k <;> simp only [opSpec, exchangeOp, Function.comp, e, WormKind.timeIndex]

theorem CGlob.worm_eq (β : ℝ) (m : CGlob) (w : Worm ℝ) (hv : w.Valid) : m.worm β w = some (m.wact β w) := by
  cases m with
  | swap p =>
    have h := foldlM_flavor p w hv w.kind.numFlavors le_rfl
    rw [List.take_of_length_le (by rw [hv.2]), List.drop_of_length_le (by rw [hv.2]), List.append_nil] at h
    exact h
  | shift s =>
    have h := foldlM_time (shiftTime β s) w hv w.kind.numTimes le_rfl
    rw [List.take_of_length_le (by rw [hv.1]), List.drop_of_length_le (by rw [hv.1]), List.append_nil] at h
    exact h

theorem CGlob.op_eq (β : ℝ) (m : CGlob) (ty : OpType) (o : BOp ℝ) : m.op β (mkOp id ty o) = mkOp id ty (m.bop β o) := by
  cases m <;> rfl

theorem CGlob.wops_eq (β : ℝ) (m : CGlob) (w : Worm ℝ) (hv : w.Valid) :
    codeWops id (some (m.wact β w)) = (codeWops id (some w)).map (List.map (m.op β)) := by
  cases m with
  | swap p =>
    simp only [codeWops, Option.map_some, CGlob.wact, wormExchangeFlavor, operators_flavorsR _ w hv, List.map_map]
    rfl
  | shift s =>
    simp only [codeWops, Option.map_some, CGlob.wact, shiftWorm, operators_timesR _ w hv, List.map_map]
    rfl

variable {A : CodeArgs 𝕜 N} {x : WCfg ℝ} {s : CodeState A (Option (Worm ℝ))} {Z : Set ℝ}

theorem CGlob.act_ops (β : ℝ) (m : CGlob) {nf : ℕ} (hx : Reg nf Z x) :
    (m.act β x).cd.map (mkOp id .creation) = (x.cd.map (mkOp id .creation)).map (m.op β) ∧
    (m.act β x).c.map (mkOp id .annihilation) = (x.c.map (mkOp id .annihilation)).map (m.op β) ∧
    codeWops id (m.act β x).worm = (codeWops id x.worm).map (List.map (m.op β)) := by
  refine ⟨?_, ?_, ?_⟩
  · simp only [CGlob.act, List.map_map]
    exact List.map_congr_left fun o _ => (m.op_eq β _ o).symm
  · simp only [CGlob.act, List.map_map]
    exact List.map_congr_left fun o _ => (m.op_eq β _ o).symm
  · rcases hw : x.worm with _ | w
    · simp [CGlob.act, hw, codeWops]
    · simp only [CGlob.act, hw, Option.map_some]
      exact m.wops_eq β w (hx.2 w hw).1

theorem CGlob.ops_map (β : ℝ) (m : CGlob) {nf : ℕ} (hx : Reg nf Z x) :
    (m.act β x).ops id (codeWops id) = (x.ops id (codeWops id)).map (m.op β) := by
  obtain ⟨e1, e2, e3⟩ := m.act_ops β hx
  unfold PCfg.ops
  rw [e1, e2, e3]
  simp only [List.map_append]
  congr 1
  cases codeWops id x.worm <;> simp [wormOps]

theorem Reg.mono {nf : ℕ} (hx : Reg nf Z x) : Reg nf ∅ x :=
  ⟨fun _ _ => Set.notMem_empty _, fun u hu => ⟨(hx.2 u hu).1, (hx.2 u hu).2.1, fun _ _ => Set.notMem_empty _⟩⟩

theorem Reg.time {nf : ℕ} (hx : Reg nf Z x) : ∀ o ∈ x.ops id (codeWops id), o.time.time ∉ Z := by
  intro o ho
  rw [PCfg.ops, List.mem_append, List.mem_append] at ho
  rcases ho with (h | h) | h
  · obtain ⟨b, hb, rfl⟩ := List.mem_map.1 h; exact hx.1 b (List.mem_append_left _ hb)
  · obtain ⟨b, hb, rfl⟩ := List.mem_map.1 h; exact hx.1 b (List.mem_append_right _ hb)
  · rw [wormOps_code] at h
    obtain ⟨b, hb, rfl⟩ := List.mem_map.1 h
    rcases hxw : x.worm with _ | w
    · rw [hxw] at hb; simp [wl] at hb
    · rw [hxw] at hb
      obtain ⟨v1, -, v4⟩ := hx.2 w hxw
      exact v4 _ (operators_time w v1 b hb)

theorem shiftTime_mem {β s t : ℝ} (hs : 0 ≤ s ∧ s < β) (ht : 0 < t ∧ t < β) : 0 ≤ shiftTime β s t ∧ shiftTime β s t ≤ β := by
  unfold shiftTime
  split_ifs with h
  · constructor <;> linarith
  · constructor <;> linarith

theorem shiftTime_inj {β s t t' : ℝ} (ht : 0 < t ∧ t < β) (ht' : 0 < t' ∧ t' < β) (h : shiftTime β s t = shiftTime β s t') : t = t' := by
  unfold shiftTime at h
  split_ifs at h <;> linarith

theorem CGlob.act_nodup (β : ℝ) (m : CGlob) {nf : ℕ} (hx : Reg nf Z x)
    (ht : ∀ o ∈ x.ops id (codeWops id), 0 < o.time.time ∧ o.time.time < β)
    (hn : ((x.ops id (codeWops id)).map Psi.time).Nodup) : (((m.act β x).ops id (codeWops id)).map Psi.time).Nodup := by
  rw [m.ops_map β hx]
  cases m with
  | swap p =>
    have : ((x.ops id (codeWops id)).map ((CGlob.swap p).op β)).map Psi.time = (x.ops id (codeWops id)).map Psi.time := by
      rw [List.map_map]; rfl
    rw [this]; exact hn
  | shift s =>
    have e : ((x.ops id (codeWops id)).map ((CGlob.shift s).op β)).map Psi.time =
        ((x.ops id (codeWops id)).map Psi.time).map fun t => ({ t with time := shiftTime β s t.time } : OpTime ℝ) := by
      rw [List.map_map, List.map_map]; rfl
    rw [e]
    refine List.Nodup.map_on ?_ hn
    intro p hp q hq h
    obtain ⟨o, ho, rfl⟩ := List.mem_map.1 hp
    obtain ⟨o', ho', rfl⟩ := List.mem_map.1 hq
    simp only [OpTime.mk.injEq] at h
    have et := shiftTime_inj (ht o ho) (ht o' ho') h.1
    have h3 : ∀ u u' : OpTime ℝ, u.time = u'.time → u.small = u'.small → u = u' := by
      intro u u' h1 h2
      cases u; cases u'
      simp only at h1 h2
      rw [h1, h2]
    exact h3 _ _ et h.2

theorem cfgW_of_permR {y : WCfg ℝ} (hn : ((y.ops id (codeWops id)).map Psi.time).Nodup) {cds cs wo : List (TPsi ℝ)}
    (p1 : cds.Perm (y.cd.map (mkOp id .creation))) (p2 : cs.Perm (y.c.map (mkOp id .annihilation)))
    (p3 : wo = wormOps (codeWops id y.worm)) : ‖weightOf A.env.V A.env.G cds cs wo‖ = cfgW A id (codeWops id) y := by
  have e : y.sorted id (codeWops id) = timeSort (cds ++ cs ++ wo) := by
    refine sorted_eq_timeSort _ _ (y.sorted_sorted hn) (y.sorted_perm.trans ?_)
    rw [PCfg.ops, p3]
    exact ((p1.append p2).append_right _).symm
  have hn' := hn
  rw [PCfg.ops, List.map_append, List.map_append] at hn'
  have n1 := (List.nodup_append.1 (List.nodup_append.1 hn').1).1
  have n2 := (List.nodup_append.1 (List.nodup_append.1 hn').1).2.1
  unfold cfgW CodeArgs.weight weightOf
  rw [e, timeDet_congr A.env.G p2 p1 ((p2.map Psi.time).nodup_iff.2 n2) ((p1.map Psi.time).nodup_iff.2 n1)]
  rfl

/-- All operators of a state lie strictly inside the interval if none is at its ends. -/
theorem Reps.strict {nf : ℕ} (hr : Reps A id (codeWops id) x s) (hs : SimInv A.env A.Inv (pmDet A.P) s.1) (hx : Reg nf Z x) (h0 : 0 ∈ Z)
    (h1 : A.beta ∈ Z) : ∀ o ∈ x.ops id (codeWops id), 0 < o.time.time ∧ o.time.time < A.beta := by
  intro o ho
  have hZ := hx.time o ho
  obtain ⟨a, b⟩ := hs.win.ops.2 o ((hr.ops_perm hs).mem_iff.1 ho)
  rw [OpTime.le_def] at a b
  have a' : (0 : ℝ) ≤ o.time.time := by rcases a with a | a; exacts [a.le, a.1.le]
  have b' : o.time.time ≤ A.beta := by rcases b with b | b; exacts [b.le, b.1.le]
  exact ⟨lt_of_le_of_ne a' fun e => hZ (e ▸ h0), lt_of_le_of_ne b' fun e => hZ (e ▸ h1)⟩

theorem CGlob.codeCfg {m : CGlob} (hm : m.OK A.P.nf A.beta) (hx : Reg A.P.nf Z x) (h0 : 0 ∈ Z) (h1 : A.beta ∈ Z)
    (hs : SimInv A.env A.Inv (pmDet A.P) s.1) (hr : Reps A id (codeWops id) x s) : CodeCfg A.P.nf (m.act A.beta x) := by
  have hc := hr.codeCfg hs
  have hfo : ∀ b : BOp ℝ, b.2 < A.P.nf → (m.bop A.beta b).2 < A.P.nf := by
    intro b hb
    cases m with
    | swap p => exact (hm _ hb).1
    | shift s => exact hb
  refine ⟨m.act_nodup A.beta hx (hr.strict hs hx h0 h1) (hr.nodup hs), fun o ho => ?_, fun o ho => ?_⟩
  · obtain ⟨b, hb, rfl⟩ := List.mem_map.1 ho; exact hfo b (hc.2.1 b hb)
  · obtain ⟨b, hb, rfl⟩ := List.mem_map.1 ho; exact hfo b (hc.2.2 b hb)

/-- **C83** (a global update).  In every state of the simulation with the configuration `x` a global update does not throw; it is
accepted exactly if the random number is below the ratio of the weights of the transformed and of the present configuration, and the
state then holds the transformed configuration, otherwise the old one. -/
theorem C83_global_update (hA : A.OK) {m : CGlob} (hm : m.OK A.P.nf A.beta) (hx : Reg A.P.nf Z x) (h0 : 0 ∈ Z) (h1 : A.beta ∈ Z)
    (hy : Reg A.P.nf Z (m.act A.beta x)) (hsm : NoSmallC A (m.act A.beta x)) (hs : GlobAt A s)
    (hr : Reps A id (codeWops id) x s) {nwin : ℕ} (hw : 1 ≤ nwin) (r : ℝ) (hr0 : 0 ≤ r) :
    ∃ s', contGlobal A m nwin r s = some s' ∧ GlobAt A s' ∧
      (x.cd ≠ [] ∧ r < (codeW A).at (m.act A.beta x) / (codeW A).at x →
        Reps A id (codeWops id) (m.act A.beta x) s') ∧
      (¬ (x.cd ≠ [] ∧ r < (codeW A).at (m.act A.beta x) / (codeW A).at x) →
        Reps A id (codeWops id) x s') := by
  classical
  have hcy := CGlob.codeCfg hm hx h0 h1 hs.inv hr
  rw [hr.codeW hs.inv, codeW_at A (m.act A.beta x), if_pos hcy]
  have hE := C60_lawful A hA
  obtain ⟨e1, e2, e3⟩ := m.act_ops A.beta hx
  set f := m.op A.beta with hf
  have p1 : ((A.env.D.cdagg s.1.cfg.M).map f).Perm ((m.act A.beta x).cd.map (mkOp id .creation)) := by
    rw [e1]; exact hr.cd.map f
  have p2 : ((A.env.D.cs s.1.cfg.M).map f).Perm ((m.act A.beta x).c.map (mkOp id .annihilation)) := by
    rw [e2]; exact hr.c.map f
  have p3 : s.1.cfg.worm.map (List.map f) = codeWops id (m.act A.beta x).worm := by
    rw [e3, hr.wops]
  have hnx := hr.nodup hs.inv
  have hstrict : ∀ o ∈ x.ops id (codeWops id), 0 < o.time.time ∧ o.time.time < A.beta := hr.strict hs.inv hx h0 h1
  have hny := hcy.1
  have pall : ((A.env.D.cdagg s.1.cfg.M).map f ++ (A.env.D.cs s.1.cfg.M).map f ++
      wormOps (s.1.cfg.worm.map (List.map f))).Perm ((m.act A.beta x).ops id (codeWops id)) := by
    rw [PCfg.ops, p3]; exact (p1.append p2).append_right _
  have g2 := (pall.map Psi.time).nodup_iff.2 hny
  have g3 : ∀ o ∈ (A.env.D.cdagg s.1.cfg.M).map f ++ (A.env.D.cs s.1.cfg.M).map f ++
      wormOps (s.1.cfg.worm.map (List.map f)), opT 0 ≤ o.time ∧ o.time ≤ opT A.env.V.beta := by
    intro o ho
    have ho' := pall.mem_iff.1 ho
    have hZ := hy.time o ho'
    rw [m.ops_map A.beta hx] at ho'
    obtain ⟨b, hb, rfl⟩ := List.mem_map.1 ho'
    have hbt := hstrict b hb
    have hle : 0 ≤ (m.op A.beta b).time.time ∧ (m.op A.beta b).time.time ≤ A.beta := by
      cases m with
      | swap p => exact ⟨hbt.1.le, hbt.2.le⟩
      | shift v => exact shiftTime_mem hm hbt
    rw [OpTime.le_def, OpTime.le_def]
    exact ⟨Or.inl (lt_of_le_of_ne hle.1 fun e => hZ (e ▸ h0)), Or.inl (lt_of_le_of_ne hle.2 fun e => hZ (e ▸ h1))⟩
  have g4 : ∀ o ∈ (A.env.D.cdagg s.1.cfg.M).map f ++ (A.env.D.cs s.1.cfg.M).map f,
      A.env.blockOf o.flavor < A.env.nb := by
    intro o ho
    have : o.flavor < A.P.nf := by
      rcases List.mem_append.1 ho with h | h
      · obtain ⟨b, hb, rfl⟩ := List.mem_map.1 (p1.mem_iff.1 h); exact hcy.2.1 b hb
      · obtain ⟨b, hb, rfl⟩ := List.mem_map.1 (p2.mem_iff.1 h); exact hcy.2.2 b hb
    change A.blockOf o.flavor < A.P.ns
    rw [CodeArgs.blockOf, if_pos this]; exact hA.sectors _ this
  have g5 : NoSmallFactor A.env.abv A.env.eps (newFactors A.env.G A.env.lu A.env.blockOf A.env.nb
      ((A.env.D.cdagg s.1.cfg.M).map f) ((A.env.D.cs s.1.cfg.M).map f)) := hsm _ _ p1 p2
  obtain ⟨s1, acc, q1, q2, q3, q4, q5⟩ := globalStep_ok hE ⟨f, List.map f, r⟩ hw s.1 hs.inv hs.vec hs.n hs.posR
    ⟨hr0, g2, g3, g4, g5⟩
  obtain ⟨s2, acc2, r1, -, r3, r4⟩ := C54_global_update A.env.toGEnv (pmDet A.P) hE.glob f (List.map f) r hr0 nwin hw s.1
    (hs.inv.toGInv hE hs.vec hs.n hs.posR) g2 g3 g4 g5
  rw [r1, Option.some.injEq, Prod.mk.injEq] at q1
  obtain ⟨rfl, rfl⟩ := q1
  have hcd : A.env.D.cdagg s.1.cfg.M = [] ↔ x.cd = [] := by
    rw [← List.length_eq_zero_iff, ← List.length_eq_zero_iff, hr.cd.length_eq, List.length_map]
  have wnew : ‖weightOf A.env.V A.env.G ((A.env.D.cdagg s.1.cfg.M).map f) ((A.env.D.cs s.1.cfg.M).map f)
      (wormOps (s.1.cfg.worm.map (List.map f)))‖ = cfgW A id (codeWops id) (m.act A.beta x) := cfgW_of_permR hny p1 p2 (by rw [p3])
  have wold : ‖weightOf A.env.V A.env.G (A.env.D.cdagg s.1.cfg.M) (A.env.D.cs s.1.cfg.M)
      (wormOps s.1.cfg.worm)‖ = cfgW A id (codeWops id) x := cfgW_of_permR hnx hr.cd hr.c (by rw [hr.wops])
  have hacc : A.env.D.cdagg s.1.cfg.M ≠ [] → (acc2 = true ↔
      r < cfgW A id (codeWops id) (m.act A.beta x) / cfgW A id (codeWops id) x) := by
    intro h
    rw [← wnew, ← wold, ← norm_div]
    exact (r4 h).1
  have hcode : contGlobal A m nwin r s = if acc2 = true ∧ A.env.D.cdagg s.1.cfg.M ≠ [] then
      (match s.2 with
      | none => some (s2, none)
      | some w => (m.worm A.beta w).map fun w' => (s2, some w'))
    else some (s2, s.2) := by
    unfold contGlobal
    rw [r1]
    rfl
  by_cases hc : acc2 = true ∧ A.env.D.cdagg s.1.cfg.M ≠ []
  · refine ⟨(s2, (m.act A.beta x).worm), ?_, ⟨q2, q3, q4, q5⟩, fun _ => ?_, fun h => ?_⟩
    · rw [hcode, if_pos hc, hr.worm]
      rcases hxw : x.worm with _ | w
      · simp [CGlob.act, hxw]
      · simp only [CGlob.worm_eq A.beta m w (hx.2 w hxw).1, CGlob.act, hxw, Option.map_some]
    · obtain ⟨t1, t2, t3⟩ := (r4 hc.2).2.1 hc.1
      exact ⟨t1.trans p1, t2.trans p2, rfl, t3.trans p3⟩
    · exact absurd ⟨fun h' => hc.2 (hcd.2 h'), (hacc hc.2).1 hc.1⟩ h
  · have hcfg : s2.cfg = s.1.cfg := by
      by_cases h : A.env.D.cdagg s.1.cfg.M = []
      · rw [(r3 h).1]
      · exact (r4 h).2.2 (by
          rcases hb : acc2 with _ | _
          · rfl
          · exact absurd ⟨hb, h⟩ hc)
    refine ⟨(s2, s.2), by rw [hcode, if_neg hc], ⟨q2, q3, q4, q5⟩, fun h => ?_, fun _ => ?_⟩
    · have hne : A.env.D.cdagg s.1.cfg.M ≠ [] := fun h' => h.1 (hcd.1 h')
      exact absurd ⟨(hacc hne).2 h.2, hne⟩ hc
    · exact ⟨by rw [hcfg]; exact hr.cd, by rw [hcfg]; exact hr.c, hr.worm, by rw [hcfg]; exact hr.wops⟩

/-! ### Expectation values -/

variable {ψ : CfgFun (Option (Worm ℝ)) ℝ≥0∞} {F : CodeState A (Option (Worm ℝ)) → ℝ≥0∞}

theorem hold_global (hA : A.OK) {m : CGlob} (hm : m.OK A.P.nf A.beta) (hx : Reg A.P.nf Z x) (h0 : 0 ∈ Z) (h1 : A.beta ∈ Z)
    (hy : Reg A.P.nf Z (m.act A.beta x)) (hsm : NoSmallC A (m.act A.beta x)) (hs : GlobAt A s)
    (hr : Reps A id (codeWops id) x s) {nwin : ℕ} (hw : 1 ≤ nwin)
    (hF : ∀ s' y, GlobAt A s' → Reg A.P.nf Z y → Reps A id (codeWops id) y s' → F s' = ψ.at y) :
    Hold (ψ.at x) (∫⁻ r in Set.Ico (0 : ℝ) 1, (contGlobal A m nwin r s).elim 0 F)
      (globalE (m.bop A.beta) (m.wact A.beta) (codeW A) ψ x) (globalE (m.bop A.beta) (m.wact A.beta) (codeW A) (fun _ _ _ => 1) x) := by
  have hu := fun r hr0 => C83_global_update hA hm hx h0 h1 hy hsm hs hr hw r hr0
  by_cases hc : x.cd = []
  · have e : ∫⁻ r in Set.Ico (0 : ℝ) 1, (contGlobal A m nwin r s).elim 0 F = ∫⁻ _ in Set.Ico (0 : ℝ) 1, ψ.at x := by
      refine setLIntegral_congr_fun measurableSet_Ico fun r hr0 => ?_
      obtain ⟨s', e, g, -, h⟩ := hu r hr0.1
      simp only [e, Option.elim_some]
      exact hF s' x g hx (h fun h => h.1 hc)
    rw [e, setLIntegral_const, Real.volume_Ico]
    unfold globalE
    rw [if_pos (by rw [hc]; rfl), if_pos (by rw [hc]; rfl)]
    simpa using hold_none (ψ.at x)
  · have hl : ¬ x.cd.length = 0 := fun h => hc (List.length_eq_zero_iff.1 h)
    unfold globalE
    rw [if_neg hl, if_neg hl]
    show Hold _ _ (ENNReal.ofReal (min 1 ((codeW A).at (m.act A.beta x) / (codeW A).at x)) * ψ.at (m.act A.beta x))
      (ENNReal.ofReal (min 1 ((codeW A).at (m.act A.beta x) / (codeW A).at x)) * 1)
    rw [mul_one]
    refine ⟨?_, ?_⟩
    · have hq : 0 ≤ (codeW A).at (m.act A.beta x) / (codeW A).at x := div_nonneg (codeW_nonneg _ _ _ _) (codeW_nonneg _ _ _ _)
      rw [← lintegral_step _ hq]
      refine setLIntegral_congr_fun measurableSet_Ico fun r hr0 => ?_
      obtain ⟨s', e, g, ha, h⟩ := hu r hr0.1
      simp only [e, Option.elim_some]
      split_ifs with hlt
      · exact hF s' _ g hy (ha ⟨hc, hlt⟩)
      · exact hF s' x g hx (h fun h => hlt h.2)
    · rw [← ENNReal.ofReal_one]
      exact ENNReal.ofReal_le_ofReal (min_le_left _ _)

theorem cfg_shape {nf : ℕ} (hx : Reg nf Z x) : ∃ z : Lab x.cd.length x.c.length, x = z.cfg x.worm ∧ ms z.1 = x.cd ∧ ms z.2 = x.c ∧
    (x.worm = none ∨ ∃ (k : WormKind) (ts : Fin k.numTimes → ℝ) (fs : Fin k.numFlavors → Fin nf), x.worm = some (mkW k ts fs)) := by
  refine ⟨(x.cd.get, x.c.get), ?_, by rw [ms, List.ofFn_get], by rw [ms, List.ofFn_get], ?_⟩
  · unfold Lab.cfg
    simp only [List.ofFn_get]
  · rcases hw : x.worm with _ | ⟨k, ts, fs⟩
    · exact Or.inl rfl
    · obtain ⟨hv, hf, -⟩ := hx.2 _ hw
      obtain ⟨gs, rfl⟩ : ∃ gs : Fin k.numFlavors → Fin nf, flavList gs = fs := flavList_of hv.2 hf
      have e : ts = List.ofFn fun i : Fin k.numTimes => ts[i.1]'(by rw [hv.1]; exact i.2) := by
        apply List.ext_getElem
        · rw [List.length_ofFn, hv.1]
        · intro i _ _; rw [List.getElem_ofFn]
      exact Or.inr ⟨k, _, gs, congrArg some (congrArg (fun ts => (⟨k, ts, flavList gs⟩ : Worm ℝ)) e)⟩

theorem measurable_globalShift {nf : ℕ} {β : ℝ} (hβ : 0 < β) {w : CfgFun (Option (Worm ℝ)) ℝ} (hw : w.WMeas nf) (hψ : ψ.WMeas nf)
    (hx : Reg nf Z x) :
    Measurable fun v : ℝ => globalE ((CGlob.shift (v * β)).bop β) ((CGlob.shift (v * β)).wact β) w ψ x := by
  have hfam := famOK_shift hβ nf
  have e : ∀ v, globalE ((CGlob.shift (v * β)).bop β) ((CGlob.shift (v * β)).wact β) w ψ x =
      globalE (gop (fun t => timeShift β (v * β) t) (fun f => f)) (gworm (fun t => timeShift β (v * β) t) (fun f => f)) w ψ x := by
    intro v
    congr 1
    funext u
    simp [CGlob.wact, shiftWorm, gworm]
  simp only [e]
  obtain ⟨z, hz, -, -, hω⟩ := cfg_shape hx
  rw [hz]
  simp only [globalE_lab]
  split_ifs
  · exact measurable_const
  rcases hω with h | ⟨k, ts, fs, h⟩
  · rw [h]
    have hT := (meas_gLab hfam x.cd.length x.c.length).comp (measurable_id.prodMk (measurable_const (a := z)))
    exact (ENNReal.measurable_ofReal.comp (measurable_const.min (((hw.none _ _).comp hT).div_const _))).mul ((hψ.none _ _).comp hT)
  · rw [h]
    have hp : ∀ f, f < nf → (fun f => f) f < nf ∧ (fun f => f) ((fun f => f) f) = f := hfam.flav
    simp only [Option.map_some, gworm_mkW _ hp]
    have hT := (meas_gAll hfam k.numTimes x.cd.length x.c.length).comp (measurable_id.prodMk (measurable_const (a := (ts, z))))
    exact (ENNReal.measurable_ofReal.comp (measurable_const.min (((hw.worm k _ _ _).comp hT).div_const _))).mul ((hψ.worm k _ _ _).comp hT)

theorem reg_swap {p : ℕ → ℕ} {nf : ℕ} (hp : ∀ f, f < nf → p f < nf ∧ p (p f) = f) (β : ℝ) (hx : Reg nf Z x) :
    Reg nf Z ((CGlob.swap p).act β x) := by
  refine ⟨fun o ho => ?_, fun u hu => ?_⟩
  · simp only [CGlob.act, ← List.map_append] at ho
    obtain ⟨b, hb, rfl⟩ := List.mem_map.1 ho
    exact hx.1 b hb
  · obtain ⟨w, hw, rfl⟩ := Option.map_eq_some_iff.1 hu
    obtain ⟨⟨v1, v2⟩, f, t⟩ := hx.2 w hw
    refine ⟨⟨v1, by simpa [CGlob.wact, wormExchangeFlavor] using v2⟩, fun g hg => ?_, t⟩
    obtain ⟨g', hg', rfl⟩ := List.mem_map.1 hg
    exact (hp g' (f g' hg')).1

theorem ae_shift_out {β : ℝ} (hβ : 0 < β) (hZ : Z.Countable) (t : ℝ) :
    ∀ᵐ v ∂(volume.restrict (Set.Ico (0 : ℝ) 1)), timeShift β (v * β) t ∉ Z := by
  have h1 := ae_preimage hZ (f := fun v : ℝ => t + v * β) fun a b h => mul_right_cancel₀ hβ.ne' (add_left_cancel h)
  have h2 := ae_preimage hZ (f := fun v : ℝ => t + v * β - β) fun a b h =>
    mul_right_cancel₀ hβ.ne' (add_left_cancel (sub_left_injective h))
  filter_upwards [h1, h2] with v a b
  unfold timeShift
  split_ifs
  exacts [b, a]

theorem ae_reg_shift {β : ℝ} (hβ : 0 < β) (hZ : Z.Countable) {nf : ℕ} (hx : Reg nf Z x) :
    ∀ᵐ v ∂(volume.restrict (Set.Ico (0 : ℝ) 1)), Reg nf Z ((CGlob.shift (v * β)).act β x) := by
  have ha : ∀ l : List ℝ, ∀ᵐ v ∂(volume.restrict (Set.Ico (0 : ℝ) 1)), ∀ t ∈ l, timeShift β (v * β) t ∉ Z := by
    intro l
    induction l with
    | nil => simp
    | cons t l ih =>
      filter_upwards [ae_shift_out hβ hZ t, ih] with v h1 h2 t' ht'
      rcases List.mem_cons.1 ht' with rfl | ht'
      exacts [h1, h2 t' ht']
  filter_upwards [ha ((x.cd ++ x.c).map Prod.fst), ha (x.worm.elim [] Worm.times)] with v h1 h2
  refine ⟨fun o ho => ?_, fun u hu => ?_⟩
  · simp only [CGlob.act, ← List.map_append] at ho
    obtain ⟨b, hb, rfl⟩ := List.mem_map.1 ho
    exact h1 _ (List.mem_map_of_mem hb)
  · obtain ⟨w, hw, rfl⟩ := Option.map_eq_some_iff.1 hu
    obtain ⟨⟨v1, v2⟩, f, t⟩ := hx.2 w hw
    refine ⟨⟨by simpa [CGlob.wact, shiftWorm] using v1, v2⟩, f, fun g hg => ?_⟩
    obtain ⟨g', hg', rfl⟩ := List.mem_map.1 hg
    rw [hw] at h2
    exact h2 g' hg'

end CTHyb
