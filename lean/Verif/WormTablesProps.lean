import Verif.WormTables
import Verif.WangLandauProps
import Verif.SamplingSweepProps
import Mathlib.Analysis.Complex.ExponentialBounds

/-!
C72: the tables of the worm spaces.  Specification: `Active`, `activeKinds`, `TablesOK` (what the driver relies on), `InSpaces`.
-/

namespace CTHyb

open Rand

/-! ### Specification -/

/-- **Specification.**  The worm spaces in use: `G1` always, the others if they are switched on. -/
def Active (p : WormParams) : Space → Prop
  | .g1 => True
  | .g2 => p.g2 ≠ 0
  | .eq1 => p.eq1 ≠ 0
  | .eq2 => p.eq2 ≠ 0
  | .tt => p.tt ≠ 0
  | .z => False
  | .unknown => False

/-- **Specification.**  Their worms, in the order of the enumeration of the spaces. -/
def activeKinds (p : WormParams) : List WormKind :=
  [.green 1] ++ (if p.g2 ≠ 0 then [.green 2] else []) ++ (if p.eq1 ≠ 0 then [.equalTime 1] else []) ++
    (if p.eq2 ≠ 0 then [.equalTime 2] else []) ++ (if p.tt ≠ 0 then [.corr 2] else [])

/-- **Specification.**  What the driver relies on. -/
structure TablesOK (p : WormParams) (t : WormTables) : Prop where
  /-- exactly the spaces in use, each once -/
  types : ∀ s, s ∈ t.types ↔ Active p s
  nodup : t.types.Nodup
  /-- insertion and removal: an updater for each space, at the same position, with a template of this space and the rate with which it is chosen -/
  insRem_len : t.insRem.length = t.types.length
  insRem : ∀ (i : ℕ) (u : InsRemU) (s : Space), t.insRem[i]? = some u → t.types[i]? = some s → u.template.space = some s ∧ u.rate * t.types.length = 1
  templates : (t.insRem.map InsRemU.template).Perm (activeKinds p)
  /-- a mover and a flavor changer for each space, in the order of the enumeration -/
  movers : t.movers.map (fun e => (some e.1, e.2)) = (activeKinds p).flatMap fun k => [(k.space, WUpd.mover), (k.space, WUpd.flavorChanger)]
  /-- the special updaters exist if their spaces are in use -/
  g1Hyb : t.special nameG1Hyb = some (.green 1 (.green 1))
  g2Hyb : t.special nameG2Hyb = if p.g2 ≠ 0 then some (.green 2 (.green 2)) else none
  connect : (Active p .eq1 ∧ Active p .tt → t.special nameConnect = some .connector) ∧
    (¬ (Active p .eq1 ∧ Active p .tt) → t.special nameConnect = none)
  /-- the measurements exist -/
  meas : ∀ s, t.meas s = true ↔ Active p s
  /-- flat histogram with a bin for each space and positive fractions -/
  wl : ∃ wl, t.wl = some wl ∧ wl.maxVal = t.types.length ∧ ∀ i, i ≤ t.types.length → 0 < wl.target i
  /-- weights: 1 for the partition function, for the others the same positive number in both tables -/
  weight_len : t.weight.length = t.types.length + 1
  weight_z : t.weight[0]? = some 1
  weight : ∀ i s, t.types[i]? = some s → ∃ q, t.weight[i + 1]? = some q ∧ t.wmap s = some q ∧ (10 ^ 51 : ℝ)⁻¹ ≤ q ∧ q ≤ 10 ^ 51
  steps_len : t.numSteps.length = t.types.length + 1
  visited_len : t.visited.length = t.types.length + 1

/-- A space in which the simulation can be. -/
def InSpaces (p : WormParams) (s : Space) : Prop := s = .z ∨ Active p s

/-! ### Creation -/

theorem atInt_nat {α : Type} (l : List α) (i : ℕ) : atInt l (i : ℤ) = l[i]? := by
  simp [atInt]

/-- The spaces in the order of their registration. -/
def regTypes (g2 tt eq1 eq2 : Bool) : List Space :=
  [.g1] ++ (if g2 then [.g2] else []) ++ (if tt then [.tt] else []) ++ (if eq1 then [.eq1] else []) ++ (if eq2 then [.eq2] else [])

theorem reg_types (g2 tt eq1 eq2 : Bool) : (registerSpaces g2 tt eq1 eq2).types = regTypes g2 tt eq1 eq2 := by
  revert g2 tt eq1 eq2; decide

theorem reg_templates (g2 tt eq1 eq2 : Bool) :
    ((registerSpaces g2 tt eq1 eq2).insRem.map fun u => u.template.space) = (regTypes g2 tt eq1 eq2).map some := by
  revert g2 tt eq1 eq2; decide

def bkinds (g2 tt eq1 eq2 : Bool) : List WormKind :=
  [.green 1] ++ (if g2 then [.green 2] else []) ++ (if eq1 then [.equalTime 1] else []) ++ (if eq2 then [.equalTime 2] else []) ++
    (if tt then [.corr 2] else [])

theorem reg_perm (g2 tt eq1 eq2 : Bool) :
    ((registerSpaces g2 tt eq1 eq2).insRem.map InsRemU.template).Perm (bkinds g2 tt eq1 eq2) := by
  revert g2 tt eq1 eq2; decide

theorem reg_movers (g2 tt eq1 eq2 : Bool) : (registerSpaces g2 tt eq1 eq2).movers.map (fun e => (some e.1, e.2)) =
    (bkinds g2 tt eq1 eq2).flatMap fun k => [(k.space, WUpd.mover), (k.space, WUpd.flavorChanger)] := by
  revert g2 tt eq1 eq2; decide

theorem reg_meas (g2 tt eq1 eq2 : Bool) (s : Space) : (registerSpaces g2 tt eq1 eq2).meas s = decide (s ∈ regTypes g2 tt eq1 eq2) := by
  revert g2 tt eq1 eq2; cases s <;> decide

theorem reg_special (g2 tt eq1 eq2 : Bool) : (registerSpaces g2 tt eq1 eq2).special nameG1Hyb = some (.green 1 (.green 1)) ∧
    (registerSpaces g2 tt eq1 eq2).special nameG2Hyb = (if g2 then some (.green 2 (.green 2)) else none) ∧
    (registerSpaces g2 tt eq1 eq2).special nameConnect = if eq1 && tt then some .connector else none := by
  cases g2 <;> cases tt <;> cases eq1 <;> cases eq2 <;> exact ⟨rfl, rfl, rfl⟩

theorem active_iff (p : WormParams) (s : Space) :
    s ∈ regTypes (p.g2 != 0) (p.tt != 0) (p.eq1 != 0) (p.eq2 != 0) ↔ Active p s := by
  unfold regTypes
  by_cases h1 : p.g2 = 0 <;> by_cases h2 : p.tt = 0 <;> by_cases h3 : p.eq1 = 0 <;> by_cases h4 : p.eq2 = 0 <;>
    cases s <;> simp [Active, h1, h2, h3, h4]

theorem bkinds_eq (p : WormParams) : bkinds (p.g2 != 0) (p.tt != 0) (p.eq1 != 0) (p.eq2 != 0) = activeKinds p := by
  simp [bkinds, activeKinds, bne_iff_ne]

theorem reg_nodup (g2 tt eq1 eq2 : Bool) : (regTypes g2 tt eq1 eq2).Nodup := by
  revert g2 tt eq1 eq2; decide

theorem foldl_update (l : List Space) (m : Space → Option ℝ) (s : Space) (h : s ∈ l) :
    l.foldl (fun m s => Function.update m s (some 1)) m s = some 1 := by
  have key : ∀ (l : List Space) (m : Space → Option ℝ), m s = some 1 → l.foldl (fun m s => Function.update m s (some 1)) m s = some 1 := by
    intro l
    induction l with
    | nil => exact fun m h => h
    | cons a l ih =>
      intro m h
      refine ih _ ?_
      show Function.update m a (some 1) s = some 1
      by_cases e : s = a
      · rw [e, Function.update_self]
      · rw [Function.update_of_ne e, h]
  induction l generalizing m with
  | nil => simp at h
  | cons a l ih =>
    rcases List.mem_cons.1 h with rfl | h
    · exact key l (Function.update m s (some 1)) (Function.update_self _ _ _)
    · exact ih _ h

/-- **C72.**  Whatever is switched on, the tables made by `create_worm_updaters` are complete and consistent; all weights are 1, nothing
is counted yet. -/
theorem C72_tables (p : WormParams) : ∃ t, createWormUpdaters p = some t ∧ TablesOK p t ∧
    (∀ i, i ≤ t.types.length → t.weight[i]? = some 1) ∧ (∀ i, i ≤ t.types.length → t.numSteps[i]? = some 0) ∧
    (∀ i, i ≤ t.types.length → t.visited[i]? = some false) ∧ ∃ wl, t.wl = some wl ∧ wl.done = false := by
  have hT := reg_types (p.g2 != 0) (p.tt != 0) (p.eq1 != 0) (p.eq2 != 0)
  have hR := reg_templates (p.g2 != 0) (p.tt != 0) (p.eq1 != 0) (p.eq2 != 0)
  have hP := reg_perm (p.g2 != 0) (p.tt != 0) (p.eq1 != 0) (p.eq2 != 0)
  have hM := reg_movers (p.g2 != 0) (p.tt != 0) (p.eq1 != 0) (p.eq2 != 0)
  have hS := reg_special (p.g2 != 0) (p.tt != 0) (p.eq1 != 0) (p.eq2 != 0)
  have hme := reg_meas (p.g2 != 0) (p.tt != 0) (p.eq1 != 0) (p.eq2 != 0)
  have hA := active_iff p
  have hN := reg_nodup (p.g2 != 0) (p.tt != 0) (p.eq1 != 0) (p.eq2 != 0)
  rw [bkinds_eq] at hP hM
  have hpos : 0 < (regTypes (p.g2 != 0) (p.tt != 0) (p.eq1 != 0) (p.eq2 != 0)).length := by simp [regTypes]
  unfold createWormUpdaters
  generalize registerSpaces (p.g2 != 0) (p.tt != 0) (p.eq1 != 0) (p.eq2 != 0) = r at *
  have hA' : ∀ s, s ∈ r.types ↔ Active p s := fun s => by rw [hT]; exact hA s
  rw [← hT] at hR hpos hN
  have hme' : ∀ s, r.meas s = true ↔ Active p s := fun s => by rw [hme, decide_eq_true_iff]; exact hA s
  have hlen : r.insRem.length = r.types.length := by have := congrArg List.length hR; simpa using this
  have hfr : (targetFractions r.types).length = r.types.length + 1 := by simp [targetFractions]
  have key : finishTables r = some
      { types := r.types, movers := r.movers,
        insRem := r.insRem.map fun u => { template := u.template, rate := 1.0 / (r.types.length : ℝ) },
        special := r.special, meas := r.meas,
        wl := some (WL.init r.types.length fun i => (targetFractions r.types).getD i 0),
        weight := List.replicate (r.types.length + 1) 1,
        wmap := r.types.foldl (fun m s => Function.update m s (some 1)) r.wmap,
        numSteps := List.replicate (r.types.length + 1) 0, visited := List.replicate (r.types.length + 1) false } := by
    simp only [finishTables, hpos, hfr, if_true, ne_eq, not_true_eq_false, if_false, Option.map_some]
  refine ⟨_, key,
    ⟨hA', hN, ?_, ?_, ?_, ?_, hS.1, ?_, ?_, hme', ?_, ?_, ?_, ?_, ?_, ?_⟩, ?_, ?_, ?_, ?_⟩
  · simpa using hlen
  · intro i u s hu hs
    simp only [List.getElem?_map, Option.map_eq_some_iff] at hu
    obtain ⟨v, hv, rfl⟩ := hu
    have := congrArg (fun l => l[i]?) hR
    simp only [List.getElem?_map, hv, hs, Option.map_some, Option.some.injEq] at this
    refine ⟨this, ?_⟩
    have h0 : (r.types.length : ℝ) ≠ 0 := by exact_mod_cast hpos.ne'
    show 1.0 / (r.types.length : ℝ) * r.types.length = 1
    field_simp
    norm_num
  · simpa [List.map_map, Function.comp_def] using hP
  · exact hM
  · show r.special nameG2Hyb = _
    rw [hS.2.1]
    simp [bne_iff_ne]
  · show (Active p .eq1 ∧ Active p .tt → r.special nameConnect = _) ∧ (_ → r.special nameConnect = _)
    rw [hS.2.2]
    unfold Active
    by_cases h2 : p.tt = 0 <;> by_cases h3 : p.eq1 = 0 <;> simp [h2, h3]
  · refine ⟨_, rfl, rfl, fun i hi => ?_⟩
    show 0 < (targetFractions r.types).getD i 0
    rw [List.getD_eq_getElem _ _ (by rw [hfr]; exact Nat.lt_succ_of_le hi)]
    have hm := List.getElem_mem (l := targetFractions r.types) (n := i) (by rw [hfr]; exact Nat.lt_succ_of_le hi)
    have : ∀ q ∈ targetFractions r.types, (0 : ℝ) < q := by
      intro q hq
      unfold targetFractions at hq
      rcases List.mem_cons.1 hq with rfl | hq
      · exact one_pos
      · obtain ⟨s, -, rfl⟩ := List.mem_map.1 hq
        split_ifs <;> norm_num
    exact this _ hm
  · simp
  · simp
  · intro i s hs
    have hi : i < r.types.length := (List.getElem?_eq_some_iff.1 hs).1
    refine ⟨1, ?_, ?_, ?_, ?_⟩
    · show (List.replicate (r.types.length + 1) (1 : ℝ))[i + 1]? = some 1
      rw [List.getElem?_replicate, if_pos (by omega)]
    · exact foldl_update _ _ _ (List.mem_of_getElem? hs)
    · norm_num
    · norm_num
  · simp
  · simp
  · intro i hi
    show (List.replicate (r.types.length + 1) (1 : ℝ))[i]? = some 1
    rw [List.getElem?_replicate, if_pos (Nat.lt_succ_of_le hi)]
  · intro i hi
    show (List.replicate (r.types.length + 1) (0 : ℝ))[i]? = some 0
    rw [List.getElem?_replicate, if_pos (Nat.lt_succ_of_le hi)]
  · intro i hi
    show (List.replicate (r.types.length + 1) false)[i]? = some false
    rw [List.getElem?_replicate, if_pos (Nat.lt_succ_of_le hi)]
  · exact ⟨_, rfl, rfl⟩

/-! ### Positions -/

/-- **C72.**  The position of a space in use is that of its updater and of its weight; the space is found again at its position. -/
theorem C72_position {p : WormParams} {t : WormTables} (h : TablesOK p t) {s : Space} (hs : Active p s) :
    ∃ i : ℕ, i < t.types.length ∧ t.types[i]? = some s ∧ t.position s = (i : ℤ) + 1 ∧
      (∀ s', InSpaces p s' → t.position s' = t.position s → s' = s) := by
  have hm := (h.types s).2 hs
  have hz : ∀ s', Active p s' → s' ≠ .z := by rintro s' h rfl; exact h
  have hpos : ∀ s', Active p s' → t.position s' = (t.types.idxOf s' : ℤ) + 1 := fun s' h' => by
    unfold WormTables.position
    rw [if_neg (hz s' h'), if_pos ((h.types s').2 h')]
  refine ⟨t.types.idxOf s, List.idxOf_lt_length_of_mem hm, ?_, hpos s hs, ?_⟩
  · rw [List.getElem?_eq_getElem (List.idxOf_lt_length_of_mem hm), List.getElem_idxOf]
  · rintro s' (rfl | h') e
    · rw [hpos s hs] at e
      simp only [WormTables.position, if_true] at e
      omega
    · rw [hpos s hs, hpos s' h'] at e
      exact (List.idxOf_inj ((h.types s').2 h')).1 (by omega)

theorem position_z (t : WormTables) : t.position .z = 0 := rfl

/-! ### Weights -/

theorem weightRatio_bounds (s : WL) {a b : ℕ} (ha : a ≤ s.maxVal) (hb : b ≤ s.maxVal) :
    ∃ q, s.weightRatio a b = some q ∧ (10 ^ 51 : ℝ)⁻¹ ≤ q ∧ q ≤ 10 ^ 51 := by
  rw [weightRatio_of_le s ha hb]
  refine ⟨_, rfl, ?_⟩
  have hexp : Real.exp maxLogVal ≤ 10 ^ 51 := by
    have h1 : Real.exp maxLogVal ≤ Real.exp 1 ^ 116 := by
      rw [← Real.exp_nat_mul]
      exact Real.exp_le_exp.2 (by norm_num [maxLogVal])
    have h2 : Real.exp 1 ^ 116 ≤ (2.72 : ℝ) ^ 116 :=
      pow_le_pow_left₀ (Real.exp_pos 1).le (by have := Real.exp_one_lt_d9; linarith) _
    have h3 : (2.72 : ℝ) ^ 116 ≤ 10 ^ 51 := by norm_num
    linarith
  split_ifs with h1 h2
  · constructor <;> norm_num
  · constructor <;> norm_num
  · rw [not_lt] at h1 h2
    refine ⟨?_, (Real.exp_le_exp.2 h1).trans hexp⟩
    have h4 : Real.exp (-maxLogVal) ≤ Real.exp (s.logF b - s.logF a) := Real.exp_le_exp.2 h2
    refine le_trans ?_ h4
    rw [Real.exp_neg]
    exact inv_anti₀ (Real.exp_pos _) hexp

theorem applyWeights_ok {p : WormParams} {t : WormTables} (h : TablesOK p t) (wl : WL) (hmax : wl.maxVal = t.types.length)
    (hpos : ∀ i, i ≤ t.types.length → 0 < wl.target i) :
    ∃ w' m', t.applyWeights wl = some { t with wl := some wl, weight := w', wmap := m' } ∧
      TablesOK p { t with wl := some wl, weight := w', wmap := m' } ∧
      ∀ i s, t.types[i]? = some s → wl.weightRatio (i + 1) 0 = m' s := by
  have key : ∀ k, k ≤ t.types.length → ∃ w' m', (List.range k).foldl
      (fun t? w => t?.bind fun t => (wl.weightRatio (w + 1) 0).bind fun q => (t.types[w]?).map fun s =>
        { t with weight := t.weight.set (w + 1) q, wmap := Function.update t.wmap s (some q) })
      (some { t with wl := some wl, weight := t.weight.set 0 1 }) = some { t with wl := some wl, weight := w', wmap := m' } ∧
      w'.length = t.types.length + 1 ∧ w'[0]? = some 1 ∧
      ∀ i s, i < k → t.types[i]? = some s → ∃ q, wl.weightRatio (i + 1) 0 = some q ∧ w'[i + 1]? = some q ∧ m' s = some q ∧
        (10 ^ 51 : ℝ)⁻¹ ≤ q ∧ q ≤ 10 ^ 51 := by
    intro k
    induction k with
    | zero =>
      intro _
      refine ⟨t.weight.set 0 1, t.wmap, rfl, by rw [List.length_set, h.weight_len], ?_, fun i s hi => absurd hi (Nat.not_lt_zero i)⟩
      rw [List.getElem?_set_self (by rw [h.weight_len]; omega)]
    | succ k ih =>
      intro hk
      obtain ⟨w', m', e, hl, h0, hall⟩ := ih (by omega)
      obtain ⟨q, hq, hq1, hq2⟩ := weightRatio_bounds wl (a := k + 1) (b := 0) (by rw [hmax]; exact hk) (Nat.zero_le _)
      have hk' : k < t.types.length := hk
      refine ⟨w'.set (k + 1) q, Function.update m' t.types[k] (some q), ?_, by rw [List.length_set, hl], ?_, ?_⟩
      · rw [List.range_succ, List.foldl_append, e]
        simp only [List.foldl_cons, List.foldl_nil, Option.bind_some, hq, List.getElem?_eq_getElem hk', Option.map_some]
      · rw [List.getElem?_set_ne (by omega), h0]
      · intro i s hi hs
        have hi' : i < t.types.length := by omega
        rcases Nat.lt_succ_iff_lt_or_eq.1 hi with hlt | rfl
        · obtain ⟨q', a1, a2, a3, a4⟩ := hall i s hlt hs
          refine ⟨q', a1, by rw [List.getElem?_set_ne (by omega), a2], ?_, a4⟩
          rw [Function.update_of_ne, a3]
          rw [List.getElem?_eq_getElem hi', Option.some.injEq] at hs
          rw [← hs]
          intro he
          have := (h.nodup.getElem_inj_iff).1 he
          omega
        · refine ⟨q, hq, by rw [List.getElem?_set_self (by rw [hl]; omega)], ?_, hq1, hq2⟩
          rw [List.getElem?_eq_getElem hk', Option.some.injEq] at hs
          rw [← hs, Function.update_self]
  obtain ⟨w', m', e, hl, h0, hall⟩ := key _ le_rfl
  refine ⟨w', m', e, ?_, fun i s hs => ?_⟩
  · refine ⟨h.types, h.nodup, h.insRem_len, h.insRem, h.templates, h.movers, h.g1Hyb, h.g2Hyb, h.connect, h.meas,
      ⟨wl, rfl, hmax, hpos⟩, hl, h0, fun i s hs => ?_, h.steps_len, h.visited_len⟩
    obtain ⟨q, a1, a2, a3, a4⟩ := hall i s (List.getElem?_eq_some_iff.1 hs).1 hs
    exact ⟨q, a2, a3, a4⟩
  · obtain ⟨q, a1, a2, a3, a4⟩ := hall i s (List.getElem?_eq_some_iff.1 hs).1 hs
    rw [a1, a3]

/-! ### Histories -/

/-- What the driver does with the tables. -/
inductive TOp
  /-- `adjust_worm_space_weight` -/
  | adjust (thermalized : Bool) (s : Space)
  /-- `prepare_for_measurement`, with the mean of the histograms over the processes -/
  | prepare (f : ℕ → ℝ)
  /-- `measure_every_step` -/
  | step (s : Space)
  /-- a space is visited at a position of the window -/
  | visit (thermalized : Bool) (s : Space)
  /-- `measure` -/
  | measure

/-- One operation. -/
noncomputable def WormTables.exec (t : WormTables) : TOp → Option WormTables
  | .adjust th s => t.adjust th s
  | .prepare f => t.prepare f
  | .step s => t.everyStep s
  | .visit th s => t.visit th s
  | .measure => some t.measure.2

/-- A sequence of operations. -/
noncomputable def runTables (t : WormTables) (ops : List TOp) : Option WormTables :=
  ops.foldl (fun t? op => t?.bind fun t => t.exec op) (some t)

/-- The space mentioned in an operation. -/
def TOp.space : TOp → Space
  | .adjust _ s => s
  | .step s => s
  | .visit _ s => s
  | _ => .z

/-- The operation is `prepare_for_measurement`. -/
def TOp.isPrepare : TOp → Bool
  | .prepare _ => true
  | _ => false

/-- **Specification.**  Number of steps in the space since the last call of `measure`. -/
def stepsSince (s : Space) (ops : List TOp) : ℕ :=
  ops.foldl (fun c op => match op with
    | .step s' => if s' = s then c + 1 else c
    | .measure => 0
    | _ => c) 0

/-- **Specification.**  The space was visited after thermalization. -/
def wasVisited (s : Space) (ops : List TOp) : Prop := TOp.visit true s ∈ ops

theorem wl_adjust_ok (wl : WL) (v : ℕ) (hv : v ≤ wl.maxVal) : ∃ wl', wl.adjust v = some wl' ∧ wl'.maxVal = wl.maxVal ∧
    wl'.target = wl.target ∧ wl'.done = wl.done := by
  classical
  have h1 : ∃ w1, wl.measure v = some w1 ∧ w1.maxVal = wl.maxVal ∧ w1.target = wl.target ∧ w1.done = wl.done := by
    unfold WL.measure
    by_cases hd : wl.done = true
    · rw [if_pos hd]; exact ⟨wl, rfl, rfl, rfl, rfl⟩
    · rw [if_neg hd, if_neg (not_lt.2 hv)]; exact ⟨_, rfl, rfl, rfl, rfl⟩
  obtain ⟨w1, e, a1, a2, a3⟩ := h1
  have h2 : w1.updateLambda.maxVal = w1.maxVal ∧ w1.updateLambda.target = w1.target ∧ w1.updateLambda.done = w1.done := by
    unfold WL.updateLambda
    split_ifs
    · exact ⟨rfl, rfl, rfl⟩
    · exact ⟨rfl, rfl, rfl⟩
  refine ⟨if w1.flatEnough then w1.updateLambda else w1, ?_, ?_⟩
  · unfold WL.adjust
    rw [e]
    rfl
  · split_ifs
    · exact ⟨h2.1.trans a1, h2.2.1.trans a2, h2.2.2.trans a3⟩
    · exact ⟨a1, a2, a3⟩

/-- Where a space is found. -/
theorem position_nat {p : WormParams} {t : WormTables} (h : TablesOK p t) {s : Space} (hs : InSpaces p s) :
    ∃ i : ℕ, t.position s = (i : ℤ) ∧ i ≤ t.types.length := by
  rcases hs with rfl | hs
  · exact ⟨0, rfl, Nat.zero_le _⟩
  · obtain ⟨i, hi, -, e, -⟩ := C72_position h hs
    exact ⟨i + 1, by rw [e]; push_cast; rfl, hi⟩

theorem position_inj {p : WormParams} {t : WormTables} (h : TablesOK p t) {s s' : Space} (hs : InSpaces p s) (hs' : InSpaces p s')
    (e : t.position s = t.position s') : s = s' := by
  rcases hs' with rfl | h'
  · rcases hs with rfl | hs
    · rfl
    · exact ((C72_position h hs).choose_spec.2.2.2 .z (Or.inl rfl) e.symm).symm
  · exact (C72_position h h').choose_spec.2.2.2 s hs e

/-- The state of the tables after a history. -/
structure HistOK (p : WormParams) (types : List Space) (ops : List TOp) (t : WormTables) : Prop where
  ok : TablesOK p t
  types : t.types = types
  done : ∀ wl, t.wl = some wl → wl.done = true → ∃ op ∈ ops, op.isPrepare = true
  steps : ∀ s, InSpaces p s → ∀ i : ℕ, t.position s = (i : ℤ) → t.numSteps[i]? = some (stepsSince s ops : ℝ)
  visited : ∀ s, InSpaces p s → ∀ i : ℕ, t.position s = (i : ℤ) → ∃ b, t.visited[i]? = some b ∧ (b = true ↔ wasVisited s ops)

theorem steps_append (s : Space) (ops : List TOp) (op : TOp) : stepsSince s (ops ++ [op]) = match op with
    | .step s' => if s' = s then stepsSince s ops + 1 else stepsSince s ops
    | .measure => 0
    | _ => stepsSince s ops := by
  unfold stepsSince
  rw [List.foldl_append]
  rfl

theorem hist_step {p : WormParams} {types : List Space} {ops : List TOp} {t : WormTables} (h : HistOK p types ops t) (op : TOp)
    (hs : InSpaces p op.space) (hp : op.isPrepare = true → ∀ o ∈ ops, o.isPrepare = false) :
    ∃ t', t.exec op = some t' ∧ HistOK p types (ops ++ [op]) t' := by
  obtain ⟨wl, hwl, hmax, hpos⟩ := h.ok.wl
  have hstepsAppend := fun s => steps_append s ops op
  have hdoneApp : (∃ o ∈ ops, o.isPrepare = true) → ∃ o ∈ ops ++ [op], o.isPrepare = true :=
    fun ⟨o, ho, e⟩ => ⟨o, List.mem_append_left _ ho, e⟩
  cases op with
  | adjust th s =>
    have hst : ∀ s', stepsSince s' (ops ++ [.adjust th s]) = stepsSince s' ops := hstepsAppend
    have hvi : ∀ s', wasVisited s' (ops ++ [.adjust th s]) ↔ wasVisited s' ops := fun s' => by simp [wasVisited]
    have same : HistOK p types (ops ++ [.adjust th s]) t :=
      ⟨h.ok, h.types, fun w e hd => hdoneApp (h.done w e hd), fun s' h1 i h2 => by rw [hst]; exact h.steps s' h1 i h2,
        fun s' h1 i h2 => by rw [hvi]; exact h.visited s' h1 i h2⟩
    show ∃ t', t.adjust th s = some t' ∧ _
    unfold WormTables.adjust
    rw [hwl]
    cases th with
    | true => exact ⟨t, rfl, same⟩
    | false =>
      obtain ⟨i, hi, hle⟩ := position_nat h.ok (s := s) hs
      obtain ⟨wl', e', m1, m2, m3⟩ := wl_adjust_ok wl i (by rw [hmax]; exact hle)
      obtain ⟨w', m', e, hok, -⟩ := applyWeights_ok h.ok wl' (by rw [m1, hmax]) (fun j hj => by rw [m2]; exact hpos j hj)
      refine ⟨_, ?_, ⟨hok, h.types, ?_, fun s' h1 j h2 => by rw [hst]; exact h.steps s' h1 j h2,
        fun s' h1 j h2 => by rw [hvi]; exact h.visited s' h1 j h2⟩⟩
      · simp only [hi]
        rw [if_neg (by simp), if_neg (by omega), Int.toNat_natCast, e', Option.bind_some, e]
      · intro w hw hd
        have := Option.some.inj hw
        subst this
        exact hdoneApp (h.done wl hwl (by rw [← m3]; exact hd))
  | prepare f =>
    have hst : ∀ s', stepsSince s' (ops ++ [.prepare f]) = stepsSince s' ops := hstepsAppend
    have hvi : ∀ s', wasVisited s' (ops ++ [.prepare f]) ↔ wasVisited s' ops := fun s' => by simp [wasVisited]
    have hnd : ¬ wl.done = true := by
      intro hd
      obtain ⟨o, ho, e⟩ := h.done wl hwl hd
      rw [hp rfl o ho] at e
      exact Bool.noConfusion e
    obtain ⟨w', m', e, hok, -⟩ := applyWeights_ok h.ok { wl with logF := f } hmax hpos
    refine ⟨{ t with wl := some (WL.finish { wl with logF := f }), weight := w', wmap := m' }, ?_, ⟨?_, h.types, ?_,
      fun s' h1 j h2 => by rw [hst]; exact h.steps s' h1 j h2, fun s' h1 j h2 => by rw [hvi]; exact h.visited s' h1 j h2⟩⟩
    · show t.prepare f = _
      unfold WormTables.prepare
      rw [hwl]
      simp only
      rw [if_neg hnd, e]
      rfl
    · exact ⟨hok.types, hok.nodup, hok.insRem_len, hok.insRem, hok.templates, hok.movers, hok.g1Hyb, hok.g2Hyb, hok.connect, hok.meas,
        ⟨_, rfl, hmax, hpos⟩, hok.weight_len, hok.weight_z, hok.weight, hok.steps_len, hok.visited_len⟩
    · exact fun _ _ _ => ⟨.prepare f, by simp, rfl⟩
  | step s =>
    have hvi : ∀ s', wasVisited s' (ops ++ [.step s]) ↔ wasVisited s' ops := fun s' => by simp [wasVisited]
    obtain ⟨i, hi, hle⟩ := position_nat h.ok (s := s) hs
    have hne : s ≠ .unknown := by
      rintro rfl
      rcases hs with hs | hs
      · exact Space.noConfusion hs
      · exact hs
    have hme : ¬ (s ≠ .z ∧ t.meas s = false) := by
      rintro ⟨h1, h2⟩
      rcases hs with hs | hs
      · exact h1 hs
      · rw [(h.ok.meas s).2 hs] at h2
        exact Bool.noConfusion h2
    have hval := h.steps s hs i hi
    have hlt : i < t.numSteps.length := by rw [h.ok.steps_len]; omega
    refine ⟨{ t with numSteps := t.numSteps.set i (stepsSince s ops + 1) }, ?_, ⟨?_, h.types, fun w e hd => hdoneApp (h.done w e hd), ?_,
      fun s' h1 j h2 => by rw [hvi]; exact h.visited s' h1 j h2⟩⟩
    · show t.everyStep s = _
      unfold WormTables.everyStep
      rw [if_neg hne, if_neg hme, hi, atInt_nat, hval]
      rfl
    · exact ⟨h.ok.types, h.ok.nodup, h.ok.insRem_len, h.ok.insRem, h.ok.templates, h.ok.movers, h.ok.g1Hyb, h.ok.g2Hyb, h.ok.connect,
        h.ok.meas, h.ok.wl, h.ok.weight_len, h.ok.weight_z, h.ok.weight, by rw [List.length_set]; exact h.ok.steps_len, h.ok.visited_len⟩
    · intro s' hs' j hj
      have hj' : t.position s' = (j : ℤ) := hj
      rw [show stepsSince s' (ops ++ [.step s]) = if s = s' then stepsSince s' ops + 1 else stepsSince s' ops from hstepsAppend s']
      show (t.numSteps.set i _)[j]? = _
      by_cases e : s = s'
      · subst e
        have : i = j := by rw [hi] at hj'; exact_mod_cast hj'
        subst this
        rw [List.getElem?_set_self hlt, if_pos rfl]
        push_cast
        rfl
      · rw [if_neg e, List.getElem?_set_ne]
        · exact h.steps s' hs' j hj'
        · rintro rfl
          exact e (position_inj h.ok hs hs' (hi.trans hj'.symm))
  | visit th s =>
    have hst : ∀ s', stepsSince s' (ops ++ [.visit th s]) = stepsSince s' ops := hstepsAppend
    cases th with
    | false =>
      have hvi : ∀ s', wasVisited s' (ops ++ [.visit false s]) ↔ wasVisited s' ops := fun s' => by simp [wasVisited]
      exact ⟨t, rfl, ⟨h.ok, h.types, fun w e hd => hdoneApp (h.done w e hd), fun s' h1 i h2 => by rw [hst]; exact h.steps s' h1 i h2,
        fun s' h1 i h2 => by rw [hvi]; exact h.visited s' h1 i h2⟩⟩
    | true =>
      obtain ⟨i, hi, hle⟩ := position_nat h.ok (s := s) hs
      have hlt : i < t.visited.length := by rw [h.ok.visited_len]; omega
      refine ⟨{ t with visited := t.visited.set i true }, ?_, ⟨?_, h.types, fun w e hd => hdoneApp (h.done w e hd),
        fun s' h1 j h2 => by rw [hst]; exact h.steps s' h1 j h2, ?_⟩⟩
      · show t.visit true s = _
        unfold WormTables.visit
        rw [if_pos rfl, hi, atInt_nat, List.getElem?_eq_getElem hlt]
        rfl
      · exact ⟨h.ok.types, h.ok.nodup, h.ok.insRem_len, h.ok.insRem, h.ok.templates, h.ok.movers, h.ok.g1Hyb, h.ok.g2Hyb, h.ok.connect,
          h.ok.meas, h.ok.wl, h.ok.weight_len, h.ok.weight_z, h.ok.weight, h.ok.steps_len, by rw [List.length_set]; exact h.ok.visited_len⟩
      · intro s' hs' j hj
        have hj' : t.position s' = (j : ℤ) := hj
        show ∃ b, (t.visited.set i true)[j]? = some b ∧ _
        by_cases e : s = s'
        · subst e
          have : i = j := by rw [hi] at hj'; exact_mod_cast hj'
          subst this
          exact ⟨true, by rw [List.getElem?_set_self hlt], by simp [wasVisited]⟩
        · rw [List.getElem?_set_ne]
          · obtain ⟨b, h1, h2⟩ := h.visited s' hs' j hj'
            refine ⟨b, h1, h2.trans ?_⟩
            simp [wasVisited, Ne.symm e]
          · rintro rfl
            exact e (position_inj h.ok hs hs' (hi.trans hj'.symm))
  | measure =>
    have hst : ∀ s', stepsSince s' (ops ++ [.measure]) = 0 := hstepsAppend
    have hvi : ∀ s', wasVisited s' (ops ++ [.measure]) ↔ wasVisited s' ops := fun s' => by simp [wasVisited]
    refine ⟨_, rfl, ⟨?_, h.types, fun w e hd => hdoneApp (h.done w e hd), ?_, fun s' h1 j h2 => by rw [hvi]; exact h.visited s' h1 j h2⟩⟩
    · exact ⟨h.ok.types, h.ok.nodup, h.ok.insRem_len, h.ok.insRem, h.ok.templates, h.ok.movers, h.ok.g1Hyb, h.ok.g2Hyb, h.ok.connect,
        h.ok.meas, h.ok.wl, h.ok.weight_len, h.ok.weight_z, h.ok.weight, by
          show (t.numSteps.map _).length = _
          rw [List.length_map]; exact h.ok.steps_len, h.ok.visited_len⟩
    · intro s' hs' j hj
      rw [hst]
      show (t.numSteps.map fun _ => (0 : ℝ))[j]? = _
      rw [List.getElem?_map, h.steps s' hs' j hj]
      simp

theorem hist_run {p : WormParams} {types : List Space} (ops : List TOp) : ∀ (done : List TOp) (t : WormTables), HistOK p types done t →
    (∀ op ∈ ops, InSpaces p op.space) → ((done ++ ops).filter TOp.isPrepare).length ≤ 1 →
    ∃ t', runTables t ops = some t' ∧ HistOK p types (done ++ ops) t' := by
  induction ops with
  | nil => intro done t h _ _; exact ⟨t, rfl, by rw [List.append_nil]; exact h⟩
  | cons op ops ih =>
    intro done t h hs hp
    have hp1 : op.isPrepare = true → ∀ o ∈ done, o.isPrepare = false := by
      intro h1 o ho
      by_contra h2
      rw [Bool.not_eq_false] at h2
      rw [List.filter_append, List.filter_cons_of_pos h1, List.length_append, List.length_cons] at hp
      have : 0 < (done.filter TOp.isPrepare).length := List.length_pos_of_mem (List.mem_filter.2 ⟨ho, h2⟩)
      omega
    obtain ⟨t1, e1, h1⟩ := hist_step h op (hs op (by simp)) hp1
    obtain ⟨t2, e2, h2⟩ := ih (done ++ [op]) t1 h1 (fun o ho => hs o (List.mem_cons_of_mem _ ho)) (by rw [List.append_assoc]; exact hp)
    refine ⟨t2, ?_, by rw [List.append_assoc] at h2; exact h2⟩
    unfold runTables at e2 ⊢
    rw [List.foldl_cons, Option.bind_some, e1]
    exact e2

/-- **C72.**  In any history of adjustments, steps, visits and measurements in the spaces in use with at most one preparation of the
measurement, nothing fails, and the tables stay consistent: the two tables of weights agree, the steps counted for a space are those
made in it since the last measurement, and `finish_measurement` throws exactly if a space was not visited after thermalization. -/
theorem C72_history (p : WormParams) (t : WormTables) (ht : createWormUpdaters p = some t) (ops : List TOp)
    (hs : ∀ op ∈ ops, InSpaces p op.space) (hp : (ops.filter TOp.isPrepare).length ≤ 1) :
    ∃ t', runTables t ops = some t' ∧ TablesOK p t' ∧ t'.types = t.types ∧
      (∀ s, InSpaces p s → atInt t'.numSteps (t'.position s) = some (stepsSince s ops : ℝ)) ∧
      (t'.finishOK = true ↔ ∀ s, InSpaces p s → wasVisited s ops) := by
  obtain ⟨t0, e0, hok, -, hz, hv, wl0, hwl0, hd0⟩ := C72_tables p
  have : t0 = t := Option.some.inj (e0.symm.trans ht)
  subst this
  have h0 : HistOK p t0.types [] t0 := by
    refine ⟨hok, rfl, fun w e hd => ?_, fun s hs' i hi => ?_, fun s hs' i hi => ⟨false, ?_, by simp [wasVisited]⟩⟩
    · rw [hwl0] at e
      rw [← Option.some.inj e, hd0] at hd
      exact Bool.noConfusion hd
    · obtain ⟨j, hj, hle⟩ := position_nat hok hs'
      have : i = j := by rw [hi] at hj; exact_mod_cast hj
      subst this
      rw [hz i hle]
      simp [stepsSince]
    · obtain ⟨j, hj, hle⟩ := position_nat hok hs'
      have : i = j := by rw [hi] at hj; exact_mod_cast hj
      subst this
      exact hv i hle
  obtain ⟨t', e, h⟩ := hist_run ops [] t0 h0 hs hp
  rw [List.nil_append] at h
  refine ⟨t', e, h.ok, h.types, fun s hs' => ?_, ?_⟩
  · obtain ⟨i, hi, -⟩ := position_nat h.ok hs'
    rw [hi, atInt_nat, h.steps s hs' i hi]
  · unfold WormTables.finishOK
    rw [List.all_eq_true]
    constructor
    · intro hall s hs'
      obtain ⟨i, hi, -⟩ := position_nat h.ok hs'
      obtain ⟨b, hb, hiff⟩ := h.visited s hs' i hi
      exact hiff.1 (hall b (List.mem_of_getElem? hb))
    · intro hall b hb
      obtain ⟨i, hi, rfl⟩ := List.getElem_of_mem hb
      have hspace : ∃ s, InSpaces p s ∧ t'.position s = (i : ℤ) := by
        rcases i with _ | i
        · exact ⟨.z, Or.inl rfl, rfl⟩
        · rw [h.ok.visited_len] at hi
          have hi' : i < t'.types.length := by omega
          have hact := (h.ok.types _).1 (List.getElem_mem hi')
          refine ⟨t'.types[i], Or.inr hact, ?_⟩
          obtain ⟨j, hj, hj', e, -⟩ := C72_position h.ok hact
          rw [e]
          rw [List.getElem?_eq_getElem hj, Option.some.injEq] at hj'
          have := (h.ok.nodup.getElem_inj_iff).1 hj'
          omega
      obtain ⟨s, hs', hpos⟩ := hspace
      obtain ⟨b, hb', hiff⟩ := h.visited s hs' i hpos
      rw [List.getElem?_eq_getElem hi] at hb'
      rw [Option.some.inj hb']
      exact hiff.2 (hall s hs')

/-- **C72.**  After such a history `measure` records for every space in use, at its position, the steps made in it since the last
measurement (`Z_function_space_num_steps`, …) and this number divided by the weight of the space (the volume of the space), 1 for the
partition function and otherwise the weight with which the updates were accepted. -/
theorem C72_volume (p : WormParams) (t : WormTables) (ht : createWormUpdaters p = some t) (ops : List TOp)
    (hs : ∀ op ∈ ops, InSpaces p op.space) (hp : (ops.filter TOp.isPrepare).length ≤ 1) :
    ∃ t', runTables t ops = some t' ∧ ∀ s, InSpaces p s → ∃ q : ℝ, 0 < q ∧ (s = .z → q = 1) ∧ (s ≠ .z → t'.wmap s = some q) ∧
      atInt t'.measure.1.1 (t'.position s) = some (stepsSince s ops : ℝ) ∧
      atInt t'.measure.1.2 (t'.position s) = some ((stepsSince s ops : ℝ) / q) := by
  obtain ⟨t', e, hok, -, hst, -⟩ := C72_history p t ht ops hs hp
  refine ⟨t', e, fun s hs' => ?_⟩
  have hq : ∃ q : ℝ, 0 < q ∧ (s = .z → q = 1) ∧ (s ≠ .z → t'.wmap s = some q) ∧ atInt t'.weight (t'.position s) = some q := by
    rcases hs' with rfl | ha
    · exact ⟨1, one_pos, fun _ => rfl, fun h => absurd rfl h, by rw [position_z, show (0 : ℤ) = ((0 : ℕ) : ℤ) from rfl, atInt_nat, hok.weight_z]⟩
    · have hz : s ≠ .z := by rintro rfl; exact ha
      obtain ⟨i, -, hti, hpos, -⟩ := C72_position hok ha
      obtain ⟨q, h1, h2, h3, -⟩ := hok.weight i s hti
      exact ⟨q, lt_of_lt_of_le (by positivity) h3, fun h => absurd h hz, fun _ => h2, by
        rw [hpos, show ((i : ℤ) + 1) = ((i + 1 : ℕ) : ℤ) by push_cast; rfl, atInt_nat, h1]⟩
  obtain ⟨q, h1, h2, h3, h4⟩ := hq
  refine ⟨q, h1, h2, h3, hst s hs', ?_⟩
  obtain ⟨i, hi, -⟩ := position_nat hok hs'
  have h5 := hst s hs'
  rw [hi, atInt_nat] at h4 h5 ⊢
  show (List.zipWith (· / ·) t'.numSteps t'.weight)[i]? = _
  rw [List.getElem?_zipWith, h5, h4]

/-- **C72.**  Which weights: before thermalization the bin of the present space is updated and the weight of each space becomes the ratio
of its weight in the histogram (bin = position) to that of the partition function (bin 0); after thermalization nothing changes; the
preparation of the measurement does the same with the mean histogram and ends the learning. -/
theorem C72_weights {p : WormParams} {t : WormTables} (h : TablesOK p t) {wl : WL} (hwl : t.wl = some wl) :
    (∀ s, InSpaces p s → ∀ i : ℕ, t.position s = (i : ℤ) → ∃ wl' t', wl.adjust i = some wl' ∧ t.adjust false s = some t' ∧
      t'.wl = some wl' ∧ ∀ s', Active p s' → ∀ j : ℕ, t.position s' = (j : ℤ) → (t'.wmap s').isSome ∧ t'.wmap s' = wl'.weightRatio j 0) ∧
    (∀ s, t.adjust true s = some t) ∧
    (wl.done = false → ∀ f, ∃ wl' t', t.prepare f = some t' ∧ t'.wl = some wl' ∧ wl'.done = true ∧
      ∀ s', Active p s' → ∀ j : ℕ, t.position s' = (j : ℤ) →
        (t'.wmap s').isSome ∧ t'.wmap s' = WL.weightRatio { wl with logF := f } j 0) := by
  obtain ⟨wl0, hwl0, hmax, hpos⟩ := h.wl
  have : wl0 = wl := Option.some.inj (hwl0.symm.trans hwl)
  subst this
  have read : ∀ (wl1 : WL) (m' : Space → Option ℝ), (∀ (i : ℕ) (s : Space), t.types[i]? = some s → wl1.weightRatio (i + 1) 0 = m' s) →
      (∀ (i : ℕ) (s : Space), t.types[i]? = some s → (m' s).isSome) → ∀ s', Active p s' → ∀ j : ℕ, t.position s' = (j : ℤ) →
        (m' s').isSome ∧ m' s' = wl1.weightRatio j 0 := by
    intro wl1 m' hr hs s' ha j hj
    obtain ⟨i, -, hi, e, -⟩ := C72_position h ha
    have : j = i + 1 := by rw [hj] at e; omega
    rw [this]
    exact ⟨hs i s' hi, (hr i s' hi).symm⟩
  refine ⟨fun s hs i hi => ?_, fun s => ?_, fun hd f => ?_⟩
  · obtain ⟨i', hi', hle⟩ := position_nat h hs
    have : i = i' := by rw [hi] at hi'; exact_mod_cast hi'
    subst this
    obtain ⟨wl', e', m1, m2, -⟩ := wl_adjust_ok wl0 i (by rw [hmax]; exact hle)
    obtain ⟨w', m', e, hok, hr⟩ := applyWeights_ok h wl' (by rw [m1, hmax]) (fun j hj => by rw [m2]; exact hpos j hj)
    refine ⟨wl', { t with wl := some wl', weight := w', wmap := m' }, e', ?_, rfl, read wl' m' hr fun j s' hj => ?_⟩
    · unfold WormTables.adjust
      rw [hwl]
      simp only [hi]
      rw [if_neg (by simp), if_neg (by omega), Int.toNat_natCast, e', Option.bind_some, e]
    · obtain ⟨q, -, hq, -⟩ := hok.weight j s' hj
      rw [show m' s' = some q from hq]
      rfl
  · unfold WormTables.adjust
    rw [hwl]
    rfl
  · obtain ⟨w', m', e, hok, hr⟩ := applyWeights_ok h { wl0 with logF := f } hmax hpos
    refine ⟨WL.finish { wl0 with logF := f }, { t with wl := some (WL.finish { wl0 with logF := f }), weight := w', wmap := m' }, ?_, rfl, rfl,
      read _ m' hr fun j s' hj => ?_⟩
    · unfold WormTables.prepare
      rw [hwl]
      simp only
      rw [if_neg (by rw [hd]; simp), e]
      rfl
    · obtain ⟨q, -, hq, -⟩ := hok.weight j s' hj
      rw [show m' s' = some q from hq]
      rfl

/-! ### The calls -/

theorem space_inj {k k' : WormKind} {s : Space} (h : k.space = some s) (h' : k'.space = some s) : k = k' := by
  cases k <;> cases k' <;> simp only [WormKind.space] at h h' <;> split_ifs at h h' <;> simp_all <;> subst_vars <;> simp_all

theorem active_kinds {p : WormParams} {k : WormKind} (hk : k ∈ activeKinds p) : ∃ s, k.space = some s ∧ Active p s := by
  unfold activeKinds at hk
  simp only [List.mem_append, List.mem_singleton] at hk
  rcases hk with (((rfl | hk) | hk) | hk) | hk
  · exact ⟨.g1, rfl, trivial⟩
  all_goals
    split_ifs at hk with h
    · rw [List.mem_singleton.1 hk]
      exact ⟨_, rfl, h⟩
    · simp at hk

/-- The weight of a worm, read from the map. -/
noncomputable def tableWeight (t : WormTables) (k : WormKind) : ℝ := (k.space.bind t.wmap).getD 1

theorem tableWeight_ok {p : WormParams} {t : WormTables} (h : TablesOK p t) {k : WormKind} {s : Space} (hs : k.space = some s)
    (ha : Active p s) : t.wmap s = some (tableWeight t k) ∧ 0 < tableWeight t k := by
  obtain ⟨i, -, hi, -⟩ := C72_position h ha
  obtain ⟨q, -, hq, hlo, -⟩ := h.weight i s hi
  have : tableWeight t k = q := by
    unfold tableWeight
    rw [hs, Option.bind_some, hq, Option.getD_some]
  rw [this]
  exact ⟨hq, lt_of_lt_of_le (by positivity) hlo⟩

section refine
variable {p : WormParams} {t : WormTables} {nf : ℕ} {win : Win ℤ ℝ} {dist : Space → ℕ}

theorem kinds_length (h : TablesOK p t) : (activeKinds p).length = t.types.length := by
  rw [← h.templates.length_eq, List.length_map, h.insRem_len]

theorem current_ok {x : WCfg ℤ} (hx : ∀ w, x.worm = some w → w.kind ∈ activeKinds p) :
    (x.worm = none ∧ currentSpace x.worm = some .z) ∨
      ∃ w s, x.worm = some w ∧ w.kind ∈ activeKinds p ∧ w.kind.space = some s ∧ Active p s ∧ currentSpace x.worm = some s := by
  cases hw : x.worm with
  | none => exact Or.inl ⟨rfl, rfl⟩
  | some w =>
    obtain ⟨s, h1, h2⟩ := active_kinds (hx w hw)
    exact Or.inr ⟨w, s, rfl, hx w hw, h1, h2, h1⟩

theorem callInsRem_eq (h : TablesOK p t) (x : WCfg ℤ) (i : ℕ) (u : InsRemU) (hu : t.insRem[i]? = some u) :
    callInsRem nf win t (i : ℤ) x = some (wormInsRem nf win u.template (tableWeight t u.template) (1 / ((activeKinds p).length : ℝ)) x) := by
  have hlt : i < t.types.length := by
    rw [← h.insRem_len]
    exact (List.getElem?_eq_some_iff.1 hu).1
  obtain ⟨e1, e2⟩ := h.insRem i u _ hu (List.getElem?_eq_getElem hlt)
  have hact := (h.types _).1 (List.getElem_mem hlt)
  unfold callInsRem
  rw [atInt_nat, hu, Option.bind_some, e1, Option.bind_some, (tableWeight_ok h e1 hact).1, Option.map_some, kinds_length h]
  congr 2
  rw [eq_div_iff (by exact_mod_cast (Nat.pos_of_ne_zero (by omega)).ne')]
  exact e2

theorem mapM_range {α β : Type} (l : List α) (f : ℕ → Option β) (g : α → β) (h : ∀ (i : ℕ) (a : α), l[i]? = some a → f i = some (g a)) :
    (List.range l.length).mapM f = some (l.map g) := by
  induction l generalizing f with
  | nil => rfl
  | cons a l ih =>
    rw [List.length_cons, List.range_succ_eq_map, List.mapM_cons, h 0 a rfl, List.mapM_map,
      ih (f ∘ Nat.succ) (fun i b hb => h (i + 1) b hb)]
    rfl

theorem unif_perm {α : Type} {l l' : List α} (h : l.Perm l') : (Rand.unif l : Rand ℝ α) = Rand.unif l' := by
  unfold Rand.unif
  rw [h.length_eq, Multiset.coe_eq_coe.2 h]

theorem unif_bind_map {α β γ : Type} (l : List α) (g : α → γ) (f : γ → Rand ℝ β) :
    Rand.bind (Rand.unif (l.map g)) f = Rand.bind (Rand.unif l) fun a => f (g a) := by
  unfold Rand.bind Rand.unif
  rw [List.length_map, ← Multiset.map_coe, Multiset.map_map, Multiset.bind_map, Multiset.bind_map]
  rfl

theorem callWorm_eq (h : TablesOK p t) {x : WCfg ℤ} (hx : ∀ w, x.worm = some w → w.kind ∈ activeKinds p) :
    callWorm nf win t x = some (wormTransition nf win (activeKinds p) (tableWeight t) x) := by
  unfold callWorm
  rcases current_ok hx with ⟨hn, hc⟩ | ⟨w, s, hw, hk, hs, ha, hc⟩
  · rw [hc, Option.bind_some, if_pos rfl, mapM_range t.insRem _ _ fun i u hu => callInsRem_eq h x i u hu, Option.map_some]
    unfold wormTransition
    rw [hn, unif_bind_map]
    simp only [id]
    rw [← unif_bind_map t.insRem InsRemU.template (fun k => wormInsRem nf win k (tableWeight t k) (1 / ((activeKinds p).length : ℝ)) x),
      unif_perm h.templates]
  · have hz : s ≠ .z := by rintro rfl; exact ha
    obtain ⟨i, hi, hti, hpos, -⟩ := C72_position h ha
    have hlt : i < t.insRem.length := by rw [h.insRem_len]; exact hi
    have hu := List.getElem?_eq_getElem hlt
    rw [hc, Option.bind_some, if_neg hz, hpos, add_sub_cancel_right, callInsRem_eq h x i _ hu]
    unfold wormTransition
    rw [hw, space_inj (h.insRem i _ s hu hti).1 hs]

theorem callGreen_eq (h : TablesOK p t) (r : ℕ) (s : Space) (name : String) (hs : (WormKind.green r).space = some s) (ha : Active p s)
    (hsp : t.special name = some (.green r (.green r))) {x : WCfg ℤ} (hx : ∀ w, x.worm = some w → w.kind ∈ activeKinds p) :
    guarded (fun s' => s' = .z || s' = s) (callSpecial nf win t name) x = some (greenStep r (tableWeight t (.green r)) x) := by
  have hcall : callSpecial nf win t name x = some (greenPropose r (tableWeight t (.green r)) x) := by
    unfold callSpecial
    rw [hsp, Option.bind_some]
    simp only
    rw [hs, Option.bind_some, (tableWeight_ok h hs ha).1, Option.map_some]
  unfold guarded greenStep
  rcases current_ok hx with ⟨hn, hc⟩ | ⟨w, s', hw, hk, hs', ha', hc⟩
  · rw [hc, Option.bind_some, hcall, hn]
    simp
  · have hz : s' ≠ .z := by rintro rfl; exact ha'
    rw [hc, Option.bind_some, hcall, hw]
    by_cases e : s' = s
    · subst e
      have := space_inj hs' hs
      simp [this]
    · have : w.kind ≠ .green r := by
        intro e'
        rw [e', hs] at hs'
        exact e (Option.some.inj hs').symm
      simp [this, e, hz]

theorem callConnect_eq (h : TablesOK p t) (h1 : Active p .eq1) (h2 : Active p .tt) {x : WCfg ℤ}
    (hx : ∀ w, x.worm = some w → w.kind ∈ activeKinds p) :
    guarded (fun s => s = .eq1 || s = .tt) (callSpecial nf win t nameConnect) x =
      some (connectPropose nf win (tableWeight t (.equalTime 1)) (tableWeight t (.corr 2)) x) := by
  have hcall : ∀ s, currentSpace x.worm = some s → s = .eq1 ∨ s = .tt → callSpecial nf win t nameConnect x =
      some (connectPropose nf win (tableWeight t (.equalTime 1)) (tableWeight t (.corr 2)) x) := by
    intro s hs hor
    unfold callSpecial
    rw [h.connect.1 ⟨h1, h2⟩, Option.bind_some]
    simp only
    rw [hs, Option.bind_some, if_neg (by rcases hor with rfl | rfl <;> simp),
      (tableWeight_ok h (k := .equalTime 1) (s := .eq1) rfl h1).1, Option.bind_some,
      (tableWeight_ok h (k := .corr 2) (s := .tt) rfl h2).1, Option.map_some]
  unfold guarded
  rcases current_ok hx with ⟨hn, hc⟩ | ⟨w, s', hw, hk, hs', ha', hc⟩
  · rw [hc, Option.bind_some, if_neg (by simp)]
    unfold connectPropose
    rw [hn]
  · rw [hc, Option.bind_some]
    by_cases e : s' = .eq1 ∨ s' = .tt
    · rw [if_pos (by rcases e with rfl | rfl <;> simp), hcall s' hc e]
    · push Not at e
      rw [if_neg (by simp [e.1, e.2])]
      unfold connectPropose
      rw [hw]
      split
      · rename_i q
        rw [Option.some.inj q] at hs'
        exact absurd (Option.some.inj hs').symm e.1
      · rename_i q
        rw [Option.some.inj q] at hs'
        exact absurd (Option.some.inj hs').symm e.2
      · rfl

/-- One mover or flavor changer, as a function of the entry of the multimap. -/
noncomputable def moverCall (nf : ℕ) (win : Win ℤ ℝ) (dist : Space → ℕ) (x : WCfg ℤ) (e : Option Space × WUpd) : CallRes :=
  e.1.bind fun s => guarded (fun s' => s = s') (callMover nf win dist (s, e.2)) x

theorem moverCall_eq {x : WCfg ℤ} (hx : ∀ w, x.worm = some w → w.kind ∈ activeKinds p) {k : WormKind} {s : Space} (hs : k.space = some s)
    (ha : Active p s) : moverCall nf win dist x (k.space, .mover) = some (onlyKind k (moverPropose win (dist s)) x) ∧
      moverCall nf win dist x (k.space, .flavorChanger) = some (onlyKind k (flavorChangePropose nf win) x) := by
  have hz : s ≠ .z := by rintro rfl; exact ha
  unfold moverCall guarded onlyKind callMover
  rcases current_ok hx with ⟨hn, hc⟩ | ⟨w, s', hw, hk, hs', ha', hc⟩
  · rw [hc, hn]
    simp [hs, hz]
  · rw [hc, hw]
    by_cases e : s = s'
    · subst e
      simp [hs, space_inj hs' hs]
    · have : w.kind ≠ k := by
        intro e'
        rw [e', hs] at hs'
        exact e (Option.some.inj hs')
      simp [hs, e, this]

theorem mem_kinds_iff (p : WormParams) : (WormKind.green 2 ∈ activeKinds p ↔ Active p .g2) ∧
    (WormKind.equalTime 1 ∈ activeKinds p ↔ Active p .eq1) ∧ (WormKind.corr 2 ∈ activeKinds p ↔ Active p .tt) := by
  unfold activeKinds
  by_cases h1 : p.g2 = 0 <;> by_cases h2 : p.tt = 0 <;> by_cases h3 : p.eq1 = 0 <;> by_cases h4 : p.eq2 = 0 <;>
    simp [Active, h1, h2, h3, h4]

end refine

/-- **C72.**  The calls which the code makes through its tables are, in any configuration with a worm in use, those of
`transitionMoves` with all worms in use and all their movers, and none fails: no index is outside a vector, no key is missing, no
updater throws because of the space.  The choice of an updater by its position agrees with the choice of a worm, and the rate
divided out is the probability of this choice. -/
theorem C72_refines {𝕜 : Type} [RCLike 𝕜] [DecidableEq 𝕜] {N : ℕ} (A : CodeArgs 𝕜 N) (a : MoveArgs) {p : WormParams} {t : WormTables}
    (h : TablesOK p t) (dist : Space → ℕ) (hk : a.kinds = activeKinds p) (hw : ∀ k ∈ a.kinds, a.sw k = tableWeight t k)
    (hd : ∀ k s, k.space = some s → a.wormDist k = dist s) (lo hi : ℝ) (x : WCfg ℤ)
    (hx : ∀ w, x.worm = some w → w.kind ∈ a.kinds) :
    (transitionCalls A.P.nf (gridWin a.tau a.G lo hi) dist t).map (fun c => c x) =
      (transitionMoves A.P.nf a.kinds a.kinds).map fun m => some ((CMove.step A a m).prop lo hi x) := by
  set nf := A.P.nf with hnf
  set win := gridWin a.tau a.G lo hi with hwin
  rw [hk] at hx hw
  have hne : activeKinds p ≠ [] := by simp [activeKinds]
  have hlen : ¬ t.types.length = 0 := by
    rw [← kinds_length h]
    exact fun e => hne (List.length_eq_zero_iff.1 e)
  have hsw : ∀ k, k ∈ activeKinds p → a.sw k = tableWeight t k := hw
  have e1 : callWorm nf win t x = some ((CMove.step A a .worm).prop lo hi x) := by
    rw [callWorm_eq h hx]
    show _ = some (wormTransition nf win a.kinds a.sw x)
    rw [hk]
    unfold wormTransition
    cases hxw : x.worm with
    | some w => simp only [hsw _ (hx w hxw)]
    | none =>
      simp only
      congr 1
      unfold Rand.bind Rand.unif
      refine Multiset.bind_congr fun q hq => ?_
      obtain ⟨k, hkk, rfl⟩ := Multiset.mem_map.1 hq
      show Multiset.map _ (wormInsRem nf win k (tableWeight t k) _ x) = Multiset.map _ (wormInsRem nf win k (a.sw k) _ x)
      rw [hsw k hkk]
  have e2 : guarded (fun s => s = .z || s = .g1) (callSpecial nf win t nameG1Hyb) x = some ((CMove.step A a (.green 1)).prop lo hi x) := by
    rw [callGreen_eq h 1 .g1 nameG1Hyb rfl trivial h.g1Hyb hx]
    show _ = some (greenStep 1 (a.sw (.green 1)) x)
    rw [hsw (.green 1) (by simp [activeKinds])]
  have e3 : ((if (t.special nameG2Hyb).isSome then [guarded (fun s => s = .z || s = .g2) (callSpecial nf win t nameG2Hyb)] else []).map
      fun c => c x) = (if WormKind.green 2 ∈ activeKinds p then [CMove.green 2] else []).map fun m => some ((CMove.step A a m).prop lo hi x) := by
    by_cases hg : p.g2 ≠ 0
    · have hs : t.special nameG2Hyb = some (.green 2 (.green 2)) := by rw [h.g2Hyb, if_pos hg]
      rw [if_pos (by rw [hs]; rfl), if_pos ((mem_kinds_iff p).1.2 hg), List.map_singleton, List.map_singleton,
        callGreen_eq h 2 .g2 nameG2Hyb rfl hg hs hx]
      show _ = [some (greenStep 2 (a.sw (.green 2)) x)]
      rw [hsw (.green 2) ((mem_kinds_iff p).1.2 hg)]
    · have hs : t.special nameG2Hyb = none := by rw [h.g2Hyb, if_neg hg]
      rw [if_neg (by rw [hs]; simp), if_neg (fun e => hg ((mem_kinds_iff p).1.1 e))]
      rfl
  have e4 : ((if (t.special nameConnect).isSome then [guarded (fun s => s = .eq1 || s = .tt) (callSpecial nf win t nameConnect)] else []).map
      fun c => c x) = (if WormKind.equalTime 1 ∈ activeKinds p ∧ WormKind.corr 2 ∈ activeKinds p then [CMove.connect] else []).map
        fun m => some ((CMove.step A a m).prop lo hi x) := by
    by_cases hg : Active p .eq1 ∧ Active p .tt
    · have hm : WormKind.equalTime 1 ∈ activeKinds p ∧ WormKind.corr 2 ∈ activeKinds p :=
        ⟨(mem_kinds_iff p).2.1.2 hg.1, (mem_kinds_iff p).2.2.2 hg.2⟩
      rw [if_pos (by rw [h.connect.1 hg]; rfl), if_pos hm, List.map_singleton, List.map_singleton, callConnect_eq h hg.1 hg.2 hx]
      show _ = [some (connectPropose nf win (a.sw (.equalTime 1)) (a.sw (.corr 2)) x)]
      rw [hsw _ hm.1, hsw _ hm.2]
    · rw [if_neg (by rw [h.connect.2 hg]; simp),
        if_neg (fun e => hg ⟨(mem_kinds_iff p).2.1.1 e.1, (mem_kinds_iff p).2.2.1 e.2⟩)]
      rfl
  have e5 : (t.movers.map fun e => guarded (fun s => e.1 = s) (callMover nf win dist e)).map (fun c => c x) =
      ((activeKinds p).flatMap fun k => (if k ∈ activeKinds p then [CMove.wormMover k] else []) ++ [CMove.wormFlavor k]).map
        fun m => some ((CMove.step A a m).prop lo hi x) := by
    have l1 : (t.movers.map fun e => guarded (fun s => e.1 = s) (callMover nf win dist e)).map (fun c => c x) =
        (t.movers.map (fun e => (some e.1, e.2))).map (moverCall nf win dist x) := by
      rw [List.map_map, List.map_map]
      rfl
    rw [l1, h.movers, List.map_flatMap, List.map_flatMap]
    refine List.flatMap_congr fun k hkk => ?_
    obtain ⟨s, hs, ha⟩ := active_kinds hkk
    obtain ⟨m1, m2⟩ := moverCall_eq (nf := nf) (win := win) (dist := dist) hx hs ha
    rw [if_pos hkk, List.map_cons, List.map_singleton, m1, m2]
    show _ = [some (onlyKind k (moverPropose win (a.wormDist k)) x), some (onlyKind k (flavorChangePropose nf win) x)]
    rw [hd k s hs]
  unfold transitionCalls transitionMoves
  rw [if_neg hlen, hk, if_neg hne, List.map_flatten, List.map_flatten, List.map_replicate, List.map_replicate]
  congr 2
  unfold passCalls
  rw [List.map_append, List.map_append, List.map_append, List.map_append, List.map_append, List.map_append, e3, e4, e5, List.map_cons,
    List.map_singleton, e1, e2]
  rfl

/-- **C72.**  The tables provide what the theorems on the sampling demand of the worms: they are different, have operators, their
weights are positive and `G1` is among them.  The movers called are those of all worms in use; among them is always that of `G1`, whose
worms have two times. -/
theorem C72_args {p : WormParams} {t : WormTables} (h : TablesOK p t) : (activeKinds p).Nodup ∧
    (∀ k ∈ activeKinds p, 0 < k.numFlavors) ∧ (∃ sw : WormKind → ℝ, (∀ k, 0 < sw k) ∧ ∀ k ∈ activeKinds p, sw k = tableWeight t k) ∧ WormKind.green 1 ∈ activeKinds p ∧
    ¬ ∀ k ∈ activeKinds p, k.numTimes = 1 := by
  refine ⟨?_, ?_, ?_, by simp [activeKinds], fun hall => ?_⟩
  · unfold activeKinds
    by_cases h1 : p.g2 = 0 <;> by_cases h2 : p.tt = 0 <;> by_cases h3 : p.eq1 = 0 <;> by_cases h4 : p.eq2 = 0 <;>
      simp [h1, h2, h3, h4]
  · intro k hk
    unfold activeKinds at hk
    simp only [List.mem_append, List.mem_singleton] at hk
    rcases hk with (((rfl | hk) | hk) | hk) | hk
    · simp [WormKind.numFlavors]
    all_goals
      split_ifs at hk
      · rw [List.mem_singleton.1 hk]
        simp [WormKind.numFlavors]
      · simp at hk
  · refine ⟨fun k => if k ∈ activeKinds p then tableWeight t k else 1, fun k => ?_, fun k hk => if_pos hk⟩
    by_cases hk : k ∈ activeKinds p
    · obtain ⟨s, hs, ha⟩ := active_kinds hk
      simp only [if_pos hk]
      exact (tableWeight_ok h hs ha).2
    · simp only [if_neg hk]
      exact one_pos
  · exact absurd (hall (.green 1) (by simp [activeKinds])) (by simp [WormKind.numTimes])

/-! ### Examples -/

/-- All spaces: five worms. -/
example : activeKinds ⟨1, 1, 1, 1⟩ = [.green 1, .green 2, .equalTime 1, .equalTime 2, .corr 2] := by decide

/-- A history: a step, an adjustment before thermalization in the space `G1`, the preparation, visits of both spaces, steps, a
measurement and a step. -/
def exHistory : List TOp :=
  [.step .z, .adjust false .g1, .prepare (fun _ => 0), .visit true .z, .step .g1, .measure, .step .g1, .step .z, .step .g1, .visit true .g1]

example : ∃ t t', createWormUpdaters ⟨0, 0, 0, 0⟩ = some t ∧ runTables t exHistory = some t' ∧
    atInt t'.numSteps (t'.position .g1) = some 2 ∧ t'.finishOK = true := by
  obtain ⟨t, e, -⟩ := C72_tables ⟨0, 0, 0, 0⟩
  have hin : ∀ op ∈ exHistory, InSpaces ⟨0, 0, 0, 0⟩ op.space := by
    intro op hop
    simp only [exHistory, List.mem_cons, List.not_mem_nil, or_false] at hop
    rcases hop with rfl | rfl | rfl | rfl | rfl | rfl | rfl | rfl | rfl | rfl <;> simp [TOp.space, InSpaces, Active]
  obtain ⟨t', e', -, -, hs, hf⟩ := C72_history ⟨0, 0, 0, 0⟩ t e exHistory hin (le_refl 1)
  refine ⟨t, t', e, e', ?_, hf.2 ?_⟩
  · rw [hs .g1 (Or.inr trivial)]
    simp [stepsSince, exHistory]
  · intro s hs'
    rcases hs' with rfl | hs'
    · simp [wasVisited, exHistory]
    · cases s <;> simp_all [Active, wasVisited, exHistory]

/-- A space which was not visited: the program throws. -/
example : ∃ t t', createWormUpdaters ⟨0, 0, 0, 0⟩ = some t ∧ runTables t [.visit true .z] = some t' ∧ t'.finishOK = false := by
  obtain ⟨t, e, -⟩ := C72_tables ⟨0, 0, 0, 0⟩
  obtain ⟨t', e', -, -, -, hf⟩ := C72_history ⟨0, 0, 0, 0⟩ t e [.visit true .z] (by simp [TOp.space, InSpaces]) (by simp [TOp.isPrepare])
  refine ⟨t, t', e, e', ?_⟩
  rw [← Bool.not_eq_true, hf]
  intro h
  have := h .g1 (Or.inr trivial)
  simp [wasVisited] at this

end CTHyb
