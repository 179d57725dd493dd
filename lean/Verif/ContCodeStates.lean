import Verif.ContCodeMoves
import Verif.ContCodeFinite
import Verif.SamplingSweepProps

/-!
For every configuration of positive weight there is a state of the simulation; concrete cases for the theorems about the weight of
the code in continuous time.
-/

namespace CTHyb

open Rand MeasureTheory ENNReal

variable {𝕜 : Type} [RCLike 𝕜] {N : ℕ} {A : CodeArgs 𝕜 N}

/-- **C83** (states).  For every configuration of positive weight there is a state of the simulation which holds it and satisfies all
invariants, with the window at the right end. -/
theorem C83_states (hA : A.OK) {n : ℕ} (hn : 1 ≤ n) {x : WCfg ℝ} (hwx : (codeW A).at x ≠ 0)
    (hx : ∀ o ∈ x.cd ++ x.c, 0 < o.1 ∧ o.1 < A.beta)
    (hxw : ∀ u, x.worm = some u → u.Valid ∧ ∀ t ∈ u.times, 0 < t ∧ t < A.beta) :
    ∃ s : CodeState A (Option (Worm ℝ)), SimInv A.env A.Inv (pmDet A.P) s.1 ∧ Reps A id (codeWops id) x s ∧
      getState s.1.sw = ⟨2, 0, true, n⟩ := by
  classical
  have hE := C60_lawful A hA
  have hcard : x.cd.length = x.c.length := by simpa using codeW_card A hwx
  rw [codeW_at] at hwx
  have hcc : CodeCfg A.P.nf x := by
    by_contra h
    exact hwx (if_neg h)
  rw [if_pos hcc] at hwx
  obtain ⟨hnod, hcd, hc⟩ := hcc
  set cds := x.cd.map (mkOp id .creation) with hcds
  set cs := x.c.map (mkOp id .annihilation) with hcs
  set ops := x.sorted id (codeWops id) with hops
  have hperm : ops.Perm (x.ops id (codeWops id)) := x.sorted_perm
  have hsort : ops.Sorted := x.sorted_sorted hnod
  have hw := hwx
  unfold cfgW CodeArgs.weight at hw
  rw [norm_ne_zero_iff, mul_ne_zero_iff] at hw
  have hlen : cs.length = cds.length := by simp [hcds, hcs, hcard]
  have hnd := hnod
  rw [PCfg.ops, List.map_append] at hnd
  have hnd : ((cds ++ cs).map Psi.time).Nodup := (List.nodup_append.1 hnd).1
  have hbl : ∀ o ∈ cds ++ cs, A.env.blockOf o.flavor < A.env.nb := by
    intro o ho
    have : o.flavor < A.P.nf := by
      rcases List.mem_append.1 ho with h | h
      · obtain ⟨b, hb, rfl⟩ := List.mem_map.1 h; exact hcd b hb
      · obtain ⟨b, hb, rfl⟩ := List.mem_map.1 h; exact hc b hb
    change A.blockOf o.flavor < A.P.ns
    rw [CodeArgs.blockOf, if_pos this]; exact hA.sectors _ this
  obtain ⟨b1, b2, b3⟩ := hE.glob.build cds cs hlen hnd hbl hw.1
  have binv := hE.build_inv cds cs hlen hnd hbl hw.1
  have htime : ∀ o ∈ ops, 0 < o.time.time ∧ o.time.time < A.beta := by
    intro o ho
    have ho := hperm.mem_iff.1 ho
    rw [PCfg.ops, List.mem_append, List.mem_append] at ho
    rcases ho with (h | h) | h
    · obtain ⟨b, hb, rfl⟩ := List.mem_map.1 h; exact hx b (List.mem_append_left _ hb)
    · obtain ⟨b, hb, rfl⟩ := List.mem_map.1 h; exact hx b (List.mem_append_right _ hb)
    · rw [wormOps_code] at h
      obtain ⟨b, hb, rfl⟩ := List.mem_map.1 h
      rcases e : x.worm with _ | w
      · rw [e] at hb; simp [wl] at hb
      · rw [e] at hb
        exact (hxw w e).2 _ (operators_time w (hxw w e).1 b hb)
  have hok : OpsOK A.env.V.beta ops := by
    refine ⟨hsort, fun o ho => ?_⟩
    have := htime o ho
    constructor
    · rw [OpTime.le_def]; exact Or.inl this.1
    · rw [OpTime.le_def]; exact Or.inl this.2
  have hb : Bottom A.env.V (⟨n, 0, 0, true, [A.env.V.bra0], [A.env.V.ket0]⟩ :
    SWState (BK 𝕜) (BK 𝕜) (Fin (ebBrakets A.B A.p).length)) := ⟨rfl, rfl⟩
  obtain ⟨w, e1, e2, e3, e4, e5⟩ := setWindowSize_ok' ops n 0 true (reset_bottom hb) hb
  have hst : getState w = ⟨2, 0, true, n⟩ := by
    by_cases h2 : 2 ≤ n
    · obtain ⟨a1, a2, a3⟩ := e4 h2
      have a4 : w.posL = 2 := by omega
      simp only [getState, a1, a4, a3, e3, newDir, if_true]
    · obtain ⟨a1, a2, a3⟩ := e5 (by omega)
      have a4 : w.posL = 2 := by omega
      have a5 : w.dirLeft = true := a3
      simp only [getState, a1, a4, a5, e3]
  obtain ⟨p1, p2, -, p4⟩ := (SavedState.mk.injEq ..).mp hst
  let M' := A.env.build cds cs
  let pm := A.env.permFn (A.env.D.cdagg M') (A.env.D.cs M') (wormOps (codeWops id x.worm))
  let cfg : Cfg (OpTime ℝ) 𝕜 (CodeDet 𝕜) := ⟨ops, M', fullTrace A.env.V ops,
    A.env.sgn (pmDet A.P M') * A.env.sgn (fullTrace A.env.V ops) * (pm : 𝕜), pm, codeWops id x.worm⟩
  refine ⟨(⟨cfg, [], w⟩, x.worm), ⟨⟨hsort, ?_⟩, binv, ⟨rfl, ?_, hw.2, rfl⟩, rfl, ⟨hok, e2, ?_, ?_⟩, ?_⟩, ⟨b1, b2, rfl, rfl⟩, hst⟩
  · change (ops : Multiset (TPsi ℝ)) = (A.env.D.cdagg M' : Multiset (TPsi ℝ)) + (A.env.D.cs M' : Multiset (TPsi ℝ)) +
      (wormOps (codeWops id x.worm) : Multiset (TPsi ℝ))
    rw [Multiset.coe_eq_coe.2 b1, Multiset.coe_eq_coe.2 b2, Multiset.coe_add, Multiset.coe_add]
    exact Multiset.coe_eq_coe.2 hperm
  · change pmDet A.P M' ≠ 0
    rw [b3]; exact hw.1
  · change 1 ≤ w.n; omega
  · change w.posR ≤ w.posL; omega
  · change w.posL = w.posR + 2; omega

/-! ### A concrete case -/

/-- A pair hybridized with the bath. -/
noncomputable def exPairR : WCfg ℝ := ⟨[(5 / 2, 0)], [(1 / 2, 0)], none⟩

theorem exPairR_weight : (codeW exCode).at exPairR ≠ 0 := by
  classical
  have hn : ((exPairR.ops id (codeWops id)).map Psi.time).Nodup := by
    simp [PCfg.ops, exPairR, mkOp, codeWops, wormOps]; norm_num
  have hs : exPairR.sorted id (codeWops id) =
      [⟨⟨1 / 2, 0⟩, .annihilation, 0⟩, ⟨⟨5 / 2, 0⟩, .creation, 0⟩] := by
    refine sorted_unique (PCfg.sorted_sorted _ hn) ?_ ((PCfg.sorted_perm _).trans ?_)
    · simp [OpSet.Sorted, OpTime.lt_def]; norm_num
    · simp only [PCfg.ops, exPairR, mkOp, codeWops, wormOps, List.map_cons, List.map_nil, List.cons_append, List.nil_append,
        Option.map_none, List.append_nil]
      exact List.Perm.swap _ _ _
  rw [codeW_at, if_pos ⟨hn, by simp [exPairR, exCode], by simp [exPairR, exCode]⟩]
  unfold cfgW CodeArgs.weight
  rw [hs, norm_ne_zero_iff]
  refine mul_ne_zero ?_ (exPair_trace _ _)
  rw [timeDet_eq _ _ _ (by simp [exPairR]) (by simp [exPairR]), listDet_eq _ _ _ 1 rfl rfl, Matrix.det_fin_one]
  simp [invs, exPairR, exCode]

/-- The window over the whole interval. -/
noncomputable def exWinR : CWin := ⟨0, 4, 0⟩

theorem exPairR_reg : Reg exCode.P.nf {0, 4} exPairR := by
  refine ⟨fun o ho => ?_, by simp [exPairR]⟩
  simp only [exPairR, List.cons_append, List.nil_append, List.mem_cons, List.not_mem_nil, or_false] at ho
  rcases ho with rfl | rfl <;> norm_num

theorem exPairR_at : ∃ s, At exCode {0, 4} exWinR exPairR s := by
  obtain ⟨s, h1, h2, h3⟩ := C83_states exCode_ok (le_refl 1) exPairR_weight
    (by simp [exPairR, exCode]; norm_num) (by simp [exPairR])
  obtain ⟨p1, p2, -, p4⟩ := (SavedState.mk.injEq ..).mp h3
  refine ⟨s, h1, h2, ⟨?_, ?_, ?_, ?_⟩, ?_, ?_, by simp, exPairR_reg, by simp [exWinR], by simp [exWinR]⟩
  all_goals first
    | norm_num [exWinR, exCode]
    | skip
  · show _ = tauEdge exCode.beta s.1.sw.n s.1.sw.posR
    rw [p2]; exact (tauEdge_zero _ _).symm
  · show _ = tauEdge exCode.beta s.1.sw.n s.1.sw.posL
    rw [p1, p4]; norm_num [tauEdge, exCode]

/-- The weight of one level coupled to a bath meets the demands. -/
example : (codeW exCode).WMeas 1 ∧ (codeW exCode).at exPairR ≠ 0 :=
  ⟨(C83_weight exCode_ok measurable_const).1, exPairR_weight⟩

/-- Its normalization. -/
example : wFlow 4 1 [.equalTime 1, .corr 2] (fun _ => 1) (fun _ _ _ => 1) (codeW exCode) (fun _ => 1) < ∞ ∧
    0 < allFlow 4 1 none (fun _ _ _ => 1) (codeW exCode) (fun _ => 1) :=
  C83_finite exCode_ok (C := 1) (fun _ _ _ _ => by norm_num [exCode]) _ _

/-- A run. -/
example : wFlow 4 1 [.equalTime 1] (fun _ => 1) (fun _ _ _ => 1) (codeW exCode)
      (sweepE exCode.P [.equalTime 1] (fun _ => 1) (codeW exCode) (fun _ _ ω => if ω = none then 1 else 0) [.bath (.pair exWinR 2)]) =
    wFlow 4 1 [.equalTime 1] (fun _ => 1) (fun _ _ _ => 1) (codeW exCode)
      (CfgFun.at fun _ _ ω => if ω = none then 1 else 0) := by
  refine C83_run_partial exCode_ok measurable_const (by norm_num [exCode]) _ (by simp [WormKind.numFlavors]) _ (by simp)
    ⟨fun _ _ => measurable_const, fun _ _ _ _ => measurable_const⟩ _ ?_
  simp only [List.mem_singleton, forall_eq]
  exact ⟨by norm_num [exWinR], by norm_num [exWinR], by norm_num [exWinR, exCode], rfl⟩

/-- The update of a pair of the code, in a state with one pair. -/
example : ∃ s : CodeState exCode (Option (Worm ℝ)), Reps exCode id (codeWops id) exPairR s ∧
    codePair exCode exWinR 1 exPairR s (fun s' => if s'.2 = none then 1 else 0) =
      irE exCode.P exWinR 1 (codeW exCode) (fun _ _ ω => if ω = none then 1 else 0) exPairR +
        (1 - irE exCode.P exWinR 1 (codeW exCode) (fun _ _ _ => 1) exPairR) * 1 := by
  obtain ⟨s, hs⟩ := exPairR_at
  refine ⟨s, hs.reps, ?_⟩
  have := C83_pair_update exCode_ok measurable_const hs.inv hs.reps hs.win hs.lo hs.hi (by norm_num [exCode])
    (by
      intro b hb
      have : b = 0 := by simpa [exCode] using hb
      subst this
      simp [blockFlavors, exCode]) 1 hs.count hs.reg hs.lo_mem hs.hi_mem
    (ψ := fun _ _ ω => if ω = none then 1 else 0) (fun _ _ => measurable_const)
    (F := fun s' => if s'.2 = none then 1 else 0) (fun s' _ _ y _ hy => by
      show (if s'.2 = none then (1 : ℝ≥0∞) else 0) = _
      rw [hy.worm]; rfl)
  simpa [CfgFun.at, exPairR] using this

end CTHyb
