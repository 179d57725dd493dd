import Verif.ZMeas
import Verif.ChecksProps
import Verif.StaticMeasProps
import Verif.RemovalProps
import Verif.TransInvProps
import Verif.GMeasExchLemmas
import Mathlib.Analysis.SpecialFunctions.Log.Deriv
import Mathlib.Analysis.Calculus.Deriv.Inv
import Mathlib.Analysis.Calculus.Deriv.Pow

/-!
Lemmas for property C67: expectation values of functions of the configuration in equilibrium, invariance of the terms of the expansion
under shifts in imaginary time, second derivatives of the logarithm of a generating function.
-/

set_option linter.unusedSectionVars false

namespace CTHyb

open Matrix Rand MeasureTheory

variable {𝕜 : Type} [RCLike 𝕜] [DecidableEq 𝕜] {N : ℕ}

section setup
variable {X : Type} [Fintype X] [DecidableEq X]

/-- The demands of `C61_loop_partial`: configurations on a grid, each with a state of the simulation with the same window, and a plan of
global updates. -/
structure LoopSetup (A : CodeArgs 𝕜 N) (a : MoveArgs) (M : ℕ) (c : X → WCfg ℤ) (rd : CodeState A (Option (Worm ℤ)) → WCfg ℤ)
    (nStd : ℕ) (sh : Bool) (movers : List WormKind) (plan : Rand ℝ (List (ℕ × List (List ℕ)))) (st : SavedState)
    (s : X → CodeState A (Option (Worm ℤ))) : Prop where
  code : A.OK
  moves : a.OK A M
  reprs : Reprs A a.tau (codeWops a.tau) (OnGrid A.P.nf a.G a.kinds) c
  read : ∀ s x, Reps A a.tau (codeWops a.tau) x s → Reps A a.tau (codeWops a.tau) (rd s) s
  loop : LoopOK A a M sh movers
  one : plan.mean (fun _ => 1) = 1
  plan : ∀ q ∈ plan, PlanOK A a M nStd q.2
  window : WindowOK M st
  inv : ∀ i, SimInv A.env A.Inv (pmDet A.P) (s i).1
  win : ∀ i, winOf (s i).1.sw = normWin st
  reps : ∀ i, Reps A a.tau (codeWops a.tau) (c i) (s i)
  noWorm : ∃ j, (c j).worm = none

variable {A : CodeArgs 𝕜 N} {a : MoveArgs} {M : ℕ} {c : X → WCfg ℤ} {rd : CodeState A (Option (Worm ℤ)) → WCfg ℤ}
  {nStd : ℕ} {sh : Bool} {movers : List WormKind} {plan : Rand ℝ (List (ℕ × List (List ℕ)))} {st : SavedState}
  {s : X → CodeState A (Option (Worm ℤ))}

/-- Expectation value of a function of the configuration. -/
theorem loopMean_eq (L : LoopSetup A a M c rd nStd sh movers plan st s) (nGlobal : ℕ) (fl : Bool) (k : ℕ)
    (F : CodeState A (Option (Worm ℤ)) → ℝ) (f : X → ℝ)
    (hF : ∀ s, SimInv A.env A.Inv (pmDet A.P) s.1 → ∀ j, Reps A a.tau (codeWops a.tau) (c j) s → F s = f j) :
    loopMean A a M rd nStd nGlobal fl sh movers k plan c s F =
      (∑ j, gridW A a.tau (codeWops a.tau) (A.beta / M) wormDim (spaceEta a.sw) (c j) * f j) /
        ∑ i, gridW A a.tau (codeWops a.tau) (A.beta / M) wormDim (spaceEta a.sw) (c i) := by
  unfold loopMean
  rw [C61_loop_partial L.code L.moves L.reprs rd L.read F f hF L.loop nStd nGlobal fl plan L.one L.plan k L.window s L.inv L.win L.reps]

/-- Indicator of the states without worm. -/
noncomputable def inZ {A : CodeArgs 𝕜 N} (s : CodeState A (Option (Worm ℤ))) : ℝ := if s.2 = none then 1 else 0

/-- Sum over the configurations without worm. -/
noncomputable def zSumOf (δ : ℝ) (c : X → WCfg ℤ) (g : X → ℝ) : ℝ := ∑ j, if (c j).worm = none then g j * δ ^ bathDim (c j) else 0

/-- Mean over the space without worm of data `D`: the number the accumulator of an observable recorded in this space tends to. -/
theorem loopMean_inZ (L : LoopSetup A a M c rd nStd sh movers plan st s) (nGlobal : ℕ) (fl : Bool) (k : ℕ)
    (D : CodeState A (Option (Worm ℤ)) → ℝ) (g : X → ℝ)
    (hD : ∀ s, SimInv A.env A.Inv (pmDet A.P) s.1 → ∀ j, Reps A a.tau (codeWops a.tau) (c j) s → (c j).worm = none →
      cfgW A a.tau (codeWops a.tau) (c j) * D s = g j) :
    loopMean A a M rd nStd nGlobal fl sh movers k plan c s (fun s => inZ s * D s) /
        loopMean A a M rd nStd nGlobal fl sh movers k plan c s inZ =
      zSumOf (A.beta / M) c g / zSumOf (A.beta / M) c (fun j => cfgW A a.tau (codeWops a.tau) (c j)) := by
  have hc : ∀ j, cfgW A a.tau (codeWops a.tau) (c j) ≠ 0 := fun j => (L.reprs.mem j).2.weight
  have kD := loopMean_eq L nGlobal fl k (fun s => inZ s * D s)
    (fun j => if (c j).worm = none then g j / cfgW A a.tau (codeWops a.tau) (c j) else 0)
    (fun s hs j hj => by
      simp only [inZ, hj.worm]
      split_ifs with h
      · rw [← hD s hs j hj h, one_mul, mul_div_cancel_left₀ _ (hc j)]
      · rw [zero_mul])
  have kZ := loopMean_eq L nGlobal fl k inZ (fun j => if (c j).worm = none then 1 else 0)
    (fun s _ j hj => by simp only [inZ, hj.worm])
  have hpos : ∀ j, 0 < gridW A a.tau (codeWops a.tau) (A.beta / M) wormDim (spaceEta a.sw) (c j) := fun j =>
    gridW_pos L.moves (L.reprs.mem j).2
  obtain ⟨jz, -⟩ := L.noWorm
  have tot : 0 < ∑ i, gridW A a.tau (codeWops a.tau) (A.beta / M) wormDim (spaceEta a.sw) (c i) :=
    Finset.sum_pos (fun i _ => hpos i) ⟨jz, Finset.mem_univ _⟩
  rw [kD, kZ, div_div_div_cancel_right₀ tot.ne']
  have e : ∀ f : X → ℝ, (∑ j, gridW A a.tau (codeWops a.tau) (A.beta / M) wormDim (spaceEta a.sw) (c j) *
      (if (c j).worm = none then f j else 0)) = zSumOf (A.beta / M) c (fun j => cfgW A a.tau (codeWops a.tau) (c j) * f j) := by
    intro f
    refine Finset.sum_congr rfl fun j _ => ?_
    split_ifs with hj
    · unfold gridW spaceEta wormDim
      rw [hj]
      simp only [Option.elim_none, mul_one, add_zero]
      ring
    · rw [mul_zero]
  rw [e, e]
  congr 1
  · exact congrArg _ (funext fun j => mul_div_cancel₀ _ (hc j))
  · exact congrArg _ (funext fun j => mul_one _)

/-- Weights without worm are positive. -/
theorem zSumOf_cfgW_pos (L : LoopSetup A a M c rd nStd sh movers plan st s) :
    0 < zSumOf (A.beta / M) c (fun j => cfgW A a.tau (codeWops a.tau) (c j)) := by
  obtain ⟨jz, hjz⟩ := L.noWorm
  have hδ : 0 < A.beta / (M : ℝ) := div_pos L.moves.beta (by exact_mod_cast L.moves.grid)
  have hnn : ∀ j, 0 ≤ if (c j).worm = none then cfgW A a.tau (codeWops a.tau) (c j) * (A.beta / (M : ℝ)) ^ bathDim (c j) else 0 := by
    intro j
    split_ifs
    · exact (mul_pos (cfgW_pos (L.reprs.mem j).2) (pow_pos hδ _)).le
    · exact le_rfl
  refine lt_of_lt_of_le (mul_pos (cfgW_pos (L.reprs.mem jz).2) (pow_pos hδ (bathDim (c jz)))) ?_
  refine le_trans (le_of_eq (by rw [if_pos hjz])) (Finset.single_le_sum (f := fun j => if (c j).worm = none then
    cfgW A a.tau (codeWops a.tau) (c j) * (A.beta / (M : ℝ)) ^ bathDim (c j) else 0) (fun j _ => hnn j) (Finset.mem_univ jz))

/-- **Observables of the space without worm.**  Mean of the data, divided by the mean of the sign. -/
theorem loopMean_Z (L : LoopSetup A a M c rd nStd sh movers plan st s) (nGlobal : ℕ) (fl : Bool) (k : ℕ)
    (D : CodeState A (Option (Worm ℤ)) → ℝ) (g : X → ℝ)
    (hD : ∀ s, SimInv A.env A.Inv (pmDet A.P) s.1 → ∀ j, Reps A a.tau (codeWops a.tau) (c j) s → (c j).worm = none →
      cfgW A a.tau (codeWops a.tau) (c j) * D s = g j) :
    let E := loopMean A a M rd nStd nGlobal fl sh movers k plan c s
    E (fun s => inZ s * D s) / E inZ / (E (fun s => inZ s * RCLike.re s.1.cfg.sign) / E inZ) =
      zSumOf (A.beta / M) c g / zSum A a.tau (A.beta / M) c := by
  intro E
  have h1 := loopMean_inZ L nGlobal fl k D g hD
  have h2 := loopMean_inZ L nGlobal fl k (fun s => RCLike.re s.1.cfg.sign) (fun j => RCLike.re (signedW A a.tau (c j)))
    (fun s hs j hj _ => by rw [← weight_sign L.code hs hj, RCLike.re_ofReal_mul])
  change E _ / E inZ = _ at h1
  change E _ / E inZ = _ at h2
  rw [h1, h2, div_div_div_cancel_right₀ (zSumOf_cfgW_pos L).ne']
  rfl

end setup

/-! ### Terms of states -/

section terms
variable {A : CodeArgs 𝕜 N}

/-- The sign of the permutation and the lists of operators of a state are those of its configuration; for any hybridization function
and any list of operators in the trace. -/
theorem term_of_reps (hA : A.OK) {x : WCfg ℤ} {tau : ℤ → ℝ} {s : CodeState A (Option (Worm ℤ))}
    (hs : SimInv A.env A.Inv (pmDet A.P) s.1) (h : Reps A tau (codeWops tau) x s) (G : TPsi ℝ → TPsi ℝ → 𝕜) (ops : OpSet (OpTime ℝ)) :
    (s.1.cfg.permSign : 𝕜) * ({ A with G := G } : CodeArgs 𝕜 N).weight (A.env.D.cdagg s.1.cfg.M) (A.env.D.cs s.1.cfg.M) ops =
      ((permSignImpl (x.cd.map (mkOp tau .creation)) (x.c.map (mkOp tau .annihilation)) (wormOps (codeWops tau x.worm)) : ℤ) : 𝕜) *
        ({ A with G := G } : CodeArgs 𝕜 N).weight (x.cd.map (mkOp tau .creation)) (x.c.map (mkOp tau .annihilation)) ops := by
  have hE := C60_lawful A hA
  have hn := h.nodup hs
  rw [PCfg.ops, List.map_append, List.map_append] at hn
  have n1 := (List.nodup_append.1 (List.nodup_append.1 hn).1).1
  have n2 := (List.nodup_append.1 (List.nodup_append.1 hn).1).2.1
  have hpp : permSignImpl (x.cd.map (mkOp tau .creation)) (x.c.map (mkOp tau .annihilation)) (wormOps (codeWops tau x.worm)) =
      s.1.cfg.permSign := by
    rw [hs.sign.1, ← h.wops]
    exact hE.perm_congr _ _ _ _ _ h.cd.symm h.c.symm
  rw [hpp]
  unfold CodeArgs.weight
  rw [timeDet_congr G h.c.symm h.cd.symm n2 n1]

theorem ops_of_reps {x : WCfg ℤ} {tau : ℤ → ℝ} {s : CodeState A (Option (Worm ℤ))}
    (hs : SimInv A.env A.Inv (pmDet A.P) s.1) (h : Reps A tau (codeWops tau) x s) :
    x.sorted tau (codeWops tau) = s.1.cfg.ops :=
  sorted_unique (x.sorted_sorted (h.nodup hs)) hs.cons.1 (x.sorted_perm.trans (h.ops_perm hs))

/-- The weight of the configuration, from the state. -/
theorem cfgW_of_reps {x : WCfg ℤ} {tau : ℤ → ℝ} {s : CodeState A (Option (Worm ℤ))}
    (hs : SimInv A.env A.Inv (pmDet A.P) s.1) (h : Reps A tau (codeWops tau) x s) :
    cfgW A tau (codeWops tau) x = ‖A.weight (A.env.D.cdagg s.1.cfg.M) (A.env.D.cs s.1.cfg.M) s.1.cfg.ops‖ := by
  have hn := h.nodup hs
  rw [PCfg.ops, List.map_append, List.map_append] at hn
  have n1 := (List.nodup_append.1 (List.nodup_append.1 hn).1).1
  have n2 := (List.nodup_append.1 (List.nodup_append.1 hn).1).2.1
  unfold cfgW CodeArgs.weight
  rw [ops_of_reps hs h, timeDet_congr A.G h.c.symm h.cd.symm n2 n1]

end terms

/-! ### Shifts in imaginary time -/

section shift
variable {A : CodeArgs 𝕜 N} {a : MoveArgs} {M : ℕ}

theorem shiftSign_of_antiPer {h : ℕ → ℕ → ℝ → 𝕜} (hh : AntiPer A h) (s : ℝ) : ShiftSign A.beta s A.G := by
  intro o o' h1 h2 h3 h4
  have fl : ∀ o : TPsi ℝ, (shiftOp A.beta s o).flavor = o.flavor := fun _ => rfl
  rw [hh.eq, hh.eq, fl, fl]
  rcases w1 : wraps A.beta s o with _ | _ <;> rcases w2 : wraps A.beta s o' with _ | _
  · rw [shiftOp_time_not_wraps w1, shiftOp_time_not_wraps w2]
    simp
  · rw [shiftOp_time_not_wraps w1, shiftOp_time_wraps w2]
    simp only [wraps, decide_eq_false_iff_not, decide_eq_true_eq, not_lt] at w1 w2
    have := hh.anti o.flavor o'.flavor (o.time.time - o'.time.time) (by linarith) (by linarith)
    rw [show o.time.time + s - (o'.time.time + s - A.beta) = o.time.time - o'.time.time + A.beta by ring, this]
    simp
  · rw [shiftOp_time_wraps w1, shiftOp_time_not_wraps w2]
    simp only [wraps, decide_eq_false_iff_not, decide_eq_true_eq, not_lt] at w1 w2
    have := hh.anti o.flavor o'.flavor (o.time.time - o'.time.time - A.beta) (by linarith) (by linarith)
    rw [sub_add_cancel] at this
    rw [show o.time.time + s - A.beta - (o'.time.time + s) = o.time.time - o'.time.time - A.beta by ring, this]
    simp
  · rw [shiftOp_time_wraps w1, shiftOp_time_wraps w2]
    simp

/-- The term of a configuration without worm does not change if all times move round the circle. -/
theorem signedW_shift (hA : A.OK) (ha : a.OK A M) {h : ℕ → ℕ → ℝ → 𝕜} (hh : AntiPer A h) {E0 : ℝ}
    (hE : IsLeast (eigenvaluesOf A.B.H) E0) (hcut : ∀ μ ∈ eigenvaluesOf A.B.H, μ ≤ E0 + min A.p.inner A.p.outer)
    {k : ℕ} (hk : k < M) {x : WCfg ℤ} (hx : OnGrid A.P.nf a.G a.kinds x) (hg : x.Good A a.tau (codeWops a.tau)) (hw : x.worm = none) :
    signedW A a.tau ((GMove.shift k).act M x) = signedW A a.tau x := by
  obtain ⟨e1, e2, -⟩ := GMove.act_ops ha (m := .shift k) hk hx
  have e3 := GMove.ops_map ha (m := .shift k) hk hx
  have hr : InRange A.beta (x.ops a.tau (codeWops a.tau)) := by
    intro o ho
    obtain ⟨t, ht, e⟩ := hx.time o ho
    rw [ha.G] at ht
    rw [e, ha.tau]
    have := grid_times ha.beta ha.grid ht
    exact ⟨this.1, this.2.le⟩
  have hn := hg.nodup
  have h1 := C58_full_trace hA.base hA.solver hA.dim hE hcut A.beta (k * (A.beta / M)) _ hr hn
  have hops : x.ops a.tau (codeWops a.tau) = x.cd.map (mkOp a.tau .creation) ++ x.c.map (mkOp a.tau .annihilation) := by
    simp [PCfg.ops, hw, codeWops, wormOps]
  have hp : (x.c.map (mkOp a.tau .annihilation) ++ x.cd.map (mkOp a.tau .creation) ++ []).Perm (x.ops a.tau (codeWops a.tau)) := by
    rw [hops, List.append_nil]; exact List.perm_append_comm
  have h2 := C58_signed_det (shiftSign_of_antiPer hh (k * (A.beta / M))) (x.c.map (mkOp a.tau .annihilation))
    (x.cd.map (mkOp a.tau .creation)) [] (by simpa using hx.order.symm) (by simp) (fun o ho => hr o (hp.mem_iff.1 ho))
    ((hp.map _).nodup_iff.2 hn)
  have hw' : wormOps (codeWops a.tau ((GMove.shift k).act M x).worm) = [] := by simp [GMove.act, hw, codeWops, wormOps]
  have hw'' : wormOps (codeWops a.tau x.worm) = [] := by simp [hw, codeWops, wormOps]
  have s1 : ((GMove.shift k).act M x).sorted a.tau (codeWops a.tau) =
      timeSort ((x.ops a.tau (codeWops a.tau)).map (shiftOp A.beta (k * (A.beta / M)))) := by
    unfold PCfg.sorted timeSort
    rw [e3]; rfl
  have s2 : x.sorted a.tau (codeWops a.tau) = timeSort (x.ops a.tau (codeWops a.tau)) := rfl
  unfold signedW CodeArgs.weight
  rw [hw', hw'', e1, e2, s1, s2, h1, ← mul_assoc, ← mul_assoc]
  congr 1
  simp only [List.map_nil, List.countP_nil, pow_zero, one_mul] at h2
  exact h2

/-- Half a period exchanges the operators in a window of half the length with those outside. -/
theorem shift_half {beta : ℝ} (hb : 0 < beta) {m : ℕ} (hm : 0 < m) {t : ℤ} (ht : t ∈ Finset.Ico 0 ((2 * m : ℕ) : ℤ)) {start : ℝ}
    (h0 : 0 ≤ start) (h1 : start ≤ beta / 2) :
    (start ≤ gridTau beta (2 * m) ((t + m) % (2 * m : ℕ)) ∧ gridTau beta (2 * m) ((t + m) % (2 * m : ℕ)) < start + beta / 2) ↔
      ¬ (start ≤ gridTau beta (2 * m) t ∧ gridTau beta (2 * m) t < start + beta / 2) := by
  obtain ⟨a1, a2⟩ := Finset.mem_Ico.1 ht
  have hr := grid_times hb (by omega) ht
  have hmr : (0 : ℝ) < m := by exact_mod_cast hm
  by_cases h : t < m
  · have e : (t + m) % ((2 * m : ℕ) : ℤ) = t + m := Int.emod_eq_of_lt (by omega) (by push_cast; omega)
    have e2 : gridTau beta (2 * m) (t + m) = gridTau beta (2 * m) t + beta / 2 := by
      unfold gridTau; push_cast; field_simp; ring
    have e3 : gridTau beta (2 * m) t < beta / 2 := by
      unfold gridTau
      rw [div_lt_div_iff₀ (by push_cast; positivity) (by norm_num)]
      have : (t : ℝ) + 1 ≤ m := by exact_mod_cast h
      push_cast
      nlinarith
    rw [e, e2]
    constructor
    · rintro ⟨p, q⟩ ⟨p', q'⟩; linarith
    · intro hnot
      have : gridTau beta (2 * m) t < start := by
        by_contra hc
        exact hnot ⟨not_lt.1 hc, by linarith⟩
      exact ⟨by linarith [hr.1], by linarith⟩
  · have e : (t + m) % ((2 * m : ℕ) : ℤ) = t - m := by
      have e' : t + (m : ℤ) = (t - m) + ((2 * m : ℕ) : ℤ) := by push_cast; ring
      rw [e', Int.add_emod_right]
      exact Int.emod_eq_of_lt (by omega) (by push_cast at a2 ⊢; omega)
    have e2 : gridTau beta (2 * m) (t - m) = gridTau beta (2 * m) t - beta / 2 := by
      unfold gridTau; push_cast; field_simp; ring
    have e3 : beta / 2 < gridTau beta (2 * m) t := by
      unfold gridTau
      rw [div_lt_div_iff₀ (by norm_num) (by push_cast; positivity)]
      have : (m : ℝ) ≤ t := by exact_mod_cast not_lt.1 h
      push_cast
      nlinarith
    rw [e, e2]
    constructor
    · rintro ⟨p, q⟩ ⟨p', q'⟩; linarith
    · intro hnot
      have : start + beta / 2 ≤ gridTau beta (2 * m) t := by
        by_contra hc
        exact hnot ⟨by linarith, not_le.1 hc⟩
      exact ⟨by linarith, by linarith [hr.2]⟩

end shift

section shiftSum
variable {X : Type} [Fintype X] [DecidableEq X]
variable {A : CodeArgs 𝕜 N} {a : MoveArgs} {M : ℕ} {c : X → WCfg ℤ}

/-- In the sum over the configurations without worm all times may be moved round the circle. -/
theorem zSumOf_shift (hA : A.OK) (ha : a.OK A M) (hR : Reprs A a.tau (codeWops a.tau) (OnGrid A.P.nf a.G a.kinds) c)
    {h : ℕ → ℕ → ℝ → 𝕜} (hh : AntiPer A h) {E0 : ℝ}
    (hE : IsLeast (eigenvaluesOf A.B.H) E0) (hcut : ∀ μ ∈ eigenvaluesOf A.B.H, μ ≤ E0 + min A.p.inner A.p.outer)
    {k : ℕ} (hk : k < M) (δ : ℝ) (g : WCfg ℤ → ℝ) (hg : ∀ x y : WCfg ℤ, x.Same y → g x = g y) :
    zSumOf δ c (fun j => RCLike.re (signedW A a.tau (c j)) * g ((GMove.shift k).act M (c j))) =
      zSumOf δ c (fun j => RCLike.re (signedW A a.tau (c j)) * g (c j)) := by
  classical
  unfold zSumOf
  rw [← Finset.sum_filter, ← Finset.sum_filter]
  have hex : ∀ j, ∃ i, (c j).worm = none → (c i).Same ((GMove.shift k).act M (c j)) := by
    intro j
    by_cases hj : (c j).worm = none
    · have hs := signedW_shift hA ha hh hE hcut hk (hR.mem j).1 (hR.mem j).2 hj
      obtain ⟨i, hi⟩ := hR.all _ (GMove.act_grid ha (m := .shift k) hk (hR.mem j).1)
        ⟨GMove.act_nodup ha (m := .shift k) hk (hR.mem j).1 (hR.mem j).2.nodup, by
          rw [← norm_signedW, hs, norm_signedW]; exact (hR.mem j).2.weight⟩
      exact ⟨i, fun _ => hi⟩
    · exact ⟨j, fun h => absurd h hj⟩
  choose σ hσ using hex
  have hmem : ∀ j ∈ Finset.univ.filter (fun j => (c j).worm = none), σ j ∈ Finset.univ.filter (fun j => (c j).worm = none) := by
    intro j hj
    have hj' := (Finset.mem_filter.1 hj).2
    refine Finset.mem_filter.2 ⟨Finset.mem_univ _, ?_⟩
    rw [(hσ j hj').2.2]
    simp [GMove.act, hj']
  have hinj : Set.InjOn σ (Finset.univ.filter (fun j => (c j).worm = none)) := by
    intro i hi j hj e
    have hi' := (Finset.mem_filter.1 hi).2
    have hj' := (Finset.mem_filter.1 hj).2
    have h1 := hσ i hi'
    rw [e] at h1
    have h2 := GMove.act_same (M := M) (.shift ((M - k) % M)) (h1.symm.trans (hσ j hj'))
    have hz : (k + (M - k) % M) % M = 0 := by
      rw [Nat.add_mod_mod, Nat.add_sub_cancel' hk.le, Nat.mod_self]
    exact hR.inj _ _ (((shift_undone ha hz (hR.mem i).1).symm.trans h2).trans (shift_undone ha hz (hR.mem j).1))
  refine Finset.sum_nbij σ hmem hinj (Finset.surjOn_of_injOn_of_card_le σ hmem hinj le_rfl) ?_
  intro j hj
  have hj' := (Finset.mem_filter.1 hj).2
  have hS := hσ j hj'
  beta_reduce
  rw [hg _ _ hS, signedW_same hS (hR.mem (σ j)).2.nodup, signedW_shift hA ha hh hE hcut hk (hR.mem j).1 (hR.mem j).2 hj']
  have hd : bathDim (c (σ j)) = bathDim (c j) := by
    have l1 := hS.1.length_eq
    have l2 := hS.2.1.length_eq
    simp only [GMove.act, List.length_map] at l1 l2
    unfold bathDim
    rw [l1, l2]
  rw [hd]

end shiftSum

/-! ### Second derivative of the logarithm of a generating function -/

theorem log_mixed_deriv {X : Type} [Fintype X] (w : X → ℝ) (p q : X → ℕ) (hZ : ∑ j, w j ≠ 0) :
    deriv (fun l : ℝ => deriv (fun r : ℝ => Real.log (∑ j, w j * l ^ p j * r ^ q j)) 1) 1 =
      (∑ j, w j * (p j * q j)) / (∑ j, w j) - (∑ j, w j * p j) / (∑ j, w j) * ((∑ j, w j * q j) / ∑ j, w j) := by
  have hd : ∀ (v : X → ℝ) (n : X → ℕ) (x : ℝ), HasDerivAt (fun l : ℝ => ∑ j, v j * l ^ n j) (∑ j, v j * (n j * x ^ (n j - 1))) x := by
    intro v n x
    exact HasDerivAt.fun_sum fun j _ => (hasDerivAt_pow (n j) x).const_mul (v j)
  have hcont : ContinuousAt (fun l : ℝ => ∑ j, w j * l ^ p j) 1 := (hd w p 1).continuousAt
  have hne : (fun l : ℝ => ∑ j, w j * l ^ p j) 1 ≠ 0 := by simpa using hZ
  have hev : (fun l : ℝ => deriv (fun r : ℝ => Real.log (∑ j, w j * l ^ p j * r ^ q j)) 1) =ᶠ[nhds 1]
      fun l => (∑ j, (w j * q j) * l ^ p j) / ∑ j, w j * l ^ p j := by
    filter_upwards [hcont.eventually_ne hne] with l hl
    have h1 := hd (fun j => w j * l ^ p j) q 1
    have h2 := h1.log (by simpa using hl)
    rw [h2.deriv]
    simp only [one_pow, mul_one]
    congr 1
    exact Finset.sum_congr rfl fun j _ => by ring
  rw [hev.deriv_eq]
  have h3 := (hd (fun j => w j * q j) p 1).fun_div (hd w p 1) hne
  rw [h3.deriv]
  simp only [one_pow, mul_one]
  have e : ∑ j, w j * q j * (p j : ℝ) = ∑ j, w j * (p j * q j) := Finset.sum_congr rfl fun j _ => by ring
  rw [e]
  field_simp

end CTHyb
