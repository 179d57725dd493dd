import Verif.StaticMeas
import Verif.MeasCorrelationProps
import Verif.SimulationCodeProps

/-! C62: static observables. -/

namespace CTHyb

section window
variable {R Ket Bra K ι : Type} [Field R] [LinearOrder R] [IsStrictOrderedRing R] {V : SWEnv R Ket Bra K ι}

/-- Specification: the pair `c†_{f0} c_{f1}` at time `t`, `c` acting first. -/
def pairAt (t : R) (o : CdagC) : List (TPsi R) := [⟨⟨t, 0⟩, .annihilation, o.f1⟩, ⟨⟨t, 1⟩, .creation, o.f0⟩]

theorem tauEdge_half (beta : R) (n : ℕ) (hn : 1 ≤ n) : tauEdge beta n n = beta / 2 := by
  have : (n : R) ≠ 0 := by exact_mod_cast (by omega : n ≠ 0)
  unfold tauEdge
  field_simp

theorem split_pair {t : R} {ops ops' : OpSet (OpTime R)} (hs : ops.Sorted) (hs' : ops'.Sorted) (o : CdagC)
    (hp : ops'.Perm (pairAt t o ++ ops)) (hno : ∀ q ∈ ops, q.time.time ≠ t) :
    ops' = ops.filter (fun q => decide (q.time < opT t)) ++ (pairAt t o ++
      ops.filter (fun q => decide (opT t < q.time))) := by
  have hlt : ∀ q ∈ ops, opT t < q.time ↔ t < q.time.time := by
    intro q hq
    rw [OpTime.lt_def]
    have := hno q hq
    simp only [opT]
    exact ⟨fun h => h.elim id fun h => absurd h.1.symm this, Or.inl⟩
  have hgt : ∀ q ∈ ops, q.time < opT t ↔ q.time.time < t := by
    intro q hq
    rw [OpTime.lt_def]
    have := hno q hq
    simp only [opT]
    exact ⟨fun h => h.elim id fun h => absurd h.1 this, Or.inl⟩
  have e : ops.filter (fun q => decide (opT t ≤ q.time)) = ops.filter (fun q => decide (opT t < q.time)) := by
    apply List.filter_congr
    intro q hq
    congr 1
    refine propext ⟨fun h => lt_of_le_of_ne h fun h' => ?_, le_of_lt⟩
    exact hno q hq (congrArg OpTime.time h').symm
  refine List.Perm.eq_of_pairwise (le := fun (a b : TPsi R) => a.time < b.time) ?_ hs' ?_ ?_
  · intro a b _ _ h1 h2
    exact absurd (lt_trans h1 h2) (lt_irrefl _)
  · rw [List.pairwise_append]
    refine ⟨List.Pairwise.filter _ hs, ?_, ?_⟩
    · rw [List.pairwise_append]
      refine ⟨?_, List.Pairwise.filter _ hs, ?_⟩
      · simp only [pairAt, List.pairwise_cons, List.mem_singleton, forall_eq, List.not_mem_nil,
          IsEmpty.forall_iff, implies_true, List.Pairwise.nil, and_true]
        rw [OpTime.lt_def]
        exact Or.inr ⟨rfl, by norm_num⟩
      · intro a ha b hb
        rw [List.mem_filter, decide_eq_true_eq] at hb
        have := (hlt b hb.1).1 hb.2
        rw [OpTime.lt_def]
        left
        simp only [pairAt, List.mem_cons, List.not_mem_nil, or_false] at ha
        rcases ha with rfl | rfl <;> exact this
    · intro a ha b hb
      rw [List.mem_filter, decide_eq_true_eq] at ha
      have ha' := (hgt a ha.1).1 ha.2
      rw [OpTime.lt_def]
      left
      rcases List.mem_append.1 hb with hb | hb
      · simp only [pairAt, List.mem_cons, List.not_mem_nil, or_false] at hb
        rcases hb with rfl | rfl <;> exact ha'
      · rw [List.mem_filter, decide_eq_true_eq] at hb
        exact lt_trans ha' ((hlt b hb.1).1 hb.2)
  · refine hp.trans ?_
    rw [← e]
    refine List.Perm.trans ?_ (List.perm_append_comm_assoc _ _ _)
    rw [split_lt hs]

/-- **C62.**  In every state of the window with valid caches, `MeasStaticObs` does not throw and leaves the window as it
was; the value of the observable `c†_{f0} c_{f1}` is the trace of the configuration with this pair of operators added
at `β/2`, provided that no operator of the configuration is exactly there. -/
theorem C62_static_partial [Fintype ι] [AddCommMonoid K] (hE : V.E.Lawful) (hb : 0 ≤ V.beta) {ops : OpSet (OpTime R)}
    {s : SWState Ket Bra ι} (h : SWInv V (s, ops)) (h1 : 2 ≤ s.n ∨ s.posR = 0)
    (hno : ∀ q ∈ ops, q.time.time ≠ V.beta / 2) (obs : List CdagC) :
    ∃ (s' : SWState Ket Bra ι) (vals : List K), staticMeas V obs ops s = some (s', vals) ∧ SWInv V (s', ops) ∧ s'.n = s.n ∧ s'.posL = s.posL ∧
      s'.posR = s.posR ∧ (2 ≤ s.n → s'.dirLeft = newDir s.n s.posR s.dirLeft) ∧ vals.length = obs.length ∧
      ∀ (j : ℕ) o, obs[j]? = some o → ∀ ops' : OpSet (OpTime R), ops'.Sorted →
        ops'.Perm (pairAt (V.beta / 2) o ++ ops) → vals[j]? = some (fullTrace V ops') := by
  have hpos := h.n_pos
  simp only at hpos
  obtain ⟨s1, e1, k1, n1, l1, r1, -⟩ := moveLeftTo_ok h.caches s.n (by simp only; omega)
  simp only at n1 r1
  obtain ⟨s2, e2, k2, n2, l2, r2, -⟩ := moveRightTo_ok k1 s.n
  obtain ⟨s3, e3, k3, n3, l3, a3, b3⟩ := restoreState_ok k2 ops (getState s) h.caches.posL
  obtain ⟨t1, ht1⟩ := stackOf_head (expL V ops s2.n) (2 * s2.n - s2.posL)
  obtain ⟨t2, ht2⟩ := stackOf_head (expR V ops s2.n) s2.posR
  have hR : s3.posR = s.posR := by
    by_cases h2 : 2 ≤ s.n
    · exact (a3 h2).1
    · have := b3 (show s.n < 2 by omega)
      have h3 := h1.resolve_left h2
      omega
  have hn3 : s3.n = s.n := n3
  have hl3 : s3.posL = s.posL := l3
  refine ⟨s3, _, by
    simp only [staticMeas, e1, e2, Option.bind_some]
    rw [k2.left, k2.right, ht1, ht2]
    simp only [e3, Option.map_some]
    rfl, ⟨h.ops, k3, ?_, ?_⟩, hn3, hl3, hR, fun h2 => (a3 h2).2, by simp, ?_⟩
  · show 1 ≤ s3.n
    omega
  · show s3.posR ≤ s3.posL
    rw [hR, hl3]; exact h.le
  · intro j o hj ops' hs' hp
    rw [List.getElem?_map, hj, Option.map_some]
    congr 1
    unfold fullTrace
    refine Finset.sum_congr rfl fun i _ => ?_
    have hinv : ∀ b k, (if V.E.invB b || V.E.invK k then 0 else V.E.product b (applyKet V.E o k)) =
        V.E.product b (applyKet V.E o k) := by
      intro b k
      split_ifs with hi
      · rw [Bool.or_eq_true] at hi
        rcases hi with hi | hi
        · rw [hE.invB_zero _ _ hi]
        · unfold applyKet
          rw [hE.invK_op _ _ _ hi, hE.invK_op _ _ _ hi, hE.invK_zero _ _ hi]
      · rfl
    rw [hinv]
    have hn2 : s2.n = s.n := by omega
    have hL : 2 * s2.n - (2 * s2.n - s2.posL) = s2.n := by omega
    have hR2 : s2.posR = s2.n := by omega
    rw [expL_value hE hb h.ops _ (by omega) _ (by omega), hL, hR2, expR_value hE hb h.ops,
      tauEdge_half _ _ (by omega), split_pair h.ops.1 hs' o hp hno, timeOrdered_append hE (V.beta / 2),
      timeOrdered_append hE (V.beta / 2)]
    congr 2
    simp only [pairAt, timeOrdered, sub_self, hE.prop_zero]
    rfl

/-- Four operators, the second one at `β/2`. -/
def lostOps : OpSet (OpTime ℚ) :=
  [⟨⟨1/4, 0⟩, .annihilation, 0⟩, ⟨⟨1/2, 0⟩, .creation, 0⟩, ⟨⟨3/4, 0⟩, .creation, 1⟩, ⟨⟨4/5, 0⟩, .annihilation, 1⟩]

/-- **C62, violation.**  An operator of the configuration exactly at `β/2` is neither in the ket nor in the bra: the value
is that of the configuration without it, whether it should act before or after the observable. -/
theorem C62_coincidence_violated : OpsOK toyEnv.beta lostOps ∧ ∃ x,
    ((initStacks toyEnv 2 lostOps 0 0 0 false).bind fun s =>
      (staticMeas toyEnv [⟨1, 1⟩] lostOps s).map Prod.snd) = some [x] ∧
    x = fullTrace toyEnv (lostOps.take 1 ++ pairAt (1/2) ⟨1, 1⟩ ++ lostOps.drop 2) ∧
    x ≠ fullTrace toyEnv (lostOps.take 2 ++ pairAt (1/2) ⟨1, 1⟩ ++ lostOps.drop 2) ∧
    x ≠ fullTrace toyEnv (lostOps.take 1 ++ pairAt (1/2) ⟨1, 1⟩ ++ lostOps.drop 1) := by
  refine ⟨⟨by unfold OpSet.Sorted; decide +kernel, by decide +kernel⟩,
    fullTrace toyEnv (lostOps.take 1 ++ pairAt (1/2) ⟨1, 1⟩ ++ lostOps.drop 2), ?_, rfl, ?_, ?_⟩ <;> decide +kernel

/-- Concrete case of `C62_static_partial`: the operators of `toyOps'`, three windows, all positions of a sweep. -/
example : ∀ m ∈ List.range 9, ((initStacks toyEnv 3 toyOps' 0 0 0 false).bind fun s =>
    (iterOpt (moveNext toyEnv toyOps') m s).bind fun s => (staticMeas toyEnv [⟨0, 0⟩, ⟨1, 0⟩] toyOps' s).map Prod.snd) =
    some [fullTrace toyEnv (toyOps'.take 2 ++ pairAt (1/2) ⟨0, 0⟩ ++ toyOps'.drop 2),
      fullTrace toyEnv (toyOps'.take 2 ++ pairAt (1/2) ⟨1, 0⟩ ++ toyOps'.drop 2)] := by decide +kernel

example : fullTrace toyEnv (toyOps'.take 2 ++ pairAt (1/2) ⟨0, 0⟩ ++ toyOps'.drop 2) ≠ 0 := by decide +kernel

end window

section code
variable {𝕜 : Type} [RCLike 𝕜] [DecidableEq 𝕜] {N : ℕ}

/-- **C62, densities.**  In every state of the simulation `measure_n` does not throw and leaves the state as it was.  The
value for flavor `f`, times the probability (up to normalisation) of the configuration, is the real part of the
contribution of the configuration to the expectation value of `n_f`: sign of the permutation times determinant times trace
with `c†_f c_f` at `β/2`.  The sign, times the same probability, is the contribution to the partition function. -/
theorem C62_density_partial (A : CodeArgs 𝕜 N) (h : A.OK)
    {s : GState ℝ 𝕜 (CodeDet 𝕜) (BK 𝕜) (BK 𝕜) (Fin (ebBrakets A.B A.p).length)}
    (hs : SimInv A.env A.Inv (pmDet A.P) s) (hno : ∀ q ∈ s.cfg.ops, q.time.time ≠ A.beta / 2) :
    ∃ (s' : GState ℝ 𝕜 (CodeDet 𝕜) (BK 𝕜) (BK 𝕜) (Fin (ebBrakets A.B A.p).length)) (vals : List ℝ),
      measureN A s = some (s', vals) ∧ SimInv A.env A.Inv (pmDet A.P) s' ∧ s'.cfg = s.cfg ∧
      s'.sw.n = s.sw.n ∧ s'.sw.posR = s.sw.posR ∧ vals.length = A.P.nf ∧
      (∀ f < A.P.nf, ∀ ops' : OpSet (OpTime ℝ), ops'.Sorted →
        ops'.Perm (⟨⟨A.beta / 2, 0⟩, .annihilation, f⟩ :: ⟨⟨A.beta / 2, 1⟩, .creation, f⟩ :: s.cfg.ops) →
        ∃ v, vals[f]? = some v ∧
          ‖A.weight (A.env.D.cdagg s.cfg.M) (A.env.D.cs s.cfg.M) s.cfg.ops‖ * v =
            RCLike.re ((s.cfg.permSign : 𝕜) * A.weight (A.env.D.cdagg s.cfg.M) (A.env.D.cs s.cfg.M) ops')) ∧
      ((‖A.weight (A.env.D.cdagg s.cfg.M) (A.env.D.cs s.cfg.M) s.cfg.ops‖ : ℝ) : 𝕜) * s.cfg.sign =
        (s.cfg.permSign : 𝕜) * A.weight (A.env.D.cdagg s.cfg.M) (A.env.D.cs s.cfg.M) s.cfg.ops := by
  have hE := C60_lawful A h
  have h1 : 2 ≤ s.sw.n ∨ s.sw.posR = 0 := by
    have a := hs.two
    have b : s.sw.posL ≤ 2 * s.sw.n := hs.win.caches.posL
    omega
  obtain ⟨w, vals, e, hw, hn, hl, hr, -, hlen, hv⟩ :=
    C62_static_partial (V := A.env.V) (C57_lawful h.base) h.beta hs.win h1 hno (densityOps A.P.nf)
  have hdet := hE.det_eq _ hs.inv
  obtain ⟨hp, hd, ht, hsg⟩ := hs.sign
  have htr := hs.trace
  have hsg' : s.cfg.sign = pmDet A.P s.cfg.M / ((‖pmDet A.P s.cfg.M‖ : ℝ) : 𝕜) *
    (s.cfg.trace / ((‖s.cfg.trace‖ : ℝ) : 𝕜)) * (s.cfg.permSign : 𝕜) := hsg
  have hW : ∀ ops, A.weight (A.env.D.cdagg s.cfg.M) (A.env.D.cs s.cfg.M) ops =
      pmDet A.P s.cfg.M * fullTrace A.env.V ops := by
    intro ops; rw [hdet]; rfl
  have nd : ((‖pmDet A.P s.cfg.M‖ : ℝ) : 𝕜) ≠ 0 := by
    rw [RCLike.ofReal_ne_zero]; exact norm_ne_zero_iff.2 hd
  have nt : ((‖s.cfg.trace‖ : ℝ) : 𝕜) ≠ 0 := by
    rw [RCLike.ofReal_ne_zero]; exact norm_ne_zero_iff.2 ht
  refine ⟨{ s with sw := w }, _, by simp only [measureN, e, Option.map_some]; rfl,
    ⟨hs.cons, hs.inv, hs.sign, hs.trace, hw, ?_⟩, rfl, hn, hr, by simp [hlen, densityOps], ?_, ?_⟩
  · show w.posL = w.posR + 2
    rw [hl, hr]; exact hs.two
  · intro f hf ops' hs' hp'
    have := hv f ⟨f, f⟩ (by simp [densityOps, hf]) ops' hs' hp'
    refine ⟨_, by rw [List.getElem?_map, this]; rfl, ?_⟩
    rw [← RCLike.re_ofReal_mul]
    congr 1
    rw [hW, hW, hsg', ← htr, norm_mul, RCLike.ofReal_mul]
    field_simp
  · rw [hW, hsg', ← htr, norm_mul, RCLike.ofReal_mul]
    field_simp

/-- The hypotheses of `C62_density_partial` hold after the start of the simulation of one level. -/
example : ∃ s vals, simInit exCode.env 3 0 0 0 false = some s ∧ measureN exCode s = some vals ∧
    vals.2.length = 1 := by
  obtain ⟨s, e, hs, -⟩ := C60_start exCode exCode_ok (nMin := 3) (by norm_num) 0 0 0 false
  have hops : s.cfg.ops = [] := by
    unfold simInit at e
    rw [Option.bind_eq_some_iff] at e
    obtain ⟨w, -, e⟩ := e
    rw [Option.map_eq_some_iff] at e
    obtain ⟨t, -, rfl⟩ := e
    rfl
  obtain ⟨s', v, e', -, -, -, -, hl, -⟩ := C62_density_partial exCode exCode_ok hs (by rw [hops]; simp)
  exact ⟨s, _, e, e', hl⟩

end code

end CTHyb
