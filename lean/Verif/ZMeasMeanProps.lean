import Verif.ZMeasLemmas

/-!
Property C67: the observables recorded in the space without worm, in equilibrium: densities, Green's function by removal, fidelity
susceptibility.

Specification: sums over the configurations without worm of the terms `signedW` of the expansion, changed as the observable demands:
a density operator in the trace (`densityW`), a hybridization function with an additional Legendre component (`lineZ`), factors for the
operators in one half and in the other half of the circle (`zLR`).
-/

set_option linter.unusedSectionVars false

namespace CTHyb

open Matrix Rand MeasureTheory

variable {𝕜 : Type} [RCLike 𝕜] [DecidableEq 𝕜] {N : ℕ}

section spec
variable {X : Type} [Fintype X]

/-- Term of a configuration with the density operator of flavor `f` in the trace, at half the circle. -/
noncomputable def densityW (A : CodeArgs 𝕜 N) (tau : ℤ → ℝ) (f : ℕ) (x : WCfg ℤ) : 𝕜 :=
  ((permSignImpl (x.cd.map (mkOp tau .creation)) (x.c.map (mkOp tau .annihilation)) (wormOps (codeWops tau x.worm)) : ℤ) : 𝕜) *
    A.weight (x.cd.map (mkOp tau .creation)) (x.c.map (mkOp tau .annihilation))
      (timeSort (⟨⟨A.beta / 2, 0⟩, .annihilation, f⟩ :: ⟨⟨A.beta / 2, 1⟩, .creation, f⟩ :: x.ops tau (codeWops tau)))

/-- The sum over the configurations without worm as function of the Legendre coefficient of the hybridization function. -/
noncomputable def lineZ (A : CodeArgs 𝕜 N) (tau : ℤ → ℝ) (δ : ℝ) (c : X → WCfg ℤ) (fa fc il : ℕ) (e : 𝕜) : 𝕜 :=
  ∑ j, if (c j).worm = none then
    signedW ({ A with G := fun a b => A.G a b + e * lineDir A.beta fa fc il a b } : CodeArgs 𝕜 N) tau (c j) * ((δ : 𝕜) ^ bathDim (c j)) else 0

/-- Number of operators with times in the half circle that begins at `start`. -/
noncomputable def kIn (tau : ℤ → ℝ) (beta start : ℝ) (x : WCfg ℤ) : ℕ :=
  (x.ops tau (codeWops tau)).countP fun o => decide (start ≤ o.time.time ∧ o.time.time < start + beta / 2)

/-- Number of the other operators. -/
noncomputable def kOut (tau : ℤ → ℝ) (beta start : ℝ) (x : WCfg ℤ) : ℕ :=
  (x.ops tau (codeWops tau)).countP fun o => decide (¬ (start ≤ o.time.time ∧ o.time.time < start + beta / 2))

/-- The sum over the configurations without worm if the hybridization is multiplied by factors in the two halves of the circle: `l` for
every operator in the first, `r` for every operator in the second half. -/
noncomputable def zLR (A : CodeArgs 𝕜 N) (tau : ℤ → ℝ) (δ : ℝ) (c : X → WCfg ℤ) (start l r : ℝ) : ℝ :=
  ∑ j, (if (c j).worm = none then RCLike.re (signedW A tau (c j)) * δ ^ bathDim (c j) else 0) *
    l ^ kIn tau A.beta start (c j) * r ^ kOut tau A.beta start (c j)

/-- Fidelity susceptibility: half the mixed derivative of the logarithm. -/
noncomputable def fidelityAt (A : CodeArgs 𝕜 N) (tau : ℤ → ℝ) (δ : ℝ) (c : X → WCfg ℤ) (start : ℝ) : ℝ :=
  1 / 2 * deriv (fun l => deriv (fun r => Real.log (zLR A tau δ c start l r)) 1) 1

end spec

section main
variable {X : Type} [Fintype X] [DecidableEq X]
variable {A : CodeArgs 𝕜 N} {a : MoveArgs} {M : ℕ} {c : X → WCfg ℤ} {rd : CodeState A (Option (Worm ℤ)) → WCfg ℤ}
  {nStd : ℕ} {sh : Bool} {movers : List WormKind} {plan : Rand ℝ (List (ℕ × List (List ℕ)))} {st : SavedState}
  {s : X → CodeState A (Option (Worm ℤ))}

/-- **C67, densities.**  In equilibrium the mean of `n`, divided by the mean of the sign, is the sum over all configurations without worm
with the density operator in the trace, divided by the sum over all configurations without worm.  No operator lies at `β/2`, since the
grid is even.  Missing for the full statement: as in `C61_loop_partial`. -/
theorem C67_density_partial (L : LoopSetup A a M c rd nStd sh movers plan st s) (nGlobal : ℕ) (fl : Bool) (k : ℕ)
    {f : ℕ} (hf : f < A.P.nf) :
    let E := loopMean A a M rd nStd nGlobal fl sh movers k plan c s
    E (fun s => inZ s * recordN A f s.1) / E inZ / (E (fun s => inZ s * RCLike.re s.1.cfg.sign) / E inZ) =
      zSumOf (A.beta / M) c (fun j => RCLike.re (densityW A a.tau f (c j))) / zSum A a.tau (A.beta / M) c := by
  refine loopMean_Z L nGlobal fl k (fun s => recordN A f s.1) _ fun s hs j hj hw => ?_
  have hA := L.code
  have ha := L.moves
  have hops := ops_of_reps hs hj
  have hno : ∀ q ∈ s.1.cfg.ops, q.time.time ≠ A.beta / 2 := by
    intro q hq e
    rw [← hops] at hq
    obtain ⟨t, -, ht⟩ := (L.reprs.mem j).1.time q ((PCfg.sorted_perm _).subset hq)
    rw [ht, ha.tau] at e
    obtain ⟨m, hm⟩ := L.loop.even
    have hM := ha.grid
    have hMr : (0 : ℝ) < M := by exact_mod_cast hM
    unfold gridTau at e
    rw [div_eq_div_iff (by positivity) (by norm_num)] at e
    have hb := ha.beta
    have e' : ((2 * t + 1 : ℤ) : ℝ) = ((M : ℤ) : ℝ) := by
      push_cast
      have : A.beta * (2 * (2 * (t : ℝ) + 1)) = A.beta * (2 * M) := by linear_combination e
      have := mul_left_cancel₀ hb.ne' this
      linarith
    have e2 : 2 * t + 1 = (M : ℤ) := by exact_mod_cast e'
    omega
  obtain ⟨s', vals, e, -, -, -, -, hlen, hv, -⟩ := C62_density_partial A hA hs hno
  have hn := hj.nodup hs
  have hp : (timeSort (⟨⟨A.beta / 2, 0⟩, .annihilation, f⟩ :: ⟨⟨A.beta / 2, 1⟩, .creation, f⟩ ::
      (c j).ops a.tau (codeWops a.tau))).Perm
      (⟨⟨A.beta / 2, 0⟩, .annihilation, f⟩ :: ⟨⟨A.beta / 2, 1⟩, .creation, f⟩ :: s.1.cfg.ops) :=
    (timeSort_perm _).trans (((hj.ops_perm hs).cons _).cons _)
  have hsort : OpSet.Sorted (timeSort ((⟨⟨A.beta / 2, 0⟩, .annihilation, f⟩ : TPsi ℝ) :: ⟨⟨A.beta / 2, 1⟩, .creation, f⟩ ::
      (c j).ops a.tau (codeWops a.tau))) := by
    have hnd : (((⟨⟨A.beta / 2, 0⟩, .annihilation, f⟩ : TPsi ℝ) :: ⟨⟨A.beta / 2, 1⟩, .creation, f⟩ ::
        (c j).ops a.tau (codeWops a.tau)).map Psi.time).Nodup := by
      have hno' : ∀ z : ℤ, (⟨A.beta / 2, z⟩ : OpTime ℝ) ∉ ((c j).ops a.tau (codeWops a.tau)).map Psi.time := by
        intro z hz
        obtain ⟨q, hq, e⟩ := List.mem_map.1 hz
        exact hno q ((hj.ops_perm hs).subset hq) (by rw [e])
      simp only [List.map_cons, List.nodup_cons, List.mem_cons, not_or]
      exact ⟨⟨by simp, hno' 0⟩, hno' 1, hn⟩
    have h1 := timeSort_sorted ((⟨⟨A.beta / 2, 0⟩, .annihilation, f⟩ : TPsi ℝ) :: ⟨⟨A.beta / 2, 1⟩, .creation, f⟩ ::
      (c j).ops a.tau (codeWops a.tau))
    have h2 := ((timeSort_perm ((⟨⟨A.beta / 2, 0⟩, .annihilation, f⟩ : TPsi ℝ) :: ⟨⟨A.beta / 2, 1⟩, .creation, f⟩ ::
      (c j).ops a.tau (codeWops a.tau))).map Psi.time).nodup_iff.2 hnd
    rw [List.Nodup, List.pairwise_map] at h2
    exact (h1.and h2).imp fun h => lt_of_le_of_ne h.1 h.2
  obtain ⟨v, hv1, hv2⟩ := hv f hf _ hsort hp
  have er : recordN A f s.1 = v := by
    unfold recordN
    rw [e]
    simp [List.getD_eq_getElem?_getD, hv1]
  rw [er, cfgW_of_reps hs hj, hv2]
  congr 1
  exact term_of_reps hA hs hj A.G _

/-- **C67, Green's function by removal.**  In equilibrium the mean of what is added to `g_meas_[fa][fc][il]`, divided by the mean of the
sign, is `-1/β` times the derivative of the sum over the configurations without worm with respect to the `il`-th Legendre coefficient of
the hybridization function between the flavors, divided by this sum; for the real and the imaginary part (`φ`).  Missing for the full
statement: as in `C61_loop_partial`; the sum is over the configurations whose weight is not zero. -/
theorem C67_removal_partial (L : LoopSetup A a M c rd nStd sh movers plan st s) (nGlobal : ℕ) (fl : Bool) (k : ℕ)
    (nl fa fc il : ℕ) (hil : il < nl) (φ : 𝕜 →ₗ[ℝ] ℝ) :
    let E := loopMean A a M rd nStd nGlobal fl sh movers k plan c s
    E (fun s => inZ s * φ (recordG A nl fa fc il s.1)) / E inZ / (E (fun s => inZ s * RCLike.re s.1.cfg.sign) / E inZ) =
      φ (-1 / (A.beta : 𝕜) * deriv (lineZ A a.tau (A.beta / M) c fa fc il) 0) / zSum A a.tau (A.beta / M) c := by
  have hA := L.code
  have hlin : ∀ (b : ℝ) (z : 𝕜), b * φ z = φ ((b : 𝕜) * z) := by
    intro b z
    rw [← smul_eq_mul, ← map_smul, RCLike.real_smul_eq_coe_mul]
  set A' : 𝕜 → CodeArgs 𝕜 N := fun e => { A with G := fun a b => A.G a b + e * lineDir A.beta fa fc il a b } with hA'
  have hterm : ∀ s, SimInv A.env A.Inv (pmDet A.P) s.1 → ∀ j, Reps A a.tau (codeWops a.tau) (c j) s → ∀ e,
      A.contrib s.1 (fun a b => A.G a b + e * lineDir A.beta fa fc il a b) = signedW (A' e) a.tau (c j) := by
    intro s hs j hj e
    unfold CodeArgs.contrib signedW
    rw [term_of_reps hA hs hj, ops_of_reps hs hj]
  have hdiff : ∀ j, DifferentiableAt 𝕜 (fun e => signedW (A' e) a.tau (c j)) 0 := by
    intro j
    obtain ⟨m, hm, hinv⟩ := (L.inv j).inv
    have := (A.contrib_deriv hA (L.inv j) hm hinv (lineDir A.beta fa fc il)).differentiableAt
    refine this.congr_of_eventuallyEq (Filter.Eventually.of_forall fun e => ?_)
    exact (hterm _ (L.inv j) j (L.reps j) e).symm
  intro E
  rw [loopMean_Z L nGlobal fl k (fun s => φ (recordG A nl fa fc il s.1))
    (fun j => φ (-1 / (A.beta : 𝕜) * deriv (fun e => signedW (A' e) a.tau (c j)) 0)) ?_]
  · congr 1
    have hfun : lineZ A a.tau (A.beta / M) c fa fc il = fun e => ∑ j, (if (c j).worm = none then
        signedW (A' e) a.tau (c j) * (((A.beta / M : ℝ) : 𝕜) ^ bathDim (c j)) else 0) := rfl
    have hd : ∀ j, DifferentiableAt 𝕜 (fun e => if (c j).worm = none then
        signedW (A' e) a.tau (c j) * (((A.beta / M : ℝ) : 𝕜) ^ bathDim (c j)) else 0) 0 := by
      intro j
      split_ifs
      · exact (hdiff j).mul_const _
      · exact differentiableAt_const _
    rw [hfun, deriv_fun_sum fun j _ => hd j, Finset.mul_sum, map_sum]
    unfold zSumOf
    refine Finset.sum_congr rfl fun j _ => ?_
    by_cases hj : (c j).worm = none
    · simp only [hj, if_true]
      rw [deriv_mul_const (hdiff j), mul_comm (φ _), hlin]
      congr 1
      push_cast
      ring
    · simp only [hj, if_false]
      rw [deriv_const, mul_zero, map_zero]
  · intro s hs j hj hw
    obtain ⟨acc, e, -, ev⟩ := C63_measure A hA hs nl .zero
    have er : recordG A nl fa fc il s.1 = acc.g fa fc il := by
      unfold recordG
      rw [e]; rfl
    have hG0 : (fun a b => A.G a b + (0 : 𝕜) * lineDir A.beta fa fc il a b) = A.G := by
      funext a b; rw [zero_mul, add_zero]
    have hn : ‖A.contrib s.1 A.G‖ = cfgW A a.tau (codeWops a.tau) (c j) := by
      rw [← norm_signedW]
      have := hterm s hs j hj 0
      rw [hG0] at this
      rw [this, hA']
      simp only [hG0]
    have := ev fa fc il hil
    rw [hn] at this
    rw [hlin, er]
    congr 1
    simp only [RemovalAcc.zero, sub_zero] at this
    rw [this]
    congr 2
    funext e
    exact hterm s hs j hj e

/-! ### Fidelity susceptibility -/

theorem kIn_add_kOut (tau : ℤ → ℝ) (beta start : ℝ) (x : WCfg ℤ) :
    kIn tau beta start x + kOut tau beta start x = (x.ops tau (codeWops tau)).length := by
  unfold kIn kOut
  rw [List.length_eq_countP_add_countP fun o => decide (start ≤ o.time.time ∧ o.time.time < start + beta / 2)]
  congr 2
  funext o
  simp

/-- Shifted by half a period, the numbers change their roles. -/
theorem kIn_shift (ha : a.OK A M) {m : ℕ} (hm : M = 2 * m) {x : WCfg ℤ} (hx : OnGrid A.P.nf a.G a.kinds x) (hw : x.worm = none)
    {start : ℝ} (h0 : 0 ≤ start) (h1 : start ≤ A.beta / 2) :
    kIn a.tau A.beta start ((GMove.shift m).act M x) = kOut a.tau A.beta start x := by
  have hM := ha.grid
  have hb : ∀ (y : WCfg ℤ), y.worm = none → y.ops a.tau (codeWops a.tau) =
      y.cd.map (mkOp a.tau .creation) ++ y.c.map (mkOp a.tau .annihilation) := by
    intro y hy
    simp [PCfg.ops, hy, codeWops, wormOps]
  unfold kIn kOut
  rw [hb _ (by simp [GMove.act, hw]), hb x hw]
  simp only [GMove.act, List.countP_append, List.countP_map, Function.comp_def, mkOp, GMove.bop]
  have key : ∀ o : BOp ℤ, o.1 ∈ a.G → ((start ≤ a.tau ((o.1 + m) % M) ∧ a.tau ((o.1 + m) % M) < start + A.beta / 2) ↔
      ¬ (start ≤ a.tau o.1 ∧ a.tau o.1 < start + A.beta / 2)) := by
    intro o ho
    rw [ha.G] at ho
    rw [ha.tau]
    subst hm
    exact shift_half ha.beta (by omega) ho h0 h1
  congr 1
  · exact List.countP_congr fun o ho => by
      exact Iff.trans decide_eq_true_iff (Iff.trans (key o (hx.cd_mem o ho).1) decide_eq_true_iff.symm)
  · exact List.countP_congr fun o ho => by
      exact Iff.trans decide_eq_true_iff (Iff.trans (key o (hx.c_mem o ho).1) decide_eq_true_iff.symm)

/-- Without worm there are at most as many operators as points. -/
theorem ops_length_le (ha : a.OK A M) {x : WCfg ℤ} (hx : OnGrid A.P.nf a.G a.kinds x) (hg : x.Good A a.tau (codeWops a.tau))
    (hw : x.worm = none) : (x.ops a.tau (codeWops a.tau)).length ≤ M ∧ ∀ o ∈ x.ops a.tau (codeWops a.tau), o.time.small = 0 := by
  have hb : x.ops a.tau (codeWops a.tau) = x.cd.map (mkOp a.tau .creation) ++ x.c.map (mkOp a.tau .annihilation) := by
    simp [PCfg.ops, hw, codeWops, wormOps]
  have hn := hg.nodup
  constructor
  · have e : (x.ops a.tau (codeWops a.tau)).map Psi.time =
        ((x.cd ++ x.c).map Prod.fst).map fun t => (⟨a.tau t, 0⟩ : OpTime ℝ) := by
      rw [hb]; simp [mkOp, Function.comp_def]
    rw [e] at hn
    have hn' := List.Nodup.of_map _ hn
    have hlen : (x.ops a.tau (codeWops a.tau)).length = ((x.cd ++ x.c).map Prod.fst).length := by rw [hb]; simp
    have hsub : ((x.cd ++ x.c).map Prod.fst).toFinset ⊆ a.G := by
      intro t ht
      rw [List.mem_toFinset] at ht
      obtain ⟨o, ho, rfl⟩ := List.mem_map.1 ht
      rcases List.mem_append.1 ho with h | h
      · exact (hx.cd_mem o h).1
      · exact (hx.c_mem o h).1
    rw [hlen, ← List.toFinset_card_of_nodup hn']
    refine (Finset.card_le_card hsub).trans ?_
    rw [ha.G]; simp
  · intro o ho
    rw [hb] at ho
    rcases List.mem_append.1 ho with h | h
    · obtain ⟨b, -, rfl⟩ := List.mem_map.1 h; rfl
    · obtain ⟨b, -, rfl⟩ := List.mem_map.1 h; rfl

/-- What is recorded for `kLkR`, for a state of the simulation without worm. -/
theorem measureKLKR_of_reps (ha : a.OK A M) (hM : M < 2 ^ 16) {x : WCfg ℤ} (hx : OnGrid A.P.nf a.G a.kinds x)
    (hg : x.Good A a.tau (codeWops a.tau)) (hw : x.worm = none) {s : CodeState A (Option (Worm ℤ))}
    (hs : SimInv A.env A.Inv (pmDet A.P) s.1) (h : Reps A a.tau (codeWops a.tau) x s) (start : ℝ) :
    measureKLKR s.1.cfg.ops A.beta start = kIn a.tau A.beta start x * kOut a.tau A.beta start x ∧
      s.1.cfg.ops.length = (x.ops a.tau (codeWops a.tau)).length := by
  have hp := h.ops_perm hs
  obtain ⟨h1, h2⟩ := ops_length_le ha hx hg hw
  obtain ⟨e1, -⟩ := C37_kLkR s.1.cfg.ops A.beta start (fun o ho => (h2 o (hp.mem_iff.2 ho)).ge)
    (by rw [← hp.length_eq]; omega)
  refine ⟨?_, hp.length_eq.symm⟩
  rw [e1]
  unfold kIn kOut countIn
  rw [hp.countP_eq, hp.countP_eq, List.countP_eq_length_filter, List.countP_eq_length_filter]
  congr 2
  refine List.filter_congr fun o _ => ?_
  rw [decide_eq_decide, not_and_or, not_le, not_lt]

theorem measurable_kIn (tau : ℤ → ℝ) (beta : ℝ) (x : WCfg ℤ) :
    Measurable (fun u : ℝ => (kIn tau beta (1 / 2 * beta * u) x : ℝ)) := by
  unfold kIn
  induction x.ops tau (codeWops tau) with
  | nil => simp
  | cons o l ih =>
    simp only [List.countP_cons, Nat.cast_add, decide_eq_true_eq, Nat.cast_ite, Nat.cast_one, Nat.cast_zero]
    refine ih.add (Measurable.ite ?_ measurable_const measurable_const)
    have h1 : Measurable fun u : ℝ => 1 / 2 * beta * u := by fun_prop
    exact (measurableSet_le h1 measurable_const).inter (measurableSet_lt measurable_const (h1.add_const _))

theorem measurable_kInOut (tau : ℤ → ℝ) (beta : ℝ) (x : WCfg ℤ) :
    Measurable (fun u : ℝ => (kIn tau beta (1 / 2 * beta * u) x * kOut tau beta (1 / 2 * beta * u) x : ℝ)) := by
  have h := measurable_kIn tau beta x
  have e : (fun u : ℝ => (kIn tau beta (1 / 2 * beta * u) x * kOut tau beta (1 / 2 * beta * u) x : ℝ)) =
      fun u => (kIn tau beta (1 / 2 * beta * u) x : ℝ) * ((x.ops tau (codeWops tau)).length - kIn tau beta (1 / 2 * beta * u) x) := by
    funext u
    rw [← kIn_add_kOut tau beta (1 / 2 * beta * u) x]
    push_cast; ring
  rw [e]
  exact h.mul (measurable_const.sub h)

theorem integrable_kInOut (tau : ℤ → ℝ) (beta : ℝ) (x : WCfg ℤ) :
    IntegrableOn (fun u : ℝ => (kIn tau beta (1 / 2 * beta * u) x * kOut tau beta (1 / 2 * beta * u) x : ℝ)) (Set.Ico 0 1) := by
  refine Measure.integrableOn_of_bounded (M := ((x.ops tau (codeWops tau)).length : ℝ) * (x.ops tau (codeWops tau)).length)
    (by simp) (measurable_kInOut tau beta x).aestronglyMeasurable (Filter.Eventually.of_forall fun u => ?_)
  rw [Real.norm_of_nonneg (by positivity)]
  have h := kIn_add_kOut tau beta (1 / 2 * beta * u) x
  exact mul_le_mul (by exact_mod_cast (by omega)) (by exact_mod_cast (by omega)) (by positivity) (by positivity)

/-- **C67, fidelity susceptibility, values.**  With the mean sign `S` the means of `kLkR` and `k` are `S` times the averages `K2`, `K1`
with the terms of the expansion; the fidelity susceptibility, averaged over the random begin of the half circle, is
`(K2 - K1²/4)/2`. -/
theorem C67_fidelity_values (L : LoopSetup A a M c rd nStd sh movers plan st s) (nGlobal : ℕ) (fl : Bool) (k : ℕ) (hM : M < 2 ^ 16)
    {h : ℕ → ℕ → ℝ → 𝕜} (hh : AntiPer A h) {E0 : ℝ}
    (hE : IsLeast (eigenvaluesOf A.B.H) E0) (hcut : ∀ μ ∈ eigenvaluesOf A.B.H, μ ≤ E0 + min A.p.inner A.p.outer)
    (hZ : zSum A a.tau (A.beta / M) c ≠ 0) :
    let E := loopMean A a M rd nStd nGlobal fl sh movers k plan c s
    let S := E (fun s => inZ s * RCLike.re s.1.cfg.sign) / E inZ
    let K1 := zSumOf (A.beta / M) c (fun j => RCLike.re (signedW A a.tau (c j)) * ((c j).ops a.tau (codeWops a.tau)).length) /
      zSum A a.tau (A.beta / M) c
    let K2 := ∫ u in Set.Ico (0 : ℝ) 1, zSumOf (A.beta / M) c (fun j => RCLike.re (signedW A a.tau (c j)) *
      (kIn a.tau A.beta (1 / 2 * A.beta * u) (c j) * kOut a.tau A.beta (1 / 2 * A.beta * u) (c j))) / zSum A a.tau (A.beta / M) c
    E (fun s => inZ s * ∫ u in Set.Ico (0 : ℝ) 1, RCLike.re (recordKLKR A u s.1)) / E inZ = S * K2 ∧
    E (fun s => inZ s * RCLike.re (recordK A s.1)) / E inZ = S * K1 ∧
    (∫ u in Set.Ico (0 : ℝ) 1, fidelityAt A a.tau (A.beta / M) c (1 / 2 * A.beta * u)) = 1 / 2 * (K2 - 1 / 4 * K1 ^ 2) := by
  intro E S K1 K2
  have hA := L.code
  have ha := L.moves
  set w : X → ℝ := fun j => if (c j).worm = none then RCLike.re (signedW A a.tau (c j)) * (A.beta / M) ^ bathDim (c j) else 0 with hw
  have hsum : ∀ g : X → ℝ, zSumOf (A.beta / M) c (fun j => RCLike.re (signedW A a.tau (c j)) * g j) = ∑ j, w j * g j := by
    intro g
    refine Finset.sum_congr rfl fun j _ => ?_
    rw [hw]
    simp only
    split_ifs
    · ring
    · rw [zero_mul]
  have hzw : zSum A a.tau (A.beta / M) c = ∑ j, w j := rfl
  have hS : S = zSum A a.tau (A.beta / M) c / zSumOf (A.beta / M) c (fun j => cfgW A a.tau (codeWops a.tau) (c j)) :=
    loopMean_inZ L nGlobal fl k (fun s => RCLike.re s.1.cfg.sign) (fun j => RCLike.re (signedW A a.tau (c j)))
      (fun s hs j hj _ => by rw [← weight_sign L.code hs hj, RCLike.re_ofReal_mul])
  have hmean : ∀ (D : CodeState A (Option (Worm ℤ)) → ℝ) (g : X → ℝ),
      (∀ s, SimInv A.env A.Inv (pmDet A.P) s.1 → ∀ j, Reps A a.tau (codeWops a.tau) (c j) s → (c j).worm = none →
        cfgW A a.tau (codeWops a.tau) (c j) * D s = RCLike.re (signedW A a.tau (c j)) * g j) →
      E (fun s => inZ s * D s) / E inZ = S * ((∑ j, w j * g j) / zSum A a.tau (A.beta / M) c) := by
    intro D g hD
    have h1 := loopMean_inZ L nGlobal fl k D _ hD
    change E _ / E inZ = _ at h1
    rw [h1, hS, hsum, div_mul_div_cancel₀' hZ]
  have hint : ∀ j, IntegrableOn (fun u : ℝ => w j * (kIn a.tau A.beta (1 / 2 * A.beta * u) (c j) *
      kOut a.tau A.beta (1 / 2 * A.beta * u) (c j) : ℝ)) (Set.Ico 0 1) := fun j =>
    (integrable_kInOut a.tau A.beta (c j)).const_mul (w j)
  have hK1 : K1 = (∑ j, w j * ((c j).ops a.tau (codeWops a.tau)).length) / zSum A a.tau (A.beta / M) c := by
    show zSumOf _ _ _ / _ = _
    rw [hsum]
  have hK2 : K2 = (∑ j, w j * ∫ u in Set.Ico (0 : ℝ) 1, (kIn a.tau A.beta (1 / 2 * A.beta * u) (c j) *
      kOut a.tau A.beta (1 / 2 * A.beta * u) (c j) : ℝ)) / zSum A a.tau (A.beta / M) c := by
    show (∫ u in Set.Ico (0 : ℝ) 1, zSumOf _ _ _ / _) = _
    rw [integral_div]
    congr 1
    simp only [hsum]
    rw [integral_finsetSum _ fun j _ => hint j]
    exact Finset.sum_congr rfl fun j _ => integral_const_mul _ _
  refine ⟨?_, ?_, ?_⟩
  · rw [hK2]
    refine hmean _ _ fun s hs j hj hwj => ?_
    have hval : ∀ u, RCLike.re (recordKLKR A u s.1) = (kIn a.tau A.beta (1 / 2 * A.beta * u) (c j) *
        kOut a.tau A.beta (1 / 2 * A.beta * u) (c j) : ℝ) * RCLike.re s.1.cfg.sign := by
      intro u
      unfold recordKLKR
      rw [(measureKLKR_of_reps ha hM (L.reprs.mem j).1 (L.reprs.mem j).2 hwj hs hj _).1, ← Nat.cast_mul, ← RCLike.ofReal_natCast,
        RCLike.re_ofReal_mul]
    simp only [hval]
    rw [integral_mul_const, ← weight_sign L.code hs hj, RCLike.re_ofReal_mul]
    ring
  · rw [hK1]
    refine hmean _ _ fun s hs j hj hwj => ?_
    unfold recordK
    rw [(measureKLKR_of_reps ha hM (L.reprs.mem j).1 (L.reprs.mem j).2 hwj hs hj 0).2, ← weight_sign L.code hs hj,
      ← RCLike.ofReal_natCast, RCLike.re_ofReal_mul, RCLike.re_ofReal_mul]
    ring
  · obtain ⟨m, hm⟩ := L.loop.even
    have hmM : m < M := by have := ha.grid; omega
    have hf : ∀ u ∈ Set.Ico (0 : ℝ) 1, fidelityAt A a.tau (A.beta / M) c (1 / 2 * A.beta * u) =
        1 / 2 * ((∑ j, w j * (kIn a.tau A.beta (1 / 2 * A.beta * u) (c j) * kOut a.tau A.beta (1 / 2 * A.beta * u) (c j) : ℝ)) /
          zSum A a.tau (A.beta / M) c - 1 / 4 * K1 ^ 2) := by
      intro u hu
      have hb := ha.beta
      have h0 : 0 ≤ 1 / 2 * A.beta * u := mul_nonneg (by linarith) hu.1
      have h1 : 1 / 2 * A.beta * u ≤ A.beta / 2 := by nlinarith [hu.2]
      generalize 1 / 2 * A.beta * u = start at h0 h1 ⊢
      unfold fidelityAt zLR
      rw [log_mixed_deriv w (fun j => kIn a.tau A.beta start (c j)) (fun j => kOut a.tau A.beta start (c j)) (by rw [← hzw]; exact hZ),
        ← hzw]
      have hsame : ∀ x y : WCfg ℤ, x.Same y → (kIn a.tau A.beta start x : ℝ) = kIn a.tau A.beta start y := by
        intro x y hxy
        unfold kIn
        rw [hxy.ops_perm.countP_eq]
      have hsw := zSumOf_shift hA ha L.reprs hh hE hcut hmM (A.beta / M) _ hsame
      rw [hsum, hsum] at hsw
      have hsw' : ∑ j, w j * (kIn a.tau A.beta start (c j) : ℝ) = ∑ j, w j * (kOut a.tau A.beta start (c j) : ℝ) := by
        rw [← hsw]
        refine Finset.sum_congr rfl fun j _ => ?_
        by_cases hj : (c j).worm = none
        · rw [kIn_shift ha hm (L.reprs.mem j).1 hj h0 h1]
        · have : w j = 0 := by rw [hw]; simp only [hj, if_false]
          rw [this, zero_mul, zero_mul]
      have htot : ∑ j, w j * (((c j).ops a.tau (codeWops a.tau)).length : ℝ) =
          2 * ∑ j, w j * (kIn a.tau A.beta start (c j) : ℝ) := by
        rw [two_mul]
        nth_rewrite 2 [hsw']
        rw [← Finset.sum_add_distrib]
        refine Finset.sum_congr rfl fun j _ => ?_
        rw [← kIn_add_kOut a.tau A.beta start (c j)]
        push_cast; ring
      rw [← hsw', hK1, htot]
      ring
    rw [setIntegral_congr_fun measurableSet_Ico hf, integral_const_mul, integral_sub, integral_div, integral_finsetSum _ fun j _ => hint j]
    · rw [setIntegral_const, hK2]
      simp only [integral_const_mul]
      simp
    · exact (integrable_finsetSum _ fun j _ => hint j).div_const _
    · exact integrableOn_const (by simp)

/-- **C67, fidelity susceptibility.**  If the sign is always `1`, the postprocessing gives in equilibrium half the mixed second
derivative of the logarithm of the partition function with respect to the strength of the hybridization in the two halves of the circle,
averaged over the begin of the half circle.  Missing for the full statement: as in `C61_loop_partial`; with signs the result is another
one (`C67_fidelity_violated`). -/
theorem C67_fidelity_partial (L : LoopSetup A a M c rd nStd sh movers plan st s) (nGlobal : ℕ) (fl : Bool) (k : ℕ) (hM : M < 2 ^ 16)
    {h : ℕ → ℕ → ℝ → 𝕜} (hh : AntiPer A h) {E0 : ℝ}
    (hE : IsLeast (eigenvaluesOf A.B.H) E0) (hcut : ∀ μ ∈ eigenvaluesOf A.B.H, μ ≤ E0 + min A.p.inner A.p.outer)
    (hpos : ∀ j, (c j).worm = none → signedW A a.tau (c j) = (cfgW A a.tau (codeWops a.tau) (c j) : ℝ)) :
    let E := loopMean A a M rd nStd nGlobal fl sh movers k plan c s
    fidelityOf (E (fun s => inZ s * ∫ u in Set.Ico (0 : ℝ) 1, RCLike.re (recordKLKR A u s.1)) / E inZ)
        (E (fun s => inZ s * RCLike.re (recordK A s.1)) / E inZ) (E (fun s => inZ s * RCLike.im (recordK A s.1)) / E inZ) =
      ∫ u in Set.Ico (0 : ℝ) 1, fidelityAt A a.tau (A.beta / M) c (1 / 2 * A.beta * u) := by
  intro E
  have hz : zSum A a.tau (A.beta / M) c = zSumOf (A.beta / M) c (fun j => cfgW A a.tau (codeWops a.tau) (c j)) := by
    refine Finset.sum_congr rfl fun j _ => ?_
    by_cases hj : (c j).worm = none
    · simp only [hj, if_true]
      rw [hpos j hj, RCLike.ofReal_re]
    · simp only [hj, if_false]
  have hZ := (zSumOf_cfgW_pos L).ne'
  rw [← hz] at hZ
  have hS : E (fun s => inZ s * RCLike.re s.1.cfg.sign) / E inZ = 1 := by
    have h1 := loopMean_inZ L nGlobal fl k (fun s => RCLike.re s.1.cfg.sign) (fun j => RCLike.re (signedW A a.tau (c j)))
      (fun s hs j hj _ => by rw [← weight_sign L.code hs hj, RCLike.re_ofReal_mul])
    change E _ / E inZ = zSum A a.tau (A.beta / M) c / _ at h1
    rw [h1, hz, div_self (by rw [← hz]; exact hZ)]
  have hI : E (fun s => inZ s * RCLike.im (recordK A s.1)) / E inZ = 0 := by
    have h1 := loopMean_inZ L nGlobal fl k (fun s => RCLike.im (recordK A s.1)) (fun _ => 0)
      (fun s hs j hj hwj => by
        have hne : ((cfgW A a.tau (codeWops a.tau) (c j) : ℝ) : 𝕜) ≠ 0 := by
          rw [RCLike.ofReal_ne_zero]; exact (L.reprs.mem j).2.weight
        have h2 := weight_sign L.code hs hj
        rw [hpos j hwj] at h2
        have h3 : s.1.cfg.sign = 1 := mul_left_cancel₀ hne (by rw [h2, mul_one])
        unfold recordK
        rw [h3, mul_one, RCLike.natCast_im, mul_zero])
    change E _ / E inZ = _ at h1
    rw [h1]
    simp [zSumOf]
  obtain ⟨e1, e2, e3⟩ := C67_fidelity_values L nGlobal fl k hM hh hE hcut hZ
  change _ = E _ / E inZ * _ at e1
  change _ = E _ / E inZ * _ at e2
  rw [hS, one_mul] at e1 e2
  rw [e3, hI]
  change E _ / E inZ = _ at e1
  change E _ / E inZ = _ at e2
  rw [e1, e2]
  unfold fidelityOf
  ring

end main

end CTHyb
