import Verif.WormNormProps
import Verif.SamplingSymProps

/-!
Property C65 in equilibrium: the volumes, the sign and the data of a worm space have, after any number of iterations of the loop of
`update`, expectation values whose combination in the postprocessing is a ratio of sums of signed weights.

Specification: `signedW`, the term of a configuration in the expansion, with its sign; `zSum` and `wormSum`, sums over all
configurations without and with a worm.
-/

set_option linter.unusedSectionVars false

namespace CTHyb

open Matrix Rand MeasureTheory

variable {𝕜 : Type} [RCLike 𝕜] [DecidableEq 𝕜] {N : ℕ}

section spec

/-- Term of a configuration: sign of the permutation times determinant times trace. -/
noncomputable def signedW (A : CodeArgs 𝕜 N) (tau : ℤ → ℝ) (x : WCfg ℤ) : 𝕜 :=
  ((permSignImpl (x.cd.map (mkOp tau .creation)) (x.c.map (mkOp tau .annihilation)) (wormOps (codeWops tau x.worm)) : ℤ) : 𝕜) *
    A.weight (x.cd.map (mkOp tau .creation)) (x.c.map (mkOp tau .annihilation)) (x.sorted tau (codeWops tau))

variable {X : Type} [Fintype X]

/-- Sum over the configurations without worm, with the volume `δ` for each time. -/
noncomputable def zSum (A : CodeArgs 𝕜 N) (tau : ℤ → ℝ) (δ : ℝ) (c : X → WCfg ℤ) : ℝ :=
  ∑ j, if (c j).worm = none then RCLike.re (signedW A tau (c j)) * δ ^ bathDim (c j) else 0

/-- Sum over the configurations with a worm of type `kind`, with the volume `δ` for each time of a bath operator. -/
noncomputable def wormSum (δ : ℝ) (kind : WormKind) (g : X → ℝ) (c : X → WCfg ℤ) : ℝ :=
  ∑ j, if (c j).worm.any fun w => decide (w.kind = kind) then g j * δ ^ bathDim (c j) else 0

/-- Expectation value after some iterations of the loop of `update`, if the configurations are distributed with their weight before. -/
noncomputable def loopMean (A : CodeArgs 𝕜 N) (a : MoveArgs) (M : ℕ) (rd : CodeState A (Option (Worm ℤ)) → WCfg ℤ) (nStd nGlobal : ℕ)
    (fl sh : Bool) (movers : List WormKind) (k : ℕ) (plan : Rand ℝ (List (ℕ × List (List ℕ)))) (c : X → WCfg ℤ)
    (s : X → CodeState A (Option (Worm ℤ))) (F : CodeState A (Option (Worm ℤ)) → ℝ) : ℝ :=
  (∑ i, gridW A a.tau (codeWops a.tau) (A.beta / M) wormDim (spaceEta a.sw) (c i) *
      plan.mean (fun q => simRun A M a.tau rd F (updateSteps A a M nStd nGlobal fl sh movers k q) (s i))) /
    ∑ i, gridW A a.tau (codeWops a.tau) (A.beta / M) wormDim (spaceEta a.sw) (c i)

/-- Sum over the configurations with the given worm. -/
noncomputable def wormTerm (A : CodeArgs 𝕜 N) (tau : ℤ → ℝ) (δ : ℝ) (φ : 𝕜 →ₗ[ℝ] ℝ) (w : Worm ℤ) (c : X → WCfg ℤ) : ℝ :=
  ∑ j, if (c j).worm = some w then φ (signedW A tau (c j)) * δ ^ bathDim (c j) else 0

end spec

variable {A : CodeArgs 𝕜 N} {a : MoveArgs} {M : ℕ}

/-- The weight times the sign of the state is the term of the configuration. -/
theorem weight_sign (hA : A.OK) {x : WCfg ℤ} {tau : ℤ → ℝ} {s : CodeState A (Option (Worm ℤ))}
    (hs : SimInv A.env A.Inv (pmDet A.P) s.1) (h : Reps A tau (codeWops tau) x s) :
    ((cfgW A tau (codeWops tau) x : ℝ) : 𝕜) * s.1.cfg.sign = signedW A tau x := by
  have hE := C60_lawful A hA
  have hn := h.nodup hs
  have e : x.sorted tau (codeWops tau) = s.1.cfg.ops :=
    sorted_unique (x.sorted_sorted hn) hs.cons.1 (x.sorted_perm.trans (h.ops_perm hs))
  have hn' := hn
  rw [PCfg.ops, List.map_append, List.map_append] at hn'
  have n1 := (List.nodup_append.1 (List.nodup_append.1 hn').1).1
  have n2 := (List.nodup_append.1 (List.nodup_append.1 hn').1).2.1
  have hdet := hE.det_eq _ hs.inv
  obtain ⟨hp, hd, ht, hsg⟩ := hs.sign
  have htr := hs.trace
  have hsg' : s.1.cfg.sign = pmDet A.P s.1.cfg.M / ((‖pmDet A.P s.1.cfg.M‖ : ℝ) : 𝕜) *
    (s.1.cfg.trace / ((‖s.1.cfg.trace‖ : ℝ) : 𝕜)) * (s.1.cfg.permSign : 𝕜) := hsg
  have hpp : permSignImpl (x.cd.map (mkOp tau .creation)) (x.c.map (mkOp tau .annihilation)) (wormOps (codeWops tau x.worm)) =
      s.1.cfg.permSign := by
    rw [hp, ← h.wops]
    exact hE.perm_congr _ _ _ _ _ h.cd.symm h.c.symm
  have hW : A.weight (x.cd.map (mkOp tau .creation)) (x.c.map (mkOp tau .annihilation)) (x.sorted tau (codeWops tau)) =
      pmDet A.P s.1.cfg.M * s.1.cfg.trace := by
    rw [e, hdet, htr]
    unfold CodeArgs.weight
    rw [timeDet_congr A.G h.c.symm h.cd.symm n2 n1]
    rfl
  have nd : ((‖pmDet A.P s.1.cfg.M‖ : ℝ) : 𝕜) ≠ 0 := by
    rw [RCLike.ofReal_ne_zero]; exact norm_ne_zero_iff.2 hd
  have nt : ((‖s.1.cfg.trace‖ : ℝ) : 𝕜) ≠ 0 := by
    rw [RCLike.ofReal_ne_zero]; exact norm_ne_zero_iff.2 ht
  unfold signedW cfgW
  rw [hpp, hW, hsg', norm_mul, RCLike.ofReal_mul]
  field_simp

section main
variable {X : Type} [Fintype X] [DecidableEq X] {c : X → WCfg ℤ}

theorem cfgW_pos {tau : ℤ → ℝ} {x : WCfg ℤ} (h : x.Good A tau (codeWops tau)) : 0 < cfgW A tau (codeWops tau) x :=
  lt_of_le_of_ne (norm_nonneg _) (Ne.symm h.weight)

theorem gridW_pos (ha : a.OK A M) {x : WCfg ℤ} (h : x.Good A a.tau (codeWops a.tau)) :
    0 < gridW A a.tau (codeWops a.tau) (A.beta / M) wormDim (spaceEta a.sw) x := by
  refine mul_pos (mul_pos (cfgW_pos h) ?_) (pow_pos (div_pos ha.beta (by exact_mod_cast ha.grid)) _)
  unfold spaceEta
  cases x.worm with
  | none => exact one_pos
  | some w => exact ha.sw w.kind

/-- **C65 in equilibrium.**  What the postprocessing makes of the expectation values of the volumes of the spaces, of the sign and of
the data `D` of a worm space is the sum over all configurations with a worm of this type, divided by the sum over all
configurations without worm: the extra weight of the space and the weights of the other spaces drop out.  Missing for the full
statement: as in `C61_loop_partial`. -/
theorem C65_equilibrium_partial (hA : A.OK) (ha : a.OK A M)
    (hR : Reprs A a.tau (codeWops a.tau) (OnGrid A.P.nf a.G a.kinds) c) (rd : CodeState A (Option (Worm ℤ)) → WCfg ℤ)
    (hrd : ∀ s x, Reps A a.tau (codeWops a.tau) x s → Reps A a.tau (codeWops a.tau) (rd s) s)
    {sh : Bool} {movers : List WormKind} (hl : LoopOK A a M sh movers) (nStd nGlobal : ℕ) (fl : Bool)
    (plan : Rand ℝ (List (ℕ × List (List ℕ)))) (h1 : plan.mean (fun _ => 1) = 1) (hp : ∀ q ∈ plan, PlanOK A a M nStd q.2) (k : ℕ)
    {st : SavedState} (hst : WindowOK M st)
    (s : X → CodeState A (Option (Worm ℤ))) (hs : ∀ i, SimInv A.env A.Inv (pmDet A.P) (s i).1)
    (hw : ∀ i, winOf (s i).1.sw = normWin st) (h : ∀ i, Reps A a.tau (codeWops a.tau) (c i) (s i))
    (kind : WormKind) (D : CodeState A (Option (Worm ℤ)) → ℝ) (g : X → ℝ)
    (hD : ∀ s, SimInv A.env A.Inv (pmDet A.P) s.1 → ∀ j, Reps A a.tau (codeWops a.tau) (c j) s →
      ((c j).worm.any fun w => decide (w.kind = kind)) = true → cfgW A a.tau (codeWops a.tau) (c j) * D s = g j)
    (hWorm : ∃ j, ((c j).worm.any fun w => decide (w.kind = kind)) = true) (hZ : ∃ j, (c j).worm = none) (temp : ℝ) :
    let E := loopMean A a M rd nStd nGlobal fl sh movers k plan c s
    let inZ : CodeState A (Option (Worm ℤ)) → ℝ := fun s => if s.2 = none then 1 else 0
    let inW : CodeState A (Option (Worm ℤ)) → ℝ := fun s => if s.2.any fun w => decide (w.kind = kind) then 1 else 0
    wormCoeff temp (E inW / a.sw kind) (E inZ) (E (fun s => inZ s * RCLike.re s.1.cfg.sign) / E inZ) *
        (E (fun s => inW s * D s) / E inW) =
      temp * (A.beta / M) ^ kind.numTimes * wormSum (A.beta / M) kind g c / zSum A a.tau (A.beta / M) c := by
  intro E inZ inW
  have key : ∀ (F : CodeState A (Option (Worm ℤ)) → ℝ) (f : X → ℝ),
      (∀ s, SimInv A.env A.Inv (pmDet A.P) s.1 → ∀ j, Reps A a.tau (codeWops a.tau) (c j) s → F s = f j) →
      E F = (∑ j, gridW A a.tau (codeWops a.tau) (A.beta / M) wormDim (spaceEta a.sw) (c j) * f j) /
        ∑ i, gridW A a.tau (codeWops a.tau) (A.beta / M) wormDim (spaceEta a.sw) (c i) := by
    intro F f hF
    show loopMean A a M rd nStd nGlobal fl sh movers k plan c s F = _
    unfold loopMean
    rw [C61_loop_partial hA ha hR rd hrd F f hF hl nStd nGlobal fl plan h1 hp k hst s hs hw h]
  have hpos : ∀ j, 0 < gridW A a.tau (codeWops a.tau) (A.beta / M) wormDim (spaceEta a.sw) (c j) := fun j =>
    gridW_pos ha (hR.mem j).2
  have hc : ∀ j, cfgW A a.tau (codeWops a.tau) (c j) ≠ 0 := fun j => (hR.mem j).2.weight
  have kZ := key inZ (fun j => if (c j).worm = none then 1 else 0) (fun s _ j hj => by simp only [inZ, hj.worm])
  have kW := key inW (fun j => if (c j).worm.any fun w => decide (w.kind = kind) then 1 else 0)
    (fun s _ j hj => by simp only [inW, hj.worm])
  have kS := key (fun s => inZ s * RCLike.re s.1.cfg.sign)
    (fun j => if (c j).worm = none then RCLike.re (signedW A a.tau (c j)) / cfgW A a.tau (codeWops a.tau) (c j) else 0)
    (fun s hs j hj => by
      simp only [inZ, hj.worm]
      split_ifs
      · rw [← weight_sign hA hs hj, RCLike.re_ofReal_mul, one_mul, mul_div_cancel_left₀ _ (hc j)]
      · rw [zero_mul])
  have kD := key (fun s => inW s * D s)
    (fun j => if (c j).worm.any fun w => decide (w.kind = kind) then g j / cfgW A a.tau (codeWops a.tau) (c j) else 0)
    (fun s hs j hj => by
      simp only [inW, hj.worm]
      split_ifs with hj'
      · rw [← hD s hs j hj hj', one_mul, mul_div_cancel_left₀ _ (hc j)]
      · rw [zero_mul])
  obtain ⟨jw, hjw⟩ := hWorm
  obtain ⟨jz, hjz⟩ := hZ
  have tot : 0 < ∑ i, gridW A a.tau (codeWops a.tau) (A.beta / M) wormDim (spaceEta a.sw) (c i) :=
    Finset.sum_pos (fun i _ => hpos i) ⟨jz, Finset.mem_univ _⟩
  have pZ : E inZ ≠ 0 := by
    rw [kZ]
    refine (div_pos (lt_of_lt_of_le (hpos jz) ?_) tot).ne'
    refine le_trans (le_of_eq (by rw [if_pos hjz, mul_one])) (Finset.single_le_sum (f := fun j => gridW A a.tau (codeWops a.tau) (A.beta / M) wormDim (spaceEta a.sw) (c j) *
      if (c j).worm = none then 1 else 0) (fun j _ => ?_) (Finset.mem_univ jz))
    exact mul_nonneg (hpos j).le (by split_ifs <;> norm_num)
  have pW : E inW ≠ 0 := by
    rw [kW]
    refine (div_pos (lt_of_lt_of_le (hpos jw) ?_) tot).ne'
    refine le_trans (le_of_eq (by rw [if_pos hjw, mul_one])) (Finset.single_le_sum (f := fun j => gridW A a.tau (codeWops a.tau) (A.beta / M) wormDim (spaceEta a.sw) (c j) *
      if (c j).worm.any fun w => decide (w.kind = kind) then 1 else 0) (fun j _ => ?_) (Finset.mem_univ jw))
    exact mul_nonneg (hpos j).le (by split_ifs <;> norm_num)
  have sZ : (∑ j, gridW A a.tau (codeWops a.tau) (A.beta / M) wormDim (spaceEta a.sw) (c j) *
      if (c j).worm = none then RCLike.re (signedW A a.tau (c j)) / cfgW A a.tau (codeWops a.tau) (c j) else 0) =
      zSum A a.tau (A.beta / M) c := by
    unfold zSum
    refine Finset.sum_congr rfl fun j _ => ?_
    split_ifs with hj
    · unfold gridW spaceEta wormDim
      rw [hj]
      simp only [Option.elim_none, mul_one, add_zero]
      field_simp [hc j]
    · rw [mul_zero]
  have sW : (∑ j, gridW A a.tau (codeWops a.tau) (A.beta / M) wormDim (spaceEta a.sw) (c j) *
      if (c j).worm.any fun w => decide (w.kind = kind) then g j / cfgW A a.tau (codeWops a.tau) (c j) else 0) =
      a.sw kind * (A.beta / M) ^ kind.numTimes * wormSum (A.beta / M) kind g c := by
    unfold wormSum
    rw [Finset.mul_sum]
    refine Finset.sum_congr rfl fun j _ => ?_
    split_ifs with hj
    · unfold gridW spaceEta wormDim
      cases e : (c j).worm with
      | none => rw [e] at hj; simp at hj
      | some w =>
        rw [e] at hj
        have hk : w.kind = kind := by simpa using hj
        simp only [Option.elim_some, hk, pow_add]
        field_simp [hc j]
    · rw [mul_zero, mul_zero]
  have hsw := (ha.sw kind).ne'
  have e1 : E (fun s => inZ s * RCLike.re s.1.cfg.sign) = zSum A a.tau (A.beta / M) c /
      ∑ i, gridW A a.tau (codeWops a.tau) (A.beta / M) wormDim (spaceEta a.sw) (c i) := by rw [kS, sZ]
  have e2 : E (fun s => inW s * D s) = a.sw kind * (A.beta / M) ^ kind.numTimes * wormSum (A.beta / M) kind g c /
      ∑ i, gridW A a.tau (codeWops a.tau) (A.beta / M) wormDim (spaceEta a.sw) (c i) := by rw [kD, sW]
  have htot := tot.ne'
  unfold wormCoeff
  rw [e1, e2]
  generalize (∑ i, gridW A a.tau (codeWops a.tau) (A.beta / M) wormDim (spaceEta a.sw) (c i)) = T at htot ⊢
  generalize (A.beta / (M : ℝ)) ^ kind.numTimes = δ
  generalize wormSum (A.beta / M) kind g c = SW
  generalize zSum A a.tau (A.beta / M) c = SZ
  rcases eq_or_ne SZ 0 with rfl | hSZ
  · simp
  field_simp

/-- **C65, equal times.**  For the worms with all operators at one time the postprocessing gives, in equilibrium, the mean over the
times `t` of the grid of the ratio of two sums: over all configurations with the operators of the worm with flavors `fs` at `t`, and
over all configurations without worm; for the real and for the imaginary part (`φ`).  Missing for the full statement: as in
`C61_loop_partial`. -/
theorem C65_equal_time_partial (hA : A.OK) (ha : a.OK A M)
    (hR : Reprs A a.tau (codeWops a.tau) (OnGrid A.P.nf a.G a.kinds) c) (rd : CodeState A (Option (Worm ℤ)) → WCfg ℤ)
    (hrd : ∀ s x, Reps A a.tau (codeWops a.tau) x s → Reps A a.tau (codeWops a.tau) (rd s) s)
    {sh : Bool} {movers : List WormKind} (hl : LoopOK A a M sh movers) (nStd nGlobal : ℕ) (fl : Bool)
    (plan : Rand ℝ (List (ℕ × List (List ℕ)))) (h1 : plan.mean (fun _ => 1) = 1) (hp : ∀ q ∈ plan, PlanOK A a M nStd q.2) (k : ℕ)
    {st : SavedState} (hst : WindowOK M st)
    (s : X → CodeState A (Option (Worm ℤ))) (hs : ∀ i, SimInv A.env A.Inv (pmDet A.P) (s i).1)
    (hw : ∀ i, winOf (s i).1.sw = normWin st) (h : ∀ i, Reps A a.tau (codeWops a.tau) (c i) (s i))
    (r : ℕ) (hWorm : ∃ j, ((c j).worm.any fun w => decide (w.kind = .equalTime r)) = true) (hZ : ∃ j, (c j).worm = none)
    (fs : List ℕ) (φ : 𝕜 →ₗ[ℝ] ℝ) :
    let E := loopMean A a M rd nStd nGlobal fl sh movers k plan c s
    let inZ : CodeState A (Option (Worm ℤ)) → ℝ := fun s => if s.2 = none then 1 else 0
    let inW : CodeState A (Option (Worm ℤ)) → ℝ := fun s => if s.2.any fun w => decide (w.kind = .equalTime r) then 1 else 0
    wormCoeff (1 / A.beta) (E inW / a.sw (.equalTime r)) (E inZ) (E (fun s => inZ s * RCLike.re s.1.cfg.sign) / E inZ) *
        (E (fun s => inW s * φ (s.2.elim 0 fun w => equalTimeData w.flavors s.1.cfg.sign fs)) / E inW) =
      (∑ t ∈ Finset.range M, wormTerm A a.tau (A.beta / M) φ ⟨.equalTime r, [(t : ℤ)], fs⟩ c / zSum A a.tau (A.beta / M) c) / M := by
  intro E inZ inW
  have hlin : ∀ (b : ℝ) (z : 𝕜), b * φ z = φ ((b : 𝕜) * z) := by
    intro b z
    rw [← smul_eq_mul, ← map_smul, RCLike.real_smul_eq_coe_mul]
  rw [C65_equilibrium_partial hA ha hR rd hrd hl nStd nGlobal fl plan h1 hp k hst s hs hw h (.equalTime r)
    (fun s => φ (s.2.elim 0 fun w => equalTimeData w.flavors s.1.cfg.sign fs))
    (fun j => if (c j).worm.any fun w => decide (fs = w.flavors) then φ (signedW A a.tau (c j)) else 0) ?_ hWorm hZ]
  · have hβ := ha.beta.ne'
    have hM : (M : ℝ) ≠ 0 := by exact_mod_cast ha.grid.ne'
    have e : wormSum (A.beta / M) (.equalTime r)
        (fun j => if (c j).worm.any fun w => decide (fs = w.flavors) then φ (signedW A a.tau (c j)) else 0) c =
        ∑ t ∈ Finset.range M, wormTerm A a.tau (A.beta / M) φ ⟨.equalTime r, [(t : ℤ)], fs⟩ c := by
      unfold wormSum wormTerm
      rw [Finset.sum_comm]
      refine Finset.sum_congr rfl fun j _ => ?_
      beta_reduce
      cases e : (c j).worm with
      | none => simp
      | some w =>
        obtain ⟨hv, -, -, hG⟩ := (hR.mem j).1.worm w e
        by_cases hk : w.kind = .equalTime r ∧ fs = w.flavors
        · obtain ⟨hk1, hk2⟩ := hk
          have hlen : w.times.length = 1 := by rw [hv.1, hk1]; rfl
          obtain ⟨t, ht⟩ := List.length_eq_one_iff.1 hlen
          have htG := hG t (by rw [ht]; simp)
          rw [ha.G, Finset.mem_Ico] at htG
          obtain ⟨n, rfl⟩ := Int.eq_ofNat_of_zero_le htG.1
          have hn : n < M := by exact_mod_cast htG.2
          have hw' : w = ⟨.equalTime r, [(n : ℤ)], fs⟩ := by
            cases w; simp_all
          rw [Finset.sum_eq_single_of_mem n (Finset.mem_range.2 hn)]
          · rw [if_pos (by simp [hk1]), if_pos (by simp [hk2]), if_pos (by rw [hw'])]
          · intro m _ hm
            rw [if_neg]
            rw [hw']
            simpa [eq_comm] using hm
        · rw [Finset.sum_eq_zero]
          · rcases not_and_or.1 hk with hk | hk
            · simp [hk]
            · simp [hk]
          · intro m _
            rw [if_neg]
            intro hw'
            have := Option.some.inj hw'
            exact hk ⟨by rw [this], by rw [this]⟩
    rw [e, ← Finset.sum_div]
    show 1 / A.beta * (A.beta / M) ^ 1 * _ / _ = _
    rw [pow_one, show 1 / A.beta * (A.beta / M) = (1 / M : ℝ) by field_simp]
    ring
  · intro s hs j hj hj'
    rw [hj.worm, hlin]
    cases e : (c j).worm with
    | none => rw [e] at hj'; simp at hj'
    | some w =>
      simp only [Option.elim_some, equalTimeData, Option.any_some]
      by_cases hf : fs = w.flavors
      · rw [if_pos hf, if_pos (by simpa using hf), weight_sign hA hs hj]
      · rw [if_neg hf, if_neg (by simpa using hf), mul_zero, map_zero]

end main

/-! ### A concrete case: two spins without energy, in equal baths -/

/-- The density of the second spin, without bath operators. -/
def freeWorm : WCfg ℤ := ⟨[], [], some ⟨.equalTime 1, [3], [1, 1]⟩⟩

theorem freeWorm_good : OnGrid freeCode.P.nf freeMoves.G freeMoves.kinds freeWorm ∧
    freeWorm.Good freeCode freeMoves.tau (codeWops freeMoves.tau) := by
  have hn : ((freeWorm.ops freeMoves.tau (codeWops freeMoves.tau)).map Psi.time).Nodup := by
    simp [PCfg.ops, freeWorm, codeWops, wormOps, Worm.operators, mapOp]
  refine ⟨⟨by simp [freeWorm], by simp [freeWorm], by simp [freeWorm], by simp [freeWorm], rfl, ?_⟩, hn, ?_⟩
  · intro w hw
    have : w = ⟨.equalTime 1, [3], [1, 1]⟩ := (Option.some.inj hw).symm
    subst this
    refine ⟨⟨rfl, rfl⟩, by simp [freeMoves], by simp [freeCode], by simp [freeMoves]⟩
  · have hs : freeWorm.sorted freeMoves.tau (codeWops freeMoves.tau) =
        [⟨⟨freeMoves.tau 3, 0⟩, .annihilation, 1⟩, ⟨⟨freeMoves.tau 3, 1⟩, .creation, 1⟩] := by
      refine sorted_unique (PCfg.sorted_sorted _ hn) ?_ ((PCfg.sorted_perm _).trans ?_)
      · simp [OpSet.Sorted, OpTime.lt_def]
      · simp only [PCfg.ops, freeWorm, codeWops, wormOps, List.map_nil, List.nil_append, Option.map_some, Worm.operators,
          List.range_one, List.flatMap_cons, List.flatMap_nil, List.append_nil, mapOp, List.map_cons]
        exact List.Perm.swap _ _ _
    unfold cfgW CodeArgs.weight
    rw [hs, norm_ne_zero_iff]
    refine mul_ne_zero ?_ (freePair_trace _ _)
    rw [timeDet_eq _ _ _ (by simp [freeWorm]) (by simp [freeWorm]), listDet_eq _ _ _ 0 rfl rfl, Matrix.det_fin_zero]
    simp [invs, freeWorm]

/-- The demands of `C65_equal_time_partial` are met: worms of the second spin, two sweeps with global updates. -/
example : ∃ (X : Type) (_ : Fintype X) (_ : DecidableEq X) (c : X → WCfg ℤ) (s : X → CodeState freeCode (Option (Worm ℤ)))
    (rd : CodeState freeCode (Option (Worm ℤ)) → WCfg ℤ),
    (∃ i, (c i).Same freeWorm) ∧ (∃ i, (c i).Same freePair) ∧
    let E := loopMean freeCode freeMoves 8 rd 4 1 true true [.equalTime 1] 0 (Rand.ret [(1, [[1, 0]]), (2, [])]) c s
    let inZ : CodeState freeCode (Option (Worm ℤ)) → ℝ := fun s => if s.2 = none then 1 else 0
    let inW : CodeState freeCode (Option (Worm ℤ)) → ℝ := fun s => if s.2.any fun w => decide (w.kind = .equalTime 1) then 1 else 0
    wormCoeff (1 / 4) (E inW / (1 / 2)) (E inZ) (E (fun s => inZ s * RCLike.re s.1.cfg.sign) / E inZ) *
        (E (fun s => inW s * (s.2.elim 0 fun w => equalTimeData w.flavors s.1.cfg.sign [1, 1])) / E inW) =
      (∑ t ∈ Finset.range 8, wormTerm freeCode (gridTau 4 8) (4 / (8 : ℕ)) LinearMap.id ⟨.equalTime 1, [(t : ℤ)], [1, 1]⟩ c /
        zSum freeCode (gridTau 4 8) (4 / (8 : ℕ)) c) / (8 : ℕ) := by
  classical
  obtain ⟨X, hX, c, hR⟩ := C61_reprs freeCode freeMoves.tau freeMoves.G freeMoves.kinds freeCode.P.nf
  obtain ⟨rd, hrd⟩ := exists_reader freeCode freeMoves.tau
  have hst := fun i => C61_states freeCode_ok freeMoves_ok (n := 4) (by norm_num) (hR.mem i).1 (hR.mem i).2
  choose s h1 h2 h3 using hst
  have hw := hR.all _ freeWorm_good.1 freeWorm_good.2
  have hz := hR.all _ freePair_good.1 freePair_good.2
  refine ⟨X, hX, Classical.decEq X, c, s, rd, hw, hz, ?_⟩
  refine C65_equal_time_partial freeCode_ok freeMoves_ok hR rd hrd free_loop 4 1 true _ (by rw [mean_ret]) ?_ 0
    (st := ⟨2, 0, true, 4⟩) ⟨by norm_num, rfl, by norm_num, by norm_num⟩ s h1 (fun i => by rw [winOf_eq, h3]) h2 1 ?_ ?_ [1, 1]
    LinearMap.id
  · intro q hq
    have : q = (1, [(1, [[1, 0]]), (2, [])]) := by simpa [Rand.ret] using hq
    subst this
    intro p hp
    rcases List.mem_cons.1 hp with rfl | hp
    · exact ⟨by norm_num, fun v hv => by rw [List.mem_singleton.1 hv]; exact free_swap⟩
    · rw [List.mem_singleton.1 hp]
      exact ⟨by norm_num, fun v hv => by simp at hv⟩
  · obtain ⟨i, hi⟩ := hw
    exact ⟨i, by rw [hi.2.2]; rfl⟩
  · obtain ⟨i, hi⟩ := hz
    exact ⟨i, by rw [hi.2.2]; rfl⟩

end CTHyb
