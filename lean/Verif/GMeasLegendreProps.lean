import Verif.GMeasLegendre
import Verif.GMeasMeanProps

/-!
Property C66 for the two-particle Green's function as it is recorded: in the basis of Legendre polynomials for the two fermionic times and of
exponentials for the bosonic one.

Specification: `wormTerm` and `zSum` of C65, `legendreP` of C35, `g2Basis`: the basis function of an antiperiodic function of time.
-/

set_option linter.unusedSectionVars false

namespace CTHyb

open Matrix Rand MeasureTheory

variable {𝕜 : Type} [RCLike 𝕜] [DecidableEq 𝕜] {N : ℕ}

section spec

/-- `√(2l + 1) P_l(x(t - t'))` on the interval from 0 to β, continued as an antiperiodic function; times as places on the grid. -/
noncomputable def g2Basis (M l t t' : ℕ) : ℝ :=
  (if t < t' then -1 else 1) * (Real.sqrt (2 * l + 1) * legendreP l (2 * greenArg M t t' - 1))

/-- `exp(i ν_m τ)` for the bosonic frequency `ν_m = 2π m / β` and `τ = β (t - t') / M`. -/
noncomputable def bosonExp (M m t t' : ℕ) : ℂ := Complex.exp (2 * Real.pi * Complex.I * m * (((t : ℂ) - t') / M))

end spec

variable {A : CodeArgs 𝕜 N} {a : MoveArgs} {M : ℕ}

/-- The factor of an element of `result` for four operators. -/
noncomputable def g2Factor (beta : ℝ) (nl fa fb fc fd il il_p im : ℕ) (a b c d : TPsi ℝ) : ℂ :=
  if a.flavor = fa ∧ b.flavor = fb ∧ c.flavor = fc ∧ d.flavor = fd then
    ((sqrtPl sqrt2l1 beta nl a b il * sqrtPl sqrt2l1p beta nl c d il_p : ℝ) : ℂ) * expiomega beta a d im
  else 0

theorem toC_mul_real (x : 𝕜) (p q : ℝ) : toC (x * (p : 𝕜) * (q : 𝕜)) = ((p * q : ℝ) : ℂ) * toC x := by
  have : x * (p : 𝕜) * (q : 𝕜) = (p * q) • x := by
    rw [RCLike.real_smul_eq_coe_mul]
    push_cast
    ring
  rw [this, map_smul, Complex.real_smul]

theorem functional_split (L : ℂ →ₗ[ℝ] ℝ) (z : ℂ) (x : 𝕜) :
    L (z * toC x) = RCLike.re (((L z : ℝ) : 𝕜) * x) + RCLike.im (((L (z * Complex.I) : ℝ) : 𝕜) * x) := by
  have e : z * toC x = (RCLike.re x) • z + (RCLike.im x) • (z * Complex.I) := by
    have : toC x = (RCLike.re x : ℂ) + (RCLike.im x : ℂ) * Complex.I := by
      apply Complex.ext <;> simp [toC]
    rw [this, Complex.real_smul, Complex.real_smul]
    ring
  rw [e, map_add, map_smul, map_smul, RCLike.re_ofReal_mul, RCLike.im_ofReal_mul, smul_eq_mul, smul_eq_mul]
  ring

theorem green2Legendre_split (maxOps nl fa fb fc fd il il_p im : ℕ) (L : ℂ →ₗ[ℝ] ℝ)
    (s : CodeState A (Option (Worm ℤ))) (aux : Fin 2 ⊕ Fin 2 → Fin 2 ⊕ Fin 2 → 𝕜) (jr jc : List ℕ) :
    L (green2Legendre A maxOps nl fa fb fc fd il il_p im s aux jr jc) =
      RCLike.reLm (green2Value A maxOps (fun a b c d => ((L (g2Factor A.beta nl fa fb fc fd il il_p im a b c d) : ℝ) : 𝕜)) s aux jr jc) +
      RCLike.imLm (green2Value A maxOps
        (fun a b c d => ((L (g2Factor A.beta nl fa fb fc fd il il_p im a b c d * Complex.I) : ℝ) : 𝕜)) s aux jr jc) := by
  unfold green2Legendre green2Value
  cases s.1.cfg.M with
  | error e => simp
  | ok m =>
    dsimp only
    cases gStateM A 2 s m aux with
    | none => simp
    | some dM =>
      dsimp only
      cases measureG2 (fun z : 𝕜 => ‖z‖) A.beta A.G (gOps m.c.act (wormOps s.1.cfg.worm) 0 m.cd.act.length 2)
        (gOps m.cd.act (wormOps s.1.cfg.worm) 1 m.cd.act.length 2) aux (blk (m.inverse A.P) 0 0 m.cd.act.length m.cd.act.length)
        s.1.cfg.sign maxOps jr jc (gCutoff dM.2 (gRows m.cd.act.length 2 maxOps jr) (gRows m.cd.act.length 2 maxOps jc)) with
      | none => simp
      | some data =>
        simp only [Option.elim_some]
        induction data with
        | nil => simp
        | cons x t ih =>
          simp only [List.map_cons, List.sum_cons, map_add, ih]
          have : ∀ (u v w x y z : ℝ), u = v + w → u + (x + y) = v + x + (w + y) := by intros; subst_vars; ring
          refine this _ _ _ _ _ 0 ?_
          change _ = RCLike.re _ + RCLike.im _
          rw [← functional_split]
          congr 1
          unfold g2Factor
          split_ifs with h1 h2 h2
          · rw [toC_mul_real]; ring
          · exact absurd ⟨h1.1, h1.2.1, h1.2.2.1, h1.2.2.2.1⟩ h2
          · have hx : x.2 = 0 := by
              by_contra h
              exact h1 ⟨h2.1, h2.2.1, h2.2.2.1, h2.2.2.2, h⟩
            rw [hx, map_zero, mul_zero]
          · rw [zero_mul]

section main
variable {X : Type} [Fintype X] {c : X → WCfg ℤ}

theorem sqrt2l1_eq (l : ℕ) : sqrt2l1 l = Real.sqrt (2 * l + 1) := by
  unfold sqrt2l1
  split_ifs with h
  · subst h; simp
  · rfl

theorem sqrt2l1p_eq (l : ℕ) : sqrt2l1p l = (-1) ^ (l + 1) * Real.sqrt (2 * l + 1) := by
  unfold sqrt2l1p
  rw [sqrt2l1_eq]
  split_ifs with h
  · rw [pow_succ, Even.neg_one_pow (Nat.even_iff.2 h)]; ring
  · rw [pow_succ, Odd.neg_one_pow (Nat.odd_iff.2 (by omega))]; ring

theorem gridTau_sub {beta : ℝ} (hM : 0 < M) (t t' : ℕ) :
    gridTau beta M (t : ℤ) - gridTau beta M (t' : ℤ) = beta * ((t : ℝ) - t') / M := by
  have hM' : (M : ℝ) ≠ 0 := by exact_mod_cast hM.ne'
  unfold gridTau
  push_cast
  field_simp
  ring

theorem g1Arg_grid {beta : ℝ} (hb : 0 < beta) (hM : 0 < M) (t t' f f' : ℕ) :
    g1Arg OpTime.time beta (mkOp (gridTau beta M) .annihilation ((t : ℤ), f))
      (mkOp (gridTau beta M) .creation ((t' : ℤ), f')) * (1 / beta) = greenArg M t t' := by
  have hM' : (M : ℝ) ≠ 0 := by exact_mod_cast hM.ne'
  have hlt : gridTau beta M (t : ℤ) - gridTau beta M (t' : ℤ) < 0 ↔ t < t' := by
    rw [← gridTau_lt (M := M) hb hM t' t]
    constructor <;> intro h <;> linarith
  have e1 : g1Arg OpTime.time beta (mkOp (gridTau beta M) .annihilation ((t : ℤ), f))
      (mkOp (gridTau beta M) .creation ((t' : ℤ), f')) = if t < t' then beta * ((t : ℝ) - t') / M + beta else
        beta * ((t : ℝ) - t') / M := by
    rw [← gridTau_sub hM]
    exact if_congr hlt rfl rfl
  rw [e1]
  unfold greenArg
  have := hb.ne'
  split_ifs <;> field_simp

theorem sqrtPl_grid {beta : ℝ} (hb : 0 < beta) (hM : 0 < M) {nl il : ℕ} (hil : il < nl) (w : ℕ → ℝ) (t t' f f' : ℕ) :
    sqrtPl w beta nl (mkOp (gridTau beta M) .annihilation ((t : ℤ), f)) (mkOp (gridTau beta M) .creation ((t' : ℤ), f')) il =
      (if t < t' then -1 else 1) * legendreP il (2 * greenArg M t t' - 1) * w il := by
  have hlt : gridTau beta M (t : ℤ) - gridTau beta M (t' : ℤ) < 0 ↔ t < t' := by
    rw [← gridTau_lt (M := M) hb hM t' t]
    constructor <;> intro h <;> linarith
  have e2 : argSign (mkOp (gridTau beta M) .annihilation ((t : ℤ), f)) (mkOp (gridTau beta M) .creation ((t' : ℤ), f')) =
      if t < t' then -1 else 1 := if_congr hlt rfl rfl
  unfold sqrtPl
  rw [C35_legendre, mul_assoc 2, g1Arg_grid hb hM, e2]
  rw [List.getD_eq_getElem?_getD, List.getElem?_map, List.getElem?_range hil]
  rfl

theorem expiomega_eq (beta : ℝ) (x y : TPsi ℝ) (m : ℕ) : expiomega beta x y m = expRat beta x y ^ m := by
  induction m with
  | zero => rfl
  | succ m ih => rw [expiomega, ih, pow_succ, mul_comm]

theorem expiomega_grid {beta : ℝ} (hb : 0 < beta) (hM : 0 < M) (m t t' f f' : ℕ) :
    expiomega beta (mkOp (gridTau beta M) .annihilation ((t : ℤ), f)) (mkOp (gridTau beta M) .creation ((t' : ℤ), f')) m =
      bosonExp M m t t' := by
  have hb' : (beta : ℂ) ≠ 0 := by exact_mod_cast hb.ne'
  rw [expiomega_eq]
  unfold expRat bosonExp
  rw [← Complex.exp_nat_mul]
  congr 1
  change (m : ℂ) * ⟨0, 2 * Real.pi * (gridTau beta M (t : ℤ) - gridTau beta M (t' : ℤ)) * (1 / beta)⟩ = _
  rw [gridTau_sub hM]
  have e : (⟨0, 2 * Real.pi * (beta * ((t : ℝ) - t') / M) * (1 / beta)⟩ : ℂ) =
      ((2 * Real.pi * (beta * ((t : ℝ) - t') / M) * (1 / beta) : ℝ) : ℂ) * Complex.I := by
    apply Complex.ext <;> simp
  rw [e]
  push_cast
  field_simp

theorem g2Factor_grid {beta : ℝ} (hb : 0 < beta) (hM : 0 < M) {nl il il_p : ℕ} (hil : il < nl) (hil' : il_p < nl)
    (fa fb fc fd im t₁ t₂ t₃ t₄ f₁ f₂ f₃ f₄ : ℕ) :
    g2Factor beta nl fa fb fc fd il il_p im (mkOp (gridTau beta M) .annihilation ((t₁ : ℤ), f₁))
      (mkOp (gridTau beta M) .creation ((t₂ : ℤ), f₂)) (mkOp (gridTau beta M) .annihilation ((t₃ : ℤ), f₃))
      (mkOp (gridTau beta M) .creation ((t₄ : ℤ), f₄)) =
    if f₁ = fa ∧ f₂ = fb ∧ f₃ = fc ∧ f₄ = fd then
      ((g2Basis M il t₁ t₂ * ((-1) ^ (il_p + 1) * g2Basis M il_p t₃ t₄) : ℝ) : ℂ) * bosonExp M im t₁ t₄ else 0 := by
  unfold g2Factor
  rw [sqrtPl_grid hb hM hil, sqrtPl_grid hb hM hil', expiomega_grid hb hM, sqrt2l1_eq, sqrt2l1p_eq]
  refine if_congr Iff.rfl ?_ rfl
  congr 2
  unfold g2Basis
  ring

theorem wormTerm_split (A : CodeArgs 𝕜 N) (tau : ℤ → ℝ) (δ : ℝ) (L : ℂ →ₗ[ℝ] ℝ) (z : ℂ) (w : Worm ℤ) (c : X → WCfg ℤ) :
    wormTerm A tau δ (RCLike.reLm ∘ₗ LinearMap.mulLeft ℝ ((L z : ℝ) : 𝕜)) w c +
      wormTerm A tau δ (RCLike.imLm ∘ₗ LinearMap.mulLeft ℝ ((L (z * Complex.I) : ℝ) : 𝕜)) w c =
    wormTerm A tau δ (L ∘ₗ LinearMap.mulLeft ℝ z ∘ₗ toC) w c := by
  unfold wormTerm
  rw [← Finset.sum_add_distrib]
  refine Finset.sum_congr rfl fun j _ => ?_
  split_ifs
  · rw [← add_mul]
    congr 1
    exact (functional_split L z _).symm
  · rw [add_zero]

theorem wormTerm_mul (A : CodeArgs 𝕜 N) (tau : ℤ → ℝ) (δ : ℝ) (L : ℂ →ₗ[ℝ] ℝ) (t : ℝ) (z : ℂ) (w : Worm ℤ) (c : X → WCfg ℤ) :
    wormTerm A tau δ (L ∘ₗ LinearMap.mulLeft ℝ ((t : ℂ) * z) ∘ₗ toC) w c = t * wormTerm A tau δ (L ∘ₗ LinearMap.mulLeft ℝ z ∘ₗ toC) w c := by
  unfold wormTerm
  rw [Finset.mul_sum]
  refine Finset.sum_congr rfl fun j _ => ?_
  split_ifs
  · simp only [LinearMap.comp_apply, LinearMap.mulLeft_apply]
    rw [mul_assoc, ← Complex.real_smul, map_smul, smul_eq_mul, mul_assoc]
  · rw [mul_zero]

variable [DecidableEq X]

theorem blockSum_add (r : ℕ) (c : X → WCfg ℤ) (g h : X → ℝ)
    (b : Finset (BOp ℤ) × Finset (BOp ℤ) × Finset (BOp ℤ) × Finset (BOp ℤ)) :
    blockSum r c (fun j => g j + h j) b = blockSum r c g b + blockSum r c h b := by
  unfold blockSum
  rw [← Finset.sum_add_distrib]
  refine Finset.sum_congr rfl fun j _ => ?_
  split_ifs
  · rfl
  · rw [add_zero]

theorem wormSum_add (δ : ℝ) (kind : WormKind) (g h : X → ℝ) (c : X → WCfg ℤ) :
    wormSum δ kind (fun j => g j + h j) c = wormSum δ kind g c + wormSum δ kind h c := by
  unfold wormSum
  rw [← Finset.sum_add_distrib]
  refine Finset.sum_congr rfl fun j _ => ?_
  split_ifs
  · rw [add_mul]
  · rw [add_zero]

/-- **C66, two particles, as recorded.**  The element `[fa][fb][fc][fd][il][il'][im]` of the two-particle Green's function tends to
`1/β ∫ √(2 il + 1) P_il(x(τ₁ - τ₂)) (-1)^(il' + 1) √(2 il' + 1) P_il'(x(τ₃ - τ₄)) exp(i ν_im (τ₁ - τ₄)) ⟨T c(τ₁) c†(τ₂) c(τ₃) c†(τ₄)⟩`
over the four times, where the polynomials are continued antiperiodically; the integrals are sums over the grid; `L` is the real or the imaginary part.
Missing for the full statement: as above. -/
theorem C66_g2_legendre_partial (hA : A.OK) (ha : a.OK A M)
    (hR : Reprs A a.tau (codeWops a.tau) (OnGrid A.P.nf a.G a.kinds) c) (rd : CodeState A (Option (Worm ℤ)) → WCfg ℤ)
    (hrd : ∀ s x, Reps A a.tau (codeWops a.tau) x s → Reps A a.tau (codeWops a.tau) (rd s) s)
    {sh : Bool} {movers : List WormKind} (hl : LoopOK A a M sh movers) (nStd nGlobal : ℕ) (fl : Bool)
    (plan : Rand ℝ (List (ℕ × List (List ℕ)))) (h1 : plan.mean (fun _ => 1) = 1) (hp : ∀ q ∈ plan, PlanOK A a M nStd q.2) (k : ℕ)
    {st : SavedState} (hst : WindowOK M st)
    (s : X → CodeState A (Option (Worm ℤ))) (hs : ∀ i, SimInv A.env A.Inv (pmDet A.P) (s i).1)
    (hw : ∀ i, winOf (s i).1.sw = normWin st) (h : ∀ i, Reps A a.tau (codeWops a.tau) (c i) (s i))
    (hWorm : ∃ j, ((c j).worm.any fun w => decide (w.kind = .green 2)) = true) (hZ : ∃ j, (c j).worm = none)
    (maxOps : ℕ) (hmax : 2 ≤ maxOps) (aux : CodeState A (Option (Worm ℤ)) → Rand ℝ (Fin 2 ⊕ Fin 2 → Fin 2 ⊕ Fin 2 → 𝕜))
    (haux : ∀ s, (aux s).mean (fun _ => 1) = 1)
    (hreg : ∀ s, SimInv A.env A.Inv (pmDet A.P) s.1 → ∀ j, Reps A a.tau (codeWops a.tau) (c j) s →
      ((c j).worm.any fun w => decide (w.kind = .green 2)) = true → ∀ p ∈ aux s, G2Regular A s p.2)
    (nl il il_p im fa fb fc fd : ℕ) (hil : il < nl) (hil' : il_p < nl) (hfa : fa < A.P.nf) (hfb : fb < A.P.nf) (hfc : fc < A.P.nf)
    (hfd : fd < A.P.nf) (L : ℂ →ₗ[ℝ] ℝ) :
    let E := loopMean A a M rd nStd nGlobal fl sh movers k plan c s
    let inZ : CodeState A (Option (Worm ℤ)) → ℝ := fun s => if s.2 = none then 1 else 0
    let inW : CodeState A (Option (Worm ℤ)) → ℝ := fun s => if s.2.any fun w => decide (w.kind = .green 2) then 1 else 0
    wormCoeff 1 (E inW / a.sw (.green 2)) (E inZ) (E (fun s => inZ s * RCLike.re s.1.cfg.sign) / E inZ) *
        (E (fun s => inW s * drawMean aux L (green2Legendre A maxOps nl fa fb fc fd il il_p im) s) / E inW) =
      1 / A.beta * ∑ t₁ ∈ Finset.range M, ∑ t₂ ∈ Finset.range M, ∑ t₃ ∈ Finset.range M, ∑ t₄ ∈ Finset.range M, (A.beta / M) ^ 4 *
        (g2Basis M il t₁ t₂ * ((-1) ^ (il_p + 1) * g2Basis M il_p t₃ t₄)) *
          (wormTerm A a.tau (A.beta / M) (L ∘ₗ LinearMap.mulLeft ℝ (bosonExp M im t₁ t₄) ∘ₗ toC)
            ⟨.green 2, [(t₁ : ℤ), (t₂ : ℤ), (t₃ : ℤ), (t₄ : ℤ)], [fa, fb, fc, fd]⟩ c / zSum A a.tau (A.beta / M) c) := by
  intro E inZ inW
  have ht : Function.Injective a.tau := by rw [ha.tau]; exact gridTau_inj ha.beta ha.grid
  let g : TPsi ℝ → TPsi ℝ → TPsi ℝ → TPsi ℝ → ℂ := g2Factor A.beta nl fa fb fc fd il il_p im
  let φ₁ : TPsi ℝ → TPsi ℝ → TPsi ℝ → TPsi ℝ → 𝕜 := fun x y z w => ((L (g x y z w) : ℝ) : 𝕜)
  let φ₂ : TPsi ℝ → TPsi ℝ → TPsi ℝ → TPsi ℝ → 𝕜 := fun x y z w => ((L (g x y z w * Complex.I) : ℝ) : 𝕜)
  let Φ : (TPsi ℝ → TPsi ℝ → TPsi ℝ → TPsi ℝ → 𝕜) → (Fin 2 → BOp ℤ) → (Fin 2 → BOp ℤ) → 𝕜 := fun φ u v =>
    φ (mkOp a.tau .annihilation (u 0)) (mkOp a.tau .creation (v 0)) (mkOp a.tau .annihilation (u 1)) (mkOp a.tau .creation (v 1))
  let h₁ : X → ℝ := fun j => RCLike.reLm (Φ φ₁ (gwc 2 (c j)) (gwd 2 (c j)) * signedW A a.tau (c j))
  let h₂ : X → ℝ := fun j => RCLike.imLm (Φ φ₂ (gwc 2 (c j)) (gwd 2 (c j)) * signedW A a.tau (c j))
  let hh : X → ℝ := fun j => h₁ j + h₂ j
  rw [C65_equilibrium_partial hA ha hR rd hrd hl nStd nGlobal fl plan h1 hp k hst s hs hw h (.green 2)
    (drawMean aux L (green2Legendre A maxOps nl fa fb fc fd il il_p im))
    (fun j => cfgW A a.tau (codeWops a.tau) (c j) *
      (1 / A.beta * blockMean 2 maxOps c (fun y => cfgW A a.tau (codeWops a.tau) (c y)) hh (c j))) ?_ hWorm hZ]
  · have e1 : wormSum (A.beta / M) (.green 2) (fun j => cfgW A a.tau (codeWops a.tau) (c j) *
        (1 / A.beta * blockMean 2 maxOps c (fun y => cfgW A a.tau (codeWops a.tau) (c y)) hh (c j))) c =
        1 / A.beta * wormSum (A.beta / M) (.green 2) hh c := by
      rw [← block_heat hR 2 maxOps (A.beta / M) hh]
      unfold wormSum
      rw [Finset.mul_sum]
      refine Finset.sum_congr rfl fun j _ => ?_
      split_ifs
      · ring
      · ring
    rw [e1, wormSum_add, wormSum_green ha hR 2 (A.beta / M) (Φ φ₁) RCLike.reLm, wormSum_green ha hR 2 (A.beta / M) (Φ φ₂) RCLike.imLm]
    simp only [← Finset.sum_add_distrib]
    have e2 : ∀ F : (Fin 2 → Fin M × Fin A.P.nf) → (Fin 2 → Fin M × Fin A.P.nf) → ℝ,
        ∑ p, ∑ q, F p q = ∑ p₁ : Fin M × Fin A.P.nf, ∑ q₁ : Fin M × Fin A.P.nf, ∑ p₂ : Fin M × Fin A.P.nf,
          ∑ q₂ : Fin M × Fin A.P.nf, F ![p₁, p₂] ![q₁, q₂] := by
      intro F
      rw [← (finTwoArrowEquiv (Fin M × Fin A.P.nf)).symm.sum_comp, Fintype.sum_prod_type]
      refine Finset.sum_congr rfl fun p₁ _ => ?_
      rw [Finset.sum_comm (t := Finset.univ) (s := Finset.univ) (f := fun q₁ p₂ => ∑ q₂ : Fin M × Fin A.P.nf, F ![p₁, p₂] ![q₁, q₂])]
      refine Finset.sum_congr rfl fun p₂ _ => ?_
      rw [← (finTwoArrowEquiv (Fin M × Fin A.P.nf)).symm.sum_comp, Fintype.sum_prod_type]
      rfl
    rw [e2]
    have pick : ∀ (f : ℕ) (hf : f < A.P.nf) (F : ℕ → ℕ → ℝ), (∀ t f', f' ≠ f → F t f' = 0) →
        ∑ p : Fin M × Fin A.P.nf, F p.1 p.2 = ∑ t ∈ Finset.range M, F t f := by
      intro f hf F hF
      rw [Fintype.sum_prod_type, ← Fin.sum_univ_eq_sum_range (fun t => F t f) M]
      refine Finset.sum_congr rfl fun t _ => ?_
      rw [Finset.sum_eq_single_of_mem ⟨f, hf⟩ (Finset.mem_univ _)]
      intro f' _ hf'
      exact hF _ _ fun e => hf' (Fin.ext e)
    have term : ∀ p₁ q₁ p₂ q₂ : Fin M × Fin A.P.nf,
        wormTerm A a.tau (A.beta / M) (RCLike.reLm ∘ₗ LinearMap.mulLeft ℝ (Φ φ₁ (gridOp ∘ ![p₁, p₂]) (gridOp ∘ ![q₁, q₂])))
            (pairWorm (gridOp ∘ ![p₁, p₂]) (gridOp ∘ ![q₁, q₂])) c +
          wormTerm A a.tau (A.beta / M) (RCLike.imLm ∘ₗ LinearMap.mulLeft ℝ (Φ φ₂ (gridOp ∘ ![p₁, p₂]) (gridOp ∘ ![q₁, q₂])))
            (pairWorm (gridOp ∘ ![p₁, p₂]) (gridOp ∘ ![q₁, q₂])) c =
        if p₁.2.1 = fa ∧ q₁.2.1 = fb ∧ p₂.2.1 = fc ∧ q₂.2.1 = fd then
          (g2Basis M il p₁.1 q₁.1 * ((-1) ^ (il_p + 1) * g2Basis M il_p p₂.1 q₂.1)) *
            wormTerm A a.tau (A.beta / M) (L ∘ₗ LinearMap.mulLeft ℝ (bosonExp M im p₁.1 q₂.1) ∘ₗ toC)
              ⟨.green 2, [(p₁.1 : ℤ), (q₁.1 : ℤ), (p₂.1 : ℤ), (q₂.1 : ℤ)], [fa, fb, fc, fd]⟩ c else 0 := by
      intro p₁ q₁ p₂ q₂
      refine (wormTerm_split A a.tau (A.beta / M) L _ _ c).trans ?_
      have e3 : g (mkOp a.tau .annihilation ((gridOp ∘ ![p₁, p₂]) 0)) (mkOp a.tau .creation ((gridOp ∘ ![q₁, q₂]) 0))
          (mkOp a.tau .annihilation ((gridOp ∘ ![p₁, p₂]) 1)) (mkOp a.tau .creation ((gridOp ∘ ![q₁, q₂]) 1)) =
          if p₁.2.1 = fa ∧ q₁.2.1 = fb ∧ p₂.2.1 = fc ∧ q₂.2.1 = fd then
            ((g2Basis M il p₁.1 q₁.1 * ((-1) ^ (il_p + 1) * g2Basis M il_p p₂.1 q₂.1) : ℝ) : ℂ) * bosonExp M im p₁.1 q₂.1 else 0 := by
        rw [ha.tau]
        exact g2Factor_grid ha.beta ha.grid hil hil' fa fb fc fd im p₁.1 q₁.1 p₂.1 q₂.1 p₁.2 q₁.2 p₂.2 q₂.2
      rw [e3]
      split_ifs with hf
      · rw [wormTerm_mul]
        obtain ⟨f1, f2, f3, f4⟩ := hf
        rw [← f1, ← f2, ← f3, ← f4]
        rfl
      · unfold wormTerm
        exact Finset.sum_eq_zero fun j _ => by simp
    simp only [term]
    change 1 * (A.beta / M) ^ 4 * (1 / A.beta * _) / _ = _
    rw [one_mul, mul_left_comm, mul_div_assoc]
    congr 1
    rw [pick fa hfa (fun t₁ f₁ => ∑ q₁ : Fin M × Fin A.P.nf, ∑ p₂ : Fin M × Fin A.P.nf, ∑ q₂ : Fin M × Fin A.P.nf,
      if f₁ = fa ∧ q₁.2.1 = fb ∧ p₂.2.1 = fc ∧ q₂.2.1 = fd then
          (g2Basis M il t₁ q₁.1 * ((-1) ^ (il_p + 1) * g2Basis M il_p p₂.1 q₂.1)) *
            wormTerm A a.tau (A.beta / M) (L ∘ₗ LinearMap.mulLeft ℝ (bosonExp M im t₁ q₂.1) ∘ₗ toC)
              ⟨.green 2, [(t₁ : ℤ), (q₁.1 : ℤ), (p₂.1 : ℤ), (q₂.1 : ℤ)], [fa, fb, fc, fd]⟩ c else 0) (by
        intro t f hf
        simp [hf])]
    rw [Finset.mul_sum, Finset.sum_div]
    refine Finset.sum_congr rfl fun t₁ _ => ?_
    rw [pick fb hfb (fun t₂ f₂ => ∑ p₂ : Fin M × Fin A.P.nf, ∑ q₂ : Fin M × Fin A.P.nf,
      if fa = fa ∧ f₂ = fb ∧ p₂.2.1 = fc ∧ q₂.2.1 = fd then
          (g2Basis M il t₁ t₂ * ((-1) ^ (il_p + 1) * g2Basis M il_p p₂.1 q₂.1)) *
            wormTerm A a.tau (A.beta / M) (L ∘ₗ LinearMap.mulLeft ℝ (bosonExp M im t₁ q₂.1) ∘ₗ toC)
              ⟨.green 2, [(t₁ : ℤ), (t₂ : ℤ), (p₂.1 : ℤ), (q₂.1 : ℤ)], [fa, fb, fc, fd]⟩ c else 0) (by
        intro t f hf
        simp [hf])]
    rw [Finset.mul_sum, Finset.sum_div]
    refine Finset.sum_congr rfl fun t₂ _ => ?_
    rw [pick fc hfc (fun t₃ f₃ => ∑ q₂ : Fin M × Fin A.P.nf,
      if fa = fa ∧ fb = fb ∧ f₃ = fc ∧ q₂.2.1 = fd then
          (g2Basis M il t₁ t₂ * ((-1) ^ (il_p + 1) * g2Basis M il_p t₃ q₂.1)) *
            wormTerm A a.tau (A.beta / M) (L ∘ₗ LinearMap.mulLeft ℝ (bosonExp M im t₁ q₂.1) ∘ₗ toC)
              ⟨.green 2, [(t₁ : ℤ), (t₂ : ℤ), (t₃ : ℤ), (q₂.1 : ℤ)], [fa, fb, fc, fd]⟩ c else 0) (by
        intro t f hf
        simp [hf])]
    rw [Finset.mul_sum, Finset.sum_div]
    refine Finset.sum_congr rfl fun t₃ _ => ?_
    rw [pick fd hfd (fun t₄ f₄ =>
      if fa = fa ∧ fb = fb ∧ fc = fc ∧ f₄ = fd then
          (g2Basis M il t₁ t₂ * ((-1) ^ (il_p + 1) * g2Basis M il_p t₃ t₄)) *
            wormTerm A a.tau (A.beta / M) (L ∘ₗ LinearMap.mulLeft ℝ (bosonExp M im t₁ t₄) ∘ₗ toC)
              ⟨.green 2, [(t₁ : ℤ), (t₂ : ℤ), (t₃ : ℤ), (t₄ : ℤ)], [fa, fb, fc, fd]⟩ c else 0) (by
        intro t f hf
        simp [hf])]
    rw [Finset.mul_sum, Finset.sum_div]
    refine Finset.sum_congr rfl fun t₄ _ => ?_
    rw [if_pos ⟨rfl, rfl, rfl, rfl⟩]
    ring
  · intro s hs j hj hj'
    rw [drawMean_block hA ht hs hj hj' maxOps hmax aux (haux s) L (green2Legendre A maxOps nl fa fb fc fd il il_p im) hh]
    intro m hm γc γd hf ec ed hok p hp jr jc
    obtain ⟨d, Mx, hM, hres⟩ := hreg s hs j hj hj' p hp m hm
    rw [green2Legendre_split,
      green2_block hA hR (hR.mem j).1 (hR.mem j).2 hs hj hm hf ec ed hok hM hres maxOps hmax φ₁ RCLike.reLm jr jc,
      green2_block hA hR (hR.mem j).1 (hR.mem j).2 hs hj hm hf ec ed hok hM hres maxOps hmax φ₂ RCLike.imLm jr jc, ← mul_add, ← add_div,
      ← blockSum_add]

end main

end CTHyb
