import Verif.GMeasStateLemmas
import Verif.LegendreProps

/-!
Property C66: the Green's functions measured in the spaces of the worms `G1` and `G2` in equilibrium.

Every measurement distributes the weight of the state over all exchanges of the operators of the worm with bath operators which are
kept, with random auxiliary lines and a random choice of the operators kept.  In equilibrium nothing of this remains: the result is the
sum over all configurations with the operators of the Green's function, divided by the sum over all configurations without worm.

Specification: `wormTerm` and `zSum` of C65, which know nothing of exchanges; `legendreP`, the Legendre polynomials of C35.
-/

set_option linter.unusedSectionVars false

namespace CTHyb

open Matrix Rand MeasureTheory

variable {𝕜 : Type} [RCLike 𝕜] [DecidableEq 𝕜] {N : ℕ}

section spec

/-- The intermediate state has weight, elements below the cutoff vanish, and no element `M(l, k)` of operators which are exchanged vanishes
unless it contributes nothing. -/
def G1Regular (A : CodeArgs 𝕜 N) (s : CodeState A (Option (Worm ℤ))) (aux : Fin 1 ⊕ Fin 1 → Fin 1 ⊕ Fin 1 → 𝕜) : Prop :=
  ∀ m, s.1.cfg.M = .ok m → ∃ d Mx, gStateM A 1 s m aux = some (d, Mx) ∧ GResolved Mx ∧
    ∀ k l, Mx (gPos l) (gPos k) = 0 → Mx (gPos l) (.inr (.inr 0)) * Mx (.inr (.inr 0)) (gPos k) = 0

/-- The intermediate state has weight, elements below the cutoff vanish. -/
def G2Regular (A : CodeArgs 𝕜 N) (s : CodeState A (Option (Worm ℤ))) (aux : Fin 2 ⊕ Fin 2 → Fin 2 ⊕ Fin 2 → 𝕜) : Prop :=
  ∀ m, s.1.cfg.M = .ok m → ∃ d Mx, gStateM A 2 s m aux = some (d, Mx) ∧ GResolved Mx

/-- Place on the grid and flavor of an operator. -/
def gridOp {M nf : ℕ} (p : Fin M × Fin nf) : BOp ℤ := ((p.1.1 : ℤ), p.2.1)

/-- `T c(t) c†(t')` is antiperiodic: the sign of `-T c(t) c†(t')` if it is taken at `t - t'` between 0 and β. -/
def greenSign (t t' : ℕ) : ℝ := if t' < t then -1 else 1

/-- `t - t'` between 0 and β, in units of β. -/
noncomputable def greenArg (M t t' : ℕ) : ℝ := if t < t' then ((t : ℝ) - t' + M) / M else ((t : ℝ) - t') / M

end spec

variable {A : CodeArgs 𝕜 N} {a : MoveArgs} {M : ℕ}

section main
variable {X : Type} [Fintype X] {c : X → WCfg ℤ}

/-- The sum over all configurations with a worm, ordered by the worm. -/
theorem wormSum_green (ha : a.OK A M) (hR : Reprs A a.tau (codeWops a.tau) (OnGrid A.P.nf a.G a.kinds) c) (r : ℕ) (δ : ℝ)
    (Φ : (Fin r → BOp ℤ) → (Fin r → BOp ℤ) → 𝕜) (L : 𝕜 →ₗ[ℝ] ℝ) :
    wormSum δ (.green r) (fun j => L (Φ (gwc r (c j)) (gwd r (c j)) * signedW A a.tau (c j))) c =
      ∑ p : Fin r → Fin M × Fin A.P.nf, ∑ q : Fin r → Fin M × Fin A.P.nf,
        wormTerm A a.tau δ (L ∘ₗ LinearMap.mulLeft ℝ (Φ (gridOp ∘ p) (gridOp ∘ q))) (pairWorm (gridOp ∘ p) (gridOp ∘ q)) c := by
  classical
  have ginj : Function.Injective (gridOp : Fin M × Fin A.P.nf → BOp ℤ) := by
    rintro ⟨t, f⟩ ⟨t', f'⟩ h
    simp only [gridOp, Prod.mk.injEq, Nat.cast_inj] at h
    exact Prod.ext (Fin.ext h.1) (Fin.ext h.2)
  unfold wormSum wormTerm
  rw [← Finset.sum_product', Finset.sum_comm]
  refine Finset.sum_congr rfl fun j _ => ?_
  by_cases hj : isGreen r (c j) = true
  · have hj' : ((c j).worm.any fun w => decide (w.kind = .green r)) = true := hj
    rw [if_pos hj']
    obtain ⟨w, hw, hk⟩ := isGreen_some hj
    obtain ⟨hv, -, hf, hG⟩ := (hR.mem j).1.worm w hw
    have get : ∀ i, i < 2 * r → ∃ p : Fin M × Fin A.P.nf, gridOp p = (w.times.getD i 0, w.flavors.getD i 0) := by
      intro i hi
      have l1 : i < w.times.length := by rw [hv.1, hk]; exact hi
      have l2 : i < w.flavors.length := by rw [hv.2, hk]; exact hi
      have m1 := hG _ (List.getElem_mem l1)
      rw [ha.G, Finset.mem_Ico] at m1
      obtain ⟨t, ht⟩ := Int.eq_ofNat_of_zero_le m1.1
      refine ⟨(⟨t, by have := m1.2; omega⟩, ⟨w.flavors[i], hf _ (List.getElem_mem l2)⟩), ?_⟩
      rw [List.getD_eq_getElem?_getD, List.getD_eq_getElem?_getD, List.getElem?_eq_getElem l1, List.getElem?_eq_getElem l2]
      simp only [gridOp, Option.getD_some, ht]
    have gc : ∃ p : Fin r → Fin M × Fin A.P.nf, gridOp ∘ p = gwc r (c j) := by
      choose p hp using fun i : Fin r => get (2 * i.1) (by omega)
      refine ⟨p, funext fun i => ?_⟩
      simp only [gwc, hw, Option.elim_some, wormC, Function.comp_apply, hp]
    have gd : ∃ p : Fin r → Fin M × Fin A.P.nf, gridOp ∘ p = gwd r (c j) := by
      choose p hp using fun i : Fin r => get (2 * i.1 + 1) (by omega)
      refine ⟨p, funext fun i => ?_⟩
      simp only [gwd, hw, Option.elim_some, wormCd, Function.comp_apply, hp]
    obtain ⟨p, hp⟩ := gc
    obtain ⟨q, hq⟩ := gd
    rw [Finset.sum_eq_single_of_mem (p, q) (by simp)]
    · rw [if_pos]
      · simp only [hp, hq, LinearMap.comp_apply, LinearMap.mulLeft_apply]
      · rw [hp, hq, hw]
        unfold gwc gwd
        rw [hw]
        exact congrArg some (pairWorm_eq hv hk).symm
    · rintro ⟨p', q'⟩ - hne
      rw [if_neg]
      intro e
      refine hne (Prod.ext ?_ ?_)
      · have h1 : gwc r (c j) = gridOp ∘ p' := by unfold gwc; rw [e]; exact wormC_pairWorm _ _
        rw [← hp] at h1
        exact funext fun i => ginj (congrFun h1.symm i)
      · have h1 : gwd r (c j) = gridOp ∘ q' := by unfold gwd; rw [e]; exact wormCd_pairWorm _ _
        rw [← hq] at h1
        exact funext fun i => ginj (congrFun h1.symm i)
  · have hj' : ¬ ((c j).worm.any fun w => decide (w.kind = .green r)) = true := hj
    rw [if_neg hj', Finset.sum_eq_zero]
    rintro ⟨p, q⟩ -
    rw [if_neg]
    intro e
    exact hj (by unfold isGreen; rw [e]; simp [pairWorm])

theorem wormTerm_real (A : CodeArgs 𝕜 N) (tau : ℤ → ℝ) (δ : ℝ) (L : 𝕜 →ₗ[ℝ] ℝ) (z : 𝕜) (t : ℝ) (w : Worm ℤ) (c : X → WCfg ℤ) :
    wormTerm A tau δ (L ∘ₗ LinearMap.mulLeft ℝ (z * (t : 𝕜))) w c = t * wormTerm A tau δ (L ∘ₗ LinearMap.mulLeft ℝ z) w c := by
  unfold wormTerm
  rw [Finset.mul_sum]
  refine Finset.sum_congr rfl fun j _ => ?_
  split_ifs
  · simp only [LinearMap.comp_apply, LinearMap.mulLeft_apply]
    rw [mul_comm z, mul_assoc, ← RCLike.real_smul_eq_coe_mul, map_smul, smul_eq_mul, mul_assoc]
  · rw [mul_zero]

theorem gridTau_lt {beta : ℝ} (hb : 0 < beta) (hM : 0 < M) (t t' : ℕ) :
    0 < gridTau beta M (t : ℤ) - gridTau beta M (t' : ℤ) ↔ t' < t := by
  have hM' : (0 : ℝ) < 2 * M := by positivity
  have e : gridTau beta M (t : ℤ) - gridTau beta M (t' : ℤ) = beta * (2 * ((t : ℝ) - t')) / (2 * M) := by
    unfold gridTau
    push_cast
    ring
  rw [e]
  constructor
  · intro h
    by_contra hn
    have h2 : (t : ℝ) ≤ t' := by exact_mod_cast not_lt.1 hn
    have : beta * (2 * ((t : ℝ) - t')) / (2 * M) ≤ 0 := div_nonpos_of_nonpos_of_nonneg (by nlinarith) hM'.le
    linarith
  · intro h
    have h2 : (t' : ℝ) < t := by exact_mod_cast h
    exact div_pos (mul_pos hb (by linarith)) hM'

theorem bubble_grid {beta : ℝ} (hb : 0 < beta) (hM : 0 < M) (t t' f f' : ℕ) :
    (-(bubbleSign OpTime.time (mkOp (gridTau beta M) .annihilation ((t : ℤ), f)) (mkOp (gridTau beta M) .creation ((t' : ℤ), f')) : 𝕜)) =
      ((greenSign t t' : ℝ) : 𝕜) := by
  have h := gridTau_lt (M := M) hb hM t t'
  have e : bubbleSign OpTime.time (mkOp (gridTau beta M) .annihilation ((t : ℤ), f)) (mkOp (gridTau beta M) .creation ((t' : ℤ), f')) =
      if t' < t then 1 else -1 := if_congr h rfl rfl
  rw [e]
  unfold greenSign
  split_ifs <;> simp

/-- The expectation value over the random numbers of a measurement. -/
theorem drawMean_block (hA : A.OK) (ht : Function.Injective a.tau)
    {s : CodeState A (Option (Worm ℤ))} (hs : SimInv A.env A.Inv (pmDet A.P) s.1) {j : X} (h : Reps A a.tau (codeWops a.tau) (c j) s)
    {r : ℕ} (hj : isGreen r (c j) = true) (maxOps : ℕ) (hmax : r ≤ maxOps) {Y V : Type} [AddCommMonoid V] [Module ℝ V]
    (aux : CodeState A (Option (Worm ℤ)) → Rand ℝ Y)
    (haux : (aux s).mean (fun _ => 1) = 1) (L : V →ₗ[ℝ] ℝ) (v : CodeState A (Option (Worm ℤ)) → Y → List ℕ → List ℕ → V) (hh : X → ℝ)
    (hv : ∀ m, s.1.cfg.M = .ok m → ∀ γc γd : Fin m.cd.act.length ⊕ Fin r → BOp ℤ, Frame γc γd (c j) →
      gOps m.c.act (wormOps s.1.cfg.worm) 0 m.cd.act.length r = mkOp a.tau .annihilation ∘ γc →
      gOps m.cd.act (wormOps s.1.cfg.worm) 1 m.cd.act.length r = mkOp a.tau .creation ∘ γd →
      GOK A.G (mkOp a.tau .annihilation ∘ γc) (mkOp a.tau .creation ∘ γd)
        (blk (m.inverse A.P) 0 0 m.cd.act.length m.cd.act.length) → ∀ p ∈ aux s, ∀ jr jc, L (v s p.2 jr jc) = 1 / A.beta *
      (blockSum r c hh (unionC r (c j), unionD r (c j), (gRows m.cd.act.length r maxOps jc).toFinset.image γc,
          (gRows m.cd.act.length r maxOps jr).toFinset.image γd) /
        blockSum r c (fun j => cfgW A a.tau (codeWops a.tau) (c j)) (unionC r (c j), unionD r (c j),
          (gRows m.cd.act.length r maxOps jc).toFinset.image γc, (gRows m.cd.act.length r maxOps jr).toFinset.image γd))) :
    drawMean aux L v s = 1 / A.beta * blockMean r maxOps c (fun y => cfgW A a.tau (codeWops a.tau) (c y)) hh (c j) := by
  obtain ⟨m, hm, -⟩ := hs.inv
  obtain ⟨γc, γd, hf, ec, ed, hok⟩ := state_frame hA ht hs h hj hm
  unfold drawMean
  have hb : bathOrder s.1.cfg.M = m.cd.act.length := by rw [hm]; rfl
  rw [hb, mean_congr_mem (g := fun _ => 1 / A.beta * blockMean r maxOps c (fun y => cfgW A a.tau (codeWops a.tau) (c y)) hh (c j) * 1)]
  · rw [mean_mul_left, haux, mul_one]
  · intro p hp
    rw [mul_one]
    exact draw_block hf (h.nodup hs) maxOps hmax _ hh _ _ fun jr jc => hv m hm γc γd hf ec ed hok p hp jr jc

variable [DecidableEq X]

/-- **C66, one particle.**  In equilibrium the postprocessing makes of the measurements in the space of the worm `G1`, for each
choice `φ` of a factor for the operators `c` and `c†`, and for the real or imaginary part `L`, the sum over all places of these
operators on the grid, with `-T c(t) c†(t')` taken at `t - t'` between 0 and β.  The auxiliary lines, the exchanges of the operators of
the worm with bath operators and the random choice of the operators kept drop out.  Missing for the full statement: as in `C61_loop_partial`, and the
measurement must be regular in every state, since the code drops elements of the matrix which are small and counts steps in which the
intermediate state has no weight. -/
theorem C66_g1_equilibrium_partial (hA : A.OK) (ha : a.OK A M)
    (hR : Reprs A a.tau (codeWops a.tau) (OnGrid A.P.nf a.G a.kinds) c) (rd : CodeState A (Option (Worm ℤ)) → WCfg ℤ)
    (hrd : ∀ s x, Reps A a.tau (codeWops a.tau) x s → Reps A a.tau (codeWops a.tau) (rd s) s)
    {sh : Bool} {movers : List WormKind} (hl : LoopOK A a M sh movers) (nStd nGlobal : ℕ) (fl : Bool)
    (plan : Rand ℝ (List (ℕ × List (List ℕ)))) (h1 : plan.mean (fun _ => 1) = 1) (hp : ∀ q ∈ plan, PlanOK A a M nStd q.2) (k : ℕ)
    {st : SavedState} (hst : WindowOK M st)
    (s : X → CodeState A (Option (Worm ℤ))) (hs : ∀ i, SimInv A.env A.Inv (pmDet A.P) (s i).1)
    (hw : ∀ i, winOf (s i).1.sw = normWin st) (h : ∀ i, Reps A a.tau (codeWops a.tau) (c i) (s i))
    (hWorm : ∃ j, ((c j).worm.any fun w => decide (w.kind = .green 1)) = true) (hZ : ∃ j, (c j).worm = none)
    (maxOps : ℕ) (hmax : 1 ≤ maxOps) (aux : CodeState A (Option (Worm ℤ)) → Rand ℝ (Fin 1 ⊕ Fin 1 → Fin 1 ⊕ Fin 1 → 𝕜))
    (haux : ∀ s, (aux s).mean (fun _ => 1) = 1)
    (hreg : ∀ s, SimInv A.env A.Inv (pmDet A.P) s.1 → ∀ j, Reps A a.tau (codeWops a.tau) (c j) s →
      ((c j).worm.any fun w => decide (w.kind = .green 1)) = true → ∀ p ∈ aux s, G1Regular A s p.2)
    (φ : TPsi ℝ → TPsi ℝ → 𝕜) (L : 𝕜 →ₗ[ℝ] ℝ) :
    let E := loopMean A a M rd nStd nGlobal fl sh movers k plan c s
    let inZ : CodeState A (Option (Worm ℤ)) → ℝ := fun s => if s.2 = none then 1 else 0
    let inW : CodeState A (Option (Worm ℤ)) → ℝ := fun s => if s.2.any fun w => decide (w.kind = .green 1) then 1 else 0
    wormCoeff 1 (E inW / a.sw (.green 1)) (E inZ) (E (fun s => inZ s * RCLike.re s.1.cfg.sign) / E inZ) *
        (E (fun s => inW s * drawMean aux L (green1Value A maxOps φ) s) / E inW) =
      1 / A.beta * ∑ p : Fin M × Fin A.P.nf, ∑ q : Fin M × Fin A.P.nf, (A.beta / M) ^ 2 * greenSign p.1 q.1 *
        wormTerm A a.tau (A.beta / M)
          (L ∘ₗ LinearMap.mulLeft ℝ (φ ⟨⟨gridTau A.beta M p.1, 0⟩, .annihilation, p.2⟩ ⟨⟨gridTau A.beta M q.1, 0⟩, .creation, q.2⟩))
          ⟨.green 1, [(p.1 : ℤ), (q.1 : ℤ)], [(p.2 : ℕ), (q.2 : ℕ)]⟩ c / zSum A a.tau (A.beta / M) c := by
  intro E inZ inW
  have ht : Function.Injective a.tau := by rw [ha.tau]; exact gridTau_inj ha.beta ha.grid
  let Φ : (Fin 1 → BOp ℤ) → (Fin 1 → BOp ℤ) → 𝕜 := fun u v =>
    φ (mkOp a.tau .annihilation (u 0)) (mkOp a.tau .creation (v 0)) *
      (-(bubbleSign OpTime.time (mkOp a.tau .annihilation (u 0)) (mkOp a.tau .creation (v 0)) : 𝕜))
  let hh : X → ℝ := fun j => L (Φ (gwc 1 (c j)) (gwd 1 (c j)) * signedW A a.tau (c j))
  rw [C65_equilibrium_partial hA ha hR rd hrd hl nStd nGlobal fl plan h1 hp k hst s hs hw h (.green 1)
    (drawMean aux L (green1Value A maxOps φ))
    (fun j => cfgW A a.tau (codeWops a.tau) (c j) *
      (1 / A.beta * blockMean 1 maxOps c (fun y => cfgW A a.tau (codeWops a.tau) (c y)) hh (c j))) ?_ hWorm hZ]
  · have e1 : wormSum (A.beta / M) (.green 1) (fun j => cfgW A a.tau (codeWops a.tau) (c j) *
        (1 / A.beta * blockMean 1 maxOps c (fun y => cfgW A a.tau (codeWops a.tau) (c y)) hh (c j))) c =
        1 / A.beta * wormSum (A.beta / M) (.green 1) hh c := by
      rw [← block_heat hR 1 maxOps (A.beta / M) hh]
      unfold wormSum
      rw [Finset.mul_sum]
      refine Finset.sum_congr rfl fun j _ => ?_
      split_ifs
      · ring
      · ring
    rw [e1, wormSum_green ha hR 1 (A.beta / M) Φ L]
    have e2 : ∀ F : (Fin 1 → Fin M × Fin A.P.nf) → (Fin 1 → Fin M × Fin A.P.nf) → ℝ,
        ∑ p, ∑ q, F p q = ∑ p : Fin M × Fin A.P.nf, ∑ q : Fin M × Fin A.P.nf, F (fun _ => p) (fun _ => q) := by
      intro F
      rw [← (Equiv.funUnique (Fin 1) (Fin M × Fin A.P.nf)).symm.sum_comp]
      refine Finset.sum_congr rfl fun p _ => ?_
      rw [← (Equiv.funUnique (Fin 1) (Fin M × Fin A.P.nf)).symm.sum_comp]
      rfl
    rw [e2]
    change 1 * (A.beta / M) ^ 2 * (1 / A.beta * _) / _ = _
    rw [one_mul, mul_left_comm, mul_div_assoc, Finset.mul_sum, Finset.sum_div]
    refine congrArg _ (Finset.sum_congr rfl fun p _ => ?_)
    rw [Finset.mul_sum, Finset.sum_div]
    refine Finset.sum_congr rfl fun q _ => ?_
    have e3 : Φ (gridOp ∘ fun _ => p) (gridOp ∘ fun _ => q) =
        φ ⟨⟨gridTau A.beta M p.1, 0⟩, .annihilation, p.2⟩ ⟨⟨gridTau A.beta M q.1, 0⟩, .creation, q.2⟩ *
          ((greenSign p.1 q.1 : ℝ) : 𝕜) := by
      rw [← bubble_grid ha.beta ha.grid p.1 q.1 p.2 q.2]
      simp only [Φ, ha.tau]
      rfl
    rw [e3, wormTerm_real, mul_assoc]
    rfl
  · intro s hs j hj hj'
    rw [drawMean_block hA ht hs hj hj' maxOps hmax aux (haux s) L (green1Value A maxOps φ) hh]
    intro m hm γc γd hf ec ed hok p hp jr jc
    obtain ⟨d, Mx, hM, hres, hz⟩ := hreg s hs j hj hj' p hp m hm
    exact green1_block hA hR (hR.mem j).1 (hR.mem j).2 hs hj hm hf ec ed hok hM hres hz maxOps hmax φ L jr jc

theorem green1Factor_grid (hb : 0 < A.beta) (hM : 0 < M) {nl il : ℕ} (hil : il < nl) (fa fc t t' f f' : ℕ) :
    (green1Factor A.beta nl fa fc il (mkOp (gridTau A.beta M) .annihilation ((t : ℤ), f))
      (mkOp (gridTau A.beta M) .creation ((t' : ℤ), f')) : 𝕜) =
      (if f = fa ∧ f' = fc then 1 else 0) * ((Real.sqrt (2 * il + 1) * legendreP il (2 * greenArg M t t' - 1) : ℝ) : 𝕜) := by
  have hM' : (M : ℝ) ≠ 0 := by exact_mod_cast hM.ne'
  have e : gridTau A.beta M (t : ℤ) - gridTau A.beta M (t' : ℤ) = A.beta * ((t : ℝ) - t') / M := by
    unfold gridTau
    push_cast
    field_simp
    ring
  have hlt : gridTau A.beta M (t : ℤ) - gridTau A.beta M (t' : ℤ) < 0 ↔ t < t' := by
    rw [← gridTau_lt (M := M) hb hM t' t]
    constructor <;> intro h <;> linarith
  have harg : g1Arg OpTime.time A.beta (mkOp (gridTau A.beta M) .annihilation ((t : ℤ), f))
      (mkOp (gridTau A.beta M) .creation ((t' : ℤ), f')) * (1 / A.beta) = greenArg M t t' := by
    have e1 : g1Arg OpTime.time A.beta (mkOp (gridTau A.beta M) .annihilation ((t : ℤ), f))
      (mkOp (gridTau A.beta M) .creation ((t' : ℤ), f')) = if t < t' then A.beta * ((t : ℝ) - t') / M + A.beta else
        A.beta * ((t : ℝ) - t') / M := by
      rw [← e]
      exact if_congr hlt rfl rfl
    rw [e1]
    unfold greenArg
    have := hb.ne'
    split_ifs <;> field_simp
  unfold green1Factor
  rw [C35_legendre, mul_assoc 2, harg]
  rw [List.getD_eq_getElem?_getD, List.getElem?_map, List.getElem?_range hil]
  by_cases hf : f = fa ∧ f' = fc
  · rw [if_pos hf]
    change (if f = fa ∧ f' = fc then _ else _) = _
    rw [if_pos hf, one_mul]
    rfl
  · rw [if_neg hf]
    change (if f = fa ∧ f' = fc then _ else _) = _
    rw [if_neg hf, zero_mul]

/-- **C66, Legendre coefficients.**  The element `[fa][fc][il]` of the measured Green's function tends to the Legendre
coefficient `√(2 il + 1) ∫ dτ P_il(2 τ / β - 1) G(τ)` of `G(τ) = -⟨T c(τ) c†(0)⟩`, averaged over the origin of time; the integrals are sums over
the grid.  Missing for the full statement: as above. -/
theorem C66_legendre_partial (hA : A.OK) (ha : a.OK A M)
    (hR : Reprs A a.tau (codeWops a.tau) (OnGrid A.P.nf a.G a.kinds) c) (rd : CodeState A (Option (Worm ℤ)) → WCfg ℤ)
    (hrd : ∀ s x, Reps A a.tau (codeWops a.tau) x s → Reps A a.tau (codeWops a.tau) (rd s) s)
    {sh : Bool} {movers : List WormKind} (hl : LoopOK A a M sh movers) (nStd nGlobal : ℕ) (fl : Bool)
    (plan : Rand ℝ (List (ℕ × List (List ℕ)))) (h1 : plan.mean (fun _ => 1) = 1) (hp : ∀ q ∈ plan, PlanOK A a M nStd q.2) (k : ℕ)
    {st : SavedState} (hst : WindowOK M st)
    (s : X → CodeState A (Option (Worm ℤ))) (hs : ∀ i, SimInv A.env A.Inv (pmDet A.P) (s i).1)
    (hw : ∀ i, winOf (s i).1.sw = normWin st) (h : ∀ i, Reps A a.tau (codeWops a.tau) (c i) (s i))
    (hWorm : ∃ j, ((c j).worm.any fun w => decide (w.kind = .green 1)) = true) (hZ : ∃ j, (c j).worm = none)
    (maxOps : ℕ) (hmax : 1 ≤ maxOps) (aux : CodeState A (Option (Worm ℤ)) → Rand ℝ (Fin 1 ⊕ Fin 1 → Fin 1 ⊕ Fin 1 → 𝕜))
    (haux : ∀ s, (aux s).mean (fun _ => 1) = 1)
    (hreg : ∀ s, SimInv A.env A.Inv (pmDet A.P) s.1 → ∀ j, Reps A a.tau (codeWops a.tau) (c j) s →
      ((c j).worm.any fun w => decide (w.kind = .green 1)) = true → ∀ p ∈ aux s, G1Regular A s p.2)
    (nl il fa fc : ℕ) (hil : il < nl) (hfa : fa < A.P.nf) (hfc : fc < A.P.nf) (L : 𝕜 →ₗ[ℝ] ℝ) :
    let E := loopMean A a M rd nStd nGlobal fl sh movers k plan c s
    let inZ : CodeState A (Option (Worm ℤ)) → ℝ := fun s => if s.2 = none then 1 else 0
    let inW : CodeState A (Option (Worm ℤ)) → ℝ := fun s => if s.2.any fun w => decide (w.kind = .green 1) then 1 else 0
    wormCoeff 1 (E inW / a.sw (.green 1)) (E inZ) (E (fun s => inZ s * RCLike.re s.1.cfg.sign) / E inZ) *
        (E (fun s => inW s * drawMean aux L (green1Value A maxOps (green1Factor A.beta nl fa fc il)) s) / E inW) =
      1 / A.beta * ∑ t ∈ Finset.range M, ∑ t' ∈ Finset.range M, (A.beta / M) ^ 2 *
        (Real.sqrt (2 * il + 1) * legendreP il (2 * greenArg M t t' - 1) * greenSign t t') *
          (wormTerm A a.tau (A.beta / M) L ⟨.green 1, [(t : ℤ), (t' : ℤ)], [fa, fc]⟩ c / zSum A a.tau (A.beta / M) c) := by
  intro E inZ inW
  have key := C66_g1_equilibrium_partial hA ha hR rd hrd hl nStd nGlobal fl plan h1 hp k hst s hs hw h hWorm hZ maxOps hmax aux haux hreg
    (green1Factor A.beta nl fa fc il) L
  refine key.trans (congrArg _ ?_)
  rw [Fintype.sum_prod_type, ← Fin.sum_univ_eq_sum_range (fun t => ∑ t' ∈ Finset.range M, (A.beta / M) ^ 2 *
        (Real.sqrt (2 * il + 1) * legendreP il (2 * greenArg M t t' - 1) * greenSign t t') *
          (wormTerm A a.tau (A.beta / M) L ⟨.green 1, [(t : ℤ), (t' : ℤ)], [fa, fc]⟩ c / zSum A a.tau (A.beta / M) c)) M]
  have hzero : ∀ (w : Worm ℤ), wormTerm A a.tau (A.beta / M) (L ∘ₗ LinearMap.mulLeft ℝ (0 : 𝕜)) w c = 0 := by
    intro w
    unfold wormTerm
    exact Finset.sum_eq_zero fun j _ => by simp
  refine Finset.sum_congr rfl fun t _ => ?_
  rw [Finset.sum_eq_single_of_mem ⟨fa, hfa⟩ (Finset.mem_univ _)]
  · rw [Fintype.sum_prod_type, ← Fin.sum_univ_eq_sum_range (fun t' => (A.beta / M) ^ 2 *
        (Real.sqrt (2 * il + 1) * legendreP il (2 * greenArg M t t' - 1) * greenSign t t') *
          (wormTerm A a.tau (A.beta / M) L ⟨.green 1, [(t : ℤ), (t' : ℤ)], [fa, fc]⟩ c / zSum A a.tau (A.beta / M) c)) M]
    refine Finset.sum_congr rfl fun t' _ => ?_
    rw [Finset.sum_eq_single_of_mem ⟨fc, hfc⟩ (Finset.mem_univ _)]
    · have e := green1Factor_grid (𝕜 := 𝕜) (A := A) ha.beta ha.grid hil fa fc t.1 t'.1 fa fc
      rw [if_pos ⟨rfl, rfl⟩] at e
      simp only [mkOp] at e
      simp only
      rw [e, wormTerm_real]
      have e1 : L ∘ₗ LinearMap.mulLeft ℝ (1 : 𝕜) = L := by ext z; simp
      rw [e1]
      ring
    · intro f' _ hf'
      have hne : ¬ f'.1 = fc := fun h => hf' (Fin.ext h)
      have e := green1Factor_grid (𝕜 := 𝕜) (A := A) ha.beta ha.grid hil fa fc t.1 t'.1 fa f'
      rw [if_neg (by tauto), zero_mul] at e
      simp only [mkOp] at e
      simp only
      rw [e, hzero]
      simp
  · intro f _ hf
    have hne : ¬ f.1 = fa := fun h => hf (Fin.ext h)
    refine Finset.sum_eq_zero fun q _ => ?_
    have e := green1Factor_grid (𝕜 := 𝕜) (A := A) ha.beta ha.grid hil fa fc t.1 q.1.1 f q.2
    rw [if_neg (by tauto), zero_mul] at e
    simp only [mkOp] at e
    simp only
    rw [e, hzero]
    simp

/-- **C66, two particles.**  The same for the worm `G2`: the sum over all places of the four operators.  Missing for the full
statement: as above. -/
theorem C66_g2_equilibrium_partial (hA : A.OK) (ha : a.OK A M)
    (hR : Reprs A a.tau (codeWops a.tau) (OnGrid A.P.nf a.G a.kinds) c) (rd : CodeState A (Option (Worm ℤ)) → WCfg ℤ)
    (hrd : ∀ s x, Reps A a.tau (codeWops a.tau) x s → Reps A a.tau (codeWops a.tau) (rd s) s)
    {sh : Bool} {movers : List WormKind} (hl : LoopOK A a M sh movers) (nStd nGlobal : ℕ) (fl : Bool)
    (plan : Rand ℝ (List (ℕ × List (List ℕ)))) (h1 : plan.mean (fun _ => 1) = 1) (hp : ∀ q ∈ plan, PlanOK A a M nStd q.2) (k : ℕ)
    {st : SavedState} (hst : WindowOK M st)
    (s : X → CodeState A (Option (Worm ℤ))) (hs : ∀ i, SimInv A.env A.Inv (pmDet A.P) (s i).1)
    (hw : ∀ i, winOf (s i).1.sw = normWin st) (h : ∀ i, Reps A a.tau (codeWops a.tau) (c i) (s i))
    (hWorm : ∃ j, ((c j).worm.any fun w => decide (w.kind = .green 2)) = true) (hZ : ∃ j, (c j).worm = none)
    (maxOps : ℕ) (hmax : 2 ≤ maxOps) (aux : CodeState A (Option (Worm ℤ)) → Rand ℝ (Fin 2 ⊕ Fin 2 → Fin 2 ⊕ Fin 2 → 𝕜))
    (haux : ∀ s, (aux s).mean (fun _ => 1) = 1)
    (hreg : ∀ s, SimInv A.env A.Inv (pmDet A.P) s.1 → ∀ j, Reps A a.tau (codeWops a.tau) (c j) s →
      ((c j).worm.any fun w => decide (w.kind = .green 2)) = true → ∀ p ∈ aux s, G2Regular A s p.2)
    (φ : TPsi ℝ → TPsi ℝ → TPsi ℝ → TPsi ℝ → 𝕜) (L : 𝕜 →ₗ[ℝ] ℝ) :
    let E := loopMean A a M rd nStd nGlobal fl sh movers k plan c s
    let inZ : CodeState A (Option (Worm ℤ)) → ℝ := fun s => if s.2 = none then 1 else 0
    let inW : CodeState A (Option (Worm ℤ)) → ℝ := fun s => if s.2.any fun w => decide (w.kind = .green 2) then 1 else 0
    let cOp : Fin M × Fin A.P.nf → TPsi ℝ := fun p => ⟨⟨gridTau A.beta M p.1, 0⟩, .annihilation, p.2⟩
    let cdOp : Fin M × Fin A.P.nf → TPsi ℝ := fun p => ⟨⟨gridTau A.beta M p.1, 0⟩, .creation, p.2⟩
    wormCoeff 1 (E inW / a.sw (.green 2)) (E inZ) (E (fun s => inZ s * RCLike.re s.1.cfg.sign) / E inZ) *
        (E (fun s => inW s * drawMean aux L (green2Value A maxOps φ) s) / E inW) =
      1 / A.beta * ∑ p₁ : Fin M × Fin A.P.nf, ∑ q₁ : Fin M × Fin A.P.nf, ∑ p₂ : Fin M × Fin A.P.nf, ∑ q₂ : Fin M × Fin A.P.nf,
        (A.beta / M) ^ 4 *
        wormTerm A a.tau (A.beta / M) (L ∘ₗ LinearMap.mulLeft ℝ (φ (cOp p₁) (cdOp q₁) (cOp p₂) (cdOp q₂)))
          ⟨.green 2, [(p₁.1 : ℤ), (q₁.1 : ℤ), (p₂.1 : ℤ), (q₂.1 : ℤ)], [(p₁.2 : ℕ), (q₁.2 : ℕ), (p₂.2 : ℕ), (q₂.2 : ℕ)]⟩ c /
            zSum A a.tau (A.beta / M) c := by
  intro E inZ inW cOp cdOp
  have ht : Function.Injective a.tau := by rw [ha.tau]; exact gridTau_inj ha.beta ha.grid
  let Φ : (Fin 2 → BOp ℤ) → (Fin 2 → BOp ℤ) → 𝕜 := fun u v =>
    φ (mkOp a.tau .annihilation (u 0)) (mkOp a.tau .creation (v 0)) (mkOp a.tau .annihilation (u 1)) (mkOp a.tau .creation (v 1))
  let hh : X → ℝ := fun j => L (Φ (gwc 2 (c j)) (gwd 2 (c j)) * signedW A a.tau (c j))
  rw [C65_equilibrium_partial hA ha hR rd hrd hl nStd nGlobal fl plan h1 hp k hst s hs hw h (.green 2)
    (drawMean aux L (green2Value A maxOps φ))
    (fun j => cfgW A a.tau (codeWops a.tau) (c j) *
      (1 / A.beta * blockMean 2 maxOps c (fun y => cfgW A a.tau (codeWops a.tau) (c y)) hh (c j))) ?_ hWorm hZ]
  · have e1 : wormSum (A.beta / M) (.green 2) (fun j => cfgW A a.tau (codeWops a.tau) (c j) *
        (1 / A.beta * blockMean 2 maxOps c (fun y => cfgW A a.tau (codeWops a.tau) (c y)) hh (c j))) c =
        1 / A.beta * wormSum (A.beta / M) (.green 2) hh c := by
      rw [← block_heat hR 2 maxOps (A.beta / M) hh]
      unfold wormSum
      rw [Finset.mul_sum]
      refine Finset.sum_congr rfl fun j _ => ?_
      split_ifs
      · ring
      · ring
    rw [e1, wormSum_green ha hR 2 (A.beta / M) Φ L]
    have e2 : ∀ F : (Fin 2 → Fin M × Fin A.P.nf) → (Fin 2 → Fin M × Fin A.P.nf) → ℝ,
        ∑ p, ∑ q, F p q = ∑ p₁ : Fin M × Fin A.P.nf, ∑ q₁ : Fin M × Fin A.P.nf, ∑ p₂ : Fin M × Fin A.P.nf,
          ∑ q₂ : Fin M × Fin A.P.nf, F ![p₁, p₂] ![q₁, q₂] := by
      intro F
      rw [← (finTwoArrowEquiv (Fin M × Fin A.P.nf)).symm.sum_comp, Fintype.sum_prod_type]
      refine Finset.sum_congr rfl fun p₁ _ => ?_
      rw [Finset.sum_comm (t := Finset.univ) (s := Finset.univ) (f := fun q₁ p₂ => ∑ q₂ : Fin M × Fin A.P.nf, F ![p₁, p₂] ![q₁, q₂])]
      refine Finset.sum_congr rfl fun p₂ _ => ?_
      rw [← (finTwoArrowEquiv (Fin M × Fin A.P.nf)).symm.sum_comp, Fintype.sum_prod_type]
      rfl
    rw [e2]
    change 1 * (A.beta / M) ^ 4 * (1 / A.beta * _) / _ = _
    rw [one_mul, mul_left_comm, mul_div_assoc, Finset.mul_sum, Finset.sum_div]
    refine congrArg _ (Finset.sum_congr rfl fun p₁ _ => ?_)
    rw [Finset.mul_sum, Finset.sum_div]
    refine Finset.sum_congr rfl fun q₁ _ => ?_
    rw [Finset.mul_sum, Finset.sum_div]
    refine Finset.sum_congr rfl fun p₂ _ => ?_
    rw [Finset.mul_sum, Finset.sum_div]
    refine Finset.sum_congr rfl fun q₂ _ => ?_
    have e3 : Φ (gridOp ∘ ![p₁, p₂]) (gridOp ∘ ![q₁, q₂]) = φ (cOp p₁) (cdOp q₁) (cOp p₂) (cdOp q₂) := by
      simp only [Φ, ha.tau]
      rfl
    rw [e3]
    rfl
  · intro s hs j hj hj'
    rw [drawMean_block hA ht hs hj hj' maxOps hmax aux (haux s) L (green2Value A maxOps φ) hh]
    intro m hm γc γd hf ec ed hok p hp jr jc
    obtain ⟨d, Mx, hM, hres⟩ := hreg s hs j hj hj' p hp m hm
    exact green2_block hA hR (hR.mem j).1 (hR.mem j).2 hs hj hm hf ec ed hok hM hres maxOps hmax φ L jr jc

end main

end CTHyb
