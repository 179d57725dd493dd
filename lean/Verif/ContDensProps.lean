import Verif.ContCorrProps
import Verif.ZMeas

/-!
# C87: densities in continuous time

What `measure_n` (src/impurity.ipp:445-471, model: `recordN`) records in the space without worm, after the loop of `update` with real
times, divided by the mean of the sign as the comment at impurity.ipp:462 says (the code itself stores both means and leaves the division
to the user).

Specification: `densWorm`, the operators `c†_f c_f` at half the circle as a worm; `thermal` of `ContAtomProps` for the limit without
hybridization.
-/

namespace CTHyb

open Rand MeasureTheory ENNReal Matrix

variable {𝕜 : Type} [RCLike 𝕜] {N : ℕ}

/-- **Specification.**  The operators `c†_f(t) c_f(t)` as a worm. -/
def densWorm {R : Type} {nf : ℕ} (t : R) (f : Fin nf) : Worm R := ⟨.equalTime 1, [t], [f.val, f.val]⟩

theorem densWorm_ops {nf : ℕ} (t : ℝ) (f : Fin nf) : wormOps (codeWops id (some (densWorm t f))) =
    [⟨⟨t, 1⟩, .creation, f⟩, ⟨⟨t, 0⟩, .annihilation, f⟩] := rfl

theorem densWorm_form {nf : ℕ} (t : ℝ) (f : Fin nf) : densWorm t f = mkW (.equalTime 1) (fun _ => t) (fun _ => f) := rfl

/-- A pair of operators does not change the sign of the permutation. -/
theorem permSign_dens {nf : ℕ} {t : ℝ} (f : Fin nf) {cd c : List (TPsi ℝ)} (hl : c.length = cd.length)
    (hn : (c.map Psi.time ++ cd.map Psi.time).Nodup) (h : ∀ o ∈ c ++ cd, o.time.time ≠ t) :
    permSignImpl cd c (wormOps (codeWops id (some (densWorm t f)))) = permSignImpl cd c [] := by
  set u := wormOps (codeWops id (some (densWorm t f))) with hu
  have hdesc : (u.map Psi.time).Pairwise (· > ·) := by
    rw [hu, densWorm_ops]
    simp [OpTime.lt_def]
  have hnu : (c.map Psi.time ++ cd.map Psi.time ++ u.map Psi.time).Nodup := by
    rw [List.nodup_append]
    refine ⟨hn, hdesc.imp fun h => ne_of_gt h, ?_⟩
    intro x hx y hy e
    subst e
    rw [← List.map_append] at hx
    obtain ⟨o, ho, rfl⟩ := List.mem_map.1 hx
    have h1 := h o ho
    rw [hu, densWorm_ops] at hy
    simp only [List.map_cons, List.map_nil, List.mem_cons, List.not_mem_nil, or_false] at hy
    rcases hy with e | e <;> rw [e] at h1 <;> simp at h1
  rw [C05_perm_sign_value _ _ _ hl hnu, C05_perm_sign_value _ _ _ hl (by simpa using hn), outOfOrder_desc hdesc]
  have he : Even (crossCount (c.map Psi.time ++ cd.map Psi.time) (u.map Psi.time)) := by
    refine even_cross_of_even fun x hx => ?_
    rw [← List.map_append] at hx
    obtain ⟨o, ho, rfl⟩ := List.mem_map.1 hx
    have h1 := h o ho
    have e0 : ∀ k : ℤ, o.time < ⟨t, k⟩ ↔ o.time.time < t := fun k => by rw [OpTime.lt_def]; simp [h1]
    rw [hu, densWorm_ops]
    simp only [List.map_cons, List.map_nil, List.countP_cons, List.countP_nil, e0, decide_eq_true_eq]
    by_cases a0 : o.time.time < t <;> simp [a0]
  have h0 : crossCount (c.map Psi.time ++ cd.map Psi.time) (([] : List (TPsi ℝ)).map Psi.time) = 0 :=
    List.sum_eq_zero fun y hy => by obtain ⟨x, -, rfl⟩ := List.mem_map.1 hy; rfl
  rw [h0, List.map_nil, outOfOrder, add_zero, add_zero, add_zero, pow_add _ _ (crossCount _ _), he.neg_one_pow, mul_one]

variable {A : CodeArgs 𝕜 N} {a : LoopC} {k : ℕ} {plan : Rand ℝ (List (ℕ × List (ℕ → ℕ)))}
  {σ : WCfg ℝ → CodeState A (Option (Worm ℝ))} {st : SavedState}

theorem half_edge (β : ℝ) : β / 2 ∈ edges β := ⟨(1, 1), by unfold tauEdge; push_cast; ring⟩

/-- What is recorded in one configuration. -/
theorem recordN_at (ha : a.OK A) {x : WCfg ℝ} {s : CodeState A (Option (Worm ℝ))} {st : SavedState} (h : Stands A st x s)
    (hx : x.worm = none) (f : Fin A.P.nf) :
    (codeW A).at x * recordN A f s.1 = RCLike.re (signedC A x.cd x.c (some (densWorm (A.beta / 2) f))) := by
  classical
  have hA := ha.code
  have hs := h.inv
  have hj := h.reps
  have hE := C60_lawful A hA
  have hn := hj.nodup hs
  obtain ⟨x1, x2, x3⟩ := x
  simp only at hx
  subst hx
  have hop0 : (⟨x1, x2, none⟩ : WCfg ℝ).ops id (codeWops id) = x1.map (mkOp id .creation) ++ x2.map (mkOp id .annihilation) := by
    simp [PCfg.ops, codeWops, wormOps]
  have hno' : ∀ q ∈ (⟨x1, x2, none⟩ : WCfg ℝ).ops id (codeWops id), q.time.time ≠ A.beta / 2 := by
    intro q hq e
    have he := half_edge A.beta
    rw [← e] at he
    rw [hop0, List.mem_append] at hq
    rcases hq with hq | hq <;> obtain ⟨o, ho, rfl⟩ := List.mem_map.1 hq
    · exact h.reg.1 o (List.mem_append_left _ ho) he
    · exact h.reg.1 o (List.mem_append_right _ ho) he
  have hno : ∀ q ∈ s.1.cfg.ops, q.time.time ≠ A.beta / 2 := fun q hq => hno' q ((hj.ops_perm hs).symm.subset hq)
  obtain ⟨s', vals, e, -, -, -, -, -, hv, -⟩ := C62_density_partial A hA hs hno
  set u := densWorm (A.beta / 2) f with hu
  have hud := densWorm_ops (A.beta / 2) f
  have hopy : (⟨x1, x2, some u⟩ : WCfg ℝ).ops id (codeWops id) =
      (⟨x1, x2, none⟩ : WCfg ℝ).ops id (codeWops id) ++ wormOps (codeWops id (some u)) := by
    rw [hop0]; rfl
  have hny : (((⟨x1, x2, some u⟩ : WCfg ℝ).ops id (codeWops id)).map Psi.time).Nodup := by
    rw [hopy, List.map_append, List.nodup_append]
    refine ⟨hn, ?_, ?_⟩
    · rw [hud]
      simp
    · intro y hy y' hy' e
      subst e
      obtain ⟨q, hq, rfl⟩ := List.mem_map.1 hy
      have h1 := hno' q hq
      rw [hud] at hy'
      simp only [List.map_cons, List.map_nil, List.mem_cons, List.not_mem_nil, or_false] at hy'
      rcases hy' with e | e <;> rw [e] at h1 <;> simp at h1
  have hcy : CodeCfg A.P.nf (⟨x1, x2, some u⟩ : WCfg ℝ) := ⟨hny, (hj.codeCfg hs).2⟩
  have hS : signedC A x1 x2 (some u) = signedR A ⟨x1, x2, some u⟩ := by
    have := signedC_at A (⟨x1, x2, some u⟩ : WCfg ℝ)
    rw [if_pos hcy] at this
    exact this
  set L := (⟨x1, x2, some u⟩ : WCfg ℝ).sorted id (codeWops id) with hL
  have hLs : OpSet.Sorted L := PCfg.sorted_sorted _ hny
  have hLp : L.Perm (⟨⟨A.beta / 2, 0⟩, .annihilation, f⟩ :: ⟨⟨A.beta / 2, 1⟩, .creation, f⟩ :: s.1.cfg.ops) := by
    refine (PCfg.sorted_perm _).trans ?_
    rw [hopy, hud]
    refine List.perm_append_comm.trans ?_
    refine (List.Perm.swap _ _ _).trans ?_
    exact ((hj.ops_perm hs).cons _).cons _
  obtain ⟨v, hv1, hv2⟩ := hv f f.isLt _ hLs hLp
  have er : recordN A f s.1 = v := by
    unfold recordN
    rw [e]
    simp [List.getD_eq_getElem?_getD, hv1]
  rw [er, hj.codeW hs, hj.weight hs, hv2, hS]
  have hn' := hn
  rw [hop0, List.map_append] at hn'
  have n1 := (List.nodup_append.1 hn').1
  have n2 := (List.nodup_append.1 hn').2.1
  have hlen : (x2.map (mkOp id .annihilation)).length = (x1.map (mkOp id .creation)).length := by
    have := (hj.good hA hs).weight
    unfold cfgW CodeArgs.weight at this
    exact timeDet_length A.G (left_ne_zero_of_mul (norm_ne_zero_iff.1 this))
  have hpp : s.1.cfg.permSign = permSignImpl (x1.map (mkOp id .creation)) (x2.map (mkOp id .annihilation)) [] := by
    rw [hs.sign.1, hj.wops]
    exact (hE.perm_congr _ _ _ _ _ hj.cd.symm hj.c.symm).symm
  have hps := permSign_dens (t := A.beta / 2) f hlen
    (by rw [← List.map_append] at hn' ⊢; exact ((List.perm_append_comm).map Psi.time).nodup_iff.1 hn')
    fun o ho => hno' o (by rw [hop0]; exact List.perm_append_comm.subset ho)
  congr 1
  unfold signedR
  show _ = ((permSignImpl _ _ (wormOps (codeWops id (some u))) : ℤ) : 𝕜) * _
  rw [hps, hpp]
  congr 1
  unfold CodeArgs.weight
  rw [timeDet_congr A.G hj.c hj.cd ((hj.c.map Psi.time).nodup_iff.2 n2) ((hj.cd.map Psi.time).nodup_iff.2 n1)]

/-- **C87.**  In equilibrium the mean of `n`, divided by the mean of the sign, is the integral over all configurations without worm which
have a weight, with `c†_f c_f` at `β/2` in the trace, divided by the integral over all configurations without worm.  Missing for the full
statement: as in `C83_loop_partial`. -/
theorem C87_density_partial (ha : a.OK A) (hp : PlanC A plan) (hst : WindowOK 0 st) (hσ : StatesC A st σ) (f : Fin A.P.nf) :
    let E := loopMeanC A a k plan σ
    let inZ : CodeState A (Option (Worm ℝ)) → ℝ := fun s => if s.2 = none then 1 else 0
    (E (fun s => inZ s * recordN A f s.1) / E inZ) / (E (fun s => inZ s * RCLike.re s.1.cfg.sign) / E inZ) =
      cfgInt A.beta A.P.nf (none : Option (Worm ℝ)) (fun X X' _ => if codeW A X X' none = 0 then 0 else
          RCLike.re (signedC A X X' (some (densWorm (A.beta / 2) f)))) /
        cfgInt A.beta A.P.nf none (fun X X' ω => RCLike.re (signedC A X X' ω)) := by
  have hb := ha.beta
  exact mean_insert ha hp hst hσ (RCLike.reCLM : 𝕜 →L[ℝ] ℝ) (kd := .equalTime 1) (ts := fun _ => A.beta / 2) (fs := fun _ => f)
    (fun _ => ⟨by linarith, by linarith⟩) (densWorm_form _ f) fun s x st h hx => recordN_at ha h hx f

/-- **C87, without hybridization.**  If moreover no state of the impurity is cut off, the density is the thermal average of
`c†_f c_f`.  Missing for the full statement: as in `C83_loop_partial`. -/
theorem C87_atomic_partial (ha : a.OK A) (hp : PlanC A plan) (hst : WindowOK 0 st) (hσ : StatesC A st σ)
    (hG : ∀ o o', A.G o o' = 0) {E0 : ℝ} (hE : IsLeast (eigenvaluesOf A.B.H) E0)
    (hcut : ∀ μ ∈ eigenvaluesOf A.B.H, μ ≤ E0 + min A.p.inner A.p.outer) (f : Fin A.P.nf) :
    let E := loopMeanC A a k plan σ
    let inZ : CodeState A (Option (Worm ℝ)) → ℝ := fun s => if s.2 = none then 1 else 0
    (E (fun s => inZ s * recordN A f s.1) / E inZ) / (E (fun s => inZ s * RCLike.re s.1.cfg.sign) / E inZ) =
      RCLike.re (thermal A.B.H A.beta (A.B.op .creation f * A.B.op .annihilation f)) := by
  intro E inZ
  have key := C87_density_partial (k := k) ha hp hst hσ f
  simp only at key
  show _ / _ / _ = _
  rw [key]
  obtain ⟨e1, z, hz, e2⟩ := signedC_empty ha.code hE hcut
  have hw : codeW A 0 0 none ≠ 0 := by
    rw [← norm_signedC, e2, RCLike.norm_ofReal, abs_of_pos hz]
    exact hz.ne'
  rw [cfgInt_single (ω := none) (g := fun X X' ω => RCLike.re (signedC A X X' ω)) fun X X' h => by
    rw [signedC_zero hG h]; exact RCLike.zero_re]
  rw [cfgInt_single fun X X' h => by rw [signedC_zero hG h, RCLike.zero_re, ite_self]]
  rw [if_neg hw, densWorm, signedC_worm ha.code hE hcut, e2, RCLike.ofReal_re, thermal]
  have hpair : pairProd A.B 1 [f.val, f.val] = A.B.op .creation f * A.B.op .annihilation f := by
    show (List.map _ [0]).prod = _
    simp
  rw [hpair]
  have hne : ((Real.exp (A.beta * E0) : ℝ) : 𝕜) ≠ 0 := by
    rw [Ne, RCLike.ofReal_eq_zero]; exact (Real.exp_pos _).ne'
  have hz' : ((z : ℝ) : 𝕜) ≠ 0 := by rw [Ne, RCLike.ofReal_eq_zero]; exact hz.ne'
  have ht : trace (NormedSpace.exp (((-A.beta : ℝ) : 𝕜) • A.B.H)) = ((z : ℝ) : 𝕜) / ((Real.exp (A.beta * E0) : ℝ) : 𝕜) := by
    rw [eq_div_iff hne, mul_comm, ← e1, e2]
  rw [ht]
  have e3 : ∀ y : 𝕜, y / (((z : ℝ) : 𝕜) / ((Real.exp (A.beta * E0) : ℝ) : 𝕜)) =
      ((z⁻¹ : ℝ) : 𝕜) * (((Real.exp (A.beta * E0) : ℝ) : 𝕜) * y) := fun y => by
    rw [RCLike.ofReal_inv]
    field_simp
  rw [e3, RCLike.re_ofReal_mul z⁻¹, div_eq_inv_mul]

/-! ### Concrete cases -/

/-- The demands of `C87_density_partial` are met, with a bath. -/
example : ∃ σ : WCfg ℝ → CodeState freeCode (Option (Worm ℝ)),
    let E := loopMeanC freeCode freeLoop 0 freePlan σ
    let inZ : CodeState freeCode (Option (Worm ℝ)) → ℝ := fun s => if s.2 = none then 1 else 0
    (E (fun s => inZ s * recordN freeCode 1 s.1) / E inZ) / (E (fun s => inZ s * RCLike.re s.1.cfg.sign) / E inZ) =
      cfgInt 4 2 (none : Option (Worm ℝ)) (fun X X' _ => if codeW freeCode X X' none = 0 then 0 else
          RCLike.re (signedC freeCode X X' (some ⟨.equalTime 1, [2], [1, 1]⟩))) /
        cfgInt 4 2 none (fun X X' ω => RCLike.re (signedC freeCode X X' ω)) := by
  obtain ⟨σ, hσ⟩ := exists_stands freeCode_ok (n := 4) (by norm_num)
  have h := C87_density_partial (k := 0) freeLoop_ok freePlan_ok (st := ⟨2, 0, true, 4⟩) ⟨by norm_num, rfl, by norm_num, dvd_zero _⟩ hσ
    (1 : Fin 2)
  have e : freeCode.beta = 4 := rfl
  have t1 : freeCode.beta / 2 = 2 := by rw [e]; norm_num
  rw [t1] at h
  exact ⟨σ, h⟩

/-- The demands of `C87_atomic_partial` are met, and the density of the level is the Fermi function. -/
example : ∃ σ : WCfg ℝ → CodeState atomCode (Option (Worm ℝ)),
    let E := loopMeanC atomCode atomLoop 0 atomPlan σ
    let inZ : CodeState atomCode (Option (Worm ℝ)) → ℝ := fun s => if s.2 = none then 1 else 0
    (E (fun s => inZ s * recordN atomCode 0 s.1) / E inZ) / (E (fun s => inZ s * RCLike.re s.1.cfg.sign) / E inZ) =
      1 / (Real.exp (-(4 * 2)) + 1) := by
  obtain ⟨σ, hσ⟩ := exists_stands atomCode_ok (n := 4) (by norm_num)
  refine ⟨σ, ?_⟩
  have h := C87_atomic_partial (k := 0) atomLoop_ok atomPlan_ok (st := ⟨2, 0, true, 4⟩) ⟨by norm_num, rfl, by norm_num, dvd_zero _⟩ hσ
    (fun _ _ => rfl) oneLevel_least (fun μ hμ => by
      have e : min atomCode.p.inner atomCode.p.outer = 2 := by norm_num [atomCode, exCode, twoParams]
      rw [e]
      rcases (oneLevel_eig μ).1 hμ with rfl | rfl <;> norm_num) (0 : Fin 1)
  have e : pairProd atomCode.B 1 [0, 0] = atomCode.B.op .creation 0 * atomCode.B.op .annihilation 0 := by
    show (List.map _ [0]).prod = _
    simp
  refine h.trans ?_
  have := atom_thermal
  rw [e] at this
  exact this

end CTHyb
