import Verif.ContMeanProps

/-!
# C85: the atomic limit

Without hybridization the postprocessing gives, for the equal-time worms, the thermal average of the operators of the worm with the
Hamiltonian of the impurity.

Specification: `thermal`, the average with the density matrix `exp(-beta H) / Tr exp(-beta H)`; `pairProd`, the product of the pairs of
operators `c†_{f0} c_{f1} c†_{f2} c_{f3} …`.
-/

namespace CTHyb

open Rand MeasureTheory ENNReal Matrix

variable {𝕜 : Type} [RCLike 𝕜] {N : ℕ}

/-! ### Specification -/

/-- **Specification.**  Thermal average. -/
noncomputable def thermal (H : Matrix (Fin N) (Fin N) 𝕜) (β : ℝ) (O : Matrix (Fin N) (Fin N) 𝕜) : 𝕜 :=
  trace (NormedSpace.exp (((-β : ℝ) : 𝕜) • H) * O) / trace (NormedSpace.exp (((-β : ℝ) : 𝕜) • H))

/-- **Specification.**  `c†_{f0} c_{f1} c†_{f2} c_{f3} …`, the flavors taken from a list. -/
noncomputable def pairProd (B : ImpBase 𝕜 N) (r : ℕ) (fl : List ℕ) : Matrix (Fin N) (Fin N) 𝕜 :=
  ((List.range r).map fun i => B.op .creation (fl.getD (2 * i) 0) * B.op .annihilation (fl.getD (2 * i + 1) 0)).prod

/-! ### Operators at one time -/

theorem exp_mul_exp (H : Matrix (Fin N) (Fin N) 𝕜) (a b : ℝ) :
    NormedSpace.exp ((a : 𝕜) • H) * NormedSpace.exp ((b : 𝕜) • H) = NormedSpace.exp (((a + b : ℝ) : 𝕜) • H) := by
  rw [← Matrix.exp_add_of_commute, ← add_smul, RCLike.ofReal_add]
  exact ((Commute.refl H).smul_left _).smul_right _

theorem timeOrderedMat_same (H : Matrix (Fin N) (Fin N) 𝕜) (O : OpType → ℕ → Matrix (Fin N) (Fin N) 𝕜) (β t : ℝ) (L : List (TPsi ℝ))
    (h : ∀ o ∈ L, o.time.time = t) :
    timeOrderedMat H O β L t = NormedSpace.exp (((-(β - t) : ℝ) : 𝕜) • H) * (L.reverse.map fun o => O o.type o.flavor).prod := by
  induction L with
  | nil => simp [timeOrderedMat]
  | cons o L ih =>
    have ho := h o (by simp)
    simp only [timeOrderedMat, ho, sub_self, neg_zero, RCLike.ofReal_zero, zero_smul, NormedSpace.exp_zero, Matrix.mul_one]
    rw [ih fun o' ho' => h o' (List.mem_cons_of_mem _ ho')]
    simp only [List.reverse_cons, List.map_append, List.prod_append, List.map_cons, List.map_nil, List.prod_cons, List.prod_nil, mul_one,
      Matrix.mul_assoc]

theorem trace_same (H : Matrix (Fin N) (Fin N) 𝕜) (O : OpType → ℕ → Matrix (Fin N) (Fin N) 𝕜) (β t : ℝ) (L : List (TPsi ℝ))
    (h : ∀ o ∈ L, o.time.time = t) :
    trace (timeOrderedMat H O β L 0) = trace (NormedSpace.exp (((-β : ℝ) : 𝕜) • H) * (L.reverse.map fun o => O o.type o.flavor).prod) := by
  cases L with
  | nil => simp [timeOrderedMat]
  | cons o L =>
    have ho := h o (by simp)
    simp only [timeOrderedMat, ho]
    rw [timeOrderedMat_same H O β t L fun o' ho' => h o' (List.mem_cons_of_mem _ ho'), Matrix.trace_mul_comm, ← Matrix.mul_assoc,
      ← Matrix.mul_assoc, exp_mul_exp]
    simp only [List.reverse_cons, List.map_append, List.prod_append, List.map_cons, List.map_nil, List.prod_cons, List.prod_nil, mul_one,
      ← Matrix.mul_assoc]
    congr 5
    ring

/-- The operators of an equal-time worm, from the latest to the earliest. -/
theorem equalTime_ops (r : ℕ) (t : ℝ) (fl : List ℕ) :
    let L := wormOps (codeWops id (some (⟨.equalTime r, [t], fl⟩ : Worm ℝ)))
    (∀ o ∈ L, o.time.time = t) ∧ (L.map Psi.time).Pairwise (· > ·) ∧
      ∀ B : ImpBase 𝕜 N, (L.map fun o => B.op o.type o.flavor).prod = pairProd B r fl := by
  intro L
  have e : L = (List.range r).flatMap fun (it : ℕ) =>
      [(⟨⟨t, 2 * (r : ℤ) - 1 - 2 * it⟩, .creation, fl.getD (2 * it) 0⟩ : TPsi ℝ),
       ⟨⟨t, 2 * (r : ℤ) - 1 - (2 * it + 1)⟩, .annihilation, fl.getD (2 * it + 1) 0⟩] := by
    show ((List.range r).flatMap _).map (mapOp id) = _
    rw [List.map_flatMap]
    rfl
  refine ⟨?_, ?_, fun B => ?_⟩
  · rw [e]
    intro o ho
    obtain ⟨i, -, hi⟩ := List.mem_flatMap.1 ho
    simp only [List.mem_cons, List.not_mem_nil, or_false] at hi
    rcases hi with rfl | rfl <;> rfl
  · rw [e, List.map_flatMap, List.pairwise_flatMap]
    constructor
    · intro i _
      simp [OpTime.lt_def]
    · refine List.pairwise_lt_range.imp ?_
      intro i j hij x hx y hy
      simp only [List.map_cons, List.map_nil, List.mem_cons, List.not_mem_nil, or_false] at hx hy
      rcases hx with rfl | rfl <;> rcases hy with rfl | rfl <;> simp [OpTime.lt_def] <;> omega
  · rw [e, pairProd]
    generalize List.range r = R
    induction R with
    | nil => simp
    | cons i R ih =>
      rw [List.flatMap_cons, List.map_append, List.prod_append, ih]
      simp

theorem outOfOrder_desc {T : Type} [LinearOrder T] {l : List T} (h : l.Pairwise (· > ·)) : outOfOrder l = 0 := by
  induction l with
  | nil => rfl
  | cons x l ih =>
    obtain ⟨h1, h2⟩ := List.pairwise_cons.1 h
    simp only [outOfOrder, ih h2, add_zero, List.countP_eq_zero, decide_eq_true_eq]
    exact fun y hy => not_lt.2 (h1 y hy).le

/-! ### Without hybridization -/

variable {A : CodeArgs 𝕜 N}

theorem timeDet_zero (hG : ∀ a b, A.G a b = 0) {cs cds : List (TPsi ℝ)} (h : cs ≠ [] ∨ cds ≠ []) : timeDet A.G cs cds = 0 := by
  unfold timeDet listDet
  split_ifs with hl
  · have e1 := (timeSort_perm cs).length_eq
    have e2 := (timeSort_perm cds).length_eq
    have hp : 0 < (timeSort cs).length := by
      rcases h with h | h
      · rw [e1]; exact List.length_pos_iff.2 h
      · rw [← hl, e2]; exact List.length_pos_iff.2 h
    haveI : Nonempty (Fin (timeSort cs).length) := ⟨⟨0, hp⟩⟩
    simp only [hG]
    exact Matrix.det_zero
  · rfl

theorem signedC_zero (hG : ∀ a b, A.G a b = 0) {X X' : Multiset (BOp ℝ)} (h : X ≠ 0 ∨ X' ≠ 0) (ω : Option (Worm ℝ)) :
    signedC A X X' ω = 0 := by
  unfold signedC
  split_ifs
  · unfold signedR CodeArgs.weight
    rw [timeDet_zero hG, zero_mul, mul_zero]
    rcases h with h | h
    · right; simpa using h
    · left; simpa using h
  · rfl

/-- Only the configurations without bath operators contribute. -/
theorem cfgInt_single {W : Type} {β : ℝ} {nf : ℕ} {ω : W} {g : CfgFun W ℝ} (h : ∀ X X', (X ≠ 0 ∨ X' ≠ 0) → g X X' ω = 0) :
    cfgInt β nf ω g = g 0 0 ω := by
  unfold cfgInt
  rw [tsum_eq_single (0, 0)]
  · have e : ∀ z : Lab 0 0, g.at (z.cfg ω) = g 0 0 ω := fun z => by simp [CfgFun.at, Lab.cfg]
    simp only [e]
    rw [integral_const, measureReal_def, labMeasure_univ]
    simp
  · rintro ⟨m, n⟩ hp
    have e : ∀ z : Lab m n, g.at (z.cfg ω) = 0 := fun z => by
      refine h _ _ ?_
      by_contra hc
      push Not at hc
      have h1 := congrArg Multiset.card hc.1
      have h2 := congrArg Multiset.card hc.2
      simp [Lab.cfg] at h1 h2
      exact hp (by rw [h1, h2])
    simp [e]

/-- The term of the worm alone. -/
theorem signedC_worm (hA : A.OK) {E0 : ℝ} (hE : IsLeast (eigenvaluesOf A.B.H) E0)
    (hcut : ∀ μ ∈ eigenvaluesOf A.B.H, μ ≤ E0 + min A.p.inner A.p.outer) (r : ℕ) (t : ℝ) (fl : List ℕ) :
    signedC A 0 0 (some ⟨.equalTime r, [t], fl⟩) = ((Real.exp (A.beta * E0) : ℝ) : 𝕜) *
      trace (NormedSpace.exp (((-A.beta : ℝ) : 𝕜) • A.B.H) * pairProd A.B r fl) := by
  classical
  obtain ⟨h1, h2, h3⟩ := equalTime_ops (𝕜 := 𝕜) (N := N) r t fl
  set L := wormOps (codeWops id (some (⟨.equalTime r, [t], fl⟩ : Worm ℝ))) with hL
  have hn : (L.map Psi.time).Nodup := h2.imp fun h => ne_of_gt h
  have hops : (⟨(0 : Multiset (BOp ℝ)).toList, (0 : Multiset (BOp ℝ)).toList, some ⟨.equalTime r, [t], fl⟩⟩ : WCfg ℝ).ops id (codeWops id) = L := by
    simp [PCfg.ops, hL]
  have hs : (⟨(0 : Multiset (BOp ℝ)).toList, (0 : Multiset (BOp ℝ)).toList, some ⟨.equalTime r, [t], fl⟩⟩ : WCfg ℝ).sorted id (codeWops id) =
      L.reverse := by
    refine sorted_unique (PCfg.sorted_sorted _ (by rw [hops]; exact hn)) ?_ ((PCfg.sorted_perm _).trans (by rw [hops]; exact (List.reverse_perm L).symm))
    show L.reverse.Pairwise fun a b => a.time < b.time
    rw [List.pairwise_reverse]
    exact List.pairwise_map.1 h2
  unfold signedC
  rw [if_pos ⟨by rw [hops]; exact hn, by simp, by simp⟩]
  unfold signedR CodeArgs.weight
  rw [hs, C57_exact hA.base hA.solver hA.dim hE hcut, trace_same _ _ _ t _ fun o ho => h1 o (List.mem_reverse.1 ho), List.reverse_reverse, h3]
  have hp : permSignImpl ((0 : Multiset (BOp ℝ)).toList.map (mkOp id .creation)) ((0 : Multiset (BOp ℝ)).toList.map (mkOp id .annihilation)) L = 1 := by
    rw [C05_perm_sign_value _ _ _ (by simp) (by simpa using hn), outOfOrder_desc h2]
    simp [crossCount]
  have hd : timeDet A.G ((0 : Multiset (BOp ℝ)).toList.map (mkOp id .annihilation)) ((0 : Multiset (BOp ℝ)).toList.map (mkOp id .creation)) = 1 := by
    rw [timeDet_eq _ _ _ (by simp) (by simp), listDet_eq _ _ _ 0 (by simp) (by simp), Matrix.det_fin_zero]
    simp [invs]
  show ((permSignImpl _ _ L : ℤ) : 𝕜) * _ = _
  rw [hp, hd]
  simp

/-- The term without any operator. -/
theorem signedC_empty (hA : A.OK) {E0 : ℝ} (hE : IsLeast (eigenvaluesOf A.B.H) E0)
    (hcut : ∀ μ ∈ eigenvaluesOf A.B.H, μ ≤ E0 + min A.p.inner A.p.outer) :
    signedC A 0 0 none = ((Real.exp (A.beta * E0) : ℝ) : 𝕜) * trace (NormedSpace.exp (((-A.beta : ℝ) : 𝕜) • A.B.H)) ∧
      ∃ z : ℝ, 0 < z ∧ signedC A 0 0 none = ((z : ℝ) : 𝕜) := by
  classical
  have hd : timeDet A.G ((0 : Multiset (BOp ℝ)).toList.map (mkOp id .annihilation)) ((0 : Multiset (BOp ℝ)).toList.map (mkOp id .creation)) = 1 := by
    rw [timeDet_eq _ _ _ (by simp) (by simp), listDet_eq _ _ _ 0 (by simp) (by simp), Matrix.det_fin_zero]
    simp [invs]
  have hops : (⟨(0 : Multiset (BOp ℝ)).toList, (0 : Multiset (BOp ℝ)).toList, none⟩ : WCfg ℝ).ops id (codeWops id) = [] := by
    simp [PCfg.ops, codeWops, wormOps]
  have hs : (⟨(0 : Multiset (BOp ℝ)).toList, (0 : Multiset (BOp ℝ)).toList, none⟩ : WCfg ℝ).sorted id (codeWops id) = [] := by
    unfold PCfg.sorted
    rw [hops, List.mergeSort_nil]
  have hp : permSignImpl ((0 : Multiset (BOp ℝ)).toList.map (mkOp id .creation)) ((0 : Multiset (BOp ℝ)).toList.map (mkOp id .annihilation))
      ([] : List (TPsi ℝ)) = 1 := by
    rw [C05_perm_sign_value _ _ _ (by simp) (by simp)]
    simp [crossCount, outOfOrder]
  have e : signedC A 0 0 none = fullTrace (ebEnv A.B A.p A.beta) [] := by
    unfold signedC
    rw [if_pos ⟨by rw [hops]; simp, by simp, by simp⟩]
    unfold signedR CodeArgs.weight
    rw [hs]
    show ((permSignImpl _ _ ([] : List (TPsi ℝ)) : ℤ) : 𝕜) * _ = _
    rw [hp, hd]
    simp
  obtain ⟨-, z, -, hz, ez, -⟩ := C60_partition_function hA.base hA.solver hA.dim hA.inner hA.outer A.beta
  refine ⟨?_, z, hz, by rw [e, ez]⟩
  rw [e, C57_exact hA.base hA.solver hA.dim hE hcut]
  simp [timeOrderedMat]

variable {a : LoopC} {k : ℕ} {plan : Rand ℝ (List (ℕ × List (ℕ → ℕ)))} {σ : WCfg ℝ → CodeState A (Option (Worm ℝ))} {st : SavedState}

/-- **C85.**  Without hybridization, and if no state of the impurity is cut off, what the postprocessing makes of the data of an
equal-time worm space is, in equilibrium, the thermal average of the product of the operators, `c†_{f0} c_{f1} c†_{f2} c_{f3} …`.
Missing for the full statement: as in `C83_loop_partial`. -/
theorem C85_atomic_partial (ha : a.OK A) (hp : PlanC A plan) (hst : WindowOK 0 st) (hσ : StatesC A st σ)
    (hG : ∀ o o', A.G o o' = 0) {E0 : ℝ} (hE : IsLeast (eigenvaluesOf A.B.H) E0)
    (hcut : ∀ μ ∈ eigenvaluesOf A.B.H, μ ≤ E0 + min A.p.inner A.p.outer)
    {r : ℕ} (hk : .equalTime r ∈ a.kinds) (fs : Fin (WormKind.equalTime r).numFlavors → Fin A.P.nf) (φ : 𝕜 →L[ℝ] ℝ) :
    let E := loopMeanC A a k plan σ
    let inZ : CodeState A (Option (Worm ℝ)) → ℝ := fun s => if s.2 = none then 1 else 0
    let inW : CodeState A (Option (Worm ℝ)) → ℝ := fun s => if s.2.any fun w => decide (w.kind = .equalTime r) then 1 else 0
    wormCoeff (1 / A.beta) (E inW / a.sw (.equalTime r)) (E inZ) (E (fun s => inZ s * RCLike.re s.1.cfg.sign) / E inZ) *
        (E (fun s => inW s * φ (s.2.elim 0 fun w => equalTimeData w.flavors s.1.cfg.sign (flavList fs))) / E inW) =
      φ (thermal A.B.H A.beta (pairProd A.B r (flavList fs))) := by
  intro E inZ inW
  rw [C84_equal_time_partial ha hp hst hσ hk fs φ]
  obtain ⟨e1, z, hz, e2⟩ := signedC_empty ha.code hE hcut
  have hlin : ∀ (b : ℝ) (y : 𝕜), φ ((b : 𝕜) * y) = b * φ y := by
    intro b y
    rw [← RCLike.real_smul_eq_coe_mul, map_smul, smul_eq_mul]
  rw [cfgInt_single (ω := none) (g := fun X X' ω => RCLike.re (signedC A X X' ω)) fun X X' h => by
    rw [signedC_zero hG h]; exact RCLike.zero_re]
  have hc : ∀ t : ℝ, cfgInt A.beta A.P.nf (some (mkW (.equalTime r) (fun _ => t) fs)) (fun X X' ω => φ (signedC A X X' ω)) =
      φ (((Real.exp (A.beta * E0) : ℝ) : 𝕜) *
        trace (NormedSpace.exp (((-A.beta : ℝ) : 𝕜) • A.B.H) * pairProd A.B r (flavList fs))) := fun t => by
    rw [cfgInt_single fun X X' h => by rw [signedC_zero hG h, map_zero]]
    exact congrArg φ (signedC_worm ha.code hE hcut r t (flavList fs))
  simp only [hc]
  rw [integral_const, measureReal_restrict_apply_univ, Real.volume_real_Icc_of_le ha.beta.le, smul_eq_mul, sub_zero,
    mul_div_cancel_left₀ _ ha.beta.ne', e2, RCLike.ofReal_re, thermal]
  have hne : ((Real.exp (A.beta * E0) : ℝ) : 𝕜) ≠ 0 := by
    rw [Ne, RCLike.ofReal_eq_zero]; exact (Real.exp_pos _).ne'
  have hz' : ((z : ℝ) : 𝕜) ≠ 0 := by rw [Ne, RCLike.ofReal_eq_zero]; exact hz.ne'
  have ht : trace (NormedSpace.exp (((-A.beta : ℝ) : 𝕜) • A.B.H)) = ((z : ℝ) : 𝕜) / ((Real.exp (A.beta * E0) : ℝ) : 𝕜) := by
    rw [eq_div_iff hne, mul_comm, ← e1, e2]
  rw [ht]
  have e3 : ∀ y : 𝕜, y / (((z : ℝ) : 𝕜) / ((Real.exp (A.beta * E0) : ℝ) : 𝕜)) =
      ((z⁻¹ : ℝ) : 𝕜) * (((Real.exp (A.beta * E0) : ℝ) : 𝕜) * y) := fun y => by
    rw [RCLike.ofReal_inv]
    field_simp
  rw [e3, hlin z⁻¹]
  field_simp

/-! ### A concrete case: one level of energy 2, without bath -/

noncomputable def atomCode : CodeArgs ℝ (2 ^ 1) := { exCode with G := fun _ _ => 0 }

theorem atomCode_ok : atomCode.OK :=
  { exCode_ok with
    blocks := fun _ _ _ _ _ => rfl
    sectors := exCode_ok.sectors }

theorem atomCode_anti : AntiPer atomCode (fun _ _ _ => 0) := ⟨fun _ _ => rfl, fun _ _ _ _ _ => neg_zero.symm⟩

/-- Loop with shifts, moves of the equal-time worm and without exchanges. -/
noncomputable def atomLoop : LoopC := ⟨[.green 1, .equalTime 1], [.equalTime 1], fun k => 1 + k.numFlavors, fun _ => 1, fun _ => 1, 4, 2, true, true⟩

theorem atomLoop_ok : atomLoop.OK atomCode where
  code := atomCode_ok
  meas := measurable_const
  bounded := ⟨0, fun _ _ _ _ => le_of_eq (norm_zero (E := ℝ))⟩
  beta := show (0 : ℝ) < 4 by norm_num
  nf := Nat.one_pos
  ns := Nat.one_pos
  flavors := by
    intro b hb
    have : b < 1 := hb
    interval_cases b
    decide
  kindFlavors := by decide
  nodup := by decide
  green := by simp [atomLoop]
  sw := fun k => by unfold atomLoop; positivity
  dist := ⟨fun _ => one_pos, fun _ _ _ => rfl⟩
  movers := by simp [atomLoop, WormKind.numTimes]
  shift := fun v hv => C83_safe_shift atomCode_ok rfl atomCode_anti ⟨by
    have e : atomCode.beta = 4 := rfl
    rw [e]; linarith [hv.1], by
    have e : atomCode.beta = 4 := rfl
    rw [e]; linarith [hv.2]⟩

/-- Two sweeps over one rank of worms. -/
noncomputable def atomPlan : Rand ℝ (List (ℕ × List (ℕ → ℕ))) := {(1, [(1, []), (2, [])])}

theorem atomPlan_ok : PlanC atomCode atomPlan := by
  constructor
  · simp [atomPlan, meanE]
  · intro r hr q hq p hp
    rw [atomPlan, Multiset.mem_singleton] at hr
    subst hr
    simp only [List.mem_cons, List.not_mem_nil, or_false] at hq
    rcases hq with rfl | rfl <;> simp at hp

/-- The Fermi function; a set bit means an empty flavor (see `FermionProps`), so the occupied level lies 2 below the empty one. -/
theorem atom_thermal : thermal atomCode.B.H 4 (pairProd atomCode.B 1 [0, 0]) = 1 / (Real.exp (-(4 * 2)) + 1) := by
  have e1 : NormedSpace.exp (((-4 : ℝ) : ℝ) • oneLevel) = diagonal fun i : Fin (2 ^ 1) => Real.exp (-4 * (2 * (i.val : ℝ))) :=
    oneLevel_exp (-4)
  have e3 : cdagOp 1 0 * cOp 1 0 = diagonal fun i : Fin (2 ^ 1) => (1 - i.val : ℤ) := by decide
  have e2 : pairProd atomCode.B 1 [0, 0] = diagonal fun i : Fin (2 ^ 1) => (1 - i.val : ℝ) := by
    have h : (diagonal fun i : Fin (2 ^ 1) => (1 - i.val : ℤ)).map (Int.castRingHom ℝ) = diagonal fun i : Fin (2 ^ 1) => (1 - i.val : ℝ) := by
      rw [diagonal_map (map_zero _)]
      simp
    rw [← h, ← e3, Matrix.map_mul]
    show (List.map _ [0]).prod = _
    simp only [List.map_cons, List.map_nil, List.prod_cons, List.prod_nil, mul_one]
    rfl
  show trace (NormedSpace.exp (((-4 : ℝ) : ℝ) • oneLevel) * _) / trace (NormedSpace.exp (((-4 : ℝ) : ℝ) • oneLevel)) = _
  rw [e1, e2, diagonal_mul_diagonal, trace_diagonal, trace_diagonal]
  have h : ∀ g : Fin (2 ^ 1) → ℝ, ∑ i, g i = g 0 + g 1 := fun g => Fin.sum_univ_two g
  rw [h, h]
  have h1 : ((1 : Fin (2 ^ 1)).val : ℝ) = 1 := by norm_num
  have h0 : ((0 : Fin (2 ^ 1)).val : ℝ) = 0 := by norm_num
  rw [h1, h0]
  norm_num
  ring

/-- The demands of `C85_atomic_partial` are met, and the density of the level is the Fermi function. -/
example : ∃ σ : WCfg ℝ → CodeState atomCode (Option (Worm ℝ)),
    let E := loopMeanC atomCode atomLoop 0 atomPlan σ
    let inZ : CodeState atomCode (Option (Worm ℝ)) → ℝ := fun s => if s.2 = none then 1 else 0
    let inW : CodeState atomCode (Option (Worm ℝ)) → ℝ := fun s => if s.2.any fun w => decide (w.kind = .equalTime 1) then 1 else 0
    wormCoeff (1 / 4) (E inW / (1 + (2 : ℕ))) (E inZ) (E (fun s => inZ s * RCLike.re s.1.cfg.sign) / E inZ) *
        (E (fun s => inW s * (s.2.elim 0 fun w => equalTimeData w.flavors s.1.cfg.sign [0, 0])) / E inW) =
      1 / (Real.exp (-(4 * 2)) + 1) := by
  obtain ⟨σ, hσ⟩ := exists_stands atomCode_ok (n := 4) (by norm_num)
  refine ⟨σ, ?_⟩
  have h := C85_atomic_partial (k := 0) atomLoop_ok atomPlan_ok (st := ⟨2, 0, true, 4⟩) ⟨by norm_num, rfl, by norm_num, dvd_zero _⟩ hσ
    (fun _ _ => rfl) oneLevel_least (fun μ hμ => by
      have e : min atomCode.p.inner atomCode.p.outer = 2 := by norm_num [atomCode, exCode, twoParams]
      rw [e]
      rcases (oneLevel_eig μ).1 hμ with rfl | rfl <;> norm_num)
    (r := 1) (by simp [atomLoop]) (fun _ => (0 : Fin 1)) (ContinuousLinearMap.id ℝ ℝ)
  exact h.trans atom_thermal

end CTHyb
