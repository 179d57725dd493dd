import Verif.Sanity
import Verif.SimulationCodeProps

/-!
C76: the consistency check of the configuration in builds without NDEBUG.

Specification: the check is meant to stop the program unless operators, determinant, trace, permutation
sign and sign agree with values computed from scratch.  The theorems say when it stops a program whose
determinant matrix is intact, that a consistent state passes and is consistent afterwards, that damage of
the stored inverse matrices is either detected or repaired, and what is not detected.
-/

namespace CTHyb

open Matrix

/-! ### Factors of the determinant -/

section factors
variable {T R K : Type} [Field K] [Field R] [LinearOrder R] [LinearOrder T]

omit [LinearOrder T] in
theorem sortAbsAsc_perm (abv : AbsoluteValue K R) (l : List K) : (sortAbsAsc abv l).Perm l :=
  List.mergeSort_perm _ _

omit [LinearOrder T] in
theorem mulHead_length (s : K) (l : List K) : (mulHead s l).length = l.length := by
  cases l <;> rfl

omit [LinearOrder T] in
theorem DM.detFactorsAsc_length (abv : AbsoluteValue K R)
    {lu : (n : ℕ) → Matrix (Fin n) (Fin n) K → List K} (hlen : ∀ n A, (lu n A).length = n) (s : DM T K) :
    (s.detFactorsAsc abv lu).length = max s.n 1 := by
  unfold DM.detFactorsAsc
  split_ifs with h
  · simp [h]
  · rw [(sortAbsAsc_perm _ _).length_eq, mulHead_length, List.length_map, hlen]; omega

omit [LinearOrder T] in
theorem PM.detFactorsAsc_length (abv : AbsoluteValue K R)
    {lu : (n : ℕ) → Matrix (Fin n) (Fin n) K → List K} (hlen : ∀ n A, (lu n A).length = n) (E : PEnv)
    (s : PM T K) :
    (s.detFactorsAsc abv lu E).length = ((List.range E.ns).map fun k => max (s.blocks k).n 1).sum := by
  unfold PM.detFactorsAsc
  rw [(sortAbsAsc_perm _ _).length_eq, mulHead_length, List.length_flatMap]
  congr 1
  exact List.map_congr_left fun k _ => DM.detFactorsAsc_length abv hlen _

theorem DM.detFactorsAsc_prod (abv : AbsoluteValue K R) {lu : (n : ℕ) → Matrix (Fin n) (Fin n) K → List K}
    (hlu : ∀ n A, (lu n A).prod = A.det) (hlen : ∀ n A, (lu n A).length = n) {G : Psi T → Psi T → K}
    {s : DM T K} (h : s.Inv G) : (s.detFactorsAsc abv lu).prod = s.determinant := by
  unfold DM.detFactorsAsc DM.determinant
  by_cases h0 : s.n = 0
  · rw [if_pos h0]
    have e1 : s.c.ops = [] := List.eq_nil_of_length_eq_zero (h.cLen.trans h0)
    have e2 : s.cd.ops = [] := List.eq_nil_of_length_eq_zero (h.cdLen.trans h0)
    have hp : s.perm = 1 := by rw [h.perm, e1, e2]; rfl
    have hd : (blk s.inv 0 0 s.n s.n).det = 1 := by
      have : IsEmpty (Fin s.n) := by rw [h0]; infer_instance
      exact Matrix.det_isEmpty
    rw [hp, hd]; simp
  · rw [if_neg h0]
    have hne : (lu s.n (blk s.inv 0 0 s.n s.n)).map (fun x => 1 / x) ≠ [] := by
      intro he
      have := congrArg List.length he
      rw [List.length_map, hlen] at this
      exact h0 this
    rw [(sortAbsAsc_perm _ _).prod_eq, mulHead_prod _ _ hne, prod_inv_map, hlu]; ring

/-- The factors in the order of the code have the same product. -/
theorem PM.detFactorsAsc_prod (abv : AbsoluteValue K R) {lu : (n : ℕ) → Matrix (Fin n) (Fin n) K → List K}
    (hlu : ∀ n A, (lu n A).prod = A.det) (hlen : ∀ n A, (lu n A).length = n) {P : PEnv}
    {G : Psi T → Psi T → K} {s : PM T K} (h : s.Inv P G) :
    (s.detFactorsAsc abv lu P).prod = s.determinant P := by
  unfold PM.detFactorsAsc PM.determinant
  have hprod : ∀ n, n ≤ P.ns → ((List.range n).flatMap fun k => (s.blocks k).detFactorsAsc abv lu).prod =
      ∏ k ∈ Finset.range n, (s.blocks k).determinant := by
    intro n
    induction n with
    | zero => intro _; simp
    | succ n ih =>
      intro hn
      rw [List.range_succ, List.flatMap_append, List.prod_append, ih (by omega), Finset.prod_range_succ,
        List.flatMap_singleton, DM.detFactorsAsc_prod abv hlu hlen (h.block n (by omega))]
  rw [(sortAbsAsc_perm _ _).prod_eq]
  by_cases h0 : P.ns = 0
  · have hp : s.perm = 1 := by
      rw [h.perm]; simp [PSide.order, h0, invs]
    rw [h0, hp]; simp [mulHead]
  · rw [mulHead_prod, hprod _ le_rfl]
    intro he
    rw [List.flatMap_eq_nil_iff] at he
    have := congrArg List.length (he 0 (by simp; omega))
    rw [DM.detFactorsAsc_length abv hlen] at this
    simp at this

/-! ### Rebuilding -/

theorem DM.rebuild_eq {G : Psi T → Psi T → K} {s : DM T K} (h : s.Inv G) (bad : ℕ → ℕ → K) :
    DM.rebuild G { s with inv := bad } =
      .ok { s with inv := ofMat (blk (gEntry G s.c.ops s.cd.ops) 0 0 s.n s.n)⁻¹ } := by
  unfold DM.rebuild DM.check
  rw [if_pos h.state]
  show Except.ok _ = Except.ok _
  have : ∀ m, m = s.n → ({ s with
      n := m
      inv := ofMat (blk (gEntry G s.c.ops s.cd.ops) 0 0 m m)⁻¹ } : DM T K) =
      { s with inv := ofMat (blk (gEntry G s.c.ops s.cd.ops) 0 0 s.n s.n)⁻¹ } := by
    rintro m rfl; rfl
  exact congrArg Except.ok (this _ h.cdLen)

theorem DM.rebuild_factors (abv : AbsoluteValue K R) (lu : (n : ℕ) → Matrix (Fin n) (Fin n) K → List K)
    {G : Psi T → Psi T → K} {s : DM T K} (h : s.Inv G) :
    DM.detFactorsAsc abv lu { s with inv := ofMat (blk (gEntry G s.c.ops s.cd.ops) 0 0 s.n s.n)⁻¹ } =
      s.detFactorsAsc abv lu := by
  have e : (blk s.inv 0 0 s.n s.n) = (blk (gEntry G s.c.ops s.cd.ops) 0 0 s.n s.n)⁻¹ :=
    (Matrix.inv_eq_left_inv h.inv).symm
  unfold DM.detFactorsAsc
  simp only [blk_ofMat]
  rw [← e]

/-- An object whose stored matrices have been replaced. -/
def PM.damage (s : PM T K) (bad : ℕ → ℕ → ℕ → K) : PM T K :=
  { s with blocks := fun k => { s.blocks k with inv := bad k } }

/-- A block with the matrix computed anew. -/
noncomputable def DM.fresh (G : Psi T → Psi T → K) (s : DM T K) : DM T K :=
  { s with inv := ofMat (blk (gEntry G s.c.ops s.cd.ops) 0 0 s.n s.n)⁻¹ }

theorem PM.rebuild_eq {E : PEnv} {G : Psi T → Psi T → K} {s : PM T K} (h : s.Inv E G)
    (bad : ℕ → ℕ → ℕ → K) (hbad : ∀ k, E.ns ≤ k → bad k = (s.blocks k).inv) :
    PM.rebuild E G (s.damage bad) =
      .ok { s with blocks := fun k => if k < E.ns then (s.blocks k).fresh G else s.blocks k } := by
  unfold PM.rebuild PM.damage
  rw [loopN_ok E.ns _ _ (fun k => (s.blocks k).fresh G)
    (fun k hk => DM.rebuild_eq (h.block k hk) (bad k))]
  show Except.ok _ = Except.ok _
  congr 2
  funext k
  split_ifs with hk
  · rfl
  · show ({ s.blocks k with inv := bad k } : DM T K) = s.blocks k
    rw [hbad k (by omega)]

theorem PM.damage_self (s : PM T K) : s.damage (fun k => (s.blocks k).inv) = s := rfl

/-- Rebuilding a consistent object: it stays consistent, with the same operators, determinant and
factors. -/
theorem PM.rebuild_ok [DecidableEq K] (abv : AbsoluteValue K R) (lu : (n : ℕ) → Matrix (Fin n) (Fin n) K → List K)
    {E : PEnv} {G : Psi T → Psi T → K} {s : PM T K} (h : s.Inv E G)
    (bad : ℕ → ℕ → ℕ → K) (hbad : ∀ k, E.ns ≤ k → bad k = (s.blocks k).inv) :
    ∃ s2, PM.rebuild E G (s.damage bad) = .ok s2 ∧ s2.Inv E G ∧ s2.cd = s.cd ∧ s2.c = s.c ∧
      s2.determinant E = s.determinant E ∧ s2.detFactorsAsc abv lu E = s.detFactorsAsc abv lu E := by
  obtain ⟨s2, e, i, a, b, d⟩ := C18_rebuild E G s h bad
  refine ⟨s2, e, i, a, b, d, ?_⟩
  have e' := PM.rebuild_eq h bad hbad
  have e3 : PM.rebuild E G (s.damage bad) = .ok s2 := e
  rw [e3] at e'
  obtain rfl := Except.ok.inj e'
  unfold PM.detFactorsAsc
  congr 2
  apply List.flatMap_congr
  intro k hk
  rw [List.mem_range] at hk
  simp only [if_pos hk]
  exact DM.rebuild_factors abv lu (h.block k hk)

/-! ### The test of the determinant -/

theorem detRatLoop_go (old new : List K) (n : ℕ) (h1 : n ≤ old.length) (h2 : n ≤ new.length) :
    (List.range n).foldl
      (fun r i => r.bind fun _ => old[i]?.bind fun x => new[i]?.map fun y => x / y) (some (1 : K)) =
      if n = 0 then some 1 else old[n - 1]?.bind fun x => new[n - 1]?.map fun y => x / y := by
  induction n with
  | zero => rfl
  | succ n ih =>
    rw [List.range_succ, List.foldl_append, ih (by omega) (by omega)]
    simp only [List.foldl_cons, List.foldl_nil, Nat.add_sub_cancel, Nat.succ_ne_zero, if_false]
    have : ∃ z, (if n = 0 then some 1 else old[n - 1]?.bind fun x => new[n - 1]?.map fun y => x / y) =
        some (z : K) := by
      by_cases hn : n = 0
      · exact ⟨1, if_pos hn⟩
      · rw [if_neg hn, List.getElem?_eq_getElem (by omega), List.getElem?_eq_getElem (by omega)]
        exact ⟨_, rfl⟩
    obtain ⟨z, hz⟩ := this
    rw [hz]
    rfl

/-- **C76 (determinant test).**  What is compared with 1 is the ratio of the last, that is the largest,
factors only. -/
theorem C76_last (old new : List K) (hl : old.length = new.length) (h : new ≠ []) :
    detRatLoop old new = some (old.getLast (by intro e; rw [e] at hl; exact h (List.length_eq_zero_iff.1 hl.symm)) /
      new.getLast h) := by
  have hp := List.length_pos_iff.2 h
  unfold detRatLoop
  rw [detRatLoop_go old new _ (by omega) le_rfl, if_neg (by omega), List.getElem?_eq_getElem (by omega),
    List.getElem?_eq_getElem (by omega), List.getLast_eq_getElem, List.getLast_eq_getElem]
  simp only [Option.bind_some, Option.map_some, hl]

theorem detRatLoop_self (l : List K) (h : l.prod ≠ 0) : detRatLoop l l = some 1 := by
  by_cases hl : l = []
  · subst hl; rfl
  · rw [C76_last l l rfl hl, div_self]
    intro e
    exact h (List.prod_eq_zero (e ▸ List.getLast_mem hl))

theorem detRatLoop_some (old new : List K) (hl : old.length = new.length) : ∃ r, detRatLoop old new = some r := by
  by_cases h : new = []
  · subst h; exact ⟨1, rfl⟩
  · exact ⟨_, C76_last old new hl h⟩

theorem detRatLoop_pair (x x' y : K) (h : y ≠ 0) : detRatLoop [x, y] [x', y] = some 1 := by
  rw [C76_last [x, y] [x', y] rfl (List.cons_ne_nil _ _)]
  show some (y / y) = some 1
  rw [div_self h]

end factors

/-! ### The check -/

section check
variable {𝕜 : Type} [RCLike 𝕜] [DecidableEq 𝕜] {N : ℕ}

/-- States of the simulation of the code. -/
abbrev CodeG (A : CodeArgs 𝕜 N) := GState ℝ 𝕜 (CodeDet 𝕜) (BK 𝕜) (BK 𝕜) (Fin (ebBrakets A.B A.p).length)

/-- The check of the code. -/
noncomputable def CodeArgs.check (A : CodeArgs 𝕜 N) (tol : ℝ) (s : CodeG A) :=
  sanityCheck A.env A.rebuild A.factorsAsc tol s

omit [DecidableEq 𝕜] in
theorem sgn_prod (l : List 𝕜) : (l.map fun x => x / ((‖x‖ : ℝ) : 𝕜)).prod = l.prod / ((‖l.prod‖ : ℝ) : 𝕜) := by
  induction l with
  | nil => simp
  | cons a l ih => rw [List.map_cons, List.prod_cons, List.prod_cons, ih, sgn_mul_norm]

/-- The trace computed anew is the trace of the time-ordered product, even if it vanishes. -/
theorem CodeArgs.lazy_zero {A : CodeArgs 𝕜 N} (h : A.OK)
    {w : SWState (BK 𝕜) (BK 𝕜) (Fin (ebBrakets A.B A.p).length)} {ops : OpSet (OpTime ℝ)}
    (hw : SWInv (ebEnv A.B A.p A.beta) (w, ops)) :
    ((A.env.tr w).lazyEval ops 0).2 = fullTrace (ebEnv A.B A.p A.beta) ops := by
  have hbd : ∀ i, ‖traceBraket A.B A.p A.beta ops w i‖ ≤ traceBounds A.B A.p A.lim A.beta ops w i := fun i =>
    (inv_bound h.base h.solver h.norm h.beta A.lim hw i).2 (h.lim.sectors h.base h.solver h.dim h.inner)
  have hsum := sum_brakets h.base h.beta hw
  obtain ⟨hg, -⟩ := lazyEval_good 0 le_rfl (normAbs 𝕜) (traceBraket A.B A.p A.beta ops w) 0
    (A.sortIdx (traceBounds A.B A.p A.lim A.beta ops w)) (traceBounds A.B A.p A.lim A.beta ops w) (h.sort _) hbd
  rw [hsum] at hg
  rcases hg with ⟨-, hlt⟩ | ⟨-, hd⟩
  · exact absurd hlt (not_lt.2 (AbsoluteValue.nonneg _ _))
  · symm
    rw [← sub_eq_zero]
    have hd' := le_antisymm (by simpa only [Nat.cast_zero, mul_zero, zero_mul] using hd) (AbsoluteValue.nonneg _ _)
    exact (AbsoluteValue.eq_zero _).1 hd'

/-- What the window does during the check. -/
theorem window_check {A : CodeArgs 𝕜 N} (h : A.OK) {s : CodeG A} {ops0 : OpSet (OpTime ℝ)}
    (hst : StacksOK A.env.V ops0 s.sw) (ho : OpsOK A.beta s.cfg.ops) (hn : 1 ≤ s.sw.n)
    (h2 : s.sw.posL = s.sw.posR + 2) :
    ∃ w w', setWindowSize A.env.V (max s.sw.n 10) s.cfg.ops 0 true s.sw = some w ∧
      restoreState A.env.V s.cfg.ops (getState s.sw) w = some w' ∧
      ((A.env.tr w).lazyEval s.cfg.ops 0).2 = fullTrace A.env.V s.cfg.ops ∧
      SWInv A.env.V (w', s.cfg.ops) ∧ w'.n = s.sw.n ∧ w'.posL = s.sw.posL ∧ w'.posR = s.sw.posR := by
  obtain ⟨w, e1, k1, n1, a1, -⟩ := setWindowSize_ok hst s.cfg.ops (max s.sw.n 10) 0 true
  obtain ⟨r1, l1, -⟩ := a1 (by omega)
  obtain ⟨w', e2, k2, n2, l2, a2, b2⟩ := restoreState_ok k1 s.cfg.ops (getState s.sw) hst.posL
  have n2' : w'.n = s.sw.n := n2
  have l2' : w'.posL = s.sw.posL := l2
  have r2 : w'.posR = s.sw.posR := by
    by_cases h1 : 2 ≤ s.sw.n
    · exact (a2 h1).1
    · have := b2 (by simpa [getState] using (by omega : s.sw.n < 2))
      have hL : s.sw.posL ≤ 2 * s.sw.n := hst.posL
      omega
  refine ⟨w, w', e1, e2, CodeArgs.lazy_zero h ⟨ho, k1, ?_, ?_⟩, ⟨ho, k2, ?_, ?_⟩, n2', l2', r2⟩
  · show 1 ≤ w.n; omega
  · show w.posR ≤ w.posL; omega
  · show 1 ≤ w'.n; omega
  · show w'.posR ≤ w'.posL; omega

/-- The check, once the operators and the window are in order. -/
theorem check_eq {A : CodeArgs 𝕜 N} (h : A.OK) (tol : ℝ) {s : CodeG A} {m : PM (OpTime ℝ) 𝕜}
    (hm : m.Inv A.P A.G) (bad : ℕ → ℕ → ℕ → 𝕜) (hbad : ∀ k, A.P.ns ≤ k → bad k = (m.blocks k).inv)
    (hM : s.cfg.M = .ok (m.damage bad)) {ops0 : OpSet (OpTime ℝ)}
    (hst : StacksOK A.env.V ops0 s.sw) (ho : OpsOK A.beta s.cfg.ops) (hn : 1 ≤ s.sw.n)
    (h2 : s.sw.posL = s.sw.posR + 2) :
    ∃ (m2 : PM (OpTime ℝ) 𝕜) (w' : SWState (BK 𝕜) (BK 𝕜) (Fin (ebBrakets A.B A.p).length)) (r : 𝕜),
      m2.Inv A.P A.G ∧ m2.cd = m.cd ∧ m2.c = m.c ∧
      m2.determinant A.P = m.determinant A.P ∧ SWInv A.env.V (w', s.cfg.ops) ∧ w'.n = s.sw.n ∧
      w'.posL = s.sw.posL ∧ w'.posR = s.sw.posR ∧
      ((∀ k, bad k = (m.blocks k).inv) → r = 1) ∧
      A.check tol s =
        (if collectOps A.env.D s.cfg ≠ s.cfg.ops then .badOperators
        else if ¬ ‖r - 1‖ < tol then .badDeterminant
        else if ¬ ‖fullTrace A.env.V s.cfg.ops - s.cfg.trace‖ < tol * ‖s.cfg.trace‖ then .badTrace
        else if permSignImpl m.cd.act m.c.act (wormOps s.cfg.worm) ≠ s.cfg.permSign then .badPermutation
        else if ¬ ‖m.determinant A.P / ((‖m.determinant A.P‖ : ℝ) : 𝕜) *
          (fullTrace A.env.V s.cfg.ops / ((‖fullTrace A.env.V s.cfg.ops‖ : ℝ) : 𝕜)) *
          ((permSignImpl m.cd.act m.c.act (wormOps s.cfg.worm) : ℤ) : 𝕜) / s.cfg.sign - 1‖ < tol then .badSign
        else .ok { s with cfg := { s.cfg with M := .ok m2 }, sw := w' }) := by
  obtain ⟨m2, e, i2, c1, c2, d2, f2⟩ := PM.rebuild_ok (normAbs 𝕜) A.lu hm bad hbad
  obtain ⟨w, w', e1, e2, et, hw, x1, x2, x3⟩ := window_check h hst ho hn h2
  have eM : A.rebuild s.cfg.M = .ok m2 := by
    rw [hM]; exact e
  have f1 : A.factorsAsc (.ok m2) = m.detFactorsAsc (normAbs 𝕜) A.lu A.P := f2
  have hlen : (A.factorsAsc s.cfg.M).length = (A.factorsAsc (.ok m2)).length := by
    rw [hM, f1]
    show (PM.detFactorsAsc _ _ _ _).length = _
    rw [PM.detFactorsAsc_length _ h.lu_len, PM.detFactorsAsc_length _ h.lu_len]
    rfl
  obtain ⟨r, hr⟩ := detRatLoop_some _ _ hlen
  have hd0 : m.determinant A.P ≠ 0 := (C18_determinant A.P A.G h.blocks m hm).2
  refine ⟨m2, w', r, i2, c1, c2, d2, hw, x1, x2, x3, ?_, ?_⟩
  · intro hb
    have : m.damage bad = m := by
      have : bad = fun k => (m.blocks k).inv := funext hb
      rw [this]; rfl
    rw [hM, this, f1] at hr
    have hr' : detRatLoop (m.detFactorsAsc (normAbs 𝕜) A.lu A.P) (m.detFactorsAsc (normAbs 𝕜) A.lu A.P) = some r := hr
    rw [detRatLoop_self] at hr'
    · exact (Option.some.inj hr').symm
    · rw [PM.detFactorsAsc_prod _ h.lu_prod h.lu_len hm]
      exact hd0
  · have es : (A.factorsAsc (.ok m2)).map A.env.sgn =
        (A.factorsAsc (.ok m2)).map fun x => x / ((‖x‖ : ℝ) : 𝕜) := rfl
    have ep : A.env.permFn (A.env.D.cdagg (.ok m2)) (A.env.D.cs (.ok m2)) (wormOps s.cfg.worm) =
        permSignImpl m.cd.act m.c.act (wormOps s.cfg.worm) := by
      show permSignImpl m2.cd.act m2.c.act _ = _
      rw [c1, c2]
    unfold CodeArgs.check sanityCheck
    simp only [eM, hr, e1, e2, et, ep, es]
    rw [sgn_prod, f1, PM.detFactorsAsc_prod _ h.lu_prod h.lu_len hm]
    rfl

/-- **C76 (what passes).**  If the determinant matrix is intact, the check lets the program go on exactly if
the container holds the operators of determinant and worm, the stored trace differs from the trace of the
time-ordered product by less than the tolerance, the stored permutation sign is right, and the stored sign
differs from the product of the signs by less than the tolerance. -/
theorem C76_passes_iff (A : CodeArgs 𝕜 N) (h : A.OK) {tol : ℝ} (ht : 0 < tol) (s : CodeG A)
    (m : PM (OpTime ℝ) 𝕜) (hM : s.cfg.M = .ok m) (hm : m.Inv A.P A.G) (ops0 : OpSet (OpTime ℝ))
    (hst : StacksOK A.env.V ops0 s.sw) (ho : OpsOK A.beta s.cfg.ops) (hn : 1 ≤ s.sw.n)
    (h2 : s.sw.posL = s.sw.posR + 2)
    (hdist : ((m.cd.act ++ m.c.act ++ wormOps s.cfg.worm).map Psi.time).Nodup) :
    (∃ s', A.check tol s = .ok s') ↔
      s.cfg.ops.Perm (m.cd.act ++ m.c.act ++ wormOps s.cfg.worm) ∧
      ‖fullTrace A.env.V s.cfg.ops - s.cfg.trace‖ < tol * ‖s.cfg.trace‖ ∧
      s.cfg.permSign = permSignImpl m.cd.act m.c.act (wormOps s.cfg.worm) ∧
      ‖timeDet A.G m.c.act m.cd.act / ((‖timeDet A.G m.c.act m.cd.act‖ : ℝ) : 𝕜) *
        (fullTrace A.env.V s.cfg.ops / ((‖fullTrace A.env.V s.cfg.ops‖ : ℝ) : 𝕜)) *
        (s.cfg.permSign : 𝕜) / s.cfg.sign - 1‖ < tol := by
  obtain ⟨m2, w', r, -, -, -, -, -, -, -, -, hr, e⟩ := check_eq h tol hm (fun k => (m.blocks k).inv)
    (fun _ _ => rfl) hM hst ho hn h2
  rw [hr fun _ => rfl] at e
  have hcol : collectOps A.env.D s.cfg = s.cfg.ops ↔
      s.cfg.ops.Perm (m.cd.act ++ m.c.act ++ wormOps s.cfg.worm) := by
    unfold collectOps
    rw [hM]
    show insertAll (insertAll (insertAll [] m.cd.act) m.c.act) (wormOps s.cfg.worm) = _ ↔ _
    have hfold : insertAll (insertAll (insertAll [] m.cd.act) m.c.act) (wormOps s.cfg.worm) =
        insertAll [] (m.cd.act ++ m.c.act ++ wormOps s.cfg.worm) := by
      simp only [insertAll, List.foldl_append]
    rw [hfold]
    obtain ⟨q1, q2⟩ := insertAll_spec ([] : OpSet (OpTime ℝ)) (m.cd.act ++ m.c.act ++ wormOps s.cfg.worm)
      List.Pairwise.nil (by simpa using hdist)
    rw [List.nil_append] at q2
    constructor
    · intro e; rw [← e]; exact q2
    · intro hp
      rw [sorted_eq_timeSort _ _ q1 q2, ← sorted_eq_timeSort _ _ ho.1 hp]
  rw [e, (C18_determinant A.P A.G h.blocks m hm).1]
  by_cases c1 : collectOps A.env.D s.cfg = s.cfg.ops
  · rw [if_neg (not_not.2 c1)]
    rw [if_neg (not_not.2 (by simpa using ht : ‖(1 : 𝕜) - 1‖ < tol))]
    by_cases c2 : ‖fullTrace A.env.V s.cfg.ops - s.cfg.trace‖ < tol * ‖s.cfg.trace‖
    · rw [if_neg (not_not.2 c2)]
      by_cases c3 : permSignImpl m.cd.act m.c.act (wormOps s.cfg.worm) = s.cfg.permSign
      · rw [if_neg (not_not.2 c3), c3]
        split_ifs with c4
        · exact ⟨fun _ => ⟨hcol.1 c1, c2, rfl, c4⟩, fun _ => ⟨_, rfl⟩⟩
        · exact ⟨fun ⟨_, hx⟩ => by (cases hx), fun hx => absurd hx.2.2.2 c4⟩
      · rw [if_pos c3]
        exact ⟨fun ⟨_, hx⟩ => by (cases hx), fun hx => absurd hx.2.2.1.symm c3⟩
    · rw [if_pos c2]
      exact ⟨fun ⟨_, hx⟩ => by (cases hx), fun hx => absurd hx.2.1 c2⟩
  · rw [if_pos c1]
    exact ⟨fun ⟨_, hx⟩ => by (cases hx), fun hx => absurd (hcol.2 hx.1) c1⟩

/-- **C76 (repair).**  In a state of the simulation whose stored inverse matrices have been damaged in any
way, the check either reports the determinant or leaves a state which satisfies all invariants again, with
the same operators, trace, signs, worm and place of the window.  No other alarm is given. -/
theorem C76_repair (A : CodeArgs 𝕜 N) (h : A.OK) {tol : ℝ} (ht : 0 < tol) (s : CodeG A)
    (hs : SimInv A.env A.Inv (pmDet A.P) s) (m : PM (OpTime ℝ) 𝕜) (hM : s.cfg.M = .ok m)
    (bad : ℕ → ℕ → ℕ → 𝕜) (hbad : ∀ k, A.P.ns ≤ k → bad k = (m.blocks k).inv) :
    A.check tol { s with cfg := { s.cfg with M := .ok (m.damage bad) } } = .badDeterminant ∨
    ∃ m2 w', A.check tol { s with cfg := { s.cfg with M := .ok (m.damage bad) } } =
        .ok { s with cfg := { s.cfg with M := .ok m2 }, sw := w' } ∧
      SimInv A.env A.Inv (pmDet A.P) { s with cfg := { s.cfg with M := .ok m2 }, sw := w' } ∧
      m2.cd = m.cd ∧ m2.c = m.c ∧ m2.determinant A.P = m.determinant A.P ∧
      w'.n = s.sw.n ∧ w'.posL = s.sw.posL ∧ w'.posR = s.sw.posR := by
  have hm : m.Inv A.P A.G := by
    obtain ⟨m', e, hm'⟩ := hs.inv
    rw [hM] at e
    obtain rfl := Except.ok.inj e
    exact hm'
  obtain ⟨m2, w', r, i2, c1, c2, d2, hw, x1, x2, x3, -, e⟩ := check_eq h tol
    (s := { s with cfg := { s.cfg with M := .ok (m.damage bad) } }) hm bad hbad rfl hs.win.caches hs.win.ops
    hs.win.n_pos hs.two
  have hcd : A.env.D.cdagg s.cfg.M = m.cd.act := by rw [hM]; rfl
  have hc : A.env.D.cs s.cfg.M = m.c.act := by rw [hM]; rfl
  have hdet : pmDet A.P s.cfg.M = m.determinant A.P := by rw [hM]; rfl
  have hcons := hs.cons
  have hperm : s.cfg.ops.Perm (m.cd.act ++ m.c.act ++ wormOps s.cfg.worm) := by
    have := hcons.2
    rw [hcd, hc, Multiset.coe_add, Multiset.coe_add, Multiset.coe_eq_coe] at this
    exact this
  have hnd : ((m.cd.act ++ m.c.act ++ wormOps s.cfg.worm).map Psi.time).Nodup :=
    (hperm.map Psi.time).nodup_iff.1 (List.pairwise_map.2 (hcons.1.imp fun h => ne_of_lt h))
  have hcol : collectOps A.env.D { s.cfg with M := .ok (m.damage bad) } = s.cfg.ops := by
    show insertAll (insertAll (insertAll [] m.cd.act) m.c.act) (wormOps s.cfg.worm) = _
    have hfold : insertAll (insertAll (insertAll [] m.cd.act) m.c.act) (wormOps s.cfg.worm) =
        insertAll [] (m.cd.act ++ m.c.act ++ wormOps s.cfg.worm) := by
      simp only [insertAll, List.foldl_append]
    rw [hfold]
    obtain ⟨q1, q2⟩ := insertAll_spec ([] : OpSet (OpTime ℝ)) (m.cd.act ++ m.c.act ++ wormOps s.cfg.worm)
      List.Pairwise.nil (by simpa using hnd)
    rw [List.nil_append] at q2
    rw [sorted_eq_timeSort _ _ q1 q2, ← sorted_eq_timeSort _ _ hcons.1 hperm]
  obtain ⟨p1, p2, p3, p4⟩ := hs.sign
  rw [hcd, hc] at p1
  rw [hdet] at p2 p4
  by_cases hr : ‖r - 1‖ < tol
  · right
    refine ⟨m2, w', ?_, ?_, c1, c2, d2, x1, x2, x3⟩
    · rw [e]
      have t1 : ‖fullTrace A.env.V s.cfg.ops - s.cfg.trace‖ < tol * ‖s.cfg.trace‖ := by
        rw [hs.trace, sub_self, norm_zero]
        have : 0 < ‖fullTrace A.env.V s.cfg.ops‖ := norm_pos_iff.2 (hs.trace ▸ p3)
        positivity
      have t2 : permSignImpl m.cd.act m.c.act (wormOps s.cfg.worm) = s.cfg.permSign := p1.symm
      have hsg : s.cfg.sign = m.determinant A.P / ((‖m.determinant A.P‖ : ℝ) : 𝕜) *
          (fullTrace A.env.V s.cfg.ops / ((‖fullTrace A.env.V s.cfg.ops‖ : ℝ) : 𝕜)) *
          ((permSignImpl m.cd.act m.c.act (wormOps s.cfg.worm) : ℤ) : 𝕜) := by
        rw [t2, ← hs.trace]; exact p4
      have hne : s.cfg.sign ≠ 0 := by
        rw [p4]
        refine mul_ne_zero (mul_ne_zero ((C60_lawful A h).sgn_ne _ p2) ((C60_lawful A h).sgn_ne _ p3)) ?_
        rw [p1]
        rcases (C05_perm_sign_invariant m.cd.act m.cd.act m.c.act m.c.act (wormOps s.cfg.worm)).1 with q | q <;>
          · rw [show A.env.permFn = permSignImpl from rfl, q]; simp
      rw [if_neg (not_not.2 hcol), if_neg (not_not.2 hr), if_neg (not_not.2 t1), if_neg (not_not.2 t2), if_neg]
      rw [not_not, ← hsg, div_self hne, sub_self, norm_zero]
      exact ht
    · refine ⟨⟨hcons.1, ?_⟩, ⟨m2, rfl, i2⟩, ⟨?_, ?_, p3, ?_⟩, hs.trace, hw, ?_⟩
      · have := hcons.2
        rw [hcd, hc] at this
        rw [← c1, ← c2] at this
        exact this
      · show s.cfg.permSign = permSignImpl m2.cd.act m2.c.act _
        rw [c1, c2]; exact p1
      · show m2.determinant A.P ≠ 0
        rw [d2]; exact p2
      · show s.cfg.sign = A.env.sgn (m2.determinant A.P) * _ * _
        rw [d2]; exact p4
      · show w'.posL = w'.posR + 2
        rw [x2, x3]; exact hs.two
  · left
    rw [e, if_neg (not_not.2 hcol), if_pos hr]

/-- **C76 (no false alarm).**  A state of the simulation passes the check and is a state of the simulation
afterwards: the check can be called between any two updates without changing what the simulation does. -/
theorem C76_no_alarm (A : CodeArgs 𝕜 N) (h : A.OK) {tol : ℝ} (ht : 0 < tol) (s : CodeG A)
    (hs : SimInv A.env A.Inv (pmDet A.P) s) :
    ∃ m m2 w', s.cfg.M = .ok m ∧
      A.check tol s = .ok { s with cfg := { s.cfg with M := .ok m2 }, sw := w' } ∧
      SimInv A.env A.Inv (pmDet A.P) { s with cfg := { s.cfg with M := .ok m2 }, sw := w' } ∧
      m2.cd = m.cd ∧ m2.c = m.c ∧ m2.determinant A.P = m.determinant A.P ∧
      w'.n = s.sw.n ∧ w'.posL = s.sw.posL ∧ w'.posR = s.sw.posR := by
  obtain ⟨m, hM, hm⟩ := hs.inv
  have hes : ({ s with cfg := { s.cfg with M := .ok (m.damage fun k => (m.blocks k).inv) } } : CodeG A) = s := by
    rw [PM.damage_self, ← hM]
  rcases C76_repair A h ht s hs m hM (fun k => (m.blocks k).inv) (fun _ _ => rfl) with e | ⟨m2, w', e, r⟩
  · exfalso
    rw [hes] at e
    obtain ⟨m2, w', r, -, -, -, -, -, -, -, -, hr, e2⟩ := check_eq h tol hm (fun k => (m.blocks k).inv)
      (fun _ _ => rfl) hM hs.win.caches hs.win.ops hs.win.n_pos hs.two
    rw [hr fun _ => rfl] at e2
    rw [e2] at e
    split_ifs at e with a1 a2
    exact a2 (by simpa using ht)
  · rw [hes] at e
    exact ⟨m, m2, w', hM, e, r⟩

/-! ### What is not detected -/

omit [DecidableEq 𝕜] in
theorem sign_norm (n : ℕ) : ‖(((-1 : ℤ) ^ n : ℤ) : 𝕜)‖ = 1 := by
  push_cast; rw [norm_pow]; simp

theorem lu_one {A : CodeArgs 𝕜 N} (h : A.OK) (M : Matrix (Fin 1) (Fin 1) 𝕜) : A.lu 1 M = [M 0 0] := by
  obtain ⟨x, hx⟩ := List.length_eq_one_iff.1 (h.lu_len 1 M)
  have := h.lu_prod 1 M
  rw [hx, List.prod_singleton, Matrix.det_fin_one] at this
  rw [hx, this]

theorem DM.factors_one {A : CodeArgs 𝕜 N} (h : A.OK) (s : DM (OpTime ℝ) 𝕜) (hn : s.n = 1) :
    s.detFactorsAsc (normAbs 𝕜) A.lu = [(s.perm : 𝕜) * (1 / s.inv 0 0)] := by
  obtain ⟨a1, a2, n, inv, a3, a4, a5, a6, a7, a8, a9, b1, b2, b3, b4, b5, b6, b7, b8, b9⟩ := s
  simp only at hn
  subst hn
  unfold DM.detFactorsAsc
  rw [if_neg one_ne_zero]
  simp only [lu_one h, List.map_cons, List.map_nil, mulHead, sortAbsAsc, List.mergeSort_singleton]
  simp [blk]

theorem DM.det_one (s : DM (OpTime ℝ) 𝕜) (hn : s.n = 1) : s.determinant = (s.perm : 𝕜) * (1 / s.inv 0 0) := by
  obtain ⟨a1, a2, n, inv, a3, a4, a5, a6, a7, a8, a9, b1, b2, b3, b4, b5, b6, b7, b8, b9⟩ := s
  simp only at hn
  subst hn
  unfold DM.determinant
  rw [Matrix.det_fin_one]
  simp [blk, div_eq_mul_inv]

theorem PM.factors_two {A : CodeArgs 𝕜 N} (h : A.OK) (m : PM (OpTime ℝ) 𝕜) (hns : A.P.ns = 2)
    (h0 : (m.blocks 0).n = 1) (h1 : (m.blocks 1).n = 1) (q0 : ‖((m.blocks 0).perm : 𝕜)‖ = 1)
    (q1 : ‖((m.blocks 1).perm : 𝕜)‖ = 1) (q : ‖(m.perm : 𝕜)‖ = 1)
    (hle : ‖1 / (m.blocks 0).inv 0 0‖ ≤ ‖1 / (m.blocks 1).inv 0 0‖) :
    m.detFactorsAsc (normAbs 𝕜) A.lu A.P = [(m.perm : 𝕜) * (((m.blocks 0).perm : 𝕜) * (1 / (m.blocks 0).inv 0 0)),
      ((m.blocks 1).perm : 𝕜) * (1 / (m.blocks 1).inv 0 0)] := by
  unfold PM.detFactorsAsc
  rw [hns]
  show sortAbsAsc _ (mulHead _ (List.flatMap _ [0, 1])) = _
  rw [List.flatMap_cons, List.flatMap_singleton, DM.factors_one h _ h0, DM.factors_one h _ h1]
  unfold sortAbsAsc
  apply List.mergeSort_of_pairwise
  simp only [mulHead, List.singleton_append, List.pairwise_cons, List.mem_singleton, forall_eq, List.not_mem_nil,
    IsEmpty.forall_iff, implies_true, List.Pairwise.nil, and_true, decide_eq_true_eq]
  show ‖_‖ ≤ ‖_‖
  rw [norm_mul, norm_mul, norm_mul, q, q0, q1, one_mul, one_mul, one_mul]
  exact hle

/-- **C76 (wrong determinant).**  Only the largest factor of the determinant is compared.  If there are two
blocks of size one and the inverse matrix of the block with the smaller determinant is damaged such that its
determinant is multiplied by any `c` of modulus at most one, the determinant is wrong by the factor `c`, but
the check gives the same result as without the damage. -/
theorem C76_determinant_violated (A : CodeArgs 𝕜 N) (h : A.OK) {tol : ℝ} (s : CodeG A) (m : PM (OpTime ℝ) 𝕜)
    (hM : s.cfg.M = .ok m) (hm : m.Inv A.P A.G) (hns : A.P.ns = 2) (h0 : (m.blocks 0).n = 1)
    (h1 : (m.blocks 1).n = 1) (hle : ‖1 / (m.blocks 0).inv 0 0‖ ≤ ‖1 / (m.blocks 1).inv 0 0‖) (c : 𝕜)
    (hc : ‖c‖ ≤ 1) :
    ∃ m' : PM (OpTime ℝ) 𝕜, m'.cd = m.cd ∧ m'.c = m.c ∧ m'.determinant A.P = c * m.determinant A.P ∧
      A.check tol { s with cfg := { s.cfg with M := .ok m' } } = A.check tol s := by
  set bad : ℕ → ℕ → ℕ → 𝕜 := fun k i j => if k = 0 then (m.blocks 0).inv i j / c else (m.blocks k).inv i j
    with hbad
  have hb : ∀ k, A.P.ns ≤ k → bad k = (m.blocks k).inv := by
    intro k hk
    have : k ≠ 0 := by omega
    funext i j
    simp [hbad, this]
  have p0 : ‖((m.blocks 0).perm : 𝕜)‖ = 1 := by rw [(hm.block 0 (by omega)).perm]; exact sign_norm _
  have p1 : ‖((m.blocks 1).perm : 𝕜)‖ = 1 := by rw [(hm.block 1 (by omega)).perm]; exact sign_norm _
  have pq : ‖(m.perm : 𝕜)‖ = 1 := by rw [hm.perm]; exact sign_norm _
  have e0 : ((m.damage bad).blocks 0).inv 0 0 = (m.blocks 0).inv 0 0 / c := by
    simp [PM.damage, hbad]
  have e1 : ((m.damage bad).blocks 1).inv 0 0 = (m.blocks 1).inv 0 0 := by
    simp [PM.damage, hbad]
  have ec : 1 / ((m.blocks 0).inv 0 0 / c) = c * (1 / (m.blocks 0).inv 0 0) := by
    rw [one_div_div]; ring
  have f1 := PM.factors_two h m hns h0 h1 p0 p1 pq hle
  have f2 := PM.factors_two h (m.damage bad) hns h0 h1 p0 p1 pq (by
    rw [e0, e1, ec, norm_mul]
    exact (mul_le_of_le_one_left (norm_nonneg _) hc).trans hle)
  rw [e0, e1] at f2
  have hd0 : m.determinant A.P ≠ 0 := (C18_determinant A.P A.G h.blocks m hm).2
  refine ⟨m.damage bad, rfl, rfl, ?_, ?_⟩
  · unfold PM.determinant
    rw [hns, Finset.prod_range_succ, Finset.prod_range_one, Finset.prod_range_succ, Finset.prod_range_one,
      DM.det_one _ (show ((m.damage bad).blocks 0).n = 1 from h0), DM.det_one _ (show ((m.damage bad).blocks 1).n = 1 from h1),
      DM.det_one _ h0, DM.det_one _ h1, e0, e1, ec]
    show (m.perm : 𝕜) * (((m.blocks 0).perm : 𝕜) * _ * (((m.blocks 1).perm : 𝕜) * _)) = _
    ring
  · obtain ⟨m2, r2, -, -, -, -, g2⟩ := PM.rebuild_ok (normAbs 𝕜) A.lu hm bad hb
    have r1 : PM.rebuild A.P A.G m = .ok m2 := by
      rw [PM.rebuild_eq hm bad hb] at r2
      have := PM.rebuild_eq hm (fun k => (m.blocks k).inv) (fun _ _ => rfl)
      rw [PM.damage_self] at this
      rw [this, r2]
    have x1 : A.rebuild s.cfg.M = .ok m2 := by rw [hM]; exact r1
    have x2 : A.rebuild (.ok (m.damage bad)) = .ok m2 := r2
    have y0 : A.factorsAsc (.ok m2) = m.detFactorsAsc (normAbs 𝕜) A.lu A.P := g2
    have y1 : A.factorsAsc s.cfg.M = m.detFactorsAsc (normAbs 𝕜) A.lu A.P := by rw [hM]; rfl
    have y2 : A.factorsAsc (.ok (m.damage bad)) = (m.damage bad).detFactorsAsc (normAbs 𝕜) A.lu A.P := rfl
    have z1 : detRatLoop (A.factorsAsc s.cfg.M) (A.factorsAsc (.ok m2)) = some 1 := by
      rw [y0, y1]
      exact detRatLoop_self _ (by rw [PM.detFactorsAsc_prod _ h.lu_prod h.lu_len hm]; exact hd0)
    have z2 : detRatLoop (A.factorsAsc (.ok (m.damage bad))) (A.factorsAsc (.ok m2)) = some 1 := by
      have hl : (((m.blocks 1).perm : 𝕜) * (1 / (m.blocks 1).inv 0 0)) ≠ 0 := by
        intro hz
        refine hd0 ?_
        rw [← PM.detFactorsAsc_prod (normAbs 𝕜) h.lu_prod h.lu_len hm, f1]
        simp only [List.prod_cons, hz]
        ring
      rw [y0, y2, f1, f2]
      exact detRatLoop_pair _ _ _ hl
    have z3 : collectOps A.env.D { s.cfg with M := .ok (m.damage bad) } = collectOps A.env.D s.cfg := by
      unfold collectOps; rw [hM]; rfl
    unfold CodeArgs.check sanityCheck
    simp only [x1, x2, z1, z2, z3]

/-- **C76 (lost operator).**  The operators are collected into a set in which an operator at an occupied
time is not inserted.  If the worm has an operator at the time of an operator of the determinant, the first
comparison holds although the container lacks the operator of the worm. -/
theorem C76_operators_violated (A : CodeArgs 𝕜 N) (cfg : Cfg (OpTime ℝ) 𝕜 (CodeDet 𝕜)) (m : PM (OpTime ℝ) 𝕜)
    (a b a' d : Psi (OpTime ℝ)) (hM : cfg.M = .ok m) (hcd : m.cd.act = [a]) (hc : m.c.act = [b])
    (hab : b.time < a.time) (hw : wormOps cfg.worm = [a', d]) (ha : a'.time = a.time) (had : a.time < d.time)
    (ho : cfg.ops = [b, a, d]) :
    collectOps A.env.D cfg = cfg.ops ∧ ¬ cfg.ops.Perm (m.cd.act ++ m.c.act ++ wormOps cfg.worm) := by
  constructor
  · unfold collectOps
    rw [hM, hw, ho]
    show insertAll (insertAll (insertAll [] m.cd.act) m.c.act) [a', d] = _
    rw [hcd, hc]
    simp [insertAll, OpSet.insert, hab, ha, not_lt.2 hab.le, had, not_lt.2 had.le, hab.trans had,
      not_lt.2 (hab.trans had).le]
  · intro hp
    have := hp.length_eq
    rw [ho, hcd, hc, hw] at this
    simp at this

end check

/-! ### Concrete cases -/

/-- The state after two sweeps with insertions satisfies the hypotheses of C76_no_alarm, C76_repair and
C76_passes_iff. -/
example : ∃ s : CodeG exCode, SimInv exCode.env exCode.Inv (pmDet exCode.P) s ∧
    ∃ s', exCode.check (1 / 10000) s = .ok s' := by
  obtain ⟨s0, e0, i0, -⟩ := C60_start exCode exCode_ok (nMin := 1) le_rfl 0 0 0 false
  obtain ⟨m, m2, w', -, e, -⟩ := C76_no_alarm exCode exCode_ok (tol := 1 / 10000) (by norm_num) s0 i0
  exact ⟨s0, i0, _, e⟩

/-- Two flavors in two blocks with hybridization functions 1/2 and 3. -/
noncomputable def exCode2 : CodeArgs ℝ (2 ^ 1) :=
  { exCode with P := ⟨2, 2, id⟩, G := fun a b => if a.flavor = b.flavor then (if a.flavor = 0 then 1 / 2 else 3) else 0 }

theorem exCode2_ok : exCode2.OK :=
  { exCode_ok with
    blocks := fun _ _ _ _ h => if_neg h
    sectors := fun _ h => h }

theorem one_block {T K : Type} [LinearOrder T] [Field K] {G : Psi T → Psi T → K} {d : DM T K} (h : d.Inv G)
    (a b : Psi T) (hc : d.c.ops = [a]) (hd : d.cd.ops = [b]) : d.n = 1 ∧ 1 / d.inv 0 0 = G a b := by
  have hn : d.n = 1 := by rw [← h.cLen, hc]; rfl
  refine ⟨hn, ?_⟩
  have hi := h.inv
  rw [hc, hd] at hi
  revert hi
  rw [hn]
  intro hi
  have := congrFun (congrFun hi 0) 0
  rw [Matrix.mul_apply, Fin.sum_univ_one] at this
  have e : d.inv 0 0 * G a b = 1 := by simpa [blk, gEntry] using this
  exact (eq_one_div_of_mul_eq_one_right e).symm

/-- An object with one pair in each block satisfies the hypotheses of C76_determinant_violated. -/
example : exCode2.OK ∧ ∃ m : PM (OpTime ℝ) ℝ, m.Inv exCode2.P exCode2.G ∧ exCode2.P.ns = 2 ∧ (m.blocks 0).n = 1 ∧
    (m.blocks 1).n = 1 ∧ ‖1 / (m.blocks 0).inv 0 0‖ ≤ ‖1 / (m.blocks 1).inv 0 0‖ := by
  refine ⟨exCode2_ok, ?_⟩
  let a0 : Psi (OpTime ℝ) := ⟨⟨1, 0⟩, .annihilation, 0⟩
  let a1 : Psi (OpTime ℝ) := ⟨⟨2, 0⟩, .annihilation, 1⟩
  let b0 : Psi (OpTime ℝ) := ⟨⟨3, 0⟩, .creation, 0⟩
  let b1 : Psi (OpTime ℝ) := ⟨⟨7 / 2, 0⟩, .creation, 1⟩
  have hl : ∀ x y : OpTime ℝ, x.time < y.time → x < y := fun x y h => by rw [OpTime.lt_def]; exact Or.inl h
  have q1 : a0.time < a1.time := hl _ _ (by norm_num [a0, a1])
  have q2 : a1.time < b0.time := hl _ _ (by norm_num [a1, b0])
  have q3 : b0.time < b1.time := hl _ _ (by norm_num [b0, b1])
  have hdet : timeDet exCode2.G [a0, a1] [b0, b1] = 3 / 2 := by
    rw [timeDet_eq _ _ _ (by simp [q1.ne]) (by simp [q3.ne]), listDet_eq _ _ _ 2 rfl rfl, det_fin_two]
    simp [invs, exCode2, a0, a1, b0, b1, not_lt.2 q1.le, not_lt.2 q3.le]
    norm_num
  obtain ⟨-, m, -, hm, h2, h3, -⟩ := C18_build exCode2.P exCode2.G exCode2_ok.blocks [(b0, a0), (b1, a1)] (by
    intro p hp
    simp only [List.mem_cons, List.not_mem_nil, or_false] at hp
    rcases hp with rfl | rfl <;> simp [PEnv.Valid, exCode2, a0, a1, b0, b1])
    (by
      simp only [List.map_cons, List.map_nil, List.cons_append, List.nil_append, List.nodup_cons, List.mem_cons,
        List.not_mem_nil, or_false, not_false_eq_true, List.nodup_nil, and_true, not_or]
      exact ⟨⟨q3.ne, (q1.trans q2).ne', q2.ne'⟩, ⟨(q1.trans (q2.trans q3)).ne', (q2.trans q3).ne'⟩, q1.ne⟩)
    (by show timeDet exCode2.G [a0, a1] [b0, b1] ≠ 0; rw [hdet]; norm_num)
  have hcd : (m.cd.act : Multiset (Psi (OpTime ℝ))) = ([b0, b1] : List (Psi (OpTime ℝ))) := Multiset.coe_eq_coe.2 h2
  have hc : (m.c.act : Multiset (Psi (OpTime ℝ))) = ([a0, a1] : List (Psi (OpTime ℝ))) := Multiset.coe_eq_coe.2 h3
  have one : ∀ (k : ℕ) (a b : Psi (OpTime ℝ)), k < 2 →
      exCode2.P.inSector k (([a0, a1] : List (Psi (OpTime ℝ))) : Multiset (Psi (OpTime ℝ))) =
        (([a] : List (Psi (OpTime ℝ))) : Multiset (Psi (OpTime ℝ))) →
      exCode2.P.inSector k (([b0, b1] : List (Psi (OpTime ℝ))) : Multiset (Psi (OpTime ℝ))) =
        (([b] : List (Psi (OpTime ℝ))) : Multiset (Psi (OpTime ℝ))) →
      (m.blocks k).n = 1 ∧ 1 / (m.blocks k).inv 0 0 = exCode2.G a b := by
    intro k a b hk e1 e2
    refine one_block (hm.block k hk) a b ?_ ?_
    · have := hm.cOps k hk
      rw [hc, e1, Multiset.coe_eq_coe] at this
      exact List.perm_singleton.1 this
    · have := hm.cdOps k hk
      rw [hcd, e2, Multiset.coe_eq_coe] at this
      exact List.perm_singleton.1 this
  obtain ⟨n0, i0⟩ := one 0 a0 b0 (by norm_num) (by simp [PEnv.inSector, exCode2, a0, a1])
    (by simp [PEnv.inSector, exCode2, b0, b1])
  obtain ⟨n1, i1⟩ := one 1 a1 b1 (by norm_num) (by simp [PEnv.inSector, exCode2, a0, a1])
    (by simp [PEnv.inSector, exCode2, b0, b1])
  refine ⟨m, hm, rfl, n0, n1, ?_⟩
  rw [i0, i1]
  norm_num [exCode2, a0, a1, b0, b1]

/-- A configuration satisfying the hypotheses of C76_operators_violated: the object is built with one pair. -/
example : ∃ (m : PM (OpTime ℝ) ℝ) (a b a' d : Psi (OpTime ℝ)) (cfg : Cfg (OpTime ℝ) ℝ (CodeDet ℝ)),
    m.Inv exCode.P exCode.G ∧ cfg.M = .ok m ∧ m.cd.act = [a] ∧ m.c.act = [b] ∧ b.time < a.time ∧
    wormOps cfg.worm = [a', d] ∧ a'.time = a.time ∧ a.time < d.time ∧ cfg.ops = [b, a, d] := by
  let b : Psi (OpTime ℝ) := ⟨⟨1, 0⟩, .annihilation, 0⟩
  let a : Psi (OpTime ℝ) := ⟨⟨2, 0⟩, .creation, 0⟩
  let d : Psi (OpTime ℝ) := ⟨⟨3, 0⟩, .annihilation, 0⟩
  have hl : ∀ x y : OpTime ℝ, x.time < y.time → x < y := fun x y h => by rw [OpTime.lt_def]; exact Or.inl h
  have q1 : b.time < a.time := hl _ _ (by norm_num [a, b])
  have q2 : a.time < d.time := hl _ _ (by norm_num [a, d])
  obtain ⟨-, m, -, hm, h2, h3, -⟩ := C18_build exCode.P exCode.G exCode_ok.blocks [(a, b)] (by
    intro p hp
    simp only [List.mem_cons, List.not_mem_nil, or_false] at hp
    subst hp
    simp [PEnv.Valid, exCode, a, b])
    (by
      simp only [List.map_cons, List.map_nil, List.cons_append, List.nil_append, List.nodup_cons, List.mem_cons,
        List.not_mem_nil, or_false, not_false_eq_true, List.nodup_nil, and_true]
      exact q1.ne')
    (by
      show timeDet exCode.G [b] [a] ≠ 0
      rw [timeDet_eq _ _ _ (by simp) (by simp), listDet_eq _ _ _ 1 rfl rfl, det_fin_one]
      simp [invs, exCode])
  exact ⟨m, a, b, a, d, ⟨[b, a, d], .ok m, 1, 1, 1, some [a, d]⟩, hm, rfl, List.perm_singleton.1 h2,
    List.perm_singleton.1 h3, q1, rfl, rfl, q2, rfl⟩

end CTHyb
