import Verif.SamplingLoopProps

/-!
Global updates in a bath with the symmetry of the update: no factor of the determinant becomes negligible, so that the demands of
`C61_loop_partial` on exchanges and shifts are met.
-/

set_option linter.unusedSectionVars false

namespace CTHyb

open Matrix Rand MeasureTheory

variable {𝕜 : Type} [RCLike 𝕜] [DecidableEq 𝕜] {N : ℕ}

/-- The hybridization function depends on the difference of the times and changes its sign if `beta` is added. -/
structure AntiPer (A : CodeArgs 𝕜 N) (h : ℕ → ℕ → ℝ → 𝕜) : Prop where
  eq : ∀ a b : TPsi ℝ, A.G a b = h a.flavor b.flavor (a.time.time - b.time.time)
  anti : ∀ f f' x, -A.beta < x → x < 0 → h f f' (x + A.beta) = -h f f' x

variable {A : CodeArgs 𝕜 N} {a : MoveArgs} {M : ℕ}

/-- Rows and columns multiplied by numbers. -/
theorem listDet_scale {K α β α' β' : Type} [CommRing K] (G : α → β → K) (G' : α' → β' → K) (f : α → α') (g : β → β') (u : α → K)
    (v : β → K) (rows : List α) (cols : List β) (h : ∀ p ∈ rows, ∀ q ∈ cols, G' (f p) (g q) = u p * v q * G p q) :
    listDet G' (rows.map f) (cols.map g) = (rows.map u).prod * (cols.map v).prod * listDet G rows cols := by
  by_cases hl : cols.length = rows.length
  · rw [listDet_eq G rows cols rows.length rfl hl, listDet_eq G' _ _ rows.length (by simp) (by simpa using hl)]
    have e1 : (rows.map u).prod = ∏ i : Fin rows.length, u (rows.get i) := by
      rw [← List.prod_ofFn]; congr 1
      apply List.ext_getElem <;> simp
    have e2 : (cols.map v).prod = ∏ j : Fin rows.length, v (cols.get (j.cast hl.symm)) := by
      rw [← List.prod_ofFn]; congr 1
      apply List.ext_getElem <;> simp [hl]
    rw [e1, e2, mul_assoc, ← Matrix.det_mul_row, ← Matrix.det_mul_column]
    congr 1
    ext i j
    simp only [Matrix.of_apply, List.get_eq_getElem, List.getElem_map, Fin.val_cast]
    rw [h _ (List.getElem_mem _) _ (List.getElem_mem _)]
    ring
  · unfold listDet
    rw [dif_neg hl, dif_neg (by simpa using hl), mul_zero]

/-- A bath with the symmetry of the update, up to factors of rows and columns. -/
theorem noSmall_of_sym (hA : A.OK) (ha : a.OK A M) (heps : A.eps = 0) {m : GMove} (hm : m.OK A.P.nf M) (u v : BOp ℤ → 𝕜)
    (hu : ∀ o, u o ≠ 0) (hv : ∀ o, v o ≠ 0)
    (hG : ∀ o o' : BOp ℤ, o.1 ∈ a.G → o'.1 ∈ a.G → o.2 < A.P.nf → o'.2 < A.P.nf → o.1 ≠ o'.1 →
      A.G (mkOp a.tau .annihilation (m.bop M o)) (mkOp a.tau .creation (m.bop M o')) =
        u o * v o' * A.G (mkOp a.tau .annihilation o) (mkOp a.tau .creation o'))
    {x : WCfg ℤ} (hx : OnGrid A.P.nf a.G a.kinds x) (hg : x.Good A a.tau (codeWops a.tau)) : NoSmall A a.tau (m.act M x) := by
  intro cds cs p1 p2
  have hn := hg.nodup
  rw [PCfg.ops, List.map_append, List.map_append] at hn
  have hn1 := (List.nodup_append.1 hn).1
  have n1 := (List.nodup_append.1 hn1).1
  have n2 := (List.nodup_append.1 hn1).2.1
  have n3 := (List.nodup_append.1 hn1).2.2
  have hn' := GMove.act_nodup ha hm hx hg.nodup
  rw [PCfg.ops, List.map_append, List.map_append] at hn'
  have m1 := (List.nodup_append.1 (List.nodup_append.1 hn').1).1
  have m2 := (List.nodup_append.1 (List.nodup_append.1 hn').1).2.1
  have hact := GMove.act_grid ha hm hx
  have hw : timeDet A.G (x.c.map (mkOp a.tau .annihilation)) (x.cd.map (mkOp a.tau .creation)) ≠ 0 := by
    have := hg.weight
    unfold cfgW CodeArgs.weight at this
    rw [norm_ne_zero_iff] at this
    exact left_ne_zero_of_mul this
  rw [timeDet_eq _ _ _ n2 n1] at hw
  have hw := right_ne_zero_of_mul hw
  have key : timeDet A.G ((m.act M x).c.map (mkOp a.tau .annihilation)) ((m.act M x).cd.map (mkOp a.tau .creation)) ≠ 0 := by
    rw [timeDet_eq _ _ _ m2 m1]
    refine mul_ne_zero (pow_ne_zero _ (by simp)) ?_
    have e0 : ∀ (l : List (BOp ℤ)) (l' : List (BOp ℤ)), listDet A.G (l.map (mkOp a.tau .annihilation)) (l'.map (mkOp a.tau .creation)) =
        listDet (fun o o' => A.G (mkOp a.tau .annihilation o) (mkOp a.tau .creation o')) l l' := by
      intro l l'
      have := listDet_scale (fun o o' => A.G (mkOp a.tau .annihilation o) (mkOp a.tau .creation o')) A.G
        (mkOp a.tau .annihilation) (mkOp a.tau .creation) (fun _ => 1) (fun _ => 1) l l' (fun _ _ _ _ => by ring)
      rw [this]; simp
    rw [e0] at hw ⊢
    unfold GMove.act
    rw [listDet_scale (fun o o' => A.G (mkOp a.tau .annihilation o) (mkOp a.tau .creation o')) _ (m.bop M) (m.bop M) u v]
    · refine mul_ne_zero (mul_ne_zero ?_ ?_) hw
      · exact List.prod_ne_zero (by simpa using fun o _ => hu o)
      · exact List.prod_ne_zero (by simpa using fun o _ => hv o)
    · intro o ho o' ho'
      refine hG o o' (hx.c_mem o ho).1 (hx.cd_mem o' ho').1 (hx.c_mem o ho).2 (hx.cd_mem o' ho').2 fun e => ?_
      refine n3 (mkOp a.tau .creation o').time ?_ (mkOp a.tau .annihilation o).time ?_ ?_
      · exact List.mem_map_of_mem (List.mem_map_of_mem ho')
      · exact List.mem_map_of_mem (List.mem_map_of_mem ho)
      · simp [mkOp, e]
  have k1 := (p1.map Psi.time).nodup_iff.2 m1
  have k2 := (p2.map Psi.time).nodup_iff.2 m2
  rw [heps]
  refine noSmall_of_ne (normAbs 𝕜) A.G A.lu hA.lu_prod hA.lu_len A.blockOf A.P.ns (C60_lawful A hA).glob.blocks cds cs ?_ k2 k1 ?_
  · intro o ho
    rw [A.blockOf_lt]
    rcases List.mem_append.1 ho with h | h
    · obtain ⟨b, hb, rfl⟩ := List.mem_map.1 (p1.subset h)
      exact ⟨(hact.cd_mem b hb).2, hA.sectors _ (hact.cd_mem b hb).2⟩
    · obtain ⟨b, hb, rfl⟩ := List.mem_map.1 (p2.subset h)
      exact ⟨(hact.c_mem b hb).2, hA.sectors _ (hact.c_mem b hb).2⟩
  · rw [timeDet_congr A.G p2 p1 k2 k1]; exact key

/-- Difference of two shifted times of the grid. -/
theorem shift_diff {beta : ℝ} (hb : 0 < beta) {k : ℕ} (hk : k < M) {s t : ℤ} (hs : s ∈ Finset.Ico 0 (M : ℤ)) (ht : t ∈ Finset.Ico 0 (M : ℤ)) :
    gridTau beta M ((s + k) % M) - gridTau beta M ((t + k) % M) = gridTau beta M s - gridTau beta M t -
      beta * ((if (M : ℤ) ≤ s + k then 1 else 0) - if (M : ℤ) ≤ t + k then 1 else 0) := by
  have hM : (M : ℝ) ≠ 0 := by exact_mod_cast (by omega : M ≠ 0)
  obtain ⟨a1, a2⟩ := Finset.mem_Ico.1 hs
  obtain ⟨b1, b2⟩ := Finset.mem_Ico.1 ht
  have e : ∀ r : ℤ, 0 ≤ r → r < M → gridTau beta M ((r + k) % M) =
      gridTau beta M r + beta * k / M - beta * (if (M : ℤ) ≤ r + k then 1 else 0) := by
    intro r r1 r2
    split_ifs with h
    · rw [← Int.sub_emod_right, Int.emod_eq_of_lt (by omega) (by omega)]
      unfold gridTau; push_cast; field_simp; ring
    · rw [Int.emod_eq_of_lt (by omega) (by omega)]
      unfold gridTau; push_cast; field_simp; ring
  rw [e s a1 a2, e t b1 b2]
  ring

theorem gridTau_diff {beta : ℝ} (hb : 0 < beta) {s t : ℤ} (hs : s ∈ Finset.Ico 0 (M : ℤ)) (ht : t ∈ Finset.Ico 0 (M : ℤ)) (h : s < t) :
    -beta < gridTau beta M s - gridTau beta M t ∧ gridTau beta M s - gridTau beta M t < 0 := by
  obtain ⟨a1, a2⟩ := Finset.mem_Ico.1 hs
  obtain ⟨b1, b2⟩ := Finset.mem_Ico.1 ht
  have hM : (0 : ℝ) < M := by exact_mod_cast (by omega : 0 < M)
  have e : gridTau beta M s - gridTau beta M t = -(beta * ((t - s) / M)) := by
    unfold gridTau; field_simp; ring
  have h1 : (0 : ℝ) < (t - s) / M := div_pos (by exact_mod_cast (by omega : 0 < t - s)) hM
  have h2 : ((t : ℝ) - s) / M < 1 := (div_lt_one hM).2 (by exact_mod_cast (by omega : t - s < M))
  rw [e]
  constructor
  · nlinarith
  · nlinarith

/-- Shifts in a bath with an antiperiodic hybridization function. -/
theorem shiftOK_of_antiPer (hA : A.OK) (ha : a.OK A M) (heps : A.eps = 0) {h : ℕ → ℕ → ℝ → 𝕜} (hh : AntiPer A h) : ShiftOK A a M := by
  intro k hk x hx hg
  refine noSmall_of_sym hA ha heps (m := .shift k) hk (fun o => if (M : ℤ) ≤ o.1 + k then -1 else 1)
    (fun o => if (M : ℤ) ≤ o.1 + k then -1 else 1) (fun o => ?_) (fun o => ?_) ?_ hx hg
  · split_ifs <;> simp
  · split_ifs <;> simp
  · rintro ⟨s, f⟩ ⟨t, f'⟩ hs ht - - hst
    rw [ha.G] at hs ht
    rw [hh.eq, hh.eq]
    simp only [mkOp, GMove.bop, ha.tau]
    rw [shift_diff ha.beta hk hs ht]
    simp only at hst
    rcases lt_or_gt_of_ne hst with hlt | hlt
    · have := gridTau_diff ha.beta hs ht hlt
      by_cases w1 : (M : ℤ) ≤ s + k
      · have w2 : (M : ℤ) ≤ t + k := by omega
        simp [w1, w2]
      · by_cases w2 : (M : ℤ) ≤ t + k
        · have e := hh.anti f f' _ this.1 this.2
          simp only [w1, w2, if_true, if_false]
          rw [show gridTau A.beta M s - gridTau A.beta M t - A.beta * (0 - 1) = gridTau A.beta M s - gridTau A.beta M t + A.beta by ring, e]
          ring
        · simp [w1, w2]
    · have := gridTau_diff ha.beta ht hs hlt
      by_cases w2 : (M : ℤ) ≤ t + k
      · have w1 : (M : ℤ) ≤ s + k := by omega
        simp [w1, w2]
      · by_cases w1 : (M : ℤ) ≤ s + k
        · have e := hh.anti f f' (gridTau A.beta M s - gridTau A.beta M t - A.beta) (by linarith) (by linarith)
          rw [sub_add_cancel] at e
          simp only [w1, w2, if_true, if_false]
          rw [show gridTau A.beta M s - gridTau A.beta M t - A.beta * (1 - 0) = gridTau A.beta M s - gridTau A.beta M t - A.beta by ring, e]
          ring
        · simp [w1, w2]

/-- Exchanges of flavors under which the hybridization function is invariant. -/
theorem swapOK_of_sym (hA : A.OK) (ha : a.OK A M) (heps : A.eps = 0) {h : ℕ → ℕ → ℝ → 𝕜} (hh : AntiPer A h) {v : List ℕ}
    (hv : IsFlavorPerm A.P.nf v) (hi : Undoes A.P.nf v v)
    (hs : ∀ f f' x, f < A.P.nf → f' < A.P.nf → h (v.getD f 0) (v.getD f' 0) x = h f f' x) : SwapOK A a M v := by
  refine ⟨hv, hi, fun x hx hg => noSmall_of_sym hA ha heps (m := .swap v) hv (fun _ => 1) (fun _ => 1) (by simp) (by simp) ?_ hx hg⟩
  intro o o' _ _ h1 h2 _
  rw [hh.eq, hh.eq]
  simp only [mkOp, GMove.bop, one_mul]
  exact hs _ _ _ h1 h2

/-! ### A concrete case: two spins without energy, in equal baths -/

/-- Two flavors, no energy, each state a sector of its own. -/
noncomputable def freeBase : ImpBase ℝ (2 ^ 2) := impBaseOf 2 0 4 id

theorem freeBase_lawful : freeBase.Lawful := by
  refine ⟨fun x hx => by simpa [freeBase, impBaseOf] using hx,
    fun s hs => ⟨s, by simpa [freeBase, impBaseOf] using hs, rfl⟩, isHermitian_zero, ?_, ?_, ?_⟩
  · intro r c h
    exact absurd rfl h
  · intro y f e he e' he' h
    obtain ⟨r, c, hk, rfl⟩ := mem_storedEntries.1 he
    obtain ⟨r', c', hk', rfl⟩ := mem_storedEntries.1 he'
    have hc : c = c' := Fin.ext h
    subst hc
    have h1 := (nz_true _).1 hk
    have h2 := (nz_true _).1 hk'
    show r.val = r'.val
    by_cases hf : f < 2
    · have key : ∀ f < 2, ∀ M : Matrix (Fin (2 ^ 2)) (Fin (2 ^ 2)) ℤ, (M = cOp 2 f ∨ M = cdagOp 2 f) → ∀ c r r',
          M r c ≠ 0 → M r' c ≠ 0 → r = r' := by
        intro f hf
        interval_cases f <;> rintro M (rfl | rfl) <;> decide
      have hcast : ∀ (M : Matrix (Fin (2 ^ 2)) (Fin (2 ^ 2)) ℤ) a b,
          (M.map (Int.cast : ℤ → ℝ)) a b ≠ 0 → M a b ≠ 0 := by
        intro M a b h h'; exact h (by rw [Matrix.map_apply, h', Int.cast_zero])
      cases y with
      | creation => exact congrArg _ (key f hf _ (Or.inr rfl) c r r' (hcast _ _ _ h1) (hcast _ _ _ h2))
      | annihilation => exact congrArg _ (key f hf _ (Or.inl rfl) c r r' (hcast _ _ _ h1) (hcast _ _ _ h2))
    · exfalso
      apply h1
      have h0 := cOp_large (n := 2) (f := f) (Nat.le_of_not_lt hf)
      cases y with
      | creation => simp [freeBase, impBaseOf, cdagOp, h0]
      | annihilation => simp [freeBase, impBaseOf, h0]
  · intro f
    ext x z
    simp only [freeBase, impBaseOf, cdagOp, conjTranspose_apply, Matrix.map_apply, transpose_apply]
    simp

theorem free_eig (μ : ℝ) : μ ∈ eigenvaluesOf (0 : Matrix (Fin (2 ^ 2)) (Fin (2 ^ 2)) ℝ) ↔ μ = 0 := by
  constructor
  · rintro ⟨v, hv, e⟩
    rw [Matrix.zero_mulVec] at e
    have := smul_eq_zero.1 e.symm
    simpa [hv] using this
  · rintro rfl
    exact ⟨fun _ => 1, fun h => by have := congrFun h 0; simp at this, by simp⟩

theorem free_least : IsLeast (eigenvaluesOf (0 : Matrix (Fin (2 ^ 2)) (Fin (2 ^ 2)) ℝ)) 0 :=
  ⟨(free_eig 0).2 rfl, fun _ h => ((free_eig _).1 h).ge⟩

/-- Hybridization function of the baths. -/
noncomputable def freeHyb (f f' : ℕ) (x : ℝ) : ℝ := if f = f' then (if 0 < x then x + 1 else -(x + 5)) else 0

noncomputable def freeCode : CodeArgs ℝ (2 ^ 2) where
  B := freeBase
  p := twoParams
  beta := 4
  lim := -354
  sortIdx := sortByBound
  P := ⟨2, 2, id⟩
  G := fun o o' => freeHyb o.flavor o'.flavor (o.time.time - o'.time.time)
  lu := fun n M => match n with
    | 0 => []
    | k + 1 => M.det :: List.replicate k 1
  eps := 0

theorem freeCode_ok : freeCode.OK where
  base := freeBase_lawful
  solver := exactSolve_ok
  norm := C59_operators 2 0 4 id
  dim := by norm_num
  inner := by norm_num [freeCode, twoParams]
  outer := by norm_num [freeCode, twoParams]
  beta := by norm_num [freeCode]
  lim := by
    intro E0 h0 μ hμ _
    rw [h0.unique free_least, (free_eig μ).1 hμ]
    norm_num [freeCode]
  sort := fun b => sortByBound_ok b
  blocks := fun a b _ _ h => by
    have : a.flavor ≠ b.flavor := h
    simp [freeCode, freeHyb, this]
  sectors := fun f h => h
  lu_prod := by
    intro n M
    cases n with
    | zero => simp [freeCode]
    | succ k => simp [freeCode]
  lu_len := by
    intro n M
    cases n with
    | zero => rfl
    | succ k => simp [freeCode]

theorem freeCode_anti : AntiPer freeCode freeHyb where
  eq := fun _ _ => rfl
  anti := by
    intro f f' x h1 h2
    have h3 : ¬ 0 < x := by linarith
    have e : freeCode.beta = 4 := rfl
    have h4 : 0 < x + 4 := by rw [e] at h1; linarith
    unfold freeHyb
    rw [e]
    split_ifs
    · ring
    · simp

noncomputable def freeMoves : MoveArgs where
  G := Finset.Ico 0 ((8 : ℕ) : ℤ)
  tau := gridTau 4 8
  kinds := [.green 1, .equalTime 1]
  sw := fun k => match k with
    | .green _ => 3
    | _ => 1 / 2
  maxDist := fun _ => 2
  wormDist := fun _ => 1

theorem freeMoves_ok : freeMoves.OK freeCode 8 where
  beta := by norm_num [freeCode]
  grid := by norm_num
  tau := rfl
  G := rfl
  nf := Nat.two_pos
  ns := Nat.two_pos
  flavors := by
    intro b hb
    have : b < 2 := hb
    interval_cases b <;> decide
  nodup := by simp [freeMoves]
  ops := by
    intro k hk
    simp only [freeMoves, List.mem_cons, List.not_mem_nil, or_false] at hk
    rcases hk with rfl | rfl <;> simp [WormKind.numFlavors]
  sw := by
    intro k
    unfold freeMoves
    cases k <;> norm_num

/-- The exchange of the two spins. -/
theorem free_swap : SwapOK freeCode freeMoves 8 [1, 0] := by
  refine swapOK_of_sym freeCode_ok freeMoves_ok rfl freeCode_anti ⟨rfl, by decide, by decide⟩ ?_ ?_
  · intro f hf
    have h1 : f < 2 := hf
    interval_cases f <;> rfl
  intro f f' x hf hf'
  have h1 : f < 2 := hf
  have h2 : f' < 2 := hf'
  interval_cases f <;> interval_cases f' <;> simp [freeHyb]

theorem free_loop : LoopOK freeCode freeMoves 8 true [.equalTime 1] where
  shift := fun _ _ _ _ _ _ => rfl
  green := fun _ => by simp [freeMoves]
  movers := by simp [WormKind.numTimes]
  even := by norm_num
  globalShift := shiftOK_of_antiPer freeCode_ok freeMoves_ok rfl freeCode_anti

/-- A pair of the second spin. -/
def freePair : WCfg ℤ := ⟨[(5, 1)], [(1, 1)], none⟩

theorem freePair_trace (s t : OpTime ℝ) : fullTrace (ebEnv freeCode.B freeCode.p 4)
    [⟨s, .annihilation, 1⟩, ⟨t, .creation, 1⟩] ≠ 0 := by
  change fullTrace (ebEnv (impBaseOf 2 0 4 id) ⟨exactSolve, 2, 3⟩ 4) _ ≠ 0
  have hB : (impBaseOf 2 (0 : Matrix (Fin (2 ^ 2)) (Fin (2 ^ 2)) ℝ) 4 id).Lawful := freeBase_lawful
  rw [C57_exact hB exactSolve_ok (by norm_num) free_least (by
    intro μ hμ
    rw [(free_eig μ).1 hμ]; norm_num)]
  refine mul_ne_zero (by simp) ?_
  have e : timeOrderedMat (0 : Matrix (Fin (2 ^ 2)) (Fin (2 ^ 2)) ℝ) (impBaseOf 2 0 4 id).op 4
      [⟨s, .annihilation, 1⟩, ⟨t, .creation, 1⟩] 0 =
      (cdagOp 2 1 * cOp 2 1).map (Int.cast : ℤ → ℝ) := by
    simp only [timeOrderedMat, smul_zero, NormedSpace.exp_zero, mul_one, one_mul, impBaseOf]
    exact (Matrix.map_mul (f := Int.castRingHom ℝ) (L := cdagOp 2 1) (M := cOp 2 1)).symm
  show trace (timeOrderedMat (0 : Matrix (Fin (2 ^ 2)) (Fin (2 ^ 2)) ℝ) (impBaseOf 2 0 4 id).op 4 _ 0) ≠ 0
  rw [e]
  have h2 : trace (cdagOp 2 1 * cOp 2 1) = 2 := by decide
  have h3 : trace ((cdagOp 2 1 * cOp 2 1).map (Int.cast : ℤ → ℝ)) = ((trace (cdagOp 2 1 * cOp 2 1) : ℤ) : ℝ) := by
    simp [trace]
  rw [h3, h2]
  norm_num

theorem freePair_good : OnGrid freeCode.P.nf freeMoves.G freeMoves.kinds freePair ∧
    freePair.Good freeCode freeMoves.tau (codeWops freeMoves.tau) := by
  refine ⟨⟨by simp [freePair], by simp [freePair], by simp [freePair, freeMoves, freeCode],
    by simp [freePair, freeMoves, freeCode], rfl, by simp [freePair]⟩, ?_, ?_⟩
  · simp [PCfg.ops, freePair, mkOp, codeWops, wormOps, freeMoves, gridTau]
  · have hs : freePair.sorted freeMoves.tau (codeWops freeMoves.tau) =
        [⟨⟨freeMoves.tau 1, 0⟩, .annihilation, 1⟩, ⟨⟨freeMoves.tau 5, 0⟩, .creation, 1⟩] := by
      refine sorted_unique (PCfg.sorted_sorted _ ?_) ?_ ((PCfg.sorted_perm _).trans ?_)
      · simp [PCfg.ops, freePair, mkOp, codeWops, wormOps, freeMoves, gridTau]
      · simp [OpSet.Sorted, OpTime.lt_def, freeMoves, gridTau]; norm_num
      · simp only [PCfg.ops, freePair, mkOp, codeWops, wormOps, List.map_cons, List.map_nil, List.cons_append, List.nil_append,
          Option.map_none, List.append_nil]
        exact List.Perm.swap _ _ _
    unfold cfgW CodeArgs.weight
    rw [hs, norm_ne_zero_iff]
    refine mul_ne_zero ?_ (freePair_trace _ _)
    rw [timeDet_eq _ _ _ (by simp [freePair]) (by simp [freePair]), listDet_eq _ _ _ 1 rfl rfl, Matrix.det_fin_one]
    simp [invs, freePair, freeCode, freeHyb, mkOp, freeMoves, gridTau]
    norm_num

/-- Two sweeps, a global update with an exchange of the spins and a shift after each of them; the ranks are 1 or 2 with equal
probability; four standard windows.  All demands of `C61_loop_partial` are met, one of the configurations is a pair of the second
spin, and the exchange turns it into one of the first. -/
example : ∃ (X : Type) (_ : Fintype X) (_ : DecidableEq X) (c : X → WCfg ℤ) (s : X → CodeState freeCode (Option (Worm ℤ)))
    (rd : CodeState freeCode (Option (Worm ℤ)) → WCfg ℤ),
    Reprs freeCode freeMoves.tau (codeWops freeMoves.tau) (OnGrid freeCode.P.nf freeMoves.G freeMoves.kinds) c ∧
    (∃ i, (c i).Same freePair) ∧ (GMove.swap [1, 0]).act 8 freePair = ⟨[(5, 0)], [(1, 0)], none⟩ ∧
    (GMove.shift 4).act 8 freePair = ⟨[(1, 1)], [(5, 1)], none⟩ ∧
    (∀ i, Reps freeCode freeMoves.tau (codeWops freeMoves.tau) (c i) (s i)) ∧
    ∑ i, gridW freeCode freeMoves.tau (codeWops freeMoves.tau) (4 / (8 : ℕ)) wormDim (spaceEta freeMoves.sw) (c i) *
        (Rand.unif [[(1, [[1, 0]]), (2, [[1, 0]])], [(2, [[1, 0]]), (2, [[1, 0]])]] : Rand ℝ _).mean (fun q =>
          simRun freeCode 8 freeMoves.tau rd (fun s => if s.2 = none then 1 else 0)
            (updateSteps freeCode freeMoves 8 4 1 true true [.equalTime 1] 0 q) (s i)) =
      ∑ j, gridW freeCode freeMoves.tau (codeWops freeMoves.tau) (4 / (8 : ℕ)) wormDim (spaceEta freeMoves.sw) (c j) *
        if (c j).worm = none then 1 else 0 := by
  classical
  obtain ⟨X, hX, c, hR⟩ := C61_reprs freeCode freeMoves.tau freeMoves.G freeMoves.kinds freeCode.P.nf
  obtain ⟨rd, hrd⟩ := exists_reader freeCode freeMoves.tau
  have hst := fun i => C61_states freeCode_ok freeMoves_ok (n := 4) (by norm_num) (hR.mem i).1 (hR.mem i).2
  choose s h1 h2 h3 using hst
  refine ⟨X, hX, Classical.decEq X, c, s, rd, hR, hR.all _ freePair_good.1 freePair_good.2, rfl, rfl, h2, ?_⟩
  refine C61_loop_partial freeCode_ok freeMoves_ok hR rd hrd _ (fun j => if (c j).worm = none then 1 else 0)
    (fun s _ j hj => by rw [hj.worm]) free_loop 4 1 true _ (by rw [mean_unif]; norm_num) ?_ 0 (st := ⟨2, 0, true, 4⟩)
    ⟨by norm_num, rfl, by norm_num, by norm_num⟩ s h1 (fun i => by rw [winOf_eq, h3]) h2
  intro q hq
  obtain ⟨l, hl, rfl⟩ := Multiset.mem_map.1 hq
  have hl' : l = [(1, [[1, 0]]), (2, [[1, 0]])] ∨ l = [(2, [[1, 0]]), (2, [[1, 0]])] := by
    simpa using Multiset.mem_coe.1 hl
  intro p hp
  have : p = (1, [[1, 0]]) ∨ p = (2, [[1, 0]]) := by
    rcases hl' with rfl | rfl
    · simpa using hp
    · right; simpa using hp
  rcases this with rfl | rfl
  · exact ⟨by norm_num, fun v hv => by rw [List.mem_singleton.1 hv]; exact free_swap⟩
  · exact ⟨by norm_num, fun v hv => by rw [List.mem_singleton.1 hv]; exact free_swap⟩

end CTHyb
