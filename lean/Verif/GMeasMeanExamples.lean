import Verif.GMeasMeanProps
import Verif.GMeasLegendreProps
import Mathlib.Tactic.FinCases

/-!
A concrete case for property C66: two spins without energy in equal baths, four times on the grid, worms of both Green's functions.
-/

set_option linter.unusedSectionVars false

namespace CTHyb

open Matrix Rand

/-! ### Matrices -/

/-- Multiples of integers which are not too large. -/
theorem resolved_of_int {n r : ℕ} (z : Fin n ⊕ (Fin r ⊕ Fin r) → Fin n ⊕ (Fin r ⊕ Fin r) → ℤ) (hz : ∀ i j, |z i j| ≤ 1000) (t : ℝ) :
    GResolved (𝕜 := ℝ) (of fun i j => (z i j : ℝ) * t) := by
  intro i j i' j' h
  simp only [of_apply, norm_mul] at h
  have ht := norm_nonneg t
  have h1 : ‖(z i' j' : ℝ)‖ ≤ 1000 := by rw [Real.norm_eq_abs]; exact_mod_cast hz i' j'
  have h2 : ‖(z i j : ℝ)‖ * ‖t‖ < 1 * ‖t‖ := by nlinarith
  have h3 : ‖(z i j : ℝ)‖ < 1 := lt_of_mul_lt_mul_right h2 ht
  rw [Real.norm_eq_abs] at h3
  have h4 : |z i j| < 1 := by exact_mod_cast h3
  simp [Int.abs_lt_one_iff.1 h4]

/-- Auxiliary lines for one particle. -/
def auxOne : Fin 1 ⊕ Fin 1 → Fin 1 ⊕ Fin 1 → ℝ
  | .inr _, .inr _ => 7
  | _, _ => 1

/-- Auxiliary lines for two particles. -/
def auxTwo : Fin 2 ⊕ Fin 2 → Fin 2 ⊕ Fin 2 → ℝ
  | .inl i, .inr j => if i = j then 1 else 0
  | .inr i, .inl j => if i = j then 1 else 0
  | _, _ => 0

theorem regular_one {n : ℕ} (hn : n ≤ 1) (G : TPsi ℝ → TPsi ℝ → ℝ) (c cd : Fin n ⊕ Fin 1 → TPsi ℝ)
    (invA : Matrix (Fin n) (Fin n) ℝ) (hA : invA * (of fun i j => G (c (.inl i)) (cd (.inl j))) = 1)
    (hG : ∀ i j, ∃ z : ℤ, G (c i) (cd j) = z ∧ |z| ≤ 5) :
    ∃ d Mx, gEnlarge G c cd auxOne invA = some (d, Mx) ∧ GResolved Mx ∧
      ∀ k l, Mx (gPos l) (gPos k) = 0 → Mx (gPos l) (.inr (.inr 0)) * Mx (.inr (.inr 0)) (gPos k) = 0 := by
  choose z hz hz5 using hG
  interval_cases n
  · let D := z (.inr 0) (.inr 0)
    let ζ : Fin 0 ⊕ (Fin 1 ⊕ Fin 1) → Fin 0 ⊕ (Fin 1 ⊕ Fin 1) → ℤ := fun i j => match i, j with
      | .inr (.inl _), .inr (.inl _) => 7
      | .inr (.inr _), .inr (.inr _) => D
      | _, _ => -1
    have hD : ((7 * D - 1 : ℤ) : ℝ) ≠ 0 := by
      have : 7 * D - 1 ≠ 0 := by omega
      exact_mod_cast this
    have hD5 : |D| ≤ 5 := hz5 _ _
    have hmul : (of fun i j => (ζ i j : ℝ) * (1 / ((7 * D - 1 : ℤ) : ℝ))) * gFull G c cd auxOne = 1 := by
      push_cast at hD ⊢
      ext i j
      rcases i with i | i | i
      · exact i.elim0
      all_goals
        rcases j with j | j | j
        · exact j.elim0
        all_goals
          fin_cases i
          fin_cases j
          simp [Matrix.mul_apply, Fintype.sum_sum_type, gFull, gB, gC, gD, auxOne, ζ, Matrix.fromBlocks, hz]
          try field_simp
          try simp only [D]
          try ring
    obtain ⟨d, -, hd⟩ := gEnlarge_of_inverse G c cd auxOne invA hA _ (mul_eq_one_comm.mp hmul)
    refine ⟨d, _, hd, resolved_of_int ζ ?_ _, ?_⟩
    · intro i j
      rcases i with i | i | i
      · exact i.elim0
      all_goals
        rcases j with j | j | j
        · exact j.elim0
        all_goals simp [ζ]
        try omega
    · intro k l h
      rcases k with k | k
      · exact k.elim0
      rcases l with l | l
      · exact l.elim0
      simp [gPos, ζ] at h
      push_cast at hD
      exact absurd h hD
  · let x := z (.inl 0) (.inl 0)
    let B := z (.inl 0) (.inr 0)
    let C := z (.inr 0) (.inl 0)
    let D := z (.inr 0) (.inr 0)
    let ζ : Fin 1 ⊕ (Fin 1 ⊕ Fin 1) → Fin 1 ⊕ (Fin 1 ⊕ Fin 1) → ℤ := fun i j => match i, j with
      | .inl _, .inl _ => 7 * D - 1
      | .inl _, .inr (.inl _) => -(7 * B)
      | .inl _, .inr (.inr _) => B
      | .inr (.inl _), .inl _ => -(7 * C)
      | .inr (.inl _), .inr (.inl _) => 7 * x
      | .inr (.inl _), .inr (.inr _) => -x
      | .inr (.inr _), .inl _ => C
      | .inr (.inr _), .inr (.inl _) => -x
      | .inr (.inr _), .inr (.inr _) => x * D - B * C
    have hx5 : |x| ≤ 5 := hz5 _ _
    have hB5 : |B| ≤ 5 := hz5 _ _
    have hC5 : |C| ≤ 5 := hz5 _ _
    have hD5 : |D| ≤ 5 := hz5 _ _
    have hx : x ≠ 0 := by
      intro hx
      have h1 := congrFun (congrFun hA 0) 0
      simp only [Matrix.mul_apply, Fin.sum_univ_one, of_apply, hz, Matrix.one_apply_eq] at h1
      change invA 0 0 * (x : ℝ) = 1 at h1
      rw [hx] at h1
      simp at h1
    have hΔ : ((7 * (x * D - B * C) - x : ℤ) : ℝ) ≠ 0 := by
      have : 7 * (x * D - B * C) - x ≠ 0 := by
        rw [abs_le] at hx5
        omega
      exact_mod_cast this
    have hmul : (of fun i j => (ζ i j : ℝ) * (1 / ((7 * (x * D - B * C) - x : ℤ) : ℝ))) * gFull G c cd auxOne = 1 := by
      have ht := one_div_mul_cancel hΔ
      generalize (1 : ℝ) / ((7 * (x * D - B * C) - x : ℤ) : ℝ) = t at ht ⊢
      push_cast at ht
      have e1 : G (c (.inl 0)) (cd (.inl 0)) = x := hz _ _
      have e2 : G (c (.inl 0)) (cd (.inr 0)) = B := hz _ _
      have e3 : G (c (.inr 0)) (cd (.inl 0)) = C := hz _ _
      have e4 : G (c (.inr 0)) (cd (.inr 0)) = D := hz _ _
      clear_value x B C D
      ext i j
      rcases i with i | i | i <;> rcases j with j | j | j <;> fin_cases i <;> fin_cases j <;>
        simp [Matrix.mul_apply, Fintype.sum_sum_type, gFull, gB, gC, gD, auxOne, ζ, Matrix.fromBlocks, e1, e2, e3, e4] <;>
        first | ring1 | linear_combination ht
    obtain ⟨d, -, hd⟩ := gEnlarge_of_inverse G c cd auxOne invA hA _ (mul_eq_one_comm.mp hmul)
    refine ⟨d, _, hd, resolved_of_int ζ ?_ _, ?_⟩
    · have q1 : |x * D - B * C| ≤ 50 := by
        refine (abs_sub _ _).trans ?_
        rw [abs_mul, abs_mul]
        nlinarith [abs_nonneg x, abs_nonneg D, abs_nonneg B, abs_nonneg C]
      intro i j
      rw [abs_le] at *
      rcases i with i | i | i <;> rcases j with j | j | j <;> simp only [ζ] <;> constructor <;> omega
    · intro k l h
      have hi : (1 / ((7 * (x * D - B * C) - x : ℤ) : ℝ)) ≠ 0 := one_div_ne_zero hΔ
      have hzero : ∀ i j, (of fun i j => (ζ i j : ℝ) * (1 / ((7 * (x * D - B * C) - x : ℤ) : ℝ))) i j = 0 ↔ ζ i j = 0 := by
        intro i j
        rw [of_apply, mul_eq_zero, or_iff_left hi, Int.cast_eq_zero]
      rw [hzero] at h
      rw [mul_eq_zero, hzero, hzero]
      rcases k with k | k <;> rcases l with l | l <;> simp only [gPos, Sum.map_inl, Sum.map_inr, id, ζ] at h ⊢ <;> omega

theorem regular_two {n : ℕ} (hn : n = 0) (G : TPsi ℝ → TPsi ℝ → ℝ) (c cd : Fin n ⊕ Fin 2 → TPsi ℝ)
    (invA : Matrix (Fin n) (Fin n) ℝ) (hA : invA * (of fun i j => G (c (.inl i)) (cd (.inl j))) = 1)
    (hG : ∀ i j, ∃ z : ℤ, G (c i) (cd j) = z ∧ |z| ≤ 5) :
    ∃ d Mx, gEnlarge G c cd auxTwo invA = some (d, Mx) ∧ GResolved Mx := by
  choose z hz hz5 using hG
  subst hn
  let ζ : Fin 0 ⊕ (Fin 2 ⊕ Fin 2) → Fin 0 ⊕ (Fin 2 ⊕ Fin 2) → ℤ := fun i j => match i, j with
    | .inr (.inl i), .inr (.inr j) => if i = j then 1 else 0
    | .inr (.inr i), .inr (.inl j) => if i = j then 1 else 0
    | .inr (.inr i), .inr (.inr j) => -z (.inr i) (.inr j)
    | _, _ => 0
  have hmul : (of fun i j => (ζ i j : ℝ) * 1) * gFull G c cd auxTwo = 1 := by
    ext i j
    rcases i with i | i | i
    · exact i.elim0
    all_goals
      rcases j with j | j | j
      · exact j.elim0
      all_goals
        fin_cases i <;> fin_cases j <;>
        simp [Matrix.mul_apply, Fintype.sum_sum_type, gFull, gB, gC, gD, auxTwo, ζ, Matrix.fromBlocks, hz]
  obtain ⟨d, -, hd⟩ := gEnlarge_of_inverse G c cd auxTwo invA hA _ (mul_eq_one_comm.mp hmul)
  refine ⟨d, _, hd, resolved_of_int ζ ?_ _⟩
  intro i j
  rcases i with i | i | i
  · exact i.elim0
  all_goals
    rcases j with j | j | j
    · exact j.elim0
    all_goals simp only [ζ]
  · simp
  · split_ifs <;> simp
  · split_ifs <;> simp
  · rw [abs_neg]
    exact (hz5 _ _).trans (by norm_num)

/-! ### The grid -/

noncomputable def quadMoves : MoveArgs where
  G := Finset.Ico 0 ((4 : ℕ) : ℤ)
  tau := gridTau 4 4
  kinds := [.green 1, .green 2]
  sw := fun k => match k with
    | .green 1 => 3
    | _ => 1 / 2
  maxDist := fun _ => 2
  wormDist := fun _ => 1

theorem quadMoves_ok : quadMoves.OK freeCode 4 where
  beta := by norm_num [freeCode]
  grid := by norm_num
  tau := rfl
  G := rfl
  nf := Nat.two_pos
  ns := Nat.two_pos
  flavors := by
    intro b hb
    have : b < 2 := hb
    interval_cases b <;> decide
  nodup := by simp [quadMoves]
  ops := by
    intro k hk
    simp only [quadMoves, List.mem_cons, List.not_mem_nil, or_false] at hk
    rcases hk with rfl | rfl <;> simp [WormKind.numFlavors]
  sw := by
    intro k
    unfold quadMoves
    dsimp only
    split <;> norm_num

theorem quad_swap : SwapOK freeCode quadMoves 4 [1, 0] := by
  refine swapOK_of_sym freeCode_ok quadMoves_ok rfl freeCode_anti ⟨rfl, by decide, by decide⟩ ?_ ?_
  · intro f hf
    have h1 : f < 2 := hf
    interval_cases f <;> rfl
  intro f f' x hf hf'
  have h1 : f < 2 := hf
  have h2 : f' < 2 := hf'
  interval_cases f <;> interval_cases f' <;> simp [freeHyb]

theorem quad_loop : LoopOK freeCode quadMoves 4 true [] where
  shift := fun _ _ _ _ _ _ => rfl
  green := fun _ => by simp [quadMoves]
  movers := by simp
  even := by norm_num
  globalShift := shiftOK_of_antiPer freeCode_ok quadMoves_ok rfl freeCode_anti

theorem quad_hyb (o o' : BOp ℤ) (h : o.1 ∈ quadMoves.G) (h' : o'.1 ∈ quadMoves.G) :
    ∃ z : ℤ, freeCode.G (mkOp quadMoves.tau .annihilation o) (mkOp quadMoves.tau .creation o') = z ∧ |z| ≤ 5 := by
  obtain ⟨t, f⟩ := o
  obtain ⟨t', f'⟩ := o'
  simp only [quadMoves, Finset.mem_Ico] at h h'
  have e : freeCode.G (mkOp quadMoves.tau .annihilation (t, f)) (mkOp quadMoves.tau .creation (t', f')) = freeHyb f f' ((t - t' : ℤ) : ℝ) := by
    change freeHyb f f' (gridTau 4 4 t - gridTau 4 4 t') = _
    congr 1
    unfold gridTau
    push_cast
    ring
  rw [e]
  unfold freeHyb
  split_ifs with h1 h2
  · have h3 : 0 < t - t' := by exact_mod_cast h2
    refine ⟨t - t' + 1, by push_cast; ring, ?_⟩
    rw [abs_le]
    omega
  · have h3 : ¬ 0 < t - t' := by exact_mod_cast h2
    refine ⟨-(t - t' + 5), by push_cast; ring, ?_⟩
    rw [abs_le]
    omega
  · exact ⟨0, by simp, by simp⟩

/-- At most four operators. -/
theorem quad_few {n r : ℕ} {γc γd : Fin n ⊕ Fin r → BOp ℤ} {x : WCfg ℤ} (h : Frame γc γd x) (hx : OnGrid freeCode.P.nf quadMoves.G quadMoves.kinds x)
    (hn : ((x.ops quadMoves.tau (codeWops quadMoves.tau)).map Psi.time).Nodup) : 2 * (n + r) ≤ 4 := by
  have h1 := h.times hn
  have h2 : (allOps (mkOp quadMoves.tau .creation ∘ γd) ++ allOps (mkOp quadMoves.tau .annihilation ∘ γc)).map Psi.time =
      ((allOps γd ++ allOps γc).map Prod.fst).map fun t => (⟨quadMoves.tau t, 0⟩ : OpTime ℝ) := by
    simp only [allOps, List.map_append, List.map_ofFn, Function.comp_def, mkOp]
  rw [h2] at h1
  have h3 : (((allOps γd ++ allOps γc).map Prod.fst).toFinset).card ≤ quadMoves.G.card := by
    refine Finset.card_le_card fun t ht => ?_
    rw [List.mem_toFinset] at ht
    obtain ⟨o, ho, rfl⟩ := List.mem_map.1 ht
    rcases List.mem_append.1 ho with ho | ho
    · obtain ⟨k, rfl⟩ := (mem_allOps γd _).1 ho
      exact (h.memD hx k).1
    · obtain ⟨k, rfl⟩ := (mem_allOps γc _).1 ho
      exact (h.memC hx k).1
  rw [List.toFinset_card_of_nodup (List.Nodup.of_map _ h1)] at h3
  have h4 : quadMoves.G.card = 4 := by simp [quadMoves]
  rw [h4] at h3
  simp only [allOps, List.length_map, List.length_append, List.length_ofFn] at h3
  omega

theorem quad_tau_inj : Function.Injective quadMoves.tau := gridTau_inj quadMoves_ok.beta quadMoves_ok.grid

theorem quad_regular_one (s : CodeState freeCode (Option (Worm ℤ))) (hs : SimInv freeCode.env freeCode.Inv (pmDet freeCode.P) s.1) (x : WCfg ℤ)
    (hx : OnGrid freeCode.P.nf quadMoves.G quadMoves.kinds x) (h : Reps freeCode quadMoves.tau (codeWops quadMoves.tau) x s)
    (hg : isGreen 1 x = true) : G1Regular freeCode s auxOne := by
  intro m hm
  obtain ⟨γc, γd, hf, ec, ed, hok⟩ := state_frame freeCode_ok quad_tau_inj hs h hg hm
  have := quad_few hf hx (h.nodup hs)
  unfold gStateM
  simp only [ec, ed]
  exact regular_one (by omega) _ _ _ _ hok.inv fun i j => quad_hyb _ _ (hf.memC hx i).1 (hf.memD hx j).1

theorem quad_regular_two (s : CodeState freeCode (Option (Worm ℤ))) (hs : SimInv freeCode.env freeCode.Inv (pmDet freeCode.P) s.1) (x : WCfg ℤ)
    (hx : OnGrid freeCode.P.nf quadMoves.G quadMoves.kinds x) (h : Reps freeCode quadMoves.tau (codeWops quadMoves.tau) x s)
    (hg : isGreen 2 x = true) : G2Regular freeCode s auxTwo := by
  intro m hm
  obtain ⟨γc, γd, hf, ec, ed, hok⟩ := state_frame freeCode_ok quad_tau_inj hs h hg hm
  have := quad_few hf hx (h.nodup hs)
  unfold gStateM
  simp only [ec, ed]
  exact regular_two (by omega) _ _ _ _ hok.inv fun i j => quad_hyb _ _ (hf.memC hx i).1 (hf.memD hx j).1

/-! ### Configurations -/

/-- A worm and a pair of the bath. -/
def quadOne : WCfg ℤ := ⟨[(3, 1)], [(2, 1)], some ⟨.green 1, [0, 1], [1, 1]⟩⟩

/-- A worm with two particles. -/
def quadTwo : WCfg ℤ := ⟨[], [], some ⟨.green 2, [0, 1, 2, 3], [1, 1, 1, 1]⟩⟩

/-- No worm. -/
def quadPair : WCfg ℤ := ⟨[(3, 1)], [(2, 1)], none⟩

theorem freeQuad_trace (s t u v : OpTime ℝ) : fullTrace (ebEnv freeCode.B freeCode.p 4)
    [⟨s, .annihilation, 1⟩, ⟨t, .creation, 1⟩, ⟨u, .annihilation, 1⟩, ⟨v, .creation, 1⟩] ≠ 0 := by
  change fullTrace (ebEnv (impBaseOf 2 0 4 id) ⟨exactSolve, 2, 3⟩ 4) _ ≠ 0
  have hB : (impBaseOf 2 (0 : Matrix (Fin (2 ^ 2)) (Fin (2 ^ 2)) ℝ) 4 id).Lawful := freeBase_lawful
  rw [C57_exact hB exactSolve_ok (by norm_num) free_least (by
    intro μ hμ
    rw [(free_eig μ).1 hμ]; norm_num)]
  refine mul_ne_zero (by simp) ?_
  let Z : Matrix (Fin (2 ^ 2)) (Fin (2 ^ 2)) ℤ := cdagOp 2 1 * cOp 2 1 * cdagOp 2 1 * cOp 2 1
  have e : timeOrderedMat (0 : Matrix (Fin (2 ^ 2)) (Fin (2 ^ 2)) ℝ) (impBaseOf 2 0 4 id).op 4
      [⟨s, .annihilation, 1⟩, ⟨t, .creation, 1⟩, ⟨u, .annihilation, 1⟩, ⟨v, .creation, 1⟩] 0 = Z.map (Int.cast : ℤ → ℝ) := by
    simp only [timeOrderedMat, smul_zero, NormedSpace.exp_zero, mul_one, one_mul, impBaseOf]
    have hm : ∀ P Q : Matrix (Fin (2 ^ 2)) (Fin (2 ^ 2)) ℤ, (P * Q).map (Int.cast : ℤ → ℝ) = P.map Int.cast * Q.map Int.cast :=
      fun P Q => Matrix.map_mul (f := Int.castRingHom ℝ) (L := P) (M := Q)
    simp only [Z, hm, Matrix.mul_assoc]
  show trace (timeOrderedMat (0 : Matrix (Fin (2 ^ 2)) (Fin (2 ^ 2)) ℝ) (impBaseOf 2 0 4 id).op 4 _ 0) ≠ 0
  rw [e]
  have h2 : trace Z = 2 := by decide
  have h3 : trace (Z.map (Int.cast : ℤ → ℝ)) = ((trace Z : ℤ) : ℝ) := by
    simp [trace]
  rw [h3, h2]
  norm_num

theorem quadPair_good : OnGrid freeCode.P.nf quadMoves.G quadMoves.kinds quadPair ∧
    quadPair.Good freeCode quadMoves.tau (codeWops quadMoves.tau) := by
  refine ⟨⟨by simp [quadPair], by simp [quadPair], by simp [quadPair, quadMoves, freeCode],
    by simp [quadPair, quadMoves, freeCode], rfl, by simp [quadPair]⟩, ?_, ?_⟩
  · simp [PCfg.ops, quadPair, mkOp, codeWops, wormOps, quadMoves, gridTau]
  · have hs : quadPair.sorted quadMoves.tau (codeWops quadMoves.tau) =
        [⟨⟨quadMoves.tau 2, 0⟩, .annihilation, 1⟩, ⟨⟨quadMoves.tau 3, 0⟩, .creation, 1⟩] := by
      refine sorted_unique (PCfg.sorted_sorted _ ?_) ?_ ((PCfg.sorted_perm _).trans ?_)
      · simp [PCfg.ops, quadPair, mkOp, codeWops, wormOps, quadMoves, gridTau]
      · simp [OpSet.Sorted, OpTime.lt_def, quadMoves, gridTau]; norm_num
      · simp only [PCfg.ops, quadPair, mkOp, codeWops, wormOps, List.map_cons, List.map_nil, List.cons_append, List.nil_append,
          Option.map_none, List.append_nil]
        exact List.Perm.swap _ _ _
    unfold cfgW CodeArgs.weight
    rw [hs, norm_ne_zero_iff]
    refine mul_ne_zero ?_ (freePair_trace _ _)
    rw [timeDet_eq _ _ _ (by simp [quadPair]) (by simp [quadPair]), listDet_eq _ _ _ 1 rfl rfl, Matrix.det_fin_one]
    simp [invs, quadPair, freeCode, freeHyb, mkOp, quadMoves, gridTau]
    norm_num

theorem quad_sorted : OpSet.Sorted [(⟨⟨quadMoves.tau 0, 0⟩, .annihilation, 1⟩ : TPsi ℝ), ⟨⟨quadMoves.tau 1, 0⟩, .creation, 1⟩,
    ⟨⟨quadMoves.tau 2, 0⟩, .annihilation, 1⟩, ⟨⟨quadMoves.tau 3, 0⟩, .creation, 1⟩] := by
  simp [OpSet.Sorted, OpTime.lt_def, quadMoves, gridTau]
  norm_num

theorem quadOne_good : OnGrid freeCode.P.nf quadMoves.G quadMoves.kinds quadOne ∧
    quadOne.Good freeCode quadMoves.tau (codeWops quadMoves.tau) := by
  have hp : (quadOne.ops quadMoves.tau (codeWops quadMoves.tau)).Perm
      [(⟨⟨quadMoves.tau 0, 0⟩, .annihilation, 1⟩ : TPsi ℝ), ⟨⟨quadMoves.tau 1, 0⟩, .creation, 1⟩,
        ⟨⟨quadMoves.tau 2, 0⟩, .annihilation, 1⟩, ⟨⟨quadMoves.tau 3, 0⟩, .creation, 1⟩] := by
    have e : quadOne.ops quadMoves.tau (codeWops quadMoves.tau) = [⟨⟨quadMoves.tau 3, 0⟩, .creation, 1⟩, ⟨⟨quadMoves.tau 2, 0⟩, .annihilation, 1⟩,
        ⟨⟨quadMoves.tau 0, 0⟩, .annihilation, 1⟩, ⟨⟨quadMoves.tau 1, 0⟩, .creation, 1⟩] := rfl
    rw [e]
    generalize (⟨⟨quadMoves.tau 3, 0⟩, .creation, 1⟩ : TPsi ℝ) = a
    generalize (⟨⟨quadMoves.tau 2, 0⟩, .annihilation, 1⟩ : TPsi ℝ) = b
    exact ((List.Perm.swap _ _ _).append_right [_, _]).trans (List.perm_append_comm (l₁ := [b, a]))
  have hn : ((quadOne.ops quadMoves.tau (codeWops quadMoves.tau)).map Psi.time).Nodup := by
    rw [(hp.map Psi.time).nodup_iff]
    simp [quadMoves, gridTau]
  refine ⟨⟨by simp [quadOne], by simp [quadOne], by simp [quadOne, quadMoves, freeCode], by simp [quadOne, quadMoves, freeCode], rfl, ?_⟩, hn, ?_⟩
  · intro w hw
    have : w = ⟨.green 1, [0, 1], [1, 1]⟩ := (Option.some.inj hw).symm
    subst this
    refine ⟨⟨rfl, rfl⟩, by simp [quadMoves], by simp [freeCode], by simp [quadMoves]⟩
  · have hs := sorted_unique (PCfg.sorted_sorted _ hn) quad_sorted ((PCfg.sorted_perm _).trans hp)
    unfold cfgW CodeArgs.weight
    rw [hs, norm_ne_zero_iff]
    refine mul_ne_zero ?_ (freeQuad_trace _ _ _ _)
    rw [timeDet_eq _ _ _ (by simp [quadOne]) (by simp [quadOne]), listDet_eq _ _ _ 1 rfl rfl, Matrix.det_fin_one]
    simp [invs, quadOne, freeCode, freeHyb, mkOp, quadMoves, gridTau]
    norm_num

theorem quadTwo_good : OnGrid freeCode.P.nf quadMoves.G quadMoves.kinds quadTwo ∧
    quadTwo.Good freeCode quadMoves.tau (codeWops quadMoves.tau) := by
  have hp : (quadTwo.ops quadMoves.tau (codeWops quadMoves.tau)).Perm
      [(⟨⟨quadMoves.tau 0, 0⟩, .annihilation, 1⟩ : TPsi ℝ), ⟨⟨quadMoves.tau 1, 0⟩, .creation, 1⟩,
        ⟨⟨quadMoves.tau 2, 0⟩, .annihilation, 1⟩, ⟨⟨quadMoves.tau 3, 0⟩, .creation, 1⟩] := by
    have e : quadTwo.ops quadMoves.tau (codeWops quadMoves.tau) = [⟨⟨quadMoves.tau 0, 0⟩, .annihilation, 1⟩, ⟨⟨quadMoves.tau 1, 0⟩, .creation, 1⟩,
        ⟨⟨quadMoves.tau 2, 0⟩, .annihilation, 1⟩, ⟨⟨quadMoves.tau 3, 0⟩, .creation, 1⟩] := rfl
    rw [e]
  have hn : ((quadTwo.ops quadMoves.tau (codeWops quadMoves.tau)).map Psi.time).Nodup := by
    rw [(hp.map Psi.time).nodup_iff]
    simp [quadMoves, gridTau]
  refine ⟨⟨by simp [quadTwo], by simp [quadTwo], by simp [quadTwo], by simp [quadTwo], rfl, ?_⟩, hn, ?_⟩
  · intro w hw
    have : w = ⟨.green 2, [0, 1, 2, 3], [1, 1, 1, 1]⟩ := (Option.some.inj hw).symm
    subst this
    refine ⟨⟨rfl, rfl⟩, by simp [quadMoves], by simp [freeCode], by simp [quadMoves]⟩
  · have hs := sorted_unique (PCfg.sorted_sorted _ hn) quad_sorted ((PCfg.sorted_perm _).trans hp)
    unfold cfgW CodeArgs.weight
    rw [hs, norm_ne_zero_iff]
    refine mul_ne_zero ?_ (freeQuad_trace _ _ _ _)
    rw [timeDet_eq _ _ _ (by simp [quadTwo]) (by simp [quadTwo]), listDet_eq _ _ _ 0 rfl rfl, Matrix.det_fin_zero]
    simp [invs, quadTwo]

theorem quad_plan : ∀ q ∈ (Rand.ret [(1, [[1, 0]]), (2, [])] : Rand ℝ (List (ℕ × List (List ℕ)))), PlanOK freeCode quadMoves 4 2 q.2 := by
  intro q hq
  have : q = (1, [(1, [[1, 0]]), (2, [])]) := by simpa [Rand.ret] using hq
  subst this
  intro p hp
  rcases List.mem_cons.1 hp with rfl | hp
  · exact ⟨by norm_num, fun v hv => by rw [List.mem_singleton.1 hv]; exact quad_swap⟩
  · rw [List.mem_singleton.1 hp]
    exact ⟨by norm_num, fun v hv => by simp at hv⟩

/-- The demands of `C66_legendre_partial` and with it those of `C66_g1_equilibrium_partial` are met: the second Legendre coefficient of
the second spin; the elements of the auxiliary source are 7 and 1, two operators are taken at most; one of the configurations has a
worm and a pair of the bath which can be exchanged. -/
example : ∃ (X : Type) (_ : Fintype X) (_ : DecidableEq X) (c : X → WCfg ℤ) (s : X → CodeState freeCode (Option (Worm ℤ)))
    (rd : CodeState freeCode (Option (Worm ℤ)) → WCfg ℤ),
    (∃ i, (c i).Same quadOne) ∧ (∃ i, (c i).Same quadPair) ∧
    let E := loopMean freeCode quadMoves 4 rd 2 1 true true [] 0 (Rand.ret [(1, [[1, 0]]), (2, [])]) c s
    let inZ : CodeState freeCode (Option (Worm ℤ)) → ℝ := fun s => if s.2 = none then 1 else 0
    let inW : CodeState freeCode (Option (Worm ℤ)) → ℝ := fun s => if s.2.any fun w => decide (w.kind = .green 1) then 1 else 0
    wormCoeff 1 (E inW / 3) (E inZ) (E (fun s => inZ s * RCLike.re s.1.cfg.sign) / E inZ) *
        (E (fun s => inW s * drawMean (fun _ => Rand.ret auxOne) LinearMap.id (green1Value freeCode 2 (green1Factor 4 5 1 1 2)) s) / E inW) =
      1 / 4 * ∑ t ∈ Finset.range 4, ∑ t' ∈ Finset.range 4, (4 / (4 : ℕ)) ^ 2 *
        (Real.sqrt (2 * (2 : ℕ) + 1) * legendreP 2 (2 * greenArg 4 t t' - 1) * greenSign t t') *
          (wormTerm freeCode (gridTau 4 4) (4 / (4 : ℕ)) LinearMap.id ⟨.green 1, [(t : ℤ), (t' : ℤ)], [1, 1]⟩ c /
            zSum freeCode (gridTau 4 4) (4 / (4 : ℕ)) c) := by
  classical
  obtain ⟨X, hX, c, hR⟩ := C61_reprs freeCode quadMoves.tau quadMoves.G quadMoves.kinds freeCode.P.nf
  obtain ⟨rd, hrd⟩ := exists_reader freeCode quadMoves.tau
  have hst := fun i => C61_states freeCode_ok quadMoves_ok (n := 2) (by norm_num) (hR.mem i).1 (hR.mem i).2
  choose s h1 h2 h3 using hst
  have hw := hR.all _ quadOne_good.1 quadOne_good.2
  have hz := hR.all _ quadPair_good.1 quadPair_good.2
  refine ⟨X, hX, Classical.decEq X, c, s, rd, hw, hz, ?_⟩
  refine C66_legendre_partial freeCode_ok quadMoves_ok hR rd hrd quad_loop 2 1 true _ (by rw [mean_ret]) quad_plan 0
    (st := ⟨2, 0, true, 2⟩) ⟨by norm_num, rfl, by norm_num, by norm_num⟩ s h1 (fun i => by rw [winOf_eq, h3]) h2 ?_ ?_ 2 (by norm_num)
    _ (fun _ => by rw [mean_ret]) ?_ 5 2 1 1 (by norm_num) (by norm_num [freeCode]) (by norm_num [freeCode]) LinearMap.id
  · obtain ⟨i, hi⟩ := hw
    exact ⟨i, by rw [hi.2.2]; rfl⟩
  · obtain ⟨i, hi⟩ := hz
    exact ⟨i, by rw [hi.2.2]; rfl⟩
  · intro s hs j hj hg p hp
    have : p = (1, auxOne) := by simpa [Rand.ret] using hp
    subst this
    exact quad_regular_one s hs (c j) (hR.mem j).1 hj hg

/-- The demands of `C66_g2_equilibrium_partial` are met: worms with two particles on the four times. -/
example (φ : TPsi ℝ → TPsi ℝ → TPsi ℝ → TPsi ℝ → ℝ) :
    ∃ (X : Type) (_ : Fintype X) (_ : DecidableEq X) (c : X → WCfg ℤ) (s : X → CodeState freeCode (Option (Worm ℤ)))
    (rd : CodeState freeCode (Option (Worm ℤ)) → WCfg ℤ),
    (∃ i, (c i).Same quadTwo) ∧ (∃ i, (c i).Same quadPair) ∧
    let E := loopMean freeCode quadMoves 4 rd 2 1 true true [] 0 (Rand.ret [(1, [[1, 0]]), (2, [])]) c s
    let inZ : CodeState freeCode (Option (Worm ℤ)) → ℝ := fun s => if s.2 = none then 1 else 0
    let inW : CodeState freeCode (Option (Worm ℤ)) → ℝ := fun s => if s.2.any fun w => decide (w.kind = .green 2) then 1 else 0
    let cOp : Fin 4 × Fin 2 → TPsi ℝ := fun p => ⟨⟨gridTau 4 4 p.1, 0⟩, .annihilation, p.2⟩
    let cdOp : Fin 4 × Fin 2 → TPsi ℝ := fun p => ⟨⟨gridTau 4 4 p.1, 0⟩, .creation, p.2⟩
    wormCoeff 1 (E inW / (1 / 2)) (E inZ) (E (fun s => inZ s * RCLike.re s.1.cfg.sign) / E inZ) *
        (E (fun s => inW s * drawMean (fun _ => Rand.ret auxTwo) LinearMap.id (green2Value freeCode 2 φ) s) / E inW) =
      1 / 4 * ∑ p₁ : Fin 4 × Fin 2, ∑ q₁ : Fin 4 × Fin 2, ∑ p₂ : Fin 4 × Fin 2, ∑ q₂ : Fin 4 × Fin 2, (4 / (4 : ℕ)) ^ 4 *
        wormTerm freeCode (gridTau 4 4) (4 / (4 : ℕ)) (LinearMap.id ∘ₗ LinearMap.mulLeft ℝ (φ (cOp p₁) (cdOp q₁) (cOp p₂) (cdOp q₂)))
          ⟨.green 2, [(p₁.1 : ℤ), (q₁.1 : ℤ), (p₂.1 : ℤ), (q₂.1 : ℤ)], [(p₁.2 : ℕ), (q₁.2 : ℕ), (p₂.2 : ℕ), (q₂.2 : ℕ)]⟩ c /
            zSum freeCode (gridTau 4 4) (4 / (4 : ℕ)) c := by
  classical
  obtain ⟨X, hX, c, hR⟩ := C61_reprs freeCode quadMoves.tau quadMoves.G quadMoves.kinds freeCode.P.nf
  obtain ⟨rd, hrd⟩ := exists_reader freeCode quadMoves.tau
  have hst := fun i => C61_states freeCode_ok quadMoves_ok (n := 2) (by norm_num) (hR.mem i).1 (hR.mem i).2
  choose s h1 h2 h3 using hst
  have hw := hR.all _ quadTwo_good.1 quadTwo_good.2
  have hz := hR.all _ quadPair_good.1 quadPair_good.2
  refine ⟨X, hX, Classical.decEq X, c, s, rd, hw, hz, ?_⟩
  refine C66_g2_equilibrium_partial freeCode_ok quadMoves_ok hR rd hrd quad_loop 2 1 true _ (by rw [mean_ret]) quad_plan 0
    (st := ⟨2, 0, true, 2⟩) ⟨by norm_num, rfl, by norm_num, by norm_num⟩ s h1 (fun i => by rw [winOf_eq, h3]) h2 ?_ ?_ 2 (by norm_num)
    _ (fun _ => by rw [mean_ret]) ?_ φ LinearMap.id
  · obtain ⟨i, hi⟩ := hw
    exact ⟨i, by rw [hi.2.2]; rfl⟩
  · obtain ⟨i, hi⟩ := hz
    exact ⟨i, by rw [hi.2.2]; rfl⟩
  · intro s hs j hj hg p hp
    have : p = (1, auxTwo) := by simpa [Rand.ret] using hp
    subst this
    exact quad_regular_two s hs (c j) (hR.mem j).1 hj hg

/-- The demands of `C66_g2_legendre_partial` are met: the imaginary part of an element with the second bosonic frequency. -/
example : ∃ (X : Type) (_ : Fintype X) (_ : DecidableEq X) (c : X → WCfg ℤ) (s : X → CodeState freeCode (Option (Worm ℤ)))
    (rd : CodeState freeCode (Option (Worm ℤ)) → WCfg ℤ),
    (∃ i, (c i).Same quadTwo) ∧ (∃ i, (c i).Same quadPair) ∧
    let E := loopMean freeCode quadMoves 4 rd 2 1 true true [] 0 (Rand.ret [(1, [[1, 0]]), (2, [])]) c s
    let inZ : CodeState freeCode (Option (Worm ℤ)) → ℝ := fun s => if s.2 = none then 1 else 0
    let inW : CodeState freeCode (Option (Worm ℤ)) → ℝ := fun s => if s.2.any fun w => decide (w.kind = .green 2) then 1 else 0
    wormCoeff 1 (E inW / (1 / 2)) (E inZ) (E (fun s => inZ s * RCLike.re s.1.cfg.sign) / E inZ) *
        (E (fun s => inW s * drawMean (fun _ => Rand.ret auxTwo) Complex.imLm (green2Legendre freeCode 2 3 1 1 1 1 0 2 1) s) / E inW) =
      1 / 4 * ∑ t₁ ∈ Finset.range 4, ∑ t₂ ∈ Finset.range 4, ∑ t₃ ∈ Finset.range 4, ∑ t₄ ∈ Finset.range 4, (4 / (4 : ℕ)) ^ 4 *
        (g2Basis 4 0 t₁ t₂ * ((-1) ^ (2 + 1) * g2Basis 4 2 t₃ t₄)) *
          (wormTerm freeCode (gridTau 4 4) (4 / (4 : ℕ)) (Complex.imLm ∘ₗ LinearMap.mulLeft ℝ (bosonExp 4 1 t₁ t₄) ∘ₗ toC)
            ⟨.green 2, [(t₁ : ℤ), (t₂ : ℤ), (t₃ : ℤ), (t₄ : ℤ)], [1, 1, 1, 1]⟩ c / zSum freeCode (gridTau 4 4) (4 / (4 : ℕ)) c) := by
  classical
  obtain ⟨X, hX, c, hR⟩ := C61_reprs freeCode quadMoves.tau quadMoves.G quadMoves.kinds freeCode.P.nf
  obtain ⟨rd, hrd⟩ := exists_reader freeCode quadMoves.tau
  have hst := fun i => C61_states freeCode_ok quadMoves_ok (n := 2) (by norm_num) (hR.mem i).1 (hR.mem i).2
  choose s h1 h2 h3 using hst
  have hw := hR.all _ quadTwo_good.1 quadTwo_good.2
  have hz := hR.all _ quadPair_good.1 quadPair_good.2
  refine ⟨X, hX, Classical.decEq X, c, s, rd, hw, hz, ?_⟩
  refine C66_g2_legendre_partial freeCode_ok quadMoves_ok hR rd hrd quad_loop 2 1 true _ (by rw [mean_ret]) quad_plan 0
    (st := ⟨2, 0, true, 2⟩) ⟨by norm_num, rfl, by norm_num, by norm_num⟩ s h1 (fun i => by rw [winOf_eq, h3]) h2 ?_ ?_ 2 (by norm_num)
    _ (fun _ => by rw [mean_ret]) ?_ 3 0 2 1 1 1 1 1 (by norm_num) (by norm_num) (by norm_num [freeCode]) (by norm_num [freeCode])
    (by norm_num [freeCode]) (by norm_num [freeCode]) Complex.imLm
  · obtain ⟨i, hi⟩ := hw
    exact ⟨i, by rw [hi.2.2]; rfl⟩
  · obtain ⟨i, hi⟩ := hz
    exact ⟨i, by rw [hi.2.2]; rfl⟩
  · intro s hs j hj hg p hp
    have : p = (1, auxTwo) := by simpa [Rand.ret] using hp
    subst this
    exact quad_regular_two s hs (c j) (hR.mem j).1 hj hg

end CTHyb
