import Verif.ZMeasMeanProps
import Verif.SamplingSymProps

/-!
Property C67: cases in which the hypotheses hold, and a case in which the fidelity susceptibility of the postprocessing is not that of
the partition function.
-/

set_option linter.unusedSectionVars false

namespace CTHyb

open Matrix Rand MeasureTheory

/-! ### Two spins without energy in equal baths, eight points -/

/-- The demands on the simulation can be met, also with worms of two types and exchanges of the spins. -/
theorem free_setup : ∃ (X : Type) (_ : Fintype X) (_ : DecidableEq X) (c : X → WCfg ℤ)
    (s : X → CodeState freeCode (Option (Worm ℤ))) (rd : CodeState freeCode (Option (Worm ℤ)) → WCfg ℤ),
    (∃ i, (c i).Same freePair) ∧
    LoopSetup freeCode freeMoves 8 c rd 4 true [.equalTime 1] (Rand.ret [(1, [[1, 0]]), (2, [])]) ⟨2, 0, true, 4⟩ s := by
  classical
  obtain ⟨X, hX, c, hR⟩ := C61_reprs freeCode freeMoves.tau freeMoves.G freeMoves.kinds freeCode.P.nf
  obtain ⟨rd, hrd⟩ := exists_reader freeCode freeMoves.tau
  have hst := fun i => C61_states freeCode_ok freeMoves_ok (n := 4) (by norm_num) (hR.mem i).1 (hR.mem i).2
  choose s h1 h2 h3 using hst
  have hz := hR.all _ freePair_good.1 freePair_good.2
  refine ⟨X, hX, Classical.decEq X, c, s, rd, hz, freeCode_ok, freeMoves_ok, hR, hrd, free_loop,
    by rw [mean_ret], ?_, ⟨by norm_num, rfl, by norm_num, by norm_num⟩, h1, fun i => by rw [winOf_eq, h3], h2, ?_⟩
  · intro q hq
    have : q = (1, [(1, [[1, 0]]), (2, [])]) := by simpa [Rand.ret] using hq
    subst this
    intro p hp
    rcases List.mem_cons.1 hp with rfl | hp
    · exact ⟨by norm_num, fun v hv => by rw [List.mem_singleton.1 hv]; exact free_swap⟩
    · rw [List.mem_singleton.1 hp]
      exact ⟨by norm_num, fun v hv => by simp at hv⟩
  · obtain ⟨i, hi⟩ := hz
    exact ⟨i, by rw [hi.2.2]; rfl⟩

/-- `C67_density_partial` for the second spin. -/
example : ∃ (X : Type) (_ : Fintype X) (_ : DecidableEq X) (c : X → WCfg ℤ) (s : X → CodeState freeCode (Option (Worm ℤ)))
    (rd : CodeState freeCode (Option (Worm ℤ)) → WCfg ℤ), (∃ i, (c i).Same freePair) ∧
    let E := loopMean freeCode freeMoves 8 rd 4 1 true true [.equalTime 1] 0 (Rand.ret [(1, [[1, 0]]), (2, [])]) c s
    E (fun s => inZ s * recordN freeCode 1 s.1) / E inZ / (E (fun s => inZ s * RCLike.re s.1.cfg.sign) / E inZ) =
      zSumOf (4 / (8 : ℕ)) c (fun j => RCLike.re (densityW freeCode (gridTau 4 8) 1 (c j))) /
        zSum freeCode (gridTau 4 8) (4 / (8 : ℕ)) c := by
  obtain ⟨X, h1, h2, c, s, rd, hp, L⟩ := free_setup
  exact ⟨X, h1, h2, c, s, rd, hp, C67_density_partial L 1 true 0 (f := 1) (by decide)⟩

/-- `C67_removal_partial` for the second Legendre coefficient of the second spin. -/
example : ∃ (X : Type) (_ : Fintype X) (_ : DecidableEq X) (c : X → WCfg ℤ) (s : X → CodeState freeCode (Option (Worm ℤ)))
    (rd : CodeState freeCode (Option (Worm ℤ)) → WCfg ℤ), (∃ i, (c i).Same freePair) ∧
    let E := loopMean freeCode freeMoves 8 rd 4 1 true true [.equalTime 1] 0 (Rand.ret [(1, [[1, 0]]), (2, [])]) c s
    E (fun s => inZ s * recordG freeCode 3 1 1 1 s.1) / E inZ / (E (fun s => inZ s * RCLike.re s.1.cfg.sign) / E inZ) =
      -1 / 4 * deriv (lineZ freeCode (gridTau 4 8) (4 / (8 : ℕ)) c 1 1 1) 0 /
        zSum freeCode (gridTau 4 8) (4 / (8 : ℕ)) c := by
  obtain ⟨X, h1, h2, c, s, rd, hp, L⟩ := free_setup
  exact ⟨X, h1, h2, c, s, rd, hp, C67_removal_partial L 1 true 0 3 1 1 1 (by norm_num) LinearMap.id⟩

/-! ### One level without energy, two points -/

/-- One flavor, no energy, each state a sector of its own. -/
noncomputable def tinyBase : ImpBase ℝ (2 ^ 1) := impBaseOf 1 0 2 id

theorem tinyBase_lawful : tinyBase.Lawful := by
  refine ⟨fun x hx => by simpa [tinyBase, impBaseOf] using hx,
    fun s hs => ⟨s, by simpa [tinyBase, impBaseOf] using hs, rfl⟩, isHermitian_zero, ?_, ?_, ?_⟩
  · intro r c h
    exact absurd rfl h
  · exact twoSectors_lawful.maps
  · exact twoSectors_lawful.adj

theorem tiny_eig (μ : ℝ) : μ ∈ eigenvaluesOf (0 : Matrix (Fin (2 ^ 1)) (Fin (2 ^ 1)) ℝ) ↔ μ = 0 := by
  constructor
  · rintro ⟨v, hv, e⟩
    rw [Matrix.zero_mulVec] at e
    have := smul_eq_zero.1 e.symm
    simpa [hv] using this
  · rintro rfl
    exact ⟨fun _ => 1, fun h => by have := congrFun h 0; simp at this, by simp⟩

theorem tiny_least : IsLeast (eigenvaluesOf (0 : Matrix (Fin (2 ^ 1)) (Fin (2 ^ 1)) ℝ)) 0 :=
  ⟨(tiny_eig 0).2 rfl, fun _ h => ((tiny_eig _).1 h).ge⟩

/-- Constant hybridization function, continued antiperiodically. -/
noncomputable def tinyHyb (g : ℝ) (_ _ : ℕ) (x : ℝ) : ℝ := if 0 < x then g else -g

noncomputable def tinyCode (g : ℝ) : CodeArgs ℝ (2 ^ 1) where
  B := tinyBase
  p := twoParams
  beta := 4
  lim := -354
  sortIdx := sortByBound
  P := ⟨1, 1, fun _ => 0⟩
  G := fun o o' => tinyHyb g o.flavor o'.flavor (o.time.time - o'.time.time)
  lu := fun n M => match n with
    | 0 => []
    | k + 1 => M.det :: List.replicate k 1
  eps := 0

variable (g : ℝ)

theorem tinyCode_ok : (tinyCode g).OK where
  base := tinyBase_lawful
  solver := exactSolve_ok
  norm := C59_operators 1 0 2 id
  dim := by norm_num
  inner := by norm_num [tinyCode, twoParams]
  outer := by norm_num [tinyCode, twoParams]
  beta := by norm_num [tinyCode]
  lim := by
    intro E0 h0 μ hμ _
    rw [h0.unique tiny_least, (tiny_eig μ).1 hμ]
    norm_num [tinyCode]
  sort := fun b => sortByBound_ok b
  blocks := fun a b _ _ h => absurd rfl h
  sectors := fun f _ => Nat.one_pos
  lu_prod := by
    intro n M
    cases n with
    | zero => simp [tinyCode]
    | succ k => simp [tinyCode]
  lu_len := by
    intro n M
    cases n with
    | zero => rfl
    | succ k => simp [tinyCode]

theorem tinyCode_anti : AntiPer (tinyCode g) (tinyHyb g) where
  eq := fun _ _ => rfl
  anti := by
    intro f f' x h1 h2
    have h3 : ¬ 0 < x := by linarith
    have e : (tinyCode g).beta = 4 := rfl
    have h4 : 0 < x + 4 := by rw [e] at h1; linarith
    unfold tinyHyb
    rw [e, if_pos h4, if_neg h3, neg_neg]

noncomputable def tinyMoves : MoveArgs where
  G := Finset.Ico 0 ((2 : ℕ) : ℤ)
  tau := gridTau 4 2
  kinds := []
  sw := fun _ => 1
  maxDist := fun _ => 2
  wormDist := fun _ => 1

theorem tinyMoves_ok : tinyMoves.OK (tinyCode g) 2 where
  beta := by norm_num [tinyCode]
  grid := by norm_num
  tau := rfl
  G := rfl
  nf := Nat.one_pos
  ns := Nat.one_pos
  flavors := by
    intro b hb
    obtain rfl : b = 0 := by simpa [tinyCode] using hb
    change 0 < (blockFlavors (⟨1, 1, fun _ => 0⟩ : PEnv) 0).length
    decide
  nodup := by simp [tinyMoves]
  ops := by simp [tinyMoves]
  sw := by simp [tinyMoves]

theorem tiny_loop : LoopOK (tinyCode g) tinyMoves 2 true [] where
  shift := fun _ _ _ _ _ _ => rfl
  green := fun h => absurd rfl h
  movers := by simp
  even := by norm_num
  globalShift := shiftOK_of_antiPer (tinyCode_ok g) (tinyMoves_ok g) rfl (tinyCode_anti g)

/-- The three configurations: no operators, and a pair in the two orders. -/
def tinyCfg : Fin 3 → WCfg ℤ
  | 0 => ⟨[], [], none⟩
  | 1 => ⟨[(0, 0)], [(1, 0)], none⟩
  | 2 => ⟨[(1, 0)], [(0, 0)], none⟩

theorem tiny_tau0 : gridTau 4 2 0 = 1 := by norm_num [gridTau]
theorem tiny_tau1 : gridTau 4 2 1 = 3 := by norm_num [gridTau]

theorem tiny_trace (l : List (TPsi ℝ)) : fullTrace (ebEnv (tinyCode g).B (tinyCode g).p 4) l =
    trace (timeOrderedMat (0 : Matrix (Fin (2 ^ 1)) (Fin (2 ^ 1)) ℝ) tinyBase.op 4 l 0) := by
  change fullTrace (ebEnv tinyBase ⟨exactSolve, 2, 3⟩ 4) l = _
  have hl : IsLeast (eigenvaluesOf tinyBase.H) 0 := tiny_least
  rw [C57_exact tinyBase_lawful exactSolve_ok (by norm_num) hl (by
    intro μ hμ
    rw [(tiny_eig μ).1 hμ]; norm_num)]
  simp [tinyBase, impBaseOf]

theorem tiny_trace0 : fullTrace (ebEnv (tinyCode g).B (tinyCode g).p 4) [] = 2 := by
  rw [tiny_trace]
  simp [timeOrderedMat]

theorem tiny_trace1 (s t : OpTime ℝ) : fullTrace (ebEnv (tinyCode g).B (tinyCode g).p 4)
    [⟨s, .annihilation, 0⟩, ⟨t, .creation, 0⟩] = 1 := by
  rw [tiny_trace]
  have e : timeOrderedMat (0 : Matrix (Fin (2 ^ 1)) (Fin (2 ^ 1)) ℝ) tinyBase.op 4
      [⟨s, .annihilation, 0⟩, ⟨t, .creation, 0⟩] 0 = (cdagOp 1 0 * cOp 1 0).map (Int.cast : ℤ → ℝ) := by
    simp only [timeOrderedMat, smul_zero, NormedSpace.exp_zero, mul_one, one_mul, tinyBase, impBaseOf]
    exact (Matrix.map_mul (f := Int.castRingHom ℝ) (L := cdagOp 1 0) (M := cOp 1 0)).symm
  have h2 : trace (cdagOp 1 0 * cOp 1 0) = 1 := by decide
  have h3 : trace ((cdagOp 1 0 * cOp 1 0).map (Int.cast : ℤ → ℝ)) = ((trace (cdagOp 1 0 * cOp 1 0) : ℤ) : ℝ) := by
    simp [trace]
  rw [e, h3, h2, Int.cast_one]

theorem tiny_trace2 (s t : OpTime ℝ) : fullTrace (ebEnv (tinyCode g).B (tinyCode g).p 4)
    [⟨s, .creation, 0⟩, ⟨t, .annihilation, 0⟩] = 1 := by
  rw [tiny_trace]
  have e : timeOrderedMat (0 : Matrix (Fin (2 ^ 1)) (Fin (2 ^ 1)) ℝ) tinyBase.op 4
      [⟨s, .creation, 0⟩, ⟨t, .annihilation, 0⟩] 0 = (cOp 1 0 * cdagOp 1 0).map (Int.cast : ℤ → ℝ) := by
    simp only [timeOrderedMat, smul_zero, NormedSpace.exp_zero, mul_one, one_mul, tinyBase, impBaseOf]
    exact (Matrix.map_mul (f := Int.castRingHom ℝ) (L := cOp 1 0) (M := cdagOp 1 0)).symm
  have h2 : trace (cOp 1 0 * cdagOp 1 0) = 1 := by decide
  have h3 : trace ((cOp 1 0 * cdagOp 1 0).map (Int.cast : ℤ → ℝ)) = ((trace (cOp 1 0 * cdagOp 1 0) : ℤ) : ℝ) := by
    simp [trace]
  rw [e, h3, h2, Int.cast_one]

theorem tiny_sorted0 : (tinyCfg 0).sorted tinyMoves.tau (codeWops tinyMoves.tau) = [] := by
  have h := PCfg.sorted_perm (tau := tinyMoves.tau) (wops := codeWops tinyMoves.tau) (tinyCfg 0)
  have e : (tinyCfg 0).ops tinyMoves.tau (codeWops tinyMoves.tau) = [] := by
    simp [PCfg.ops, tinyCfg, codeWops, wormOps]
  rw [e] at h
  exact h.eq_nil

theorem tiny_sorted1 : (tinyCfg 1).sorted tinyMoves.tau (codeWops tinyMoves.tau) =
    [⟨⟨1, 0⟩, .creation, 0⟩, ⟨⟨3, 0⟩, .annihilation, 0⟩] := by
  refine sorted_unique (PCfg.sorted_sorted _ ?_) ?_ ((PCfg.sorted_perm _).trans ?_)
  · simp [PCfg.ops, tinyCfg, mkOp, codeWops, wormOps, tinyMoves, tiny_tau0, tiny_tau1]
  · simp [OpSet.Sorted, OpTime.lt_def]
  · simp [PCfg.ops, tinyCfg, mkOp, codeWops, wormOps, tinyMoves, tiny_tau0, tiny_tau1]

theorem tiny_sorted2 : (tinyCfg 2).sorted tinyMoves.tau (codeWops tinyMoves.tau) =
    [⟨⟨1, 0⟩, .annihilation, 0⟩, ⟨⟨3, 0⟩, .creation, 0⟩] := by
  refine sorted_unique (PCfg.sorted_sorted _ ?_) ?_ ((PCfg.sorted_perm _).trans ?_)
  · simp [PCfg.ops, tinyCfg, mkOp, codeWops, wormOps, tinyMoves, tiny_tau0, tiny_tau1]
  · simp [OpSet.Sorted, OpTime.lt_def]
  · simp only [PCfg.ops, tinyCfg, mkOp, codeWops, wormOps, tinyMoves, tiny_tau0, tiny_tau1, List.map_cons, List.map_nil,
      List.cons_append, List.nil_append, Option.map_none, List.append_nil]
    exact List.Perm.swap _ _ _

theorem tiny_signed (i : Fin 3) : signedW (tinyCode g) tinyMoves.tau (tinyCfg i) = if i = 0 then 2 else g := by
  unfold signedW CodeArgs.weight
  have hb : (tinyCode g).beta = 4 := rfl
  match i with
  | 0 =>
    rw [tiny_sorted0]
    rw [C05_perm_sign_value _ _ _ (by simp [tinyCfg]) (by simp [tinyCfg, codeWops, wormOps])]
    rw [hb, tiny_trace0, timeDet_eq _ _ _ (by simp [tinyCfg]) (by simp [tinyCfg]), listDet_eq _ _ _ 0 rfl rfl, Matrix.det_fin_zero]
    simp [tinyCfg, codeWops, wormOps, crossCount, outOfOrder, invs]
  | 1 =>
    rw [tiny_sorted1, C05_perm_sign_value _ _ _ (by simp [tinyCfg]) (by
      simp [tinyCfg, codeWops, wormOps, mkOp, tinyMoves, tiny_tau0, tiny_tau1])]
    rw [hb, tiny_trace2, timeDet_eq _ _ _ (by simp [tinyCfg]) (by simp [tinyCfg]), listDet_eq _ _ _ 1 rfl rfl, Matrix.det_fin_one]
    simp [tinyCfg, codeWops, wormOps, crossCount, outOfOrder, invs, mkOp, tinyMoves, tiny_tau0, tiny_tau1, tinyCode, tinyHyb,
      OpTime.lt_def]
  | 2 =>
    rw [tiny_sorted2, C05_perm_sign_value _ _ _ (by simp [tinyCfg]) (by
      simp [tinyCfg, codeWops, wormOps, mkOp, tinyMoves, tiny_tau0, tiny_tau1])]
    rw [hb, tiny_trace1, timeDet_eq _ _ _ (by simp [tinyCfg]) (by simp [tinyCfg]), listDet_eq _ _ _ 1 rfl rfl, Matrix.det_fin_one]
    simp [tinyCfg, codeWops, wormOps, crossCount, outOfOrder, invs, mkOp, tinyMoves, tiny_tau0, tiny_tau1, tinyCode, tinyHyb,
      OpTime.lt_def]

theorem tiny_good {g : ℝ} (hg : g ≠ 0) (i : Fin 3) : OnGrid (tinyCode g).P.nf tinyMoves.G tinyMoves.kinds (tinyCfg i) ∧
    (tinyCfg i).Good (tinyCode g) tinyMoves.tau (codeWops tinyMoves.tau) := by
  have hw : cfgW (tinyCode g) tinyMoves.tau (codeWops tinyMoves.tau) (tinyCfg i) ≠ 0 := by
    have h := tiny_signed g i
    intro h0
    unfold cfgW at h0
    rw [norm_eq_zero] at h0
    unfold signedW at h
    rw [h0, mul_zero] at h
    split_ifs at h
    · norm_num at h
    · exact hg h.symm
  match i with
  | 0 => exact ⟨⟨by simp [tinyCfg], by simp [tinyCfg], by simp [tinyCfg], by simp [tinyCfg], rfl, by simp [tinyCfg]⟩,
      by simp [PCfg.ops, tinyCfg, codeWops, wormOps], hw⟩
  | 1 => exact ⟨⟨by simp [tinyCfg], by simp [tinyCfg], by simp [tinyCfg, tinyMoves, tinyCode], by simp [tinyCfg, tinyMoves, tinyCode],
      rfl, by simp [tinyCfg]⟩, by simp [PCfg.ops, tinyCfg, mkOp, codeWops, wormOps, tinyMoves, tiny_tau0, tiny_tau1], hw⟩
  | 2 => exact ⟨⟨by simp [tinyCfg], by simp [tinyCfg], by simp [tinyCfg, tinyMoves, tinyCode], by simp [tinyCfg, tinyMoves, tinyCode],
      rfl, by simp [tinyCfg]⟩, by simp [PCfg.ops, tinyCfg, mkOp, codeWops, wormOps, tinyMoves, tiny_tau0, tiny_tau1], hw⟩

theorem tiny_reprs {g : ℝ} (hg : g ≠ 0) :
    Reprs (tinyCode g) tinyMoves.tau (codeWops tinyMoves.tau) (OnGrid (tinyCode g).P.nf tinyMoves.G tinyMoves.kinds) tinyCfg where
  mem := tiny_good hg
  inj := by
    intro i j h
    have h1 := h.1.length_eq
    have h2 := h.1
    fin_cases i <;> fin_cases j <;> simp_all [tinyCfg]
  all := by
    intro x hx hg
    have hw : x.worm = none := by
      cases e : x.worm with
      | none => rfl
      | some w => exact absurd (hx.worm w e).2.1 (by simp [tinyMoves])
    have hop : ∀ o : BOp ℤ, o.1 ∈ tinyMoves.G ∧ o.2 < (tinyCode g).P.nf → o = (0, 0) ∨ o = (1, 0) := by
      rintro ⟨t, f⟩ ⟨h1, h2⟩
      have h1' : 0 ≤ t ∧ t < 2 := by simpa [tinyMoves] using h1
      have h2' : f = 0 := by simpa [tinyCode] using h2
      obtain ⟨h3, h4⟩ := h1'
      subst h2'
      interval_cases t <;> simp
    obtain ⟨cd, c, w⟩ := x
    simp only at hw
    subst hw
    have hl : cd.length = c.length := hx.order
    have hcd : ∀ o ∈ cd, o = (0, 0) ∨ o = (1, 0) := fun o h => hop o (hx.cd_mem o h)
    have hc : ∀ o ∈ c, o = (0, 0) ∨ o = (1, 0) := fun o h => hop o (hx.c_mem o h)
    have hnd : ∀ o ∈ cd, o ∉ c := by
      intro o h1 h2
      have h := hg.nodup
      simp only [PCfg.ops, List.map_append, List.map_map] at h
      rw [List.append_assoc, List.nodup_append'] at h
      refine h.2.2 (List.mem_map.2 ⟨o, h1, rfl⟩)
        (List.mem_append_left _ (List.mem_map.2 ⟨o, h2, rfl⟩))
    have n1 : cd.Nodup := hx.cd_nodup
    have n2 : c.Nodup := hx.c_nodup
    match cd, c, hl with
    | [], [], _ => exact ⟨0, List.Perm.refl _, List.Perm.refl _, rfl⟩
    | [o], [o'], _ =>
      have a1 := hcd o (by simp)
      have a2 := hc o' (by simp)
      have a3 := hnd o (by simp)
      rcases a1 with rfl | rfl <;> rcases a2 with rfl | rfl
      · simp at a3
      · exact ⟨1, List.Perm.refl _, List.Perm.refl _, rfl⟩
      · exact ⟨2, List.Perm.refl _, List.Perm.refl _, rfl⟩
      · simp at a3
    | o :: p :: l, o' :: p' :: l', _ =>
      exfalso
      have a1 := hcd o (by simp)
      have a2 := hcd p (by simp)
      have a3 := hc o' (by simp)
      have a4 : o ≠ p := by
        intro e
        simp [e] at n1
      have a5 := hnd o (by simp)
      have a6 := hnd p (by simp)
      rcases a1 with rfl | rfl <;> rcases a2 with rfl | rfl <;> rcases a3 with rfl | rfl <;> simp_all
  same := by
    intro x y h hx
    exact ⟨h.1.nodup_iff.1 hx.cd_nodup, h.2.1.nodup_iff.1 hx.c_nodup, fun o ho => hx.cd_mem o (h.1.mem_iff.2 ho),
      fun o ho => hx.c_mem o (h.2.1.mem_iff.2 ho), by rw [← h.1.length_eq, ← h.2.1.length_eq, hx.order],
      fun w hw => hx.worm w (h.2.2.trans hw)⟩

theorem tiny_setup {g : ℝ} (hg : g ≠ 0) : ∃ (s : Fin 3 → CodeState (tinyCode g) (Option (Worm ℤ)))
    (rd : CodeState (tinyCode g) (Option (Worm ℤ)) → WCfg ℤ),
    LoopSetup (tinyCode g) tinyMoves 2 tinyCfg rd 1 true [] (Rand.ret [(1, []), (1, [])]) ⟨2, 0, true, 1⟩ s := by
  have hR := tiny_reprs hg
  obtain ⟨rd, hrd⟩ := exists_reader (tinyCode g) tinyMoves.tau
  have hst := fun i => C61_states (tinyCode_ok g) (tinyMoves_ok g) (n := 1) (by norm_num) (hR.mem i).1 (hR.mem i).2
  choose s h1 h2 h3 using hst
  refine ⟨s, rd, tinyCode_ok g, tinyMoves_ok g, hR, hrd, tiny_loop g, by rw [mean_ret], ?_,
    ⟨by norm_num, rfl, by norm_num, by norm_num⟩, h1, fun i => by rw [winOf_eq, h3], h2, 0, rfl⟩
  intro q hq
  have : q = (1, [(1, []), (1, [])]) := by simpa [Rand.ret] using hq
  subst this
  intro p hp
  have hp' : p = (1, []) := by simpa using hp
  subst hp'
  exact ⟨by norm_num, fun v hv => by simp at hv⟩

theorem tiny_kIn {u : ℝ} (h0 : 0 ≤ u) (h1 : u < 1) (i : Fin 3) :
    (kIn tinyMoves.tau 4 (1 / 2 * 4 * u) (tinyCfg i) * kOut tinyMoves.tau 4 (1 / 2 * 4 * u) (tinyCfg i) : ℝ) = if i = 0 then 0 else 1 := by
  have a1 : (1 / 2 * 4 * u ≤ 3) := by linarith
  have a2 : (1 < 1 / 2 * 4 * u + 4 / 2) := by linarith
  match i with
  | 0 => simp [kIn, kOut, PCfg.ops, tinyCfg, codeWops, wormOps]
  | 1 =>
    by_cases hu : u ≤ 1 / 2
    · have a3 : 1 / 2 * 4 * u ≤ 1 := by linarith
      have a4 : ¬ 3 < 1 / 2 * 4 * u + 4 / 2 := by linarith
      simp only [kIn, kOut, PCfg.ops, tinyCfg, codeWops, wormOps, mkOp, tinyMoves, tiny_tau0, tiny_tau1, List.map_cons, List.map_nil,
        List.cons_append, List.nil_append, Option.map_none, List.append_nil, List.countP_cons, List.countP_nil, a1, a2, a3, a4]
      simp
    · have a3 : ¬ 1 / 2 * 4 * u ≤ 1 := by linarith
      have a4 : 3 < 1 / 2 * 4 * u + 4 / 2 := by linarith
      simp only [kIn, kOut, PCfg.ops, tinyCfg, codeWops, wormOps, mkOp, tinyMoves, tiny_tau0, tiny_tau1, List.map_cons, List.map_nil,
        List.cons_append, List.nil_append, Option.map_none, List.append_nil, List.countP_cons, List.countP_nil, a1, a2, a3, a4]
      simp
  | 2 =>
    by_cases hu : u ≤ 1 / 2
    · have a3 : 1 / 2 * 4 * u ≤ 1 := by linarith
      have a4 : ¬ 3 < 1 / 2 * 4 * u + 4 / 2 := by linarith
      simp only [kIn, kOut, PCfg.ops, tinyCfg, codeWops, wormOps, mkOp, tinyMoves, tiny_tau0, tiny_tau1, List.map_cons, List.map_nil,
        List.cons_append, List.nil_append, Option.map_none, List.append_nil, List.countP_cons, List.countP_nil, a1, a2, a3, a4]
      simp
    · have a3 : ¬ 1 / 2 * 4 * u ≤ 1 := by linarith
      have a4 : 3 < 1 / 2 * 4 * u + 4 / 2 := by linarith
      simp only [kIn, kOut, PCfg.ops, tinyCfg, codeWops, wormOps, mkOp, tinyMoves, tiny_tau0, tiny_tau1, List.map_cons, List.map_nil,
        List.cons_append, List.nil_append, Option.map_none, List.append_nil, List.countP_cons, List.countP_nil, a1, a2, a3, a4]
      simp

theorem tiny_sum (f : Fin 3 → ℝ) : zSumOf (4 / (2 : ℕ)) tinyCfg f = f 0 + f 1 * 4 + f 2 * 4 := by
  unfold zSumOf
  rw [Fin.sum_univ_three]
  norm_num [tinyCfg, bathDim]

theorem tiny_zSum : zSum (tinyCode g) tinyMoves.tau (4 / (2 : ℕ)) tinyCfg = 2 + 8 * g := by
  change zSumOf (4 / (2 : ℕ)) tinyCfg (fun j => RCLike.re (signedW (tinyCode g) tinyMoves.tau (tinyCfg j))) = _
  rw [tiny_sum]
  simp only [tiny_signed, RCLike.re_to_real]
  simp
  ring

theorem tiny_cfgW (i : Fin 3) : cfgW (tinyCode g) tinyMoves.tau (codeWops tinyMoves.tau) (tinyCfg i) = |if i = 0 then 2 else g| := by
  have h := congrArg (fun x : ℝ => ‖x‖) (tiny_signed g i)
  simp only [signedW, norm_mul] at h
  have hp : ∀ z : ℤ, z = 1 ∨ z = -1 → ‖((z : ℤ) : ℝ)‖ = 1 := by
    rintro z (rfl | rfl) <;> simp
  rw [hp _ (by unfold permSignImpl; exact combSortSign_pm _), one_mul, Real.norm_eq_abs, Real.norm_eq_abs] at h
  exact h

/-- `C67_fidelity_partial` with a positive hybridization function: all signs are `1`. -/
example : ∃ (s : Fin 3 → CodeState (tinyCode (1 / 8)) (Option (Worm ℤ))) (rd : CodeState (tinyCode (1 / 8)) (Option (Worm ℤ)) → WCfg ℤ),
    let E := loopMean (tinyCode (1 / 8)) tinyMoves 2 rd 1 1 true true [] 0 (Rand.ret [(1, []), (1, [])]) tinyCfg s
    fidelityOf (E (fun s => inZ s * ∫ u in Set.Ico (0 : ℝ) 1, RCLike.re (recordKLKR (tinyCode (1 / 8)) u s.1)) / E inZ)
        (E (fun s => inZ s * RCLike.re (recordK (tinyCode (1 / 8)) s.1)) / E inZ)
        (E (fun s => inZ s * RCLike.im (recordK (tinyCode (1 / 8)) s.1)) / E inZ) =
      ∫ u in Set.Ico (0 : ℝ) 1, fidelityAt (tinyCode (1 / 8)) tinyMoves.tau (4 / (2 : ℕ)) tinyCfg (1 / 2 * 4 * u) := by
  obtain ⟨s, rd, L⟩ := tiny_setup (g := 1 / 8) (by norm_num)
  have hl : IsLeast (eigenvaluesOf (tinyCode (1 / 8)).B.H) 0 := tiny_least
  refine ⟨s, rd, C67_fidelity_partial L 1 true 0 (by norm_num) (tinyCode_anti _) hl ?_ ?_⟩
  · intro μ hμ
    rw [(tiny_eig μ).1 hμ]
    norm_num [tinyCode, twoParams]
  · intro j _
    rw [tiny_signed, tiny_cfgW, abs_of_nonneg (by split_ifs <;> norm_num)]
    rfl

/-- **C67, fidelity susceptibility: it is wrong if there are signs.**  One level without energy, two times, hybridization function `-1/8`
for positive time differences, continued antiperiodically: three configurations with the terms `2`, `-1/8`, `-1/8`.  All demands of
`C67_fidelity_partial` but the positivity are met and the partition function is `1`; the fidelity susceptibility is `-1`, the
postprocessing gives `-2/9`: the means of `kLkR` and `k` are not divided by the mean of the sign. -/
theorem C67_fidelity_violated : ∃ (A : CodeArgs ℝ (2 ^ 1)) (a : MoveArgs) (M nStd : ℕ) (c : Fin 3 → WCfg ℤ)
    (s : Fin 3 → CodeState A (Option (Worm ℤ))) (rd : CodeState A (Option (Worm ℤ)) → WCfg ℤ)
    (plan : Rand ℝ (List (ℕ × List (List ℕ)))) (st : SavedState) (h : ℕ → ℕ → ℝ → ℝ) (E0 : ℝ),
    LoopSetup A a M c rd nStd true [] plan st s ∧ AntiPer A h ∧ IsLeast (eigenvaluesOf A.B.H) E0 ∧
    (∀ μ ∈ eigenvaluesOf A.B.H, μ ≤ E0 + min A.p.inner A.p.outer) ∧ M < 2 ^ 16 ∧ zSum A a.tau (A.beta / M) c = 1 ∧
    ∀ (nGlobal : ℕ) (fl : Bool) (k : ℕ),
    let E := loopMean A a M rd nStd nGlobal fl true [] k plan c s
    fidelityOf (E (fun s => inZ s * ∫ u in Set.Ico (0 : ℝ) 1, RCLike.re (recordKLKR A u s.1)) / E inZ)
        (E (fun s => inZ s * RCLike.re (recordK A s.1)) / E inZ) (E (fun s => inZ s * RCLike.im (recordK A s.1)) / E inZ) = -2 / 9 ∧
      ∫ u in Set.Ico (0 : ℝ) 1, fidelityAt A a.tau (A.beta / M) c (1 / 2 * A.beta * u) = -1 := by
  obtain ⟨s, rd, L⟩ := tiny_setup (g := -1 / 8) (by norm_num)
  have hl : IsLeast (eigenvaluesOf (tinyCode (-1 / 8)).B.H) 0 := tiny_least
  have hcut : ∀ μ ∈ eigenvaluesOf (tinyCode (-1 / 8)).B.H, μ ≤ 0 + min (tinyCode (-1 / 8)).p.inner (tinyCode (-1 / 8)).p.outer := by
    intro μ hμ
    rw [(tiny_eig μ).1 hμ]
    norm_num [tinyCode, twoParams]
  have hz : zSum (tinyCode (-1 / 8)) tinyMoves.tau ((tinyCode (-1 / 8)).beta / (2 : ℕ)) tinyCfg = 1 := by
    change zSum (tinyCode (-1 / 8)) tinyMoves.tau (4 / (2 : ℕ)) tinyCfg = 1
    rw [tiny_zSum]; norm_num
  refine ⟨tinyCode (-1 / 8), tinyMoves, 2, 1, tinyCfg, s, rd, _, _, tinyHyb (-1 / 8), 0, L, tinyCode_anti _, hl, hcut,
    by norm_num, hz, ?_⟩
  intro nGlobal fl k E
  have n1 : (1 : Fin 3) ≠ 0 := by decide
  have n2 : (2 : Fin 3) ≠ 0 := by decide
  obtain ⟨h1, h2, h3⟩ := C67_fidelity_values L nGlobal fl k (by norm_num) (tinyCode_anti _) hl hcut (by rw [hz]; norm_num)
  have hS : E (fun s => inZ s * RCLike.re s.1.cfg.sign) / E inZ = 1 / 3 := by
    have e := loopMean_inZ L nGlobal fl k (fun s => RCLike.re s.1.cfg.sign)
      (fun j => RCLike.re (signedW (tinyCode (-1 / 8)) tinyMoves.tau (tinyCfg j)))
      (fun s hs j hj _ => by rw [← weight_sign L.code hs hj, RCLike.re_ofReal_mul])
    change E _ / E inZ = zSum (tinyCode (-1 / 8)) tinyMoves.tau ((tinyCode (-1 / 8)).beta / (2 : ℕ)) tinyCfg / _ at e
    rw [e, hz]
    change 1 / zSumOf (4 / (2 : ℕ)) tinyCfg _ = _
    rw [tiny_sum]
    simp only [tiny_cfgW, n1, n2, if_true, if_false]
    norm_num [abs_of_neg, abs_of_pos]
  have hI : E (fun s => inZ s * RCLike.im (recordK (tinyCode (-1 / 8)) s.1)) / E inZ = 0 := by
    have e := loopMean_inZ L nGlobal fl k (fun s => RCLike.im (recordK (tinyCode (-1 / 8)) s.1)) (fun _ => 0)
      (fun s _ j _ _ => by simp)
    change E _ / E inZ = _ at e
    rw [e, show zSumOf ((tinyCode (-1 / 8)).beta / (2 : ℕ)) tinyCfg (fun _ => 0) = 0 by simp [zSumOf], zero_div]
  have hK1 : zSumOf ((tinyCode (-1 / 8)).beta / (2 : ℕ)) tinyCfg (fun j =>
      RCLike.re (signedW (tinyCode (-1 / 8)) tinyMoves.tau (tinyCfg j)) *
        ((tinyCfg j).ops tinyMoves.tau (codeWops tinyMoves.tau)).length) = -2 := by
    change zSumOf (4 / (2 : ℕ)) tinyCfg _ = _
    rw [tiny_sum]
    simp only [tiny_signed, RCLike.re_to_real, n1, n2, if_true, if_false]
    norm_num [PCfg.ops, tinyCfg, codeWops, wormOps]
  have hK2 : ∫ u in Set.Ico (0 : ℝ) 1, zSumOf ((tinyCode (-1 / 8)).beta / (2 : ℕ)) tinyCfg (fun j =>
      RCLike.re (signedW (tinyCode (-1 / 8)) tinyMoves.tau (tinyCfg j)) *
      (kIn tinyMoves.tau (tinyCode (-1 / 8)).beta (1 / 2 * (tinyCode (-1 / 8)).beta * u) (tinyCfg j) *
        kOut tinyMoves.tau (tinyCode (-1 / 8)).beta (1 / 2 * (tinyCode (-1 / 8)).beta * u) (tinyCfg j))) /
      zSum (tinyCode (-1 / 8)) tinyMoves.tau ((tinyCode (-1 / 8)).beta / (2 : ℕ)) tinyCfg = -1 := by
    rw [setIntegral_congr_fun measurableSet_Ico (g := fun _ => (-1 : ℝ))]
    · simp
    · intro u hu
      simp only
      rw [hz, div_one]
      change zSumOf (4 / (2 : ℕ)) tinyCfg (fun j => RCLike.re (signedW (tinyCode (-1 / 8)) tinyMoves.tau (tinyCfg j)) *
        (kIn tinyMoves.tau 4 (1 / 2 * 4 * u) (tinyCfg j) * kOut tinyMoves.tau 4 (1 / 2 * 4 * u) (tinyCfg j) : ℝ)) = -1
      rw [tiny_sum, tiny_kIn hu.1 hu.2, tiny_kIn hu.1 hu.2, tiny_kIn hu.1 hu.2]
      simp only [tiny_signed, RCLike.re_to_real, n1, n2, if_true, if_false]
      norm_num
  change E _ / E inZ = E _ / E inZ * _ at h1
  change E _ / E inZ = E _ / E inZ * _ at h2
  rw [hS, hK2] at h1
  rw [hS, hK1, hz] at h2
  rw [hK2, hK1, hz] at h3
  refine ⟨?_, ?_⟩
  · rw [h1, h2, hI]
    norm_num [fidelityOf]
  · rw [h3]
    norm_num

end CTHyb
