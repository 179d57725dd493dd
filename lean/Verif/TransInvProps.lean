import Verif.TransInv

/-! C58: a global shift of all operators leaves the weight of a model without truncation unchanged. -/

namespace CTHyb

open Matrix

/-! ### Determinant and permutation sign -/

section sign

variable {R K : Type} [Field R] [LinearOrder R] [IsStrictOrderedRing R] [CommRing K]

/-- Specification: matrix elements between shifted operators change sign if exactly one of the two
operators is moved across β. -/
def ShiftSign (beta s : R) (G : TPsi R → TPsi R → K) : Prop :=
  ∀ a b : TPsi R, 0 < a.time.time → a.time.time ≤ beta → 0 < b.time.time → b.time.time ≤ beta →
    G (shiftOp beta s a) (shiftOp beta s b) =
      (if wraps beta s a then -1 else 1) * (if wraps beta s b then -1 else 1) * G a b

/-- **C58, hybridization.**  The hybridization function of the code has this property: it depends on
the difference of the times only and is continued antiperiodically. -/
theorem C58_hybridization [FloorRing R] [Module R K] {beta : R} (hb : 0 < beta) (s : R) (ntau : ℕ) (hn : 0 < ntau) (F : ℕ → ℕ → ℕ → K) :
    ShiftSign beta s (hybG beta ntau F) := by
  intro a b ha0 ha1 hb0 hb1
  have fl : ∀ o : TPsi R, (shiftOp beta s o).flavor = o.flavor := fun _ => rfl
  have dep : ∀ (f : ℕ → K) {x y x' y' : R}, x - y = x' - y' →
      hybEval beta ntau f x y = hybEval beta ntau f x' y' := by
    intro f x y x' y' h
    unfold hybEval
    rw [h]
  unfold hybG
  rw [fl, fl]
  rcases h1 : wraps beta s a with _ | _ <;> rcases h2 : wraps beta s b with _ | _
  · rw [shiftOp_time_not_wraps h1, shiftOp_time_not_wraps h2,
      dep _ (show a.time.time + s - (b.time.time + s) = a.time.time - b.time.time by ring)]
    simp
  · rw [shiftOp_time_not_wraps h1, shiftOp_time_wraps h2]
    simp only [wraps, decide_eq_false_iff_not, decide_eq_true_eq, not_lt] at h1 h2
    obtain ⟨y, e1, e2⟩ := C33_antiperiodic hb ntau hn (F a.flavor b.flavor)
      (tc := a.time.time) (tcd := b.time.time) (tc' := a.time.time + s)
      (tcd' := b.time.time + s - beta) (by linarith) (by linarith) (by linarith) (by linarith) (by ring)
    rw [e1, e2]
    simp
  · rw [shiftOp_time_wraps h1, shiftOp_time_not_wraps h2]
    simp only [wraps, decide_eq_false_iff_not, decide_eq_true_eq, not_lt] at h1 h2
    obtain ⟨y, e1, e2⟩ := C33_antiperiodic hb ntau hn (F a.flavor b.flavor)
      (tc := a.time.time + s - beta) (tcd := b.time.time + s) (tc' := a.time.time)
      (tcd' := b.time.time) (by linarith) (by linarith) (by linarith) (by linarith) (by ring)
    rw [e1, e2]
    simp
  · rw [shiftOp_time_wraps h1, shiftOp_time_wraps h2,
      dep _ (show a.time.time + s - beta - (b.time.time + s - beta) = a.time.time - b.time.time by ring)]
    simp

omit [IsStrictOrderedRing R] in
theorem prod_wraps (beta s : R) (l : List (TPsi R)) :
    ∏ i : Fin l.length, (if wraps beta s (l.get i) then (-1 : K) else 1) = (-1) ^ wrapCount beta s l := by
  induction l with
  | nil => simp [wrapCount]
  | cons a l ih =>
    have e : ∏ i : Fin (a :: l).length, (if wraps beta s ((a :: l).get i) then (-1 : K) else 1) =
        (if wraps beta s a then -1 else 1) *
          ∏ i : Fin l.length, (if wraps beta s (l.get i) then (-1 : K) else 1) := Fin.prod_univ_succ _
    rw [e, ih]
    simp only [wrapCount, List.countP_cons]
    rcases wraps beta s a with _ | _
    · simp
    · simp [pow_succ]

omit [IsStrictOrderedRing R] in
theorem shift_listDet {beta s : R} {G : TPsi R → TPsi R → K} (hG : ShiftSign beta s G)
    (cs cds : List (TPsi R)) (h1 : InRange beta cs) (h2 : InRange beta cds) :
    listDet G (cs.map (shiftOp beta s)) (cds.map (shiftOp beta s)) =
      (-1) ^ (wrapCount beta s cs + wrapCount beta s cds) * listDet G cs cds := by
  by_cases h : cds.length = cs.length
  · rw [listDet_eq G cs cds cs.length rfl h,
      listDet_eq G (cs.map (shiftOp beta s)) (cds.map (shiftOp beta s)) cs.length (by simp) (by simpa using h)]
    have hM : (Matrix.of fun i j : Fin cs.length =>
        G ((cs.map (shiftOp beta s)).get (i.cast (by simp)))
          ((cds.map (shiftOp beta s)).get (j.cast (by simpa using h.symm)))) =
        Matrix.of fun i j : Fin cs.length => (if wraps beta s (cs.get i) then (-1 : K) else 1) *
          (Matrix.of fun i j : Fin cs.length => (if wraps beta s (cds.get (j.cast h.symm)) then (-1 : K) else 1) *
            (Matrix.of fun i j : Fin cs.length => G (cs.get i) (cds.get (j.cast h.symm))) i j) i j := by
      ext i j
      simp only [of_apply, List.get_eq_getElem, List.getElem_map, Fin.val_cast]
      have ha := h1 _ (List.getElem_mem i.isLt)
      have hb := h2 (cds[j.val]'(by omega)) (List.getElem_mem _)
      rw [hG _ _ ha.1 ha.2 hb.1 hb.2, mul_assoc]
    have e2 : ∏ j : Fin cs.length, (if wraps beta s (cds.get (j.cast h.symm)) then (-1 : K) else 1) =
        (-1) ^ wrapCount beta s cds := by
      rw [← prod_wraps]
      exact Fintype.prod_equiv (finCongr h.symm) _ _ fun _ => rfl
    rw [hM, det_mul_column, det_mul_row, prod_wraps, e2, pow_add, mul_assoc]
    rfl
  · unfold listDet
    rw [dif_neg h, dif_neg (by simpa using h), mul_zero]

omit [Field R] [IsStrictOrderedRing R] in
theorem invs_parity (l : List (OpTime R)) (hl : l.Nodup) :
    ((invs l : ℕ) : ZMod 2) = (outOfOrder l : ℕ) + (l.length.choose 2 : ℕ) := by
  induction l with
  | nil => simp [invs, outOfOrder]
  | cons x l ih =>
    rw [List.nodup_cons] at hl
    have h := countP_lt_add l x hl.1
    have h2 : (l.length : ZMod 2) = _ := congrArg (Nat.cast : ℕ → ZMod 2) h.symm
    have two : (1 : ZMod 2) + 1 = 0 := by decide
    rw [invs, outOfOrder, List.length_cons, Nat.choose_succ_succ' l.length 1, Nat.choose_one_right]
    push_cast
    rw [ih hl.2, h2]
    push_cast
    linear_combination (-(l.countP (fun y => decide (x < y)) : ZMod 2)) * two

theorem shift_nodup {beta s : R} {l : List (TPsi R)} (h : InRange beta l)
    (hn : (l.map Psi.time).Nodup) : ((l.map (shiftOp beta s)).map Psi.time).Nodup := by
  rw [List.map_map]
  rw [List.Nodup, List.pairwise_map] at hn ⊢
  refine hn.imp_of_mem ?_
  intro a b ha hb hne he
  have h1 := shiftOp_lt (s := s) (h a ha) (h b hb)
  have h2 := shiftOp_lt (s := s) (h b hb) (h a ha)
  simp only [Function.comp] at he
  rw [he] at h1 h2
  by_cases hw : wraps beta s a = wraps beta s b
  · rw [if_pos hw] at h1
    rw [if_pos hw.symm] at h2
    exact hne (le_antisymm (not_lt.1 fun h => lt_irrefl _ (h2.2 h)) (not_lt.1 fun h => lt_irrefl _ (h1.2 h)))
  · rw [if_neg hw] at h1
    rw [if_neg (Ne.symm hw)] at h2
    exact lt_asymm (not_not.1 fun h => lt_irrefl _ (h1.2 h)) (not_not.1 fun h => lt_irrefl _ (h2.2 h))

theorem neg_one_pow_congr_ring {a b : ℕ} (h : (a : ZMod 2) = b) : (-1 : K) ^ a = (-1) ^ b := by
  rw [ZMod.natCast_eq_natCast_iff] at h
  rw [neg_one_pow_eq_pow_mod_two a, neg_one_pow_eq_pow_mod_two b, h]

/-- Up to its sign the time-ordered determinant is invariant under the shift. -/
theorem shift_timeDet {beta s : R} {G : TPsi R → TPsi R → K} (hG : ShiftSign beta s G)
    (cs cds : List (TPsi R)) (h1 : InRange beta cs) (h2 : InRange beta cds)
    (n1 : (cs.map Psi.time).Nodup) (n2 : (cds.map Psi.time).Nodup) :
    ∃ k : ℕ, timeDet G (cs.map (shiftOp beta s)) (cds.map (shiftOp beta s)) =
      (-1) ^ k * timeDet G cs cds := by
  rw [timeDet_eq G cs cds n1 n2, timeDet_eq G _ _ (shift_nodup h1 n1) (shift_nodup h2 n2),
    shift_listDet hG cs cds h1 h2]
  have hsq : ∀ m : ℕ, ((-1 : K) ^ m) * (-1) ^ m = 1 := fun m => by
    rw [← mul_pow]; simp
  refine ⟨(invs ((cs.map (shiftOp beta s)).map Psi.time) + invs ((cds.map (shiftOp beta s)).map Psi.time)) +
    (wrapCount beta s cs + wrapCount beta s cds) + (invs (cs.map Psi.time) + invs (cds.map Psi.time)), ?_⟩
  generalize listDet G cs cds = D
  generalize wrapCount beta s cs + wrapCount beta s cds = w
  have e := hsq (invs (cs.map Psi.time) + invs (cds.map Psi.time))
  generalize invs (cs.map Psi.time) + invs (cds.map Psi.time) = k at *
  rw [pow_add, pow_add]
  linear_combination (-((-1 : K) ^ (invs ((cs.map (shiftOp beta s)).map Psi.time) +
    invs ((cds.map (shiftOp beta s)).map Psi.time)) * (-1) ^ w * D)) * e

/-- **C58, determinant and permutation sign.**  The time-ordered determinant times the permutation
sign of the configuration changes by −1 for every worm operator moved across β, and not at all by
hybridized operators. -/
theorem C58_signed_det {beta s : R} {G : TPsi R → TPsi R → K}
    (hG : ShiftSign beta s G) (cs cds worm : List (TPsi R)) (hlen : cs.length = cds.length)
    (hw : Even worm.length) (hr : InRange beta (cs ++ cds ++ worm))
    (hn : ((cs ++ cds ++ worm).map Psi.time).Nodup) :
    let f := shiftOp beta s
    (permSignImpl (cds.map f) (cs.map f) (worm.map f) : K) * timeDet G (cs.map f) (cds.map f) =
      (-1) ^ (worm.countP (wraps beta s)) * ((permSignImpl cds cs worm : K) * timeDet G cs cds) := by
  intro f
  have hr1 : InRange beta cs := fun o ho => hr o (by simp [ho])
  have hr2 : InRange beta cds := fun o ho => hr o (by simp [ho])
  have hr3 : InRange beta worm := fun o ho => hr o (by simp [ho])
  have hr12 : InRange beta (cs ++ cds) := fun o ho => hr o (by
    rcases List.mem_append.1 ho with h | h <;> simp [h])
  have hn' : (((cs ++ cds ++ worm).map f).map Psi.time).Nodup := shift_nodup hr hn
  have e1 := C05_perm_sign_value cds cs worm hlen (by simpa using hn)
  have e2 := C05_perm_sign_value (cds.map f) (cs.map f) (worm.map f) (by simpa using hlen)
    (by simpa using hn')
  have n1 : (cs.map Psi.time).Nodup := by
    rw [List.map_append, List.map_append] at hn
    exact (List.nodup_append.1 (List.nodup_append.1 hn).1).1
  have n2 : (cds.map Psi.time).Nodup := by
    rw [List.map_append, List.map_append] at hn
    exact (List.nodup_append.1 (List.nodup_append.1 hn).1).2.1
  rw [timeDet_eq G cs cds n1 n2, timeDet_eq G (cs.map f) (cds.map f) (shift_nodup hr1 n1)
    (shift_nodup hr2 n2), shift_listDet hG cs cds hr1 hr2, e1, e2]
  push_cast
  rw [← mul_assoc, ← mul_assoc, ← mul_assoc, ← mul_assoc, ← pow_add, ← pow_add, ← pow_add, ← pow_add]
  congr 1
  apply neg_one_pow_congr_ring
  have two : (1 : ZMod 2) + 1 = 0 := by decide
  have s1 := invs_parity _ n1
  have s2 := invs_parity _ n2
  have s3 := invs_parity _ (shift_nodup (s := s) hr1 n1)
  have s4 := invs_parity _ (shift_nodup (s := s) hr2 n2)
  have t1 := shift_outOfOrder (s := s) cs hr1
  have t2 := shift_outOfOrder (s := s) cds hr2
  have t3 := shift_outOfOrder (s := s) worm hr3
  have t4 := shift_crossCount (s := s) cs cds hr1 hr2
  have t5 := shift_crossCount (s := s) (cs ++ cds) worm hr12 hr3
  have hwl : (worm.length : ZMod 2) = 0 := (ZMod.natCast_eq_zero_iff_even).2 hw
  simp only [List.length_map, List.map_append, wrapCount, List.countP_append, List.length_append] at *
  push_cast at *
  rw [s3, s4, s1, s2, t1, t2, t3, t4, t5, hwl, hlen]
  linear_combination (((cds.length : ZMod 2) + 1) * ((cs.countP (wraps beta s) : ZMod 2) +
    (cds.countP (wraps beta s) : ZMod 2)) + (cds.length : ZMod 2) * (worm.countP (wraps beta s) : ZMod 2)) * two

end sign

/-! ### Trace -/

section trace

variable {𝕜 : Type} [RCLike 𝕜] {N : ℕ}

theorem exp_smul_mul (H : Matrix (Fin N) (Fin N) 𝕜) (x y : ℝ) :
    NormedSpace.exp (((x : ℝ) : 𝕜) • H) * NormedSpace.exp (((y : ℝ) : 𝕜) • H) =
      NormedSpace.exp (((x + y : ℝ) : 𝕜) • H) := by
  rw [← Matrix.exp_add_of_commute _ _ (((Commute.refl H).smul_left _).smul_right _), ← add_smul]
  push_cast
  rfl

theorem timeOrderedMat_start (H : Matrix (Fin N) (Fin N) 𝕜) (O : OpType → ℕ → Matrix (Fin N) (Fin N) 𝕜)
    (c m a : ℝ) (l : List (TPsi ℝ)) :
    timeOrderedMat H O c l m * NormedSpace.exp (((-(m - a) : ℝ) : 𝕜) • H) = timeOrderedMat H O c l a := by
  cases l with
  | nil =>
    simp only [timeOrderedMat]
    rw [exp_smul_mul]
    congr 4; ring
  | cons o l =>
    simp only [timeOrderedMat]
    rw [Matrix.mul_assoc, exp_smul_mul]
    congr 5; ring

theorem timeOrderedMat_append (H : Matrix (Fin N) (Fin N) 𝕜) (O : OpType → ℕ → Matrix (Fin N) (Fin N) 𝕜)
    (c m : ℝ) (l1 l2 : List (TPsi ℝ)) (a : ℝ) :
    timeOrderedMat H O c (l1 ++ l2) a = timeOrderedMat H O c l2 m * timeOrderedMat H O m l1 a := by
  induction l1 generalizing a with
  | nil =>
    simp only [List.nil_append, timeOrderedMat]
    rw [timeOrderedMat_start]
  | cons o l1 ih =>
    simp only [List.cons_append, timeOrderedMat]
    rw [ih]
    simp only [Matrix.mul_assoc]

theorem timeOrderedMat_shift_time (H : Matrix (Fin N) (Fin N) 𝕜)
    (O : OpType → ℕ → Matrix (Fin N) (Fin N) 𝕜) (f : TPsi ℝ → TPsi ℝ) (u c : ℝ) (l : List (TPsi ℝ)) (a : ℝ)
    (hf : ∀ o ∈ l, (f o).type = o.type ∧ (f o).flavor = o.flavor ∧ (f o).time.time = o.time.time + u) :
    timeOrderedMat H O (c + u) (l.map f) (a + u) = timeOrderedMat H O c l a := by
  induction l generalizing a with
  | nil =>
    simp only [List.map_nil, timeOrderedMat]
    congr 4; ring
  | cons o l ih =>
    obtain ⟨h1, h2, h3⟩ := hf o (by simp)
    simp only [List.map_cons, timeOrderedMat]
    rw [h1, h2, h3, ih _ fun o ho => hf o (by simp [ho])]
    congr 5; ring

/-- The operators in time order after the shift: first those moved across β. -/
theorem timeSort_shift {R : Type} [Field R] [LinearOrder R] [IsStrictOrderedRing R] {beta s : R}
    {ops : List (TPsi R)} (hs : OpSet.Sorted ops) (hr : InRange beta ops) :
    timeSort (ops.map (shiftOp beta s)) =
      (ops.filter (wraps beta s)).map (shiftOp beta s) ++
        (ops.filter fun o => !wraps beta s o).map (shiftOp beta s) := by
  symm
  apply sorted_eq_timeSort
  · have hmap : ∀ q : TPsi R → Bool, (∀ a b, q a = true → q b = true → wraps beta s a = wraps beta s b) →
        ((ops.filter q).map (shiftOp beta s)).Pairwise fun a b => a.time < b.time := by
      intro q hq
      rw [List.pairwise_map]
      refine (List.Pairwise.filter q hs).imp_of_mem ?_
      intro a b ha hb hab
      rw [List.mem_filter] at ha hb
      rw [shiftOp_lt (hr a ha.1) (hr b hb.1), if_pos (hq a b ha.2 hb.2)]
      exact hab
    refine List.pairwise_append.2 ⟨hmap _ fun a b h1 h2 => by rw [h1, h2],
      hmap _ fun a b h1 h2 => by simp only [Bool.not_eq_true'] at h1 h2; rw [h1, h2], ?_⟩
    intro x hx y hy
    obtain ⟨a, ha, rfl⟩ := List.mem_map.1 hx
    obtain ⟨b, hb, rfl⟩ := List.mem_map.1 hy
    rw [List.mem_filter] at ha hb
    have h2 : wraps beta s b = false := by simpa using hb.2
    rw [OpTime.lt_def, shiftOp_time_wraps ha.2, shiftOp_time_not_wraps h2]
    left
    have := (hr a ha.1).2
    have := (hr b hb.1).1
    simp only
    linarith
  · rw [← List.map_append]
    exact (List.filter_append_perm (wraps beta s) ops).map _

/-- **C58, trace.**  A common shift of all operators in imaginary time, with those beyond β brought
back by β, does not change the trace of the time-ordered product. -/
theorem C58_trace (H : Matrix (Fin N) (Fin N) 𝕜) (O : OpType → ℕ → Matrix (Fin N) (Fin N) 𝕜)
    (beta s : ℝ) (ops : OpSet (OpTime ℝ)) (hs : ops.Sorted) (hr : InRange beta ops) :
    trace (timeOrderedMat H O beta (timeSort (ops.map (shiftOp beta s))) 0) =
      trace (timeOrderedMat H O beta ops 0) := by
  rw [timeSort_shift hs hr, timeOrderedMat_append H O beta s]
  have h1 : timeOrderedMat H O beta ((ops.filter fun o => !wraps beta s o).map (shiftOp beta s)) s =
      timeOrderedMat H O (beta - s) (ops.filter fun o => !wraps beta s o) 0 := by
    have := timeOrderedMat_shift_time H O (shiftOp beta s) s (beta - s)
      (ops.filter fun o => !wraps beta s o) 0 (fun o ho => by
        have h2 : wraps beta s o = false := by simpa using (List.mem_filter.1 ho).2
        refine ⟨rfl, rfl, ?_⟩
        rw [shiftOp_time_not_wraps h2])
    rw [← this]
    congr 1 <;> ring
  have h2 : timeOrderedMat H O s ((ops.filter (wraps beta s)).map (shiftOp beta s)) 0 =
      timeOrderedMat H O beta (ops.filter (wraps beta s)) (beta - s) := by
    have := timeOrderedMat_shift_time H O (shiftOp beta s) (s - beta) beta
      (ops.filter (wraps beta s)) (beta - s) (fun o ho => by
        refine ⟨rfl, rfl, ?_⟩
        rw [shiftOp_time_wraps (List.mem_filter.1 ho).2]
        ring)
    rw [← this]
    congr 1 <;> ring
  rw [h1, h2, trace_mul_comm, ← timeOrderedMat_append H O beta (beta - s)]
  have hsplit : (ops.filter fun o => !wraps beta s o) ++ ops.filter (wraps beta s) = ops := by
    have := filter_split ops (fun o => !wraps beta s o) (hs.imp fun {a b} hab h => by
      simp only [wraps, Bool.not_eq_true', decide_eq_false_iff_not, not_lt] at h ⊢
      rcases (OpTime.lt_def _ _).1 hab with h1 | ⟨h1, -⟩ <;> linarith)
    simpa using this
  rw [hsplit]

variable {B : ImpBase 𝕜 N} {p : EBParams 𝕜}

/-- **C58, full trace.**  Without truncation the trace computed in the eigenbasis is invariant under
the shift. -/
theorem C58_full_trace (hB : B.Lawful) (hp : SolverOK p.solve) (hN : 0 < N) {E0 : ℝ}
    (hE : IsLeast (eigenvaluesOf B.H) E0)
    (hcut : ∀ μ ∈ eigenvaluesOf B.H, μ ≤ E0 + min p.inner p.outer) (beta s : ℝ) (l : List (TPsi ℝ))
    (hr : InRange beta l) (hn : (l.map Psi.time).Nodup) :
    fullTrace (ebEnv B p beta) (timeSort (l.map (shiftOp beta s))) =
      fullTrace (ebEnv B p beta) (timeSort l) := by
  have hperm := timeSort_perm l
  have hsort : OpSet.Sorted (timeSort l) := by
    have h1 := timeSort_sorted l
    have h2 : ((timeSort l).map Psi.time).Nodup := (hperm.map _).nodup_iff.2 hn
    rw [List.Nodup, List.pairwise_map] at h2
    exact (h1.and h2).imp fun h => lt_of_le_of_ne h.1 h.2
  have hr' : InRange beta (timeSort l) := fun o ho => hr o (hperm.mem_iff.1 ho)
  have e : timeSort (l.map (shiftOp beta s)) = timeSort ((timeSort l).map (shiftOp beta s)) :=
    timeSort_congr (hperm.symm.map _) (shift_nodup hr hn)
  rw [e, C57_exact hB hp hN hE hcut, C57_exact hB hp hN hE hcut, C58_trace _ _ _ _ _ hsort hr']

/-! ### The test of the code -/

theorem sum_secDim (hB : B.Lawful) : ∑ s ∈ Finset.range B.ns, secDim B s = N := by
  have h : ∀ s, secDim B s = ((Finset.range N).filter fun t => B.sec t = s).card := by
    intro s
    rw [secDim, dimSector, ← List.toFinset_card_of_nodup (List.nodup_range.filter _)]
    congr 1
    ext t
    simp
  simp only [h]
  rw [← Finset.card_eq_sum_card_fiberwise (f := B.sec) (s := Finset.range N) (t := Finset.range B.ns)]
  · simp
  · intro t ht
    simpa using hB.bound t (by simpa using ht)

theorem keptDim_le {s : ℕ} (hs : s < B.ns) : keptDim B p s ≤ secDim B s := by
  have : keptDim B p s ≤ (List.range (ebVals0 B p s).length).length := List.length_filter_le _ _
  rwa [List.length_range, ebVals0_length hs] at this

theorem outerIdx_le (s : ℕ) : (ebOuterIdx B p s).length ≤ keptDim B p s := by
  have : (ebOuterIdx B p s).length ≤ (List.range (ebVals B p s).length).length := List.length_filter_le _ _
  rwa [List.length_range, ebVals_length] at this

/-- All states of a sector are outer states if and only if their energies are within both cutoffs. -/
theorem outer_all {s : ℕ} (hs : s < B.ns) : (ebOuterIdx B p s).length = secDim B s ↔
    ∀ a < secDim B s, fullVal B p s a ≤ ebCut B p ∧ fullVal B p s a - ebRef B p ≤ ebCutOuter B p := by
  have hk : keptDim B p s = secDim B s ↔ ∀ a < secDim B s, fullVal B p s a ≤ ebCut B p := by
    have : keptDim B p s = (List.range (ebVals0 B p s).length).length ↔ _ := List.length_filter_eq_length_iff
    rw [List.length_range, ebVals0_length hs] at this
    rw [this]
    simp only [List.mem_range, decide_eq_true_eq]
    exact forall₂_congr fun a ha => by rw [ebVals0_getD hs ha]
  have ho : (ebOuterIdx B p s).length = keptDim B p s ↔
      ∀ i < keptDim B p s, (ebVals B p s).getD i 0 ≤ ebCutOuter B p := by
    have : (ebOuterIdx B p s).length = (List.range (ebVals B p s).length).length ↔ _ :=
      List.length_filter_eq_length_iff
    rw [List.length_range, ebVals_length] at this
    rw [this]
    simp only [List.mem_range, decide_eq_true_eq]
  have h1 := outerIdx_le (B := B) (p := p) s
  have h2 := keptDim_le (p := p) hs
  constructor
  · intro h
    have hk' := hk.1 (by omega)
    have ho' := ho.1 (by omega)
    intro a ha
    refine ⟨hk' a ha, ?_⟩
    have hm : a ∈ ebKept B p s := (mem_ebKept hs ha).2 (hk' a ha)
    obtain ⟨i, hi, rfl⟩ := List.getElem_of_mem hm
    rw [← ebVals_getD hi]
    exact ho' i hi
  · intro h
    have e1 := hk.2 fun a ha => (h a ha).1
    rw [← e1]
    refine ho.2 fun i hi => ?_
    rw [ebVals_getD hi]
    exact (h _ (kept_mem hi).2.1).2

/-- **C58, test of the code.**  `translationally_invariant` returns true if and only if no state is
truncated: all energies are within both cutoffs. -/
theorem C58_flag {n : ℕ} {B : ImpBase 𝕜 (2 ^ n)} {p : EBParams 𝕜} (hB : B.Lawful)
    (hp : SolverOK p.solve) (hin : 0 ≤ p.inner) {E0 : ℝ} (hE : IsLeast (eigenvaluesOf B.H) E0) :
    ebTranslInv B p n = true ↔ ∀ μ ∈ eigenvaluesOf B.H, μ ≤ E0 + min p.inner p.outer := by
  have hN : 0 < 2 ^ n := by positivity
  obtain ⟨-, -, h1, h2⟩ := ref_spec (p := p) hB hN hin
  have href : ebRef B p = E0 := (ref_least hB hp hN hin).unique hE
  have hsum : ((ebBrakets B p).map fun s =>
      min (ebOuterObj B p s).transp.rows (ebOuterObj B p s).transp.cols).sum =
      ∑ s ∈ Finset.range B.ns, (ebOuterIdx B p s).length := by
    have hnd : (ebBrakets B p).Nodup := List.nodup_range.filter _
    rw [← List.sum_toFinset _ hnd]
    have hmin : ∀ s, min (ebOuterObj B p s).transp.rows (ebOuterObj B p s).transp.cols =
        (ebOuterIdx B p s).length := by
      intro s
      show min (ebOuterIdx B p s).length (ebVals B p s).length = _
      rw [ebVals_length]
      exact min_eq_left (outerIdx_le s)
    simp only [hmin]
    apply Finset.sum_subset
    · intro s hs
      simp only [List.mem_toFinset, ebBrakets, List.mem_filter, List.mem_range] at hs
      simpa using hs.1
    · intro s hs hs'
      by_contra hne
      apply hs'
      simp only [List.mem_toFinset, ebBrakets, List.mem_filter, Bool.and_eq_true, ebActive_iff, bne_iff_ne]
      have := outerIdx_le (B := B) (p := p) s
      exact ⟨List.mem_range.2 (Finset.mem_range.1 hs), by omega, hne⟩
  unfold ebTranslInv
  rw [hsum, beq_iff_eq]
  have htot := sum_secDim hB
  rw [show (∑ s ∈ Finset.range B.ns, (ebOuterIdx B p s).length = 2 ^ n) ↔
      (∑ s ∈ Finset.range B.ns, (ebOuterIdx B p s).length = ∑ s ∈ Finset.range B.ns, secDim B s) from
    ⟨fun h => h.trans htot.symm, fun h => h.trans htot⟩]
  rw [Finset.sum_eq_sum_iff_of_le fun s hs =>
    (outerIdx_le s).trans (keptDim_le (Finset.mem_range.1 hs))]
  constructor
  · rintro h μ ⟨v, hv0, hv⟩
    by_contra hlt
    apply hv0
    rw [← complete_vec hB hp v]
    refine Finset.sum_eq_zero fun s hs => ?_
    rw [show (fullVecs B p s)ᴴ *ᵥ v = 0 from ?_, mulVec_zero]
    ext a
    by_contra hc
    have e := component_eigen hB hp hv s a hc
    have := (outer_all (Finset.mem_range.1 hs)).1 (h s hs) a a.isLt
    rw [e, h1, h2, href] at this
    apply hlt
    rw [← min_add_add_left, le_min_iff]
    exact ⟨this.1, by linarith [this.2]⟩
  · intro h s hs
    refine (outer_all (Finset.mem_range.1 hs)).2 fun a ha => ?_
    have := h _ (fullVal_eigen hB hp ha)
    rw [← min_add_add_left, le_min_iff] at this
    rw [h1, h2, href]
    exact ⟨this.1, by linarith [this.2]⟩

/-! ### The update -/

/-- **C58, weight.**  In a model which passes the test, the weight of a configuration including the
permutation sign is invariant under the shift, up to a factor −1 for every worm operator moved
across β. -/
theorem C58_weight {n : ℕ} {B : ImpBase 𝕜 (2 ^ n)} {p : EBParams 𝕜} (hB : B.Lawful)
    (hp : SolverOK p.solve) (hin : 0 ≤ p.inner) (hflag : ebTranslInv B p n = true) {beta s : ℝ}
    {G : TPsi ℝ → TPsi ℝ → 𝕜} (hG : ShiftSign beta s G) (cs cds worm : List (TPsi ℝ))
    (hlen : cs.length = cds.length) (hw : Even worm.length) (hr : InRange beta (cds ++ cs ++ worm))
    (hn : ((cds ++ cs ++ worm).map Psi.time).Nodup) :
    let f := shiftOp beta s
    (permSignImpl (cds.map f) (cs.map f) (worm.map f) : 𝕜) *
        weightOf (ebEnv B p beta) G (cds.map f) (cs.map f) (worm.map f) =
      (-1) ^ (worm.countP (wraps beta s)) *
        ((permSignImpl cds cs worm : 𝕜) * weightOf (ebEnv B p beta) G cds cs worm) := by
  intro f
  have hN : 0 < 2 ^ n := by positivity
  have hE := ref_least (p := p) hB hp hN hin
  have hcut := (C58_flag hB hp hin hE).1 hflag
  have hpm : (cds ++ cs ++ worm).Perm (cs ++ cds ++ worm) := List.perm_append_comm.append_right _
  have h1 := C58_signed_det (s := s) hG cs cds worm hlen hw (fun o ho => hr o (hpm.mem_iff.2 ho))
    ((hpm.map _).nodup_iff.1 hn)
  have h2 := C58_full_trace hB hp hN hE hcut beta s (cds ++ cs ++ worm) hr hn
  unfold weightOf
  rw [← mul_assoc, h1, ← List.map_append, ← List.map_append, h2]
  ring

/-- **C58, acceptance.**  In a model which passes the test, a global shift is accepted, whatever the
random number. -/
theorem C58_always_accepted {S : Type} [DecidableEq 𝕜] {n : ℕ} {B : ImpBase 𝕜 (2 ^ n)} {p : EBParams 𝕜}
    (hB : B.Lawful) (hp : SolverOK p.solve) (hin : 0 ≤ p.inner) (hflag : ebTranslInv B p n = true)
    (E : GEnv ℝ 𝕜 S (BK 𝕜) (BK 𝕜) (Fin (ebBrakets B p).length)) {beta shift : ℝ}
    (hV : E.V = ebEnv B p beta) (det : S → 𝕜) (hE : E.Lawful det) (hG : ShiftSign beta shift E.G)
    (hshift : 0 ≤ shift) (r : ℝ) (hr0 : 0 ≤ r) (hr1 : r < 1) (nwin : ℕ) (hnw : 1 ≤ nwin)
    (s : GState ℝ 𝕜 S (BK 𝕜) (BK 𝕜) (Fin (ebBrakets B p).length)) (hs : GInv E det s)
    (hrange : InRange beta s.cfg.ops)
    (hrange' : ∀ o ∈ s.cfg.ops, (shiftOp beta shift o).time ≤ opT beta)
    (hsmall : NoSmallFactor E.abv E.eps (newFactors E.G E.lu E.blockOf E.nb
      ((E.D.cdagg s.cfg.M).map (shiftOp beta shift)) ((E.D.cs s.cfg.M).map (shiftOp beta shift)))) :
    ∃ s', globalUpdate E (shiftOp beta shift) (List.map (shiftOp beta shift)) r nwin s = some (s', true) ∧
      GInv E det s' := by
  have hN : 0 < 2 ^ n := by positivity
  have hleast := ref_least (p := p) hB hp hN hin
  have hcut := (C58_flag hB hp hin hleast).1 hflag
  have hbeta : E.V.beta = beta := by rw [hV]; rfl
  have hperm : s.cfg.ops.Perm (E.D.cdagg s.cfg.M ++ E.D.cs s.cfg.M ++ wormOps s.cfg.worm) := by
    have := hs.cons.2
    rw [Multiset.coe_add, Multiset.coe_add, Multiset.coe_eq_coe] at this
    exact this
  have hwm : wormOps (s.cfg.worm.map (List.map (shiftOp beta shift))) =
      (wormOps s.cfg.worm).map (shiftOp beta shift) := by
    cases s.cfg.worm <;> rfl
  have hweight : weightOf E.V E.G (E.D.cdagg s.cfg.M) (E.D.cs s.cfg.M) (wormOps s.cfg.worm) ≠ 0 := by
    unfold weightOf
    rw [← sorted_eq_timeSort _ _ hs.cons.1 hperm, ← hs.detM, ← hs.trace]
    exact mul_ne_zero hs.sign.2.1 hs.sign.2.2.1
  have hblk := hs.blocks
  have key := C54_global_update E det hE (shiftOp beta shift) (List.map (shiftOp beta shift)) r hr0 nwin hnw
    s hs
  rw [hwm] at key
  generalize E.D.cdagg s.cfg.M = cds at *
  generalize E.D.cs s.cfg.M = cs at *
  generalize wormOps s.cfg.worm = worm at *
  have hnd : ((cds ++ cs ++ worm).map Psi.time).Nodup := by
    refine (hperm.map _).nodup_iff.1 ?_
    rw [List.Nodup, List.pairwise_map]
    exact hs.cons.1.imp fun h => h.ne
  have hr : InRange beta (cds ++ cs ++ worm) := fun o ho => hrange o (hperm.mem_iff.2 ho)
  have hmap : cds.map (shiftOp beta shift) ++ cs.map (shiftOp beta shift) ++
      worm.map (shiftOp beta shift) = (cds ++ cs ++ worm).map (shiftOp beta shift) := by simp
  obtain ⟨s', acc, h1, h2, h3, h4⟩ := key
    (by rw [hmap]; exact shift_nodup hr hnd)
    (by
      rw [hmap, hbeta]
      intro o ho
      obtain ⟨o, ho', rfl⟩ := List.mem_map.1 ho
      refine ⟨?_, hrange' o (hperm.mem_iff.2 ho')⟩
      obtain ⟨g1, g2⟩ := hr o ho'
      apply le_of_lt
      rw [OpTime.lt_def]
      left
      rcases hwr : wraps beta shift o with _ | _
      · rw [shiftOp_time_not_wraps hwr]
        show (0 : ℝ) < o.time.time + shift
        linarith
      · rw [shiftOp_time_wraps hwr]
        simp only [wraps, decide_eq_true_eq] at hwr
        show (0 : ℝ) < o.time.time + shift - beta
        linarith)
    (by
      intro o ho
      rw [← List.map_append] at ho
      obtain ⟨o, ho', rfl⟩ := List.mem_map.1 ho
      exact hblk o ho')
    hsmall
  refine ⟨s', ?_, h2⟩
  rw [h1]
  have hacc : acc = true := by
    by_cases h0 : cds = []
    · exact (h3 h0).2
    · refine (h4 h0).1.2 ?_
      have hnd' := hnd
      rw [List.map_append, List.map_append] at hnd'
      obtain ⟨k, hdet⟩ := shift_timeDet hG cs cds
        (fun o ho => hr o (by simp [ho])) (fun o ho => hr o (by simp [ho]))
        (List.nodup_append.1 (List.nodup_append.1 hnd').1).2.1
        (List.nodup_append.1 (List.nodup_append.1 hnd').1).1
      have htr := C58_full_trace hB hp hN hleast hcut beta shift (cds ++ cs ++ worm) hr hnd
      have hwt : weightOf E.V E.G (cds.map (shiftOp beta shift)) (cs.map (shiftOp beta shift))
          (worm.map (shiftOp beta shift)) = (-1) ^ k * weightOf E.V E.G cds cs worm := by
        unfold weightOf
        rw [hdet, hmap, hV, htr, mul_assoc]
      rw [hwt, mul_div_assoc, div_self hweight, mul_one, map_pow, AbsoluteValue.map_neg, map_one, one_pow]
      exact hr1
  rw [hacc]

end trace

/-! ### Concrete cases -/

section examples

/-- With both energies within the cutoffs the test is passed. -/
theorem oneLevel_flag {ns : ℕ} {sec : ℕ → ℕ} (h : (impBaseOf 1 oneLevel ns sec).Lawful) (outer : ℝ) :
    ebTranslInv (impBaseOf 1 oneLevel ns sec) ⟨exactSolve, 2, outer⟩ 1 = true ↔ 2 ≤ outer := by
  rw [C58_flag h exactSolve_ok (by norm_num : (0 : ℝ) ≤ 2) oneLevel_least]
  constructor
  · intro g
    have := g 2 ((oneLevel_eig 2).2 (Or.inr rfl))
    have h2 := min_le_right (2 : ℝ) outer
    simp only [zero_add] at this
    linarith
  · intro g μ hμ
    simp only [zero_add, le_min_iff]
    rcases (oneLevel_eig μ).1 hμ with rfl | rfl <;> constructor <;> linarith

/-- An annihilation operator at 1 and a creation operator at 2.  In the code a set bit is an empty level,
so state 0 is the occupied one. -/
def cCdag : List (TPsi ℝ) := [⟨⟨1, 0⟩, .annihilation, 0⟩, ⟨⟨2, 0⟩, .creation, 0⟩]

/-- The operators of `cCdag` shifted by 5/2 with β = 4 and sorted. -/
noncomputable def cCdagShifted : List (TPsi ℝ) := [⟨⟨1 / 2, 0⟩, .creation, 0⟩, ⟨⟨7 / 2, 0⟩, .annihilation, 0⟩]

theorem cCdag_sorted : timeSort cCdag = cCdag := by
  unfold timeSort
  apply List.mergeSort_of_pairwise
  simp [cCdag, OpTime.le_def]

theorem cCdag_shift : timeSort (cCdag.map (shiftOp 4 (5 / 2))) = cCdagShifted := by
  rw [timeSort_shift (by simp [cCdag, OpSet.Sorted, OpTime.lt_def])]
  · have w1 : wraps (4 : ℝ) (5 / 2) ⟨⟨1, 0⟩, .annihilation, 0⟩ = false := by
      simp only [wraps, decide_eq_false_iff_not]; norm_num
    have w2 : wraps (4 : ℝ) (5 / 2) ⟨⟨2, 0⟩, .creation, 0⟩ = true := by
      simp only [wraps, decide_eq_true_eq]; norm_num
    simp only [cCdag, cCdagShifted, List.filter_cons, w1, w2, List.filter_nil, List.map_cons, List.map_nil,
      Bool.not_true, Bool.not_false, if_true, Bool.false_eq_true, if_false, List.cons_append, List.nil_append]
    norm_num [shiftOp, shiftTime]
  · intro o ho
    simp only [cCdag, List.mem_cons, List.not_mem_nil, or_false] at ho
    rcases ho with rfl | rfl <;> norm_num

theorem oneLevel_outer {Q : Matrix (Fin (2 ^ 1)) (Fin (2 ^ 1)) ℝ} (h : IsSpectralProj oneLevel 1 Q) :
    Q = diagonal fun i => if i = 0 then 1 else 0 := by
  have hev : ∀ j : Fin (2 ^ 1), oneLevel *ᵥ Pi.single j 1 = (2 * (j.val : ℝ)) • Pi.single j 1 := by
    intro j
    ext i
    simp only [oneLevel, mulVec_diagonal, Pi.smul_apply, smul_eq_mul]
    by_cases e : i = j
    · subst e; rfl
    · rw [Pi.single_eq_of_ne e]; ring
  have h0 := (h _ (2 * (((0 : Fin (2 ^ 1)).val : ℕ) : ℝ)) (hev 0)).1 (by simp)
  have h1 := (h _ (2 * (((1 : Fin (2 ^ 1)).val : ℕ) : ℝ)) (hev 1)).2 (by norm_num)
  ext i j
  fin_cases j
  · have := congrFun h0 i
    rw [mulVec_single_one] at this
    fin_cases i <;> simpa using this
  · have := congrFun h1 i
    rw [mulVec_single_one] at this
    fin_cases i <;> simpa using this

theorem oneLevel_exp (x : ℝ) : NormedSpace.exp (((x : ℝ) : ℝ) • oneLevel) =
    diagonal fun i : Fin (2 ^ 1) => Real.exp (x * (2 * (i.val : ℝ))) := by
  rw [oneLevel, ← diagonal_smul, Matrix.exp_diagonal, Real.exp_eq_exp_ℝ]
  congr 1
  ext i
  rw [Pi.coe_exp]
  rfl

theorem oneLevel_c : (cOp 1 0).map (Int.cast : ℤ → ℝ) = of fun i j => if i = 1 ∧ j = 0 then 1 else 0 := by
  have : cOp 1 0 = of fun i j => if i = 1 ∧ j = 0 then 1 else 0 := by decide +kernel
  rw [this]; ext i j; simp only [map_apply, of_apply]; split <;> simp

theorem oneLevel_cdag : (cdagOp 1 0).map (Int.cast : ℤ → ℝ) = of fun i j => if i = 0 ∧ j = 1 then 1 else 0 := by
  have : cdagOp 1 0 = of fun i j => if i = 0 ∧ j = 1 then 1 else 0 := by decide +kernel
  rw [this]; ext i j; simp only [map_apply, of_apply]; split <;> simp

theorem oneLevel_trace1 (d0 d1 d2 d3 : Fin (2 ^ 1) → ℝ) : trace (diagonal d0 * (diagonal d1 *
    (cdagOp 1 0).map (Int.cast : ℤ → ℝ) * diagonal d2 * (cOp 1 0).map (Int.cast : ℤ → ℝ) * diagonal d3)) =
    d0 0 * d1 0 * d2 1 * d3 0 := by
  rw [oneLevel_c, oneLevel_cdag]
  simp [trace, Matrix.mul_apply, Fin.sum_univ_two, diagonal]
  ring

theorem oneLevel_trace2 (d0 d1 d2 d3 : Fin (2 ^ 1) → ℝ) : trace (diagonal d0 * (diagonal d1 *
    (cOp 1 0).map (Int.cast : ℤ → ℝ) * diagonal d2 * (cdagOp 1 0).map (Int.cast : ℤ → ℝ) * diagonal d3)) =
    d0 1 * d1 1 * d2 0 * d3 1 := by
  rw [oneLevel_c, oneLevel_cdag]
  simp [trace, Matrix.mul_apply, Fin.sum_univ_two, diagonal]
  ring

theorem cCdag_mat (ns : ℕ) (sec : ℕ → ℕ) :
    timeOrderedMat oneLevel (impBaseOf 1 oneLevel ns sec).op 4 cCdag 0 =
      diagonal (fun i : Fin (2 ^ 1) => Real.exp (-(4 - 2) * (2 * (i.val : ℝ)))) *
        (cdagOp 1 0).map (Int.cast : ℤ → ℝ) *
      diagonal (fun i : Fin (2 ^ 1) => Real.exp (-(2 - 1) * (2 * (i.val : ℝ)))) *
        (cOp 1 0).map (Int.cast : ℤ → ℝ) *
      diagonal (fun i : Fin (2 ^ 1) => Real.exp (-(1 - 0) * (2 * (i.val : ℝ)))) := by
  rw [← oneLevel_exp, ← oneLevel_exp, ← oneLevel_exp]; rfl

theorem cCdagShifted_mat (ns : ℕ) (sec : ℕ → ℕ) :
    timeOrderedMat oneLevel (impBaseOf 1 oneLevel ns sec).op 4 cCdagShifted 0 =
      diagonal (fun i : Fin (2 ^ 1) => Real.exp (-(4 - 7 / 2) * (2 * (i.val : ℝ)))) *
        (cOp 1 0).map (Int.cast : ℤ → ℝ) *
      diagonal (fun i : Fin (2 ^ 1) => Real.exp (-(7 / 2 - 1 / 2) * (2 * (i.val : ℝ)))) *
        (cdagOp 1 0).map (Int.cast : ℤ → ℝ) *
      diagonal (fun i : Fin (2 ^ 1) => Real.exp (-(1 / 2 - 0) * (2 * (i.val : ℝ)))) := by
  rw [← oneLevel_exp, ← oneLevel_exp, ← oneLevel_exp]; rfl

/-- **C58, the test is needed.**  If the outer cutoff removes a state, a shift may turn a
configuration of non-zero trace into one of trace zero, which is rejected. -/
theorem C58_truncated : ∃ (B : ImpBase ℝ (2 ^ 1)) (p : EBParams ℝ) (l : List (TPsi ℝ)) (beta s : ℝ),
    B.Lawful ∧ SolverOK p.solve ∧ 0 ≤ p.inner ∧ InRange beta l ∧ (l.map Psi.time).Nodup ∧ 0 < s ∧ s < beta ∧
    ebTranslInv B p 1 = false ∧ fullTrace (ebEnv B p beta) (timeSort l) ≠ 0 ∧
    fullTrace (ebEnv B p beta) (timeSort (l.map (shiftOp beta s))) = 0 := by
  obtain ⟨ns, sec, hB⟩ := oneLevel_lawful
  obtain ⟨E0, P, Q, h1, h2, h3, h⟩ := C57_trace (p := ⟨exactSolve, 2, 1⟩) hB exactSolve_ok (by norm_num)
    (by norm_num : (0 : ℝ) ≤ 2)
  have hE0 : E0 = 0 := h1.unique oneLevel_least
  subst hE0
  have hP : P = 1 := proj_one (p := ⟨exactSolve, 2, 1⟩) hB exactSolve_ok h2 (by
    intro μ hμ
    rcases (oneLevel_eig μ).1 hμ with rfl | rfl <;> norm_num)
  rw [RCLike.ofReal_zero, zero_smul, sub_zero, hP] at h
  simp only [Matrix.one_mul, Matrix.mul_one] at h
  replace h : ∀ beta ops, fullTrace (ebEnv (impBaseOf 1 oneLevel ns sec) ⟨exactSolve, 2, 1⟩ beta) ops =
    trace (Q * timeOrderedMat oneLevel (impBaseOf 1 oneLevel ns sec).op beta ops 0) := h
  have hQ : Q = diagonal fun i => if i = 0 then 1 else 0 := by
    refine oneLevel_outer ?_
    have e : (0 : ℝ) + min 2 1 = 1 := by norm_num
    rw [e] at h3
    exact h3
  refine ⟨impBaseOf 1 oneLevel ns sec, ⟨exactSolve, 2, 1⟩, cCdag, 4, 5 / 2, hB, exactSolve_ok, by norm_num,
    ?_, ?_, by norm_num, by norm_num, ?_, ?_, ?_⟩
  · intro o ho
    simp only [cCdag, List.mem_cons, List.not_mem_nil, or_false] at ho
    rcases ho with rfl | rfl <;> norm_num
  · simp [cCdag]
  · rw [Bool.eq_false_iff, Ne, oneLevel_flag hB]; norm_num
  · rw [cCdag_sorted, h, hQ, cCdag_mat, oneLevel_trace1]
    simp [Real.exp_ne_zero]
  · rw [cCdag_shift, h, hQ, cCdagShifted_mat, oneLevel_trace2]
    simp

/-- A bath with constant hybridization function, β = 4. -/
noncomputable def shiftG : TPsi ℝ → TPsi ℝ → ℝ := hybG 4 1 fun _ _ _ => 1

theorem shiftG_val (a b : TPsi ℝ) (h1 : |a.time.time - b.time.time| < 4) :
    shiftG a b = if a.time.time < b.time.time then -1 else 1 := by
  obtain ⟨h2, h3⟩ := abs_lt.1 h1
  unfold shiftG hybG hybEval
  simp only [sub_neg]
  have key : ∀ t : ℝ, 0 ≤ t → t < 4 → truncInt (t / 4 * ((1 : ℕ) : ℝ)) = 0 := by
    intro t h0 h4
    unfold truncInt
    rw [if_pos (by positivity), Int.floor_eq_zero_iff]
    constructor
    · positivity
    · rw [Nat.cast_one, mul_one, div_lt_one (by norm_num)]; exact h4
  split_ifs with h
  · rw [key _ (by linarith) (by linarith)]
    simp [readAt]
  · rw [key _ (by linarith) (by linarith)]
    simp [readAt]

/-- One level, no truncation; the determinant matrix is just the two lists of operators. -/
noncomputable def shiftEnv (ns : ℕ) (sec : ℕ → ℕ) : GEnv ℝ ℝ (List (TPsi ℝ) × List (TPsi ℝ)) (BK ℝ) (BK ℝ)
    (Fin (ebBrakets (impBaseOf 1 oneLevel ns sec) ⟨exactSolve, 2, 3⟩).length) where
  V := ebEnv (impBaseOf 1 oneLevel ns sec) ⟨exactSolve, 2, 3⟩ 4
  D := { tryUpdate := fun s _ => (0, s), perform := id, reject := id, cdagg := Prod.fst,
         cs := Prod.snd }
  G := shiftG
  lu n A := if n = 0 then [] else A.det :: List.replicate (n - 1) 1
  blockOf _ := 0
  nb := 1
  build := Prod.mk
  permFn _ _ _ := 1
  sgn x := x
  abv := AbsoluteValue.abs
  eps := 1 / 10 ^ 30

theorem shiftEnv_lawful {ns : ℕ} {sec : ℕ → ℕ} (hB : (impBaseOf 1 oneLevel ns sec).Lawful) :
    (shiftEnv ns sec).Lawful (fun s => timeDet shiftG s.2 s.1) where
  evol := C57_lawful hB
  beta := by show (0 : ℝ) ≤ 4; norm_num
  lu_prod n A := by rcases n with _ | n <;> simp [shiftEnv]
  lu_len n A := by rcases n with _ | n <;> simp [shiftEnv]
  blocks a b _ _ h := absurd rfl h
  sgn_mul a b _ _ := rfl
  perm _ _ _ := Or.inl rfl
  build cds cs _ _ _ _ := ⟨List.Perm.refl _, List.Perm.refl _, rfl⟩

theorem cCdag_trace {ns : ℕ} {sec : ℕ → ℕ} (hB : (impBaseOf 1 oneLevel ns sec).Lawful) :
    fullTrace (ebEnv (impBaseOf 1 oneLevel ns sec) ⟨exactSolve, 2, 3⟩ 4) cCdag ≠ 0 := by
  rw [C57_exact hB exactSolve_ok (by norm_num) oneLevel_least (by
    intro μ hμ
    rcases (oneLevel_eig μ).1 hμ with rfl | rfl <;> norm_num)]
  refine mul_ne_zero (by simp) ?_
  have h := oneLevel_trace1 (fun _ => 1) (fun i : Fin (2 ^ 1) => Real.exp (-(4 - 2) * (2 * (i.val : ℝ))))
    (fun i : Fin (2 ^ 1) => Real.exp (-(2 - 1) * (2 * (i.val : ℝ))))
    (fun i : Fin (2 ^ 1) => Real.exp (-(1 - 0) * (2 * (i.val : ℝ))))
  rw [← cCdag_mat ns sec, show (diagonal fun _ : Fin (2 ^ 1) => (1 : ℝ)) = 1 from diagonal_one,
    Matrix.one_mul] at h
  show trace (timeOrderedMat oneLevel (impBaseOf 1 oneLevel ns sec).op 4 cCdag 0) ≠ 0
  rw [h]
  simp [Real.exp_ne_zero]

/-- All hypotheses of `C58_always_accepted` hold in this case; the shift moves the creation operator
across β. -/
example : ∃ (ns : ℕ) (sec : ℕ → ℕ) (s : GState ℝ ℝ (List (TPsi ℝ) × List (TPsi ℝ)) (BK ℝ) (BK ℝ)
      (Fin (ebBrakets (impBaseOf 1 oneLevel ns sec) ⟨exactSolve, 2, 3⟩).length)),
    s.cfg.ops = cCdag ∧ ∃ s', globalUpdate (shiftEnv ns sec) (shiftOp 4 (5 / 2))
      (List.map (shiftOp 4 (5 / 2))) (9 / 10) 10 s = some (s', true) := by
  obtain ⟨ns, sec, hB⟩ := oneLevel_lawful
  have hok : OpsOK (4 : ℝ) cCdag := by
    refine ⟨by simp [cCdag, OpSet.Sorted, OpTime.lt_def], ?_⟩
    intro o ho
    simp only [cCdag, List.mem_cons, List.not_mem_nil, or_false] at ho
    rcases ho with rfl | rfl <;> constructor <;> simp [opT, OpTime.le_def] <;> norm_num
  obtain ⟨w, e0, hi, hn0, hr0, hl0⟩ :=
    init_inv (V := (shiftEnv ns sec).V) 1 (by norm_num) cCdag hok 0 0 0 false
  set t := fullTrace (ebEnv (impBaseOf 1 oneLevel ns sec) ⟨exactSolve, 2, 3⟩ 4) cCdag with ht
  have hd : ∀ a b : TPsi ℝ, timeDet shiftG [a] [b] = shiftG a b := by
    intro a b
    rw [timeDet_eq _ _ _ (by simp) (by simp), listDet_eq shiftG [a] [b] 1 rfl rfl, Matrix.det_fin_one]
    simp [invs]
  have hg : shiftG ⟨⟨1, 0⟩, .annihilation, 0⟩ ⟨⟨2, 0⟩, .creation, 0⟩ = -1 := by
    rw [shiftG_val _ _ (by norm_num)]; norm_num
  refine ⟨ns, sec, ⟨⟨cCdag, ([⟨⟨2, 0⟩, .creation, 0⟩], [⟨⟨1, 0⟩, .annihilation, 0⟩]), t, (-1) * t * 1, 1, none⟩, [-1], w⟩,
    rfl, ?_⟩
  obtain ⟨s', h, -⟩ := C58_always_accepted (p := ⟨exactSolve, 2, 3⟩) hB exactSolve_ok
    (by norm_num : (0 : ℝ) ≤ 2) ((oneLevel_flag hB 3).2 (by norm_num)) (shiftEnv ns sec) (beta := 4)
    (shift := 5 / 2) rfl _ (shiftEnv_lawful hB) (C58_hybridization (by norm_num) _ 1 one_pos fun _ _ _ => 1)
    (by norm_num) (9 / 10) (by norm_num) (by norm_num) 10 (by norm_num)
    ⟨⟨cCdag, ([⟨⟨2, 0⟩, .creation, 0⟩], [⟨⟨1, 0⟩, .annihilation, 0⟩]), t, (-1) * t * 1, 1, none⟩, [-1], w⟩
    ⟨⟨hok.1, by
        show ((cCdag : List (TPsi ℝ)) : Multiset (TPsi ℝ)) = (([⟨⟨2, 0⟩, .creation, 0⟩] : List (TPsi ℝ)) : Multiset (TPsi ℝ)) +
          (([⟨⟨1, 0⟩, .annihilation, 0⟩] : List (TPsi ℝ)) : Multiset (TPsi ℝ)) + (([] : List (TPsi ℝ)) : Multiset (TPsi ℝ))
        rw [Multiset.coe_add, Multiset.coe_add, Multiset.coe_eq_coe]
        exact List.Perm.swap _ _ _⟩, rfl, fun o _ => Nat.zero_lt_one, rfl, by
        show ([-1] : List ℝ).prod = timeDet shiftG [_] [_]
        rw [hd, hg]; simp, ⟨rfl, by
        show timeDet shiftG [_] [_] ≠ 0
        rw [hd, hg]; norm_num, cCdag_trace hB, by
        show (-1) * t * 1 = timeDet shiftG [_] [_] * t * ((1 : ℤ) : ℝ)
        rw [hd, hg]; norm_num⟩, rfl, hok, hi.caches, hn0, hr0, hl0⟩
    (by
      intro o ho
      simp only [cCdag, List.mem_cons, List.not_mem_nil, or_false] at ho
      rcases ho with rfl | rfl <;> norm_num)
    (by
      intro o ho
      simp only [cCdag, List.mem_cons, List.not_mem_nil, or_false] at ho
      rcases ho with rfl | rfl <;> simp [shiftOp, shiftTime, opT, OpTime.le_def] <;> norm_num)
    (by
      intro l' hl
      have e : newFactors (shiftEnv ns sec).G (shiftEnv ns sec).lu (shiftEnv ns sec).blockOf (shiftEnv ns sec).nb
          [shiftOp 4 (5 / 2) ⟨⟨2, 0⟩, .creation, 0⟩] [shiftOp 4 (5 / 2) ⟨⟨1, 0⟩, .annihilation, 0⟩] = some [1] := by
        simp only [newFactors, shiftEnv, List.range_one, blockLoop, inBlock]
        simp
        refine Eq.trans (Matrix.det_fin_one (blockMat shiftG
          [shiftOp 4 (5 / 2) ⟨⟨1, 0⟩, .annihilation, 0⟩] [shiftOp 4 (5 / 2) ⟨⟨2, 0⟩, .creation, 0⟩] rfl)) ?_
        show shiftG (shiftOp 4 (5 / 2) ⟨⟨1, 0⟩, .annihilation, 0⟩) (shiftOp 4 (5 / 2) ⟨⟨2, 0⟩, .creation, 0⟩) = 1
        rw [shiftG_val _ _ (by norm_num [shiftOp, shiftTime, abs_lt])]
        norm_num [shiftOp, shiftTime]
      have h2 : l' = [1] := Option.some.inj (hl.symm.trans e)
      subst h2
      intro x hx
      rw [List.mem_singleton] at hx
      subst hx
      show (1 / 10 ^ 30 : ℝ) < |1| / (max 0 |1|)
      norm_num)
  exact ⟨s', h⟩

end examples

end CTHyb
