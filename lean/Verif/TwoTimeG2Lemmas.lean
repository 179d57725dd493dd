import Verif.TwoTimeG2
import Verif.RemovalProps

/-!
Lemmas on the model of `TwoTimeG2Measurement`: operators in and out, the permutation sign of a configuration with two pairs of
worm operators, and the window following the times.
-/

namespace CTHyb

open Matrix

/-! ### Operators -/

theorem ttInsertAll_ok (l : List (TPsi ℝ)) : ∀ (ops : OpSet (OpTime ℝ)), ops.Sorted → (l.map Psi.time).Nodup →
    (∀ x ∈ l, ∀ y ∈ ops, y.time ≠ x.time) →
    ∃ ops', ttInsertAll ops l = some ops' ∧ ops'.Sorted ∧ ∀ y, y ∈ ops' ↔ y ∈ ops ∨ y ∈ l := by
  induction l with
  | nil => exact fun ops hs _ _ => ⟨ops, rfl, hs, fun y => by simp⟩
  | cons x l ih =>
    intro ops hs hn hd
    rw [List.map_cons, List.nodup_cons] at hn
    have h1 : (ops.insert x).2 = true :=
      (OpSet.insert_snd_iff ops x hs).2 fun y hy => hd x (by simp) y hy
    obtain ⟨ops', e, hs', hm⟩ := ih (ops.insert x).1 (OpSet.insert_sorted ops x hs) hn.2 (by
      intro z hz y hy
      rcases (OpSet.mem_insert ops x y h1).1 hy with rfl | hy
      · intro e
        exact hn.1 (List.mem_map.2 ⟨z, hz, e.symm⟩)
      · exact hd z (List.mem_cons_of_mem _ hz) y hy)
    refine ⟨ops', ?_, hs', fun y => ?_⟩
    · unfold ttInsertAll at e ⊢
      rw [List.foldlM_cons]
      simp only [safeInsert, h1, if_true]
      exact e
    · rw [hm, OpSet.mem_insert ops x y h1, List.mem_cons]
      tauto

theorem ttEraseAll_ok (l : List (TPsi ℝ)) : ∀ (ops : OpSet (OpTime ℝ)), ops.Sorted → (l.map Psi.time).Nodup →
    (∀ x ∈ l, x ∈ ops) →
    ∃ ops', ttEraseAll ops l = some ops' ∧ ops'.Sorted ∧ ∀ y, y ∈ ops' ↔ y ∈ ops ∧ y ∉ l := by
  induction l with
  | nil => exact fun ops hs _ _ => ⟨ops, rfl, hs, fun y => by simp⟩
  | cons x l ih =>
    intro ops hs hn hd
    rw [List.map_cons, List.nodup_cons] at hn
    have hx := hd x (by simp)
    have hne : ∀ z ∈ l, z.time ≠ x.time := fun z hz e => hn.1 (List.mem_map.2 ⟨z, hz, e⟩)
    obtain ⟨ops', e, hs', hm⟩ := ih (ops.erase x).1 (OpSet.erase_sorted ops x hs) hn.2 (by
      intro z hz
      exact (OpSet.mem_erase ops x z hs).2 ⟨hd z (List.mem_cons_of_mem _ hz), hne z hz⟩)
    refine ⟨ops', ?_, hs', fun y => ?_⟩
    · have hf : ∃ v, OpSet.find ops x = some v := by
        unfold OpSet.find
        rw [← Option.isSome_iff_exists, List.find?_isSome]
        exact ⟨x, hx, by simp⟩
      obtain ⟨v, hv⟩ := hf
      unfold ttEraseAll at e ⊢
      rw [List.foldlM_cons]
      simp only [safeErase, hv]
      exact e
    · rw [hm, OpSet.mem_erase ops x y hs, List.mem_cons]
      constructor
      · rintro ⟨⟨h1, h2⟩, h3⟩
        exact ⟨h1, by rintro (rfl | h); exacts [h2 rfl, h3 h]⟩
      · rintro ⟨h1, h2⟩
        refine ⟨⟨h1, fun e => h2 (Or.inl ?_)⟩, fun h => h2 (Or.inr h)⟩
        exact OpSet.time_inj ops hs h1 hx e

/-! ### Permutation sign -/

/-- Two pairs of worm operators at the times `t` and `r`, with the flavors `f`. -/
def ttWorm (t r : ℝ) (f : Fin 4 → ℕ) : List (TPsi ℝ) :=
  [⟨⟨t, 1⟩, .creation, f 0⟩, ⟨⟨t, 0⟩, .annihilation, f 1⟩, ⟨⟨r, 1⟩, .creation, f 2⟩, ⟨⟨r, 0⟩, .annihilation, f 3⟩]

theorem lt_pair {x : OpTime ℝ} {t : ℝ} (h : x ≠ ⟨t, 0⟩) : x < ⟨t, 1⟩ ↔ x < ⟨t, 0⟩ := by
  obtain ⟨a, b⟩ := x
  rw [OpTime.lt_def, OpTime.lt_def]
  simp only
  constructor
  · rintro (h1 | ⟨h1, h2⟩)
    · exact Or.inl h1
    · right
      refine ⟨h1, ?_⟩
      have : b ≠ 0 := by rintro rfl; exact h (by rw [h1])
      omega
  · rintro (h1 | ⟨h1, h2⟩)
    · exact Or.inl h1
    · exact Or.inr ⟨h1, by omega⟩

theorem even_crossCount (l : List (OpTime ℝ)) (t r : ℝ) (h : ∀ x ∈ l, x ≠ ⟨t, 0⟩ ∧ x ≠ ⟨r, 0⟩) :
    Even (crossCount l [⟨t, 1⟩, ⟨t, 0⟩, ⟨r, 1⟩, ⟨r, 0⟩]) := by
  induction l with
  | nil => simp [crossCount]
  | cons x l ih =>
    have ih := ih fun y hy => h y (List.mem_cons_of_mem _ hy)
    obtain ⟨h1, h2⟩ := h x (by simp)
    unfold crossCount at ih ⊢
    rw [List.map_cons, List.sum_cons]
    refine Even.add ?_ ih
    simp only [List.countP_cons, List.countP_nil, lt_pair h1, lt_pair h2]
    by_cases a : x < (⟨t, 0⟩ : OpTime ℝ) <;> by_cases b : x < (⟨r, 0⟩ : OpTime ℝ) <;> simp [a, b] <;> decide

theorem ttWorm_times (t r : ℝ) (f : Fin 4 → ℕ) :
    (ttWorm t r f).map Psi.time = [⟨t, 1⟩, ⟨t, 0⟩, ⟨r, 1⟩, ⟨r, 0⟩] := rfl

/-- The permutation sign does not depend on the times of the two pairs. -/
theorem permSign_ttWorm (cds cs : List (TPsi ℝ)) (hlen : cs.length = cds.length) (t r : ℝ) (f : Fin 4 → ℕ)
    (hn : (cs.map Psi.time ++ cds.map Psi.time ++ (ttWorm t r f).map Psi.time).Nodup) :
    permSignImpl cds cs (ttWorm t r f) =
      (-1) ^ (crossCount (cs.map Psi.time) (cds.map Psi.time) + cs.length.choose 2) := by
  rw [C05_perm_sign_value cds cs _ hlen hn]
  rw [List.nodup_append] at hn
  obtain ⟨-, hw, hd⟩ := hn
  rw [ttWorm_times] at hw hd ⊢
  have htr : t ≠ r := by
    rintro rfl
    simp at hw
  have e1 : Even (crossCount (cs.map Psi.time ++ cds.map Psi.time) [⟨t, 1⟩, ⟨t, 0⟩, ⟨r, 1⟩, ⟨r, 0⟩]) :=
    even_crossCount _ t r fun x hx => ⟨hd x hx _ (by simp), hd x hx _ (by simp)⟩
  have e2 : Even (outOfOrder [(⟨t, 1⟩ : OpTime ℝ), ⟨t, 0⟩, ⟨r, 1⟩, ⟨r, 0⟩]) := by
    simp only [outOfOrder, List.countP_cons, List.countP_nil, OpTime.lt_def]
    rcases lt_or_gt_of_ne htr with h | h
    · simp [h, h.ne]; decide
    · simp [h.not_gt, h.ne']
  rw [add_assoc _ (crossCount (cs.map Psi.time ++ cds.map Psi.time) _), pow_add _ _ (_ + _), (e1.add e2).neg_one_pow, mul_one]

/-! ### Window -/

section window
variable {Ket Bra K ι : Type} {V : SWEnv ℝ Ket Bra K ι}

theorem ttAdvance_ok (hb : 0 ≤ V.beta) {ops : OpSet (OpTime ℝ)} {t : ℝ} (ht : t ≤ V.beta) (k : ℕ) :
    ∀ {w : SWState Ket Bra ι}, SWInv V (w, ops) → w.posL = w.posR + 2 → w.dirLeft = true → 2 ≤ w.n →
      tauEdge V.beta w.n w.posR ≤ t → 2 * w.n < w.posL + k →
    ∃ w', ttAdvance V ops t k w = some w' ∧ SWInv V (w', ops) ∧ w'.posL = w'.posR + 2 ∧ w'.dirLeft = true ∧
      w'.n = w.n ∧ tauEdge V.beta w'.n w'.posR ≤ t ∧ t ≤ tauEdge V.beta w'.n w'.posL := by
  induction k with
  | zero =>
    intro w hw h2 hd hn hlo hk
    have := hw.caches.posL
    simp only at this
    omega
  | succ k ih =>
    intro w hw h2 hd hn hlo hk
    unfold ttAdvance
    by_cases h : tauEdge V.beta w.n w.posL < t
    · rw [if_pos h]
      have hle : w.posL ≤ 2 * w.n := hw.caches.posL
      have hne : w.posL ≠ 2 * w.n := by
        intro e
        rw [e, tauEdge_top V.beta w.n (by omega)] at h
        exact absurd ht (not_le.2 h)
      obtain ⟨w1, e1, k1, n1, p1, q1⟩ := moveNext_ok hw.caches (by simpa using hw.n_pos) h2
      have n1 : w1.n = w.n := n1
      have hst : stepPos w.n (w.posR, w.posL, w.dirLeft) = (w.posR + 1, w.posL + 1, true) := by
        unfold stepPos
        rw [if_neg (by omega), hd]
        simp [hne]
      rw [hst, Prod.mk.injEq, Prod.mk.injEq] at p1
      obtain ⟨pR, pL, pd⟩ := p1
      have hw1 : SWInv V (w1, ops) := ⟨hw.ops, k1, by simp only; omega, by simp only; omega⟩
      have hlo1 : tauEdge V.beta w1.n w1.posR ≤ t := by
        rw [n1, pR]
        exact (tauEdge_mono hb w.n (by omega)).trans h.le
      obtain ⟨w2, e2, r1, r2, r3, r4, r5, r6⟩ := ih hw1 q1 pd (by omega) hlo1 (by omega)
      exact ⟨w2, by rw [e1, Option.bind_some, e2], r1, r2, r3, r4.trans n1, r5, r6⟩
    · rw [if_neg h]
      exact ⟨w, rfl, hw, h2, hd, rfl, hlo, not_lt.1 h⟩

end window

/-! ### The lazy evaluation with cutoff 0 -/

variable {𝕜 : Type} [RCLike 𝕜] [DecidableEq 𝕜] {N : ℕ}

theorem CodeArgs.lazy_zero {A : CodeArgs 𝕜 N} (h : A.OK) {w : SWState (BK 𝕜) (BK 𝕜) (Fin (ebBrakets A.B A.p).length)}
    {ops : OpSet (OpTime ℝ)} (hw : SWInv (ebEnv A.B A.p A.beta) (w, ops)) :
    ((A.env.tr w).lazyEval ops 0).2 = fullTrace (ebEnv A.B A.p A.beta) ops := by
  have hbd : ∀ i, ‖traceBraket A.B A.p A.beta ops w i‖ ≤ traceBounds A.B A.p A.lim A.beta ops w i := fun i =>
    (inv_bound h.base h.solver h.norm h.beta A.lim hw i).2 (h.lim.sectors h.base h.solver h.dim h.inner)
  have hsum := sum_brakets h.base h.beta hw
  obtain ⟨hg, -⟩ := lazyEval_good 0 le_rfl (normAbs 𝕜) (traceBraket A.B A.p A.beta ops w) 0
    (A.sortIdx (traceBounds A.B A.p A.lim A.beta ops w)) (traceBounds A.B A.p A.lim A.beta ops w) (h.sort _) hbd
  rw [← hsum]
  rcases hg with ⟨e, hlt⟩ | ⟨e, hd⟩
  · exact absurd hlt (not_lt.2 (AbsoluteValue.nonneg _ _))
  · have : ∑ i, traceBraket A.B A.p A.beta ops w i = (lazyEvalTrace 0 (normAbs 𝕜) (traceBraket A.B A.p A.beta ops w) 0
      (A.sortIdx (traceBounds A.B A.p A.lim A.beta ops w)) (traceBounds A.B A.p A.lim A.beta ops w)).1.2 := by
      rw [← sub_eq_zero, ← (normAbs 𝕜).eq_zero]
      exact le_antisymm (by simpa using hd) ((normAbs 𝕜).nonneg _)
    rw [this]
    rfl

/-! ### One time, one sweep -/

/-- The basis function of the Legendre representation for a difference of times between `-β` and `β`, periodic. -/
noncomputable def ttBasis (beta : ℝ) (l : ℕ) (d : ℝ) : ℝ :=
  Real.sqrt (2 * l + 1) * legendreP l (2 * (if d < 0 then d + beta else d) / beta - 1)

omit [DecidableEq 𝕜] in
theorem ttImpl_ok (nf nl : ℕ) (beta t r : ℝ) (f : Fin 4 → ℕ) (hf : ∀ i, f i < nf) (c : 𝕜) (data : TTData 𝕜) :
    ∃ d, ttImpl nf nl beta (ttWorm t r f) c data = some d ∧ ∀ k : Fin 4 → ℕ, ∀ il,
      d (k 0) (k 1) (k 2) (k 3) il = data (k 0) (k 1) (k 2) (k 3) il +
        if k = f ∧ il < nl then c * ((ttBasis beta il (t - r) : ℝ) : 𝕜) else 0 := by
  unfold ttImpl ttWorm
  simp only [ne_eq, not_true_eq_false, if_false, hf, and_self, if_true]
  refine ⟨_, rfl, fun k il => ?_⟩
  have hk : k = f ↔ k 0 = f 0 ∧ k 1 = f 1 ∧ k 2 = f 2 ∧ k 3 = f 3 := by
    constructor
    · rintro rfl; simp
    · rintro ⟨h0, h1, h2, h3⟩
      funext i
      fin_cases i <;> assumption
  by_cases h : k = f ∧ il < nl
  · rw [if_pos h, if_pos (by have := hk.1 h.1; tauto), C35_legendre]
    rw [List.getD_eq_getElem?_getD, List.getElem?_map, List.getElem?_range h.2]
    simp only [Option.map_some, Option.getD_some, ttBasis]
    push_cast
    ring
  · rw [if_neg h, if_neg (by intro h'; exact h ⟨hk.2 ⟨h'.1, h'.2.1, h'.2.2.1, h'.2.2.2.1⟩, h'.2.2.2.2⟩), add_zero]

theorem ttShift_worm (t t' r : ℝ) (f : Fin 4 → ℕ) : ttShift t (ttWorm t' r f) = ttWorm t r f := rfl

/-- What holds of the window in the loop over the times, before the time `t`. -/
structure TTWin (A : CodeArgs 𝕜 N) (ops : OpSet (OpTime ℝ)) (n : ℕ)
    (w : SWState (BK 𝕜) (BK 𝕜) (Fin (ebBrakets A.B A.p).length)) : Prop where
  inv : SWInv (ebEnv A.B A.p A.beta) (w, ops)
  two : w.posL = w.posR + 2
  dir : w.dirLeft = true
  num : w.n = n
  n2 : 2 ≤ n

theorem ttPoint_ok {A : CodeArgs 𝕜 N} (h : A.OK) (nl : ℕ) (trace sign : 𝕜) (cut t t' r : ℝ) (f : Fin 4 → ℕ)
    (hf : ∀ i, f i < A.P.nf) {a : TTAcc A} {n : ℕ} (hw : TTWin A a.ops n a.sw) (hlo : tauEdge A.beta n a.sw.posR ≤ t)
    (ht : t < A.beta) (hedge : ∀ p ≤ 2 * n, t ≠ tauEdge A.beta n p) (hfresh : ∀ o ∈ a.ops, o.time ≠ ⟨t, 1⟩ ∧ o.time ≠ ⟨t, 0⟩) :
    ∃ a', ttPoint A nl trace sign cut (ttWorm t' r f) a t = some a' ∧ a'.ops = a.ops ∧ TTWin A a.ops n a'.sw ∧
      tauEdge A.beta n a'.sw.posR ≤ t ∧
      (∀ k : Fin 4 → ℕ, ∀ il, a'.data (k 0) (k 1) (k 2) (k 3) il = a.data (k 0) (k 1) (k 2) (k 3) il +
        if cut < ‖fullTrace (ebEnv A.B A.p A.beta) (timeSort (a.ops ++ (ttWorm t r f).take 2))‖ then
          (if k = f ∧ il < nl then sign * (fullTrace (ebEnv A.B A.p A.beta) (timeSort (a.ops ++ (ttWorm t r f).take 2)) / trace) *
            ((ttBasis A.beta il (t - r) : ℝ) : 𝕜) else 0) else 0) ∧
      a'.norm = a.norm + if cut < ‖fullTrace (ebEnv A.B A.p A.beta) (timeSort (a.ops ++ (ttWorm t r f).take 2))‖ then
        ‖fullTrace (ebEnv A.B A.p A.beta) (timeSort (a.ops ++ (ttWorm t r f).take 2)) / trace‖ else 0 := by
  have hn : a.sw.n = n := hw.num
  have hb : 0 ≤ (ebEnv A.B A.p A.beta).beta := h.beta
  have hn2 := hw.n2
  obtain ⟨w, e1, w1, w2, w3, w4, w5, w6⟩ := ttAdvance_ok (V := ebEnv A.B A.p A.beta) (ops := a.ops) (t := t) hb ht.le (2 * a.sw.n + 1) hw.inv hw.two
    hw.dir (by omega) (by rw [hn]; exact hlo) (by have := hw.two; omega)
  have hbeta : (ebEnv A.B A.p A.beta).beta = A.beta := rfl
  rw [hbeta, w4, hn] at w5 w6
  have hsorted : a.ops.Sorted := hw.inv.ops.1
  have htw : (ttWorm t r f).take 2 = [⟨⟨t, 1⟩, .creation, f 0⟩, ⟨⟨t, 0⟩, .annihilation, f 1⟩] := rfl
  have hnd : (((ttWorm t r f).take 2).map Psi.time).Nodup := by
    rw [htw]; simp
  obtain ⟨ops2, e2, s2, m2⟩ := ttInsertAll_ok ((ttWorm t r f).take 2) a.ops hsorted hnd (by
    intro x hx y hy
    rw [htw] at hx
    simp only [List.mem_cons, List.not_mem_nil, or_false] at hx
    rcases hx with rfl | rfl
    · exact (hfresh y hy).1
    · exact (hfresh y hy).2)
  obtain ⟨ops3, e3, s3, m3⟩ := ttEraseAll_ok ((ttWorm t r f).take 2) ops2 s2 hnd (fun x hx => (m2 x).2 (Or.inr hx))
  have hops3 : ops3 = a.ops := by
    refine OpSet.eq_of_mem_iff _ _ s3 hsorted fun y => ?_
    rw [m3, m2]
    constructor
    · rintro ⟨h1 | h1, h2⟩
      · exact h1
      · exact absurd h1 h2
    · intro hy
      refine ⟨Or.inl hy, fun hx => ?_⟩
      rw [htw] at hx
      simp only [List.mem_cons, List.not_mem_nil, or_false] at hx
      rcases hx with rfl | rfl
      · exact (hfresh _ hy).1 rfl
      · exact (hfresh _ hy).2 rfl
  have hL : w.posL ≤ 2 * n := by
    have := w1.caches.posL
    simp only at this
    omega
  have hR : w.posR ≤ 2 * n := by omega
  have lo : tauEdge A.beta n w.posR < t := lt_of_le_of_ne w5 (Ne.symm (hedge _ hR))
  have hi : t < tauEdge A.beta n w.posL := lt_of_le_of_ne w6 (hedge _ hL)
  have hwin2 : SWInv (ebEnv A.B A.p A.beta) (w, ops2) := by
    refine window_change (rem := []) (add := (ttWorm t r f).take 2) hb w1 s2 (fun y => ?_) ?_
    · rw [m2]; simp
    · intro o ho
      have ho : o ∈ (ttWorm t r f).take 2 := by simpa using ho
      rw [htw] at ho
      simp only [List.mem_cons, List.not_mem_nil, or_false] at ho
      rw [hbeta, w4, hn]
      rcases ho with rfl | rfl
      · exact ⟨(OpTime.le_def _ _).2 (Or.inl lo), (OpTime.le_def _ _).2 (Or.inl hi)⟩
      · exact ⟨(OpTime.le_def _ _).2 (Or.inl lo), (OpTime.le_def _ _).2 (Or.inl hi)⟩
  have hsort2 : ops2 = timeSort (a.ops ++ (ttWorm t r f).take 2) := by
    refine sorted_eq_timeSort _ _ s2 ?_
    rw [List.perm_ext_iff_of_nodup (sorted_nodup _ s2)]
    · intro y
      rw [m2, List.mem_append]
    · rw [List.nodup_append]
      refine ⟨sorted_nodup _ hsorted, List.Nodup.of_map _ hnd, ?_⟩
      intro y hy z hz hyz
      subst hyz
      rw [htw] at hz
      simp only [List.mem_cons, List.not_mem_nil, or_false] at hz
      rcases hz with rfl | rfl
      · exact (hfresh _ hy).1 rfl
      · exact (hfresh _ hy).2 rfl
  have hx := CodeArgs.lazy_zero h hwin2
  set x := fullTrace (ebEnv A.B A.p A.beta) (timeSort (a.ops ++ (ttWorm t r f).take 2)) with hxdef
  rw [hsort2] at hx
  obtain ⟨d, e4, hd⟩ := ttImpl_ok (𝕜 := 𝕜) A.P.nf nl A.beta t r f hf (sign * (x / trace)) a.data
  have e1' : ttAdvance A.env.V a.ops t (2 * a.sw.n + 1) a.sw = some w := e1
  have hwin : TTWin A a.ops n w := ⟨w1, w2, w3, w4.trans hn, hn2⟩
  unfold ttPoint
  simp only [e1', Option.bind_some, ttShift_worm, e2]
  rw [hsort2, hx]
  rw [hsort2] at e3
  by_cases hc : cut < ‖x‖
  · rw [if_pos hc]
    rw [e4, Option.map_some, Option.bind_some, e3]
    refine ⟨_, rfl, hops3, hwin, w5, fun k il => ?_, ?_⟩
    · rw [if_pos hc]; exact hd k il
    · rw [if_pos hc]
  · rw [if_neg hc]
    simp only [Option.map_some, Option.bind_some, e3]
    refine ⟨_, rfl, hops3, hwin, w5, fun k il => ?_, ?_⟩
    · rw [if_neg hc, add_zero]
    · rw [if_neg hc, add_zero]

theorem ttLoop_ok {A : CodeArgs 𝕜 N} (h : A.OK) (nl : ℕ) (trace sign : 𝕜) (cut t' r : ℝ) (f : Fin 4 → ℕ)
    (hf : ∀ i, f i < A.P.nf) (n : ℕ) (times : List ℝ) : ∀ (a : TTAcc A), TTWin A a.ops n a.sw →
    times.Pairwise (· < ·) → (∀ t ∈ times, tauEdge A.beta n a.sw.posR ≤ t) → (∀ t ∈ times, t < A.beta) →
    (∀ t ∈ times, ∀ p ≤ 2 * n, t ≠ tauEdge A.beta n p) → (∀ t ∈ times, ∀ o ∈ a.ops, o.time ≠ ⟨t, 1⟩ ∧ o.time ≠ ⟨t, 0⟩) →
    ∃ a', times.foldlM (ttPoint A nl trace sign cut (ttWorm t' r f)) a = some a' ∧ a'.ops = a.ops ∧ TTWin A a.ops n a'.sw ∧
      (∀ k : Fin 4 → ℕ, ∀ il, a'.data (k 0) (k 1) (k 2) (k 3) il = a.data (k 0) (k 1) (k 2) (k 3) il +
        (times.map fun t => if cut < ‖fullTrace (ebEnv A.B A.p A.beta) (timeSort (a.ops ++ (ttWorm t r f).take 2))‖ then
          (if k = f ∧ il < nl then sign * (fullTrace (ebEnv A.B A.p A.beta) (timeSort (a.ops ++ (ttWorm t r f).take 2)) / trace) *
            ((ttBasis A.beta il (t - r) : ℝ) : 𝕜) else 0) else 0).sum) ∧
      a'.norm = a.norm + (times.map fun t =>
        if cut < ‖fullTrace (ebEnv A.B A.p A.beta) (timeSort (a.ops ++ (ttWorm t r f).take 2))‖ then
          ‖fullTrace (ebEnv A.B A.p A.beta) (timeSort (a.ops ++ (ttWorm t r f).take 2)) / trace‖ else 0).sum := by
  induction times with
  | nil =>
    intro a hw _ _ _ _ _
    exact ⟨a, rfl, rfl, hw, fun k il => by simp, by simp⟩
  | cons t times ih =>
    intro a hw hp hlo hhi hedge hfr
    obtain ⟨a1, e1, o1, w1, l1, d1, n1⟩ := ttPoint_ok h nl trace sign cut t t' r f hf hw (hlo t (by simp)) (hhi t (by simp))
      (hedge t (by simp)) (hfr t (by simp))
    rw [List.pairwise_cons] at hp
    obtain ⟨a2, e2, o2, w2, d2, n2⟩ := ih a1 (by rw [o1]; exact w1) hp.2
      (fun u hu => l1.trans (hp.1 u hu).le) (fun u hu => hhi u (List.mem_cons_of_mem _ hu))
      (fun u hu => hedge u (List.mem_cons_of_mem _ hu)) (fun u hu => by rw [o1]; exact hfr u (List.mem_cons_of_mem _ hu))
    rw [o1] at o2 w2 d2 n2
    refine ⟨a2, ?_, o2, w2, fun k il => ?_, ?_⟩
    · rw [List.foldlM_cons, e1]
      exact e2
    · rw [d2, d1, List.map_cons, List.sum_cons, add_assoc]
    · rw [n2, n1, List.map_cons, List.sum_cons, add_assoc]

theorem ttSweep_ok {A : CodeArgs 𝕜 N} (h : A.OK) (nl m nWin : ℕ) (hm : 2 ≤ m) (trace sign : 𝕜) (cut t' r : ℝ) (f : Fin 4 → ℕ)
    (hf : ∀ i, f i < A.P.nf) (times : List ℝ) (a : TTAcc A) {ops' : OpSet (OpTime ℝ)}
    (hst : StacksOK (ebEnv A.B A.p A.beta) ops' a.sw) (hops : OpsOK A.beta a.ops) (hr0 : 0 ≤ r) (hr1 : r < A.beta)
    (hpr : ∀ o ∈ a.ops, o.time ≠ ⟨r, 1⟩ ∧ o.time ≠ ⟨r, 0⟩) (hpw : times.Pairwise (· < ·))
    (hlo : ∀ t ∈ times, 0 ≤ t) (hhi : ∀ t ∈ times, t < A.beta) (htr : ∀ t ∈ times, t ≠ r)
    (hedge : ∀ t ∈ times, ∀ p ≤ 2 * max m nWin, t ≠ tauEdge A.beta (max m nWin) p)
    (hfr : ∀ t ∈ times, ∀ o ∈ a.ops, o.time ≠ ⟨t, 1⟩ ∧ o.time ≠ ⟨t, 0⟩) :
    ∃ a' ops1, ttSweep A nl m nWin trace sign cut times (ttWorm t' r f) a = some a' ∧ a'.ops = a.ops ∧
      StacksOK (ebEnv A.B A.p A.beta) ops1 a'.sw ∧
      (∀ k : Fin 4 → ℕ, ∀ il, a'.data (k 0) (k 1) (k 2) (k 3) il = a.data (k 0) (k 1) (k 2) (k 3) il +
        (times.map fun t => if cut < ‖fullTrace (ebEnv A.B A.p A.beta) (timeSort (a.ops ++ ttWorm t r f))‖ then
          (if k = f ∧ il < nl then sign * (fullTrace (ebEnv A.B A.p A.beta) (timeSort (a.ops ++ ttWorm t r f)) / trace) *
            ((ttBasis A.beta il (t - r) : ℝ) : 𝕜) else 0) else 0).sum) ∧
      a'.norm = a.norm + (times.map fun t =>
        if cut < ‖fullTrace (ebEnv A.B A.p A.beta) (timeSort (a.ops ++ ttWorm t r f))‖ then
          ‖fullTrace (ebEnv A.B A.p A.beta) (timeSort (a.ops ++ ttWorm t r f)) / trace‖ else 0).sum := by
  have hdw : (ttWorm t' r f).drop 2 = [⟨⟨r, 1⟩, .creation, f 2⟩, ⟨⟨r, 0⟩, .annihilation, f 3⟩] := rfl
  have hnd : (((ttWorm t' r f).drop 2).map Psi.time).Nodup := by rw [hdw]; simp
  have hsorted := hops.1
  have hfresh : ∀ x ∈ (ttWorm t' r f).drop 2, ∀ y ∈ a.ops, y.time ≠ x.time := by
    intro x hx y hy
    rw [hdw] at hx
    simp only [List.mem_cons, List.not_mem_nil, or_false] at hx
    rcases hx with rfl | rfl
    · exact (hpr y hy).1
    · exact (hpr y hy).2
  obtain ⟨ops1, e1, s1, m1⟩ := ttInsertAll_ok _ a.ops hsorted hnd hfresh
  have hok1 : OpsOK A.beta ops1 := by
    refine ⟨s1, fun o ho => ?_⟩
    rcases (m1 o).1 ho with ho | ho
    · exact hops.2 o ho
    · rw [hdw] at ho
      simp only [List.mem_cons, List.not_mem_nil, or_false] at ho
      have hle : opT (0 : ℝ) ≤ ⟨r, 0⟩ := opT_le.2 hr0
      rcases ho with rfl | rfl
      · refine ⟨hle.trans ?_, (OpTime.le_def _ _).2 (Or.inl hr1)⟩
        exact (OpTime.le_def _ _).2 (Or.inr ⟨rfl, by simp⟩)
      · exact ⟨hle, (OpTime.le_def _ _).2 (Or.inl hr1)⟩
  obtain ⟨w, e2, k2, n2, x2, -⟩ := setWindowSize_ok hst ops1 (max m nWin) 0 true
  obtain ⟨pR, pL, pd⟩ := x2 (by omega)
  have hwin : TTWin A ops1 (max m nWin) w := by
    refine ⟨⟨hok1, k2, ?_, ?_⟩, by omega, ?_, n2, by omega⟩
    · show 1 ≤ w.n; omega
    · show w.posR ≤ w.posL; omega
    · rw [pd]; rfl
  obtain ⟨a1, e3, o3, w3, d3, n3⟩ := ttLoop_ok h nl trace sign cut t' r f hf (max m nWin) times { a with sw := w, ops := ops1 } hwin hpw
    (by
      intro t ht
      show tauEdge A.beta (max m nWin) w.posR ≤ t
      rw [pR, tauEdge_zero]; exact hlo t ht) hhi hedge (by
      intro t ht o ho
      have ho : o ∈ ops1 := ho
      rcases (m1 o).1 ho with ho | ho
      · exact hfr t ht o ho
      · rw [hdw] at ho
        simp only [List.mem_cons, List.not_mem_nil, or_false] at ho
        have := htr t ht
        rcases ho with rfl | rfl <;> simp [Ne.symm this])
  simp only at o3 w3 d3 n3
  obtain ⟨ops2, e4, s4, m4⟩ := ttEraseAll_ok ((ttWorm t' r f).drop 2) ops1 s1 hnd (fun x hx => (m1 x).2 (Or.inr hx))
  have hops2 : ops2 = a.ops := by
    refine OpSet.eq_of_mem_iff _ _ s4 hsorted fun y => ?_
    rw [m4, m1]
    constructor
    · rintro ⟨h1 | h1, h2⟩
      · exact h1
      · exact absurd h1 h2
    · exact fun hy => ⟨Or.inl hy, fun hx => hfresh y hx y hy rfl⟩
  have hsort : ∀ t, (∀ o ∈ a.ops, o.time ≠ ⟨t, 1⟩ ∧ o.time ≠ ⟨t, 0⟩) → t ≠ r →
      timeSort (ops1 ++ (ttWorm t r f).take 2) = timeSort (a.ops ++ ttWorm t r f) := by
    intro t hto htr
    have hp : (ops1 ++ (ttWorm t r f).take 2).Perm (a.ops ++ ttWorm t r f) := by
      have hp1 : List.Perm ops1 (a.ops ++ (ttWorm t' r f).drop 2) := by
        rw [List.perm_ext_iff_of_nodup (sorted_nodup _ s1)]
        · intro y; rw [m1, List.mem_append]
        · rw [List.nodup_append]
          exact ⟨sorted_nodup _ hsorted, List.Nodup.of_map _ hnd, fun y hy z hz hyz => hfresh z hz y hy (by rw [hyz])⟩
      refine (hp1.append_right _).trans ?_
      rw [List.append_assoc]
      refine List.Perm.append_left _ ?_
      exact List.perm_append_comm (l₁ := (ttWorm t' r f).drop 2) (l₂ := (ttWorm t r f).take 2)
    have hnn : ((a.ops ++ ttWorm t r f).map Psi.time).Nodup := by
      rw [List.map_append, List.nodup_append]
      refine ⟨?_, ?_, ?_⟩
      · rw [List.nodup_map_iff_inj_on (sorted_nodup _ hsorted)]
        exact fun x hx y hy hxy => OpSet.time_inj _ hsorted hx hy hxy
      · rw [ttWorm_times]
        simp [htr]
      · intro x hx y hy hxy
        rw [ttWorm_times] at hy
        obtain ⟨o, ho, rfl⟩ := List.mem_map.1 hx
        have h1 := hto o ho
        have h2 := hpr o ho
        simp only [List.mem_cons, List.not_mem_nil, or_false] at hy
        rw [← hxy] at hy
        tauto
    have hnn' : ((ops1 ++ (ttWorm t r f).take 2).map Psi.time).Nodup := (hp.map Psi.time).nodup_iff.2 hnn
    exact time_sorted_unique ((timeSort_perm _).trans (hp.trans (timeSort_perm _).symm))
      (((timeSort_perm _).map Psi.time).nodup_iff.2 hnn') (timeSort_sorted _) (timeSort_sorted _)
  refine ⟨{ a1 with ops := ops2 }, ops1, ?_, hops2, w3.inv.caches, fun k il => ?_, ?_⟩
  · unfold ttSweep
    have e2' : setWindowSize A.env.V (max m nWin) ops1 0 true a.sw = some w := e2
    simp only [e1, Option.bind_some, e2', e3, o3, e4, Option.map_some]
  · rw [show ({ a1 with ops := ops2 } : TTAcc A).data = a1.data from rfl, d3]
    refine congrArg₂ _ rfl (congrArg List.sum (List.map_congr_left fun t ht => ?_))
    rw [hsort t (hfr t ht) (htr t ht)]
  · rw [show ({ a1 with ops := ops2 } : TTAcc A).norm = a1.norm from rfl, n3]
    refine congrArg₂ _ rfl (congrArg List.sum (List.map_congr_left fun t ht => ?_))
    rw [hsort t (hfr t ht) (htr t ht)]

end CTHyb
