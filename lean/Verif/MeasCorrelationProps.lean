import Verif.MeasCorrelation
import Verif.SlidingWindowProps

/-! C26: two-time correlation functions. -/

namespace CTHyb

variable {R Ket Bra K ι : Type}

/-! ### The sets of observables -/

theorem mem_obsInsert (x y : CdagC) (s : List CdagC) (h : y ∈ obsInsert x s) : y = x ∨ y ∈ s := by
  induction s with
  | nil => simpa [obsInsert] using h
  | cons z s ih =>
    unfold obsInsert at h
    split at h
    · simpa using h
    · split at h
      · rcases List.mem_cons.1 h with h | h
        · exact Or.inr (by simp [h])
        · rcases ih h with h | h
          · exact Or.inl h
          · exact Or.inr (List.mem_cons_of_mem _ h)
      · exact Or.inr h

theorem obsInsert_old (x y : CdagC) (s : List CdagC) (h : y ∈ s) : y ∈ obsInsert x s := by
  induction s with
  | nil => cases h
  | cons z s ih =>
    unfold obsInsert
    split
    · exact List.mem_cons_of_mem _ h
    · split
      · rcases List.mem_cons.1 h with h | h
        · simp [h]
        · exact List.mem_cons_of_mem _ (ih h)
      · exact h

theorem obsInsert_new (x : CdagC) (s : List CdagC) : ∃ y ∈ obsInsert x s, y.f0 = x.f0 := by
  induction s with
  | nil => exact ⟨x, by simp [obsInsert], rfl⟩
  | cons z s ih =>
    unfold obsInsert
    split
    · exact ⟨x, by simp, rfl⟩
    · rename_i h1
      split
      · obtain ⟨y, hy, e⟩ := ih
        exact ⟨y, List.mem_cons_of_mem _ hy, e⟩
      · rename_i h2
        simp only [CdagC.lt, decide_eq_true_eq, not_lt] at h1 h2
        exact ⟨z, by simp, le_antisymm h1 h2⟩

theorem obsFold (l s : List CdagC) :
    (∀ y ∈ l.foldl (fun s x => obsInsert x s) s, y ∈ s ∨ y ∈ l) ∧
    (∀ y ∈ s, y ∈ l.foldl (fun s x => obsInsert x s) s) ∧
    (∀ x ∈ l, ∃ y ∈ l.foldl (fun s x => obsInsert x s) s, y.f0 = x.f0) := by
  induction l generalizing s with
  | nil => exact ⟨fun y h => Or.inl h, fun y h => h, fun x h => by cases h⟩
  | cons a l ih =>
    obtain ⟨i1, i2, i3⟩ := ih (obsInsert a s)
    refine ⟨fun y h => ?_, fun y h => i2 y (obsInsert_old a y s h), fun x h => ?_⟩
    · rcases i1 y h with h | h
      · rcases mem_obsInsert a y s h with h | h
        · exact Or.inr (by simp [h])
        · exact Or.inl h
      · exact Or.inr (List.mem_cons_of_mem _ h)
    · rcases List.mem_cons.1 h with rfl | h
      · obtain ⟨y, hy, e⟩ := obsInsert_new x s
        exact ⟨y, i2 y hy, e⟩
      · exact i3 x h

/-- The observable used in place of `x`: one of the list with the same first flavour. -/
theorem obs_found (l : List CdagC) (x : CdagC) (hx : x ∈ l) :
    ∃ y ∈ l, (obsSet l)[obsPos x (obsSet l)]? = some y ∧ y.f0 = x.f0 := by
  obtain ⟨i1, -, i3⟩ := obsFold l []
  obtain ⟨y, hy, e⟩ := i3 x hx
  have hlt : obsPos x (obsSet l) < (obsSet l).length := by
    unfold obsPos
    rw [List.findIdx_lt_length]
    exact ⟨y, hy, by simp [CdagC.lt, e]⟩
  have hp := List.findIdx_getElem (w := hlt)
  refine ⟨(obsSet l)[obsPos x (obsSet l)], ?_, List.getElem?_eq_getElem hlt, ?_⟩
  · exact (i1 _ (List.getElem_mem hlt)).resolve_left (by simp)
  · have hp' : (!x.lt (obsSet l)[obsPos x (obsSet l)] && !(obsSet l)[obsPos x (obsSet l)].lt x) = true :=
      hp
    generalize (obsSet l)[obsPos x (obsSet l)] = z at hp'
    simp [CdagC.lt] at hp'
    omega

/-- **C26.** If all observables of the list are densities (as those read from the input file are),
each correlator finds its own observables. -/
theorem C26_observables_found (l : List CdagC) (hl : ∀ x ∈ l, x.f0 = x.f1) (x : CdagC) (hx : x ∈ l) :
    (obsSet l)[obsPos x (obsSet l)]? = some x := by
  obtain ⟨y, hy, e, hf⟩ := obs_found l x hx
  rw [e]
  congr 1
  have h1 := hl x hx
  have h2 := hl y hy
  cases x; cases y; simp_all

/-- **C26, counterexample.** For general `c†_i c_j` the comparison looks at the first flavour only:
the observable of the second correlator is replaced by that of the first. -/
theorem C26_observables_confused :
    (obsSet [⟨0, 0⟩, ⟨0, 1⟩])[obsPos ⟨0, 1⟩ (obsSet [⟨0, 0⟩, ⟨0, 1⟩])]? = some ⟨0, 0⟩ := by
  decide

/-! ### Each operator acts once -/

section corr
variable [Field R] [LinearOrder R] [IsStrictOrderedRing R] {V : SWEnv R Ket Bra K ι}

/-- Specification of the mesh: from β/4 to 3β/4. -/
def corrTau (beta : R) (N i : ℕ) : R := beta / 4 + beta / 2 * (i / ((N : R) - 1))

/-- Specification of the correlator at point `i`: every operator of the configuration acts once, in
the time order, those before `τ_0` before `or`, those at or after `τ_i` after `ol`. -/
def corrSpec [Fintype ι] [AddCommMonoid K] (V : SWEnv R Ket Bra K ι) (ops : OpSet (OpTime R))
    (N i : ℕ) (ol or : CdagC) : K :=
  let t0 := corrTau V.beta N 0
  let t := corrTau V.beta N i
  ∑ b, V.E.product (V.bra0 b)
    (timeOrdered V.E V.beta (ops.filter (fun o => decide (opT t ≤ o.time))) t
      (applyKet V.E ol
        (timeOrdered V.E t (ops.filter (fun o => decide (opT t0 ≤ o.time ∧ o.time < opT t))) t0
          (applyKet V.E or
            (timeOrdered V.E t0 (ops.filter (fun o => decide (o.time < opT t0))) 0 (V.ket0 b))))))

theorem tauEdge_corr (beta : R) (N i : ℕ) (hN : 2 ≤ N) :
    tauEdge beta (2 * (N - 1)) (N - 1 + 2 * i) = corrTau beta N i := by
  obtain ⟨M, rfl⟩ : ∃ M, N = M + 2 := ⟨N - 2, by omega⟩
  have h1 : M + 2 - 1 = M + 1 := by omega
  rw [h1]
  have : (M : R) + 1 ≠ 0 := by positivity
  unfold tauEdge corrTau
  push_cast
  have e : (M : R) + 2 - 1 = M + 1 := by ring
  rw [e]
  field_simp
  ring

theorem applyBra_adj [Zero K] (hE : V.E.Lawful) (o : CdagC) (b : Bra) (k : Ket) :
    V.E.product (applyBra V.E o b) k = V.E.product b (applyKet V.E o k) := by
  unfold applyBra applyKet
  rw [hE.adj_op, hE.adj_op]

theorem corrKet_eq [Zero K] (hE : V.E.Lawful) {ops : OpSet (OpTime R)} (hs : ops.Sorted)
    (tau : ℕ → R) (hm : ∀ i, tau i ≤ tau (i + 1)) (o : CdagC) (k : Ket) (i : ℕ) :
    corrKet V.E ops tau o k i = timeOrdered V.E (tau i)
      (ops.filter (fun o => decide (opT (tau 0) ≤ o.time ∧ o.time < opT (tau i)))) (tau 0)
      (applyKet V.E o k) := by
  have h0 : ∀ i, tau 0 ≤ tau i := by
    intro i
    induction i with
    | zero => exact le_rfl
    | succ i ih => exact le_trans ih (hm i)
  induction i with
  | zero =>
    have : ops.filter (fun o => decide (opT (tau 0) ≤ o.time ∧ o.time < opT (tau 0))) = [] := by
      rw [List.filter_eq_nil_iff]; intro o _
      simp only [decide_eq_true_eq, not_and, not_lt]; exact fun h => h
    rw [this]
    simp [corrKet, timeOrdered, hE.prop_zero]
  | succ i ih =>
    rw [corrKet, evolveKet_eq hE, ih, ← timeOrdered_append hE]
    congr 1
    have hs' : OpSet.Sorted (ops.filter (fun o => decide (opT (tau 0) ≤ o.time ∧
        o.time < opT (tau (i + 1))))) := List.Pairwise.filter _ hs
    rw [← split_lt hs' (opT (tau i)), List.filter_filter, List.filter_filter]
    have m1 := opT_le.2 (hm i)
    have m0 := opT_le.2 (h0 i)
    congr 1
    · apply List.filter_congr
      intro o _
      simp only [← Bool.decide_and]
      congr 1
      exact propext ⟨fun h => ⟨h.2, h.1, lt_of_lt_of_le h.2 m1⟩, fun h => ⟨h.2.1, h.1⟩⟩
    · unfold rangeCO
      apply List.filter_congr
      intro o _
      simp only [← Bool.decide_and]
      congr 1
      exact propext ⟨fun h => ⟨h.1, le_trans m0 h.1, h.2⟩, fun h => ⟨h.1, h.2.2⟩⟩

theorem corrBra_eq [Zero K] (hE : V.E.Lawful) {ops : OpSet (OpTime R)} (hs : ops.Sorted)
    (tau : ℕ → R) (hm : ∀ i, tau i ≤ tau (i + 1)) (last : ℕ) (b b0 : Bra) (c : R)
    (hb : ∀ k, V.E.product b k = V.E.product b0 (timeOrdered V.E c
      (ops.filter (fun o => decide (opT (tau last) < o.time))) (tau last) k))
    (d : ℕ) (hd : d ≤ last)
    (hn : ∀ j, last - d < j → j < last → ∀ o ∈ ops, o.time ≠ opT (tau j))
    (hl : d = 0 → ∀ o ∈ ops, o.time ≠ opT (tau last)) (k : Ket) :
    V.E.product (corrBra V.E ops tau last b d) k = V.E.product b0 (timeOrdered V.E c
      (ops.filter (fun o => decide (opT (tau (last - d)) ≤ o.time))) (tau (last - d)) k) := by
  induction d generalizing k with
  | zero =>
    simp only [corrBra, Nat.sub_zero]
    rw [hb]
    congr 2
    apply List.filter_congr
    intro o ho
    congr 1
    exact propext ⟨le_of_lt, fun h => lt_of_le_of_ne h (Ne.symm (hl rfl o ho))⟩
  | succ d ih =>
    simp only [corrBra]
    rw [evolveBra_eq hE]
    have ej : last - (d + 1) + 1 = last - d := by omega
    rw [ej]
    have m1 := opT_le.2 (hm (last - (d + 1)))
    rw [ej] at m1
    have hs' : OpSet.Sorted (ops.filter (fun o => decide (opT (tau (last - (d + 1))) ≤ o.time))) :=
      List.Pairwise.filter _ hs
    by_cases h0 : d = 0
    · subst h0
      simp only [corrBra, Nat.sub_zero]
      rw [hb, ← timeOrdered_append hE]
      congr 2
      simp only [Nat.sub_zero] at m1
      rw [← split_le hs' (opT (tau last)), List.filter_filter, List.filter_filter]
      congr 1
      · unfold rangeCC
        apply List.filter_congr
        intro o _
        simp only [← Bool.decide_and]
        congr 1
        exact propext ⟨fun h => ⟨h.2, h.1⟩, fun h => ⟨h.2, h.1⟩⟩
      · apply List.filter_congr
        intro o _
        simp only [← Bool.decide_and]
        congr 1
        exact propext ⟨fun h => ⟨h, le_trans m1 h.le⟩, fun h => h.1⟩
    · rw [ih (by omega) (fun j h1 h2 => hn j (by omega) h2) (fun h => absurd h h0),
        ← timeOrdered_append hE]
      congr 2
      rw [← split_lt hs' (opT (tau (last - d))), List.filter_filter, List.filter_filter]
      congr 1
      · unfold rangeCC
        apply List.filter_congr
        intro o ho
        simp only [← Bool.decide_and]
        congr 1
        have := hn (last - d) (by omega) (by omega) o ho
        exact propext ⟨fun h => ⟨lt_of_le_of_ne h.2 this, h.1⟩, fun h => ⟨h.2, h.1.le⟩⟩
      · apply List.filter_congr
        intro o _
        simp only [← Bool.decide_and]
        congr 1
        exact propext ⟨fun h => ⟨h, le_trans m1 h⟩, fun h => h.1⟩

/-- Full form of C26 for point `it`: the measurement succeeds, restores the window and yields the
specified correlators. -/
def CorrCorrect [Fintype ι] [AddCommMonoid K] (V : SWEnv R Ket Bra K ι)
    (correlators : List (CdagC × CdagC)) (N : ℕ) (ops : OpSet (OpTime R)) (s : SWState Ket Bra ι)
    (it : ℕ) : Prop :=
  ∃ s' result, corrMeas V correlators N ops s = some (s', result) ∧
    s'.n = s.n ∧ s'.posL = s.posL ∧ s'.posR = s.posR ∧
    ∀ ic ol or, correlators[ic]? = some (ol, or) →
      result ic it = some (corrSpec V ops N it ol or)

/-- The measurement in a state of the window with valid caches, all mesh points at once. -/
theorem corrMeas_ok [Fintype ι] [AddCommMonoid K] (hE : V.E.Lawful) (hb : 0 ≤ V.beta)
    {s : SWState Ket Bra ι} {ops : OpSet (OpTime R)} (I : SWInv V (s, ops)) (h1 : 2 ≤ s.n ∨ s.posR = 0)
    (correlators : List (CdagC × CdagC))
    (hc : ∀ p ∈ correlators, p.1.f0 = p.1.f1 ∧ p.2.f0 = p.2.f1) (N : ℕ) (hN : 2 ≤ N) :
    ∃ s' result, corrMeas V correlators N ops s = some (s', result) ∧ SWInv V (s', ops) ∧
      s'.n = s.n ∧ s'.posL = s.posL ∧ s'.posR = s.posR ∧
      ∀ it < N, (∀ j, it < j → j < N - 1 → ∀ o ∈ ops, o.time ≠ opT (corrTau V.beta N j)) →
        (it = N - 1 → ∀ o ∈ ops, o.time ≠ opT (corrTau V.beta N it)) →
        ∀ ic ol or, correlators[ic]? = some (ol, or) → result ic it = some (corrSpec V ops N it ol or) := by
  obtain ⟨s1, e1, k1, n1, a1, -⟩ := setWindowSize_ok I.caches ops (2 * (N - 1)) (N - 1) true
  obtain ⟨s2, e2, k2, n2, l2, r2, -⟩ := moveLeftTo_ok k1 (N - 1 + 2 * (N - 1)) (by omega)
  obtain ⟨s3, e3, k3, n3, l3, a3, b3⟩ := restoreState_ok k2 ops (getState s) I.caches.posL
  have ha1 := a1 (by omega)
  have hn2 : s2.n = 2 * (N - 1) := by omega
  have hR : s2.posR = N - 1 := by omega
  obtain ⟨t1, ht1⟩ := stackOf_head (expL V ops s2.n) (2 * s2.n - s2.posL)
  obtain ⟨t2, ht2⟩ := stackOf_head (expR V ops s2.n) s2.posR
  have hpos := I.n_pos
  simp only at hpos
  have hn3 : s3.n = s.n := n3
  have hl3 : s3.posL = s.posL := l3
  have hR3 : s3.posR = s.posR := by
    by_cases h2 : 2 ≤ s.n
    · exact (a3 h2).1
    · have := b3 (show s.n < 2 by omega)
      have h3 := h1.resolve_left h2
      omega
  refine ⟨s3, _, by
    simp only [corrMeas, e1, e2, Option.bind_some]
    rw [k2.left, k2.right, ht1, ht2]
    simp only [e3, Option.map_some]
    rfl, ⟨I.ops, k3, by simp only; omega, by simp only; rw [hR3, hl3]; exact I.le⟩, hn3, hl3, hR3, ?_⟩
  · intro it hit hno hlast ic ol or hic
    have hmem : (ol, or) ∈ correlators := List.mem_of_getElem? hic
    have hl : (obsSet (correlators.map Prod.fst))[obsPos ol (obsSet (correlators.map Prod.fst))]?
        = some ol := by
      refine C26_observables_found _ ?_ ol (List.mem_map_of_mem hmem)
      intro x hx
      obtain ⟨p, hp, rfl⟩ := List.mem_map.1 hx
      exact (hc p hp).1
    have hrr : (obsSet (correlators.map Prod.snd))[obsPos or (obsSet (correlators.map Prod.snd))]?
        = some or := by
      refine C26_observables_found _ ?_ or (List.mem_map_of_mem hmem)
      intro x hx
      obtain ⟨p, hp, rfl⟩ := List.mem_map.1 hx
      exact (hc p hp).2
    simp only [hic, hl, hrr]
    congr 1
    unfold corrSpec
    apply Finset.sum_congr rfl
    intro b _
    have htau : ∀ i, tauEdge V.beta s2.n (N - 1 + 2 * i) = corrTau V.beta N i := by
      intro i; rw [hn2, tauEdge_corr _ _ _ hN]
    have hmono : ∀ i, corrTau V.beta N i ≤ corrTau V.beta N (i + 1) := by
      intro i; rw [← htau, ← htau]; exact tauEdge_mono hb _ (by omega)
    simp only [htau]
    rw [applyBra_adj hE]
    have e1' : 2 * s2.n - (2 * s2.n - s2.posL) = s2.posL := by omega
    have e4 : tauEdge V.beta s2.n s2.posL = corrTau V.beta N (N - 1) := by rw [l2, htau]
    have e5 : tauEdge V.beta s2.n s2.posR = corrTau V.beta N 0 := by rw [hR, ← htau]; rfl
    have eit : N - 1 - (N - 1 - it) = it := by omega
    rw [corrBra_eq hE I.ops.1 (corrTau V.beta N) hmono (N - 1) _ (V.bra0 b) V.beta ?_ (N - 1 - it)
      (by omega) (by rw [eit]; exact hno)
      (fun h => by
        have : it = N - 1 := by omega
        rw [← this]; exact hlast this)]
    · rw [eit, corrKet_eq hE I.ops.1 _ hmono, expR_value hE hb I.ops, e5]
    · intro k
      rw [expL_value hE hb I.ops _ (by omega) _ (by omega), e1', e4]

/-- **C26 (partial).** In every reachable state of the window, for densities: at mesh point `it` the
measurement gives the specified correlator, each operator acting once, provided no operator sits
exactly on a mesh point strictly between `it` and the last one, nor, if `it` is the last one, on it.
Operators on the first mesh point or on `it` itself do no harm.  The proviso is needed:
`C26_coincidence_wrong`. -/
theorem C26_correlation_partial [Fintype ι] [AddCommMonoid K] (hE : V.E.Lawful) (hb : 0 ≤ V.beta)
    (n : ℕ) (hn : 1 ≤ n) (ops0 : OpSet (OpTime R)) (ho : OpsOK V.beta ops0)
    (pl pr nn : ℕ) (d : Bool) (s0 : SWState Ket Bra ι)
    (h0 : initStacks V n ops0 pl pr nn d = some s0) (s : SWState Ket Bra ι)
    (ops : OpSet (OpTime R)) (hr : Reach V (s0, ops0) (s, ops)) (h1 : 2 ≤ s.n ∨ s.posR = 0)
    (correlators : List (CdagC × CdagC))
    (hc : ∀ p ∈ correlators, p.1.f0 = p.1.f1 ∧ p.2.f0 = p.2.f1)
    (N : ℕ) (hN : 2 ≤ N) (it : ℕ) (hit : it < N)
    (hno : ∀ j, it < j → j < N - 1 → ∀ o ∈ ops, o.time ≠ opT (corrTau V.beta N j))
    (hlast : it = N - 1 → ∀ o ∈ ops, o.time ≠ opT (corrTau V.beta N it)) :
    CorrCorrect V correlators N ops s it := by
  obtain ⟨s0', e, hi, -⟩ := init_inv (V := V) n hn ops0 ho pl pr nn d
  rw [h0] at e
  obtain rfl := Option.some.inj e
  have I := reach_inv hb hi hr
  obtain ⟨s', result, e1, -, e2, e3, e4, e5⟩ := corrMeas_ok hE hb I h1 correlators hc N hN
  exact ⟨s', result, e1, e2, e3, e4, e5 it hit hno hlast⟩

/-- **C26, counterexample.** Mesh of three points 1/4, 1/2, 3/4 and a configuration with two
operators, one of them exactly at 1/2: at the first mesh point this operator is applied twice; with
an operator at 3/4, it is lost at the last mesh point. -/
theorem C26_coincidence_wrong :
    (∃ s0, initStacks toyEnv 1 [⟨⟨1/8, 0⟩, .annihilation, 0⟩, ⟨⟨1/2, 0⟩, .creation, 0⟩] 0 0 0 false
        = some s0 ∧
      ¬ CorrCorrect toyEnv [(⟨0, 0⟩, ⟨1, 1⟩)] 3
        [⟨⟨1/8, 0⟩, .annihilation, 0⟩, ⟨⟨1/2, 0⟩, .creation, 0⟩] s0 0) ∧
    (∃ s0, initStacks toyEnv 1 [⟨⟨1/8, 0⟩, .annihilation, 0⟩, ⟨⟨3/4, 0⟩, .creation, 0⟩] 0 0 0 false
        = some s0 ∧
      ¬ CorrCorrect toyEnv [(⟨0, 0⟩, ⟨1, 1⟩)] 3
        [⟨⟨1/8, 0⟩, .annihilation, 0⟩, ⟨⟨3/4, 0⟩, .creation, 0⟩] s0 2) := by
  have key : ∀ (ops : OpSet (OpTime ℚ)) (it : ℕ),
      ((initStacks toyEnv 1 ops 0 0 0 false).bind fun s0 =>
        (corrMeas toyEnv [(⟨0, 0⟩, ⟨1, 1⟩)] 3 ops s0).bind fun p => p.2 0 it) ≠
        some (corrSpec toyEnv ops 3 it ⟨0, 0⟩ ⟨1, 1⟩) →
      (initStacks toyEnv 1 ops 0 0 0 false).isSome →
      ∃ s0, initStacks toyEnv 1 ops 0 0 0 false = some s0 ∧
        ¬ CorrCorrect toyEnv [(⟨0, 0⟩, ⟨1, 1⟩)] 3 ops s0 it := by
    intro ops it h hs
    obtain ⟨s0, e⟩ := Option.isSome_iff_exists.1 hs
    refine ⟨s0, e, ?_⟩
    rintro ⟨s', result, e2, -, -, -, h4⟩
    apply h
    rw [e, Option.bind_some, e2, Option.bind_some]
    exact h4 0 _ _ rfl
  exact ⟨key _ 0 (by decide +kernel) (by decide +kernel),
    key _ 2 (by decide +kernel) (by decide +kernel)⟩

end corr

/-- Concrete case of `C26_correlation_partial`: the operators of `toyOps` (0, 1/4, 1/3, 1) on the
mesh 1/4, 1/2, 3/4, one of them on the first mesh point. -/
example : (∀ o ∈ toyOps, ∀ j, 0 < j → j < 3 → o.time ≠ opT (corrTau toyEnv.beta 3 j)) ∧
    ((initStacks toyEnv 1 toyOps 0 0 0 false).bind fun s0 =>
      (corrMeas toyEnv [(⟨0, 0⟩, ⟨1, 1⟩), (⟨1, 1⟩, ⟨1, 1⟩)] 3 toyOps s0).bind fun p => p.2 1 1) =
      some (corrSpec toyEnv toyOps 3 1 ⟨1, 1⟩ ⟨1, 1⟩) ∧
    corrSpec toyEnv toyOps 3 1 ⟨1, 1⟩ ⟨1, 1⟩ ≠ corrSpec toyEnv toyOps 3 0 ⟨1, 1⟩ ⟨1, 1⟩ := by
  refine ⟨?_, by decide +kernel, by decide +kernel⟩
  intro o ho j h1 h2
  have hj : j = 1 ∨ j = 2 := by omega
  revert o
  rcases hj with rfl | rfl <;> decide +kernel

end CTHyb
