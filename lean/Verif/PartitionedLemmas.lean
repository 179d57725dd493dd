import Verif.PartitionedSpec
import Verif.DetMatrixProps
import Verif.ClusteringProps

namespace CTHyb

open Matrix

variable {T K : Type} [LinearOrder T]

/-! ### Lists -/

theorem invs_insert (A B : List T) (t : T) :
    invs (A ++ t :: B) = invs (A ++ B) + A.countP (fun y => decide (t < y)) +
      B.countP (fun y => decide (y < t)) := by
  induction A with
  | nil => simp [invs, add_comm]
  | cons a A ih =>
    simp only [List.cons_append, invs, ih, List.countP_append, List.countP_cons]
    ring

theorem countP_lt_le_add (l : List T) (t : T) (h : t ∉ l) :
    l.countP (fun y => decide (y < t)) + l.countP (fun y => decide (t ≤ y)) = l.length := by
  induction l with
  | nil => rfl
  | cons a l ih =>
    have := ih (fun hm => h (List.mem_cons_of_mem _ hm))
    simp only [List.countP_cons, List.length_cons]
    by_cases h1 : a < t
    · rw [if_pos (by simpa using h1), if_neg (by simpa using h1)]; omega
    · rw [if_neg (by simpa using h1), if_pos (by simpa using h1)]; omega

theorem range_split (n k : ℕ) (h : k < n) :
    List.range n = List.range k ++ k :: List.range' (k + 1) (n - k - 1) := by
  have h1 : n = k + ((n - k - 1) + 1) := by omega
  conv_lhs => rw [h1]
  rw [List.range_eq_range', List.range_eq_range', ← List.range'_append_1, List.range'_succ]
  simp

theorem flatMap_coe {β : Type} (m : Multiset β) (f : β → ℕ) (l : ℕ → List β) (n : ℕ)
    (h : ∀ k, k < n → (l k : Multiset β) = m.filter fun o => f o = k) :
    (((List.range n).flatMap l : List β) : Multiset β) = m.filter fun o => f o < n := by
  induction n with
  | zero => simp
  | succ n ih =>
    rw [List.range_succ, List.flatMap_append, ← Multiset.coe_add, ih (fun k hk => h k (by omega))]
    simp only [List.flatMap_cons, List.flatMap_nil, List.append_nil]
    rw [h n (by omega), Multiset.filter_add_filter]
    have : m.filter (fun o => f o < n ∧ f o = n) = 0 := by
      rw [Multiset.filter_eq_nil]; omega
    rw [this, add_zero]
    apply Multiset.filter_congr
    intro o _
    omega

theorem loopN_ok {α : Type} (n : ℕ) (f : ℕ → Except DErr α) (v h : ℕ → α)
    (hf : ∀ k, k < n → f k = .ok (h k)) : loopN n f v = .ok (fun k => if k < n then h k else v k) := by
  induction n with
  | zero => simp [loopN]
  | succ n ih =>
    rw [loopN, ih (fun k hk => hf k (by omega))]
    simp only [Except.bind]
    rw [hf n (by omega)]
    simp only [Except.ok.injEq]
    funext k
    by_cases hk : k = n
    · subst hk; simp
    · rw [Function.update_of_ne hk]
      by_cases h1 : k < n
      · rw [if_pos h1, if_pos (by omega)]
      · rw [if_neg h1, if_neg (by omega)]

/-! ### Containers -/

theorem Holds.nodup {s : OpSet T} {m : Multiset (Psi T)} (h : Holds s m) : (m.map Psi.time).Nodup := by
  rw [← h.2, Multiset.map_coe, Multiset.coe_nodup]
  exact List.Pairwise.imp ne_of_lt (List.pairwise_map.2 h.1)

theorem sorted_split {s : OpSet T} (h : s.Sorted) (o : Psi T) (ho : o ∈ s) :
    ∃ L R, s = L ++ o :: R ∧ (s.erase o).1 = L ++ R ∧ s.upper o.time = R.length + 1 := by
  induction s with
  | nil => simp at ho
  | cons x s ih =>
    have hx := List.pairwise_cons.1 h
    by_cases e : x = o
    · subst e
      refine ⟨[], s, rfl, by simp [OpSet.erase], ?_⟩
      unfold OpSet.upper
      rw [List.countP_cons_of_pos (by simp), List.countP_eq_length.2]
      intro a ha
      simpa using (hx.1 a ha).le
    · have ho' : o ∈ s := by
        rcases List.mem_cons.1 ho with h1 | h1
        · exact absurd h1.symm e
        · exact h1
      obtain ⟨L, R, e1, e2, e3⟩ := ih hx.2 ho'
      have hlt := hx.1 o ho'
      refine ⟨x :: L, R, by rw [e1]; rfl, ?_, ?_⟩
      · rw [OpSet.erase, if_neg hlt.ne]
        simp only [e2]
        rfl
      · unfold OpSet.upper at e3 ⊢
        rw [List.countP_cons_of_neg (by simpa using hlt), e3]

theorem Holds.insert {s : OpSet T} {m : Multiset (Psi T)} (h : Holds s m) (o : Psi T)
    (ho : o.time ∉ m.map Psi.time) :
    Holds (s.insert o).1 (o ::ₘ m) ∧
      ∃ L R, s = L ++ R ∧ (s.insert o).1 = L ++ o :: R ∧ s.upper o.time = R.length := by
  have hfresh : ∀ x ∈ s, x.time ≠ o.time := by
    intro x hx he
    apply ho
    rw [← he]
    exact Multiset.mem_map_of_mem _ (by rw [← h.2]; exact hx)
  have hins := (OpSet.insert_snd_iff s o h.1).2 hfresh
  have hso := OpSet.insert_sorted s o h.1
  have hm : o ∈ (s.insert o).1 := (OpSet.mem_insert _ _ _ hins).2 (Or.inl rfl)
  obtain ⟨L, R, e1, e2, e3⟩ := sorted_split hso o hm
  rw [insert_erase_cancel s o h.1 hins] at e2
  refine ⟨⟨hso, ?_⟩, L, R, e2, e1, ?_⟩
  · rw [e1, ← h.2, e2]
    simp only [Multiset.cons_coe, Multiset.coe_eq_coe]
    exact List.perm_middle
  · unfold OpSet.upper at e3 ⊢
    rw [e1, List.countP_append, List.countP_cons_of_pos (by simp)] at e3
    rw [e2, List.countP_append]
    omega

theorem Holds.erase {s : OpSet T} {m : Multiset (Psi T)} (h : Holds s m) (o : Psi T) (ho : o ∈ m) :
    Holds (s.erase o).1 (m.erase o) ∧
      ∃ L R, s = L ++ o :: R ∧ (s.erase o).1 = L ++ R ∧ s.upper o.time = R.length + 1 := by
  have hm : o ∈ s := by rw [← h.2] at ho; exact ho
  obtain ⟨L, R, e1, e2, e3⟩ := sorted_split h.1 o hm
  refine ⟨⟨OpSet.erase_sorted s o h.1, ?_⟩, L, R, e1, e2, e3⟩
  rw [e2, ← h.2]
  nth_rewrite 1 [e1]
  have : ((L ++ o :: R : List (Psi T)) : Multiset (Psi T)) = o ::ₘ ((L ++ R : List (Psi T)) : Multiset (Psi T)) := by
    simp only [Multiset.cons_coe, Multiset.coe_eq_coe]
    exact List.perm_middle
  rw [this, Multiset.erase_cons_head]

theorem Holds.insertAll (l : List (Psi T)) : ∀ {s : OpSet T} {m : Multiset (Psi T)}, Holds s m →
    ((m + l).map Psi.time).Nodup → Holds (l.foldl (fun m o => (OpSet.insert m o).1) s) (m + l) := by
  induction l with
  | nil => intro s m h _; simpa using h
  | cons o l ih =>
    intro s m h hn
    have e : m + ((o :: l : List (Psi T)) : Multiset (Psi T)) = (o ::ₘ m) + l := by
      rw [← Multiset.cons_coe, Multiset.add_cons, Multiset.cons_add]
    rw [List.foldl_cons, e]
    rw [e] at hn
    refine ih (h.insert o ?_).1 hn
    rw [Multiset.cons_add, Multiset.map_cons, Multiset.nodup_cons] at hn
    intro hmem
    apply hn.1
    rw [Multiset.map_add]
    exact Multiset.mem_add.2 (Or.inl hmem)

theorem Holds.eraseAll (l : List (Psi T)) : ∀ {s : OpSet T} {m : Multiset (Psi T)}, Holds s m →
    (l : Multiset (Psi T)) ≤ m → Holds (l.foldl (fun m o => (OpSet.erase m o).1) s) (m - l) := by
  induction l with
  | nil => intro s m h _; simpa using h
  | cons o l ih =>
    intro s m h hl
    rw [← Multiset.cons_coe] at hl ⊢
    have ho : o ∈ m := Multiset.mem_of_le hl (Multiset.mem_cons_self _ _)
    rw [List.foldl_cons, Multiset.sub_cons]
    refine ih (h.erase o ho).1 ?_
    rw [← Multiset.cons_le_cons_iff o, Multiset.cons_erase ho]
    exact hl

/-! ### One kind of operators -/

theorem PSide.OK.order_coe {E : PEnv} {p : PSide T} {m : Multiset (Psi T)} (h : p.OK E m) :
    ((p.order E : List T) : Multiset T) = m.map Psi.time := by
  have h1 := flatMap_coe m (fun o => E.sector o.flavor) p.sec E.ns (fun k hk => (h.sec k hk).2)
  have h2 : m.filter (fun o => E.sector o.flavor < E.ns) = m :=
    Multiset.filter_eq_self.2 fun o ho => (h.valid o ho).2
  rw [h2] at h1
  rw [← h1, Multiset.map_coe, List.map_flatMap]
  rfl

theorem PSide.OK.upper {E : PEnv} {p : PSide T} {m : Multiset (Psi T)} (h : p.OK E m) (t : T) :
    p.set.upper t = (p.order E).countP fun y => decide (t ≤ y) := by
  have h1 : ((p.order E : List T) : Multiset T) = ((p.set.map Psi.time : List T) : Multiset T) := by
    rw [h.order_coe, ← h.set.2, Multiset.map_coe]
  have h2 : (p.order E).Perm (p.set.map Psi.time) := Multiset.coe_eq_coe.1 h1
  rw [h2.countP_eq, List.countP_map]
  rfl

/-- The key fact about the sign: `sec'` is `sec` with one more operator in sector `k`. -/
theorem order_insert (E : PEnv) (sec : ℕ → OpSet T) (k : ℕ) (hk : k < E.ns) (L R : OpSet T) (o : Psi T)
    (hs : sec k = L ++ R)
    (hfresh : o.time ∉ (List.range E.ns).flatMap fun j => (sec j).map Psi.time) :
    (-1 : ℤ) ^ invs ((List.range E.ns).flatMap fun j => ((Function.update sec k (L ++ o :: R)) j).map Psi.time) =
      (-1) ^ (((List.range E.ns).flatMap fun j => (sec j).map Psi.time).countP (fun y => decide (o.time ≤ y)) +
        ((List.range E.ns).map fun j => if k < j then (sec j).length else 0).sum + R.length) *
      (-1) ^ invs ((List.range E.ns).flatMap fun j => (sec j).map Psi.time) := by
  have hX : (List.range k).flatMap (fun j => ((Function.update sec k (L ++ o :: R)) j).map Psi.time) =
      (List.range k).flatMap fun j => (sec j).map Psi.time := by
    apply List.flatMap_congr
    intro j hj
    rw [Function.update_of_ne (by rw [List.mem_range] at hj; omega)]
  have hY : (List.range' (k + 1) (E.ns - k - 1)).flatMap
        (fun j => ((Function.update sec k (L ++ o :: R)) j).map Psi.time) =
      (List.range' (k + 1) (E.ns - k - 1)).flatMap fun j => (sec j).map Psi.time := by
    apply List.flatMap_congr
    intro j hj
    rw [Function.update_of_ne (by rw [List.mem_range'_1] at hj; omega)]
  have hS : ((List.range E.ns).map fun j => if k < j then (sec j).length else 0).sum =
      ((List.range' (k + 1) (E.ns - k - 1)).flatMap fun j => (sec j).map Psi.time).length := by
    rw [range_split E.ns k hk, List.map_append, List.sum_append, List.map_cons, List.sum_cons,
      List.length_flatMap]
    have h1 : ((List.range k).map fun j => if k < j then (sec j).length else 0).sum = 0 := by
      apply List.sum_eq_zero
      intro x hx
      obtain ⟨j, hj, rfl⟩ := List.mem_map.1 hx
      rw [List.mem_range] at hj
      rw [if_neg (by omega)]
    have h2 : (List.range' (k + 1) (E.ns - k - 1)).map (fun j => if k < j then (sec j).length else 0) =
        (List.range' (k + 1) (E.ns - k - 1)).map (fun j => ((sec j).map Psi.time).length) := by
      apply List.map_congr_left
      intro j hj
      rw [List.mem_range'_1] at hj
      rw [if_pos (by omega), List.length_map]
    rw [h1, h2]
    simp
  rw [hS]
  rw [range_split E.ns k hk] at hfresh ⊢
  simp only [List.flatMap_append, List.flatMap_cons, Function.update_self] at hfresh ⊢
  rw [hX, hY, hs] at *
  generalize (List.range k).flatMap (fun j => (sec j).map Psi.time) = X at *
  generalize (List.range' (k + 1) (E.ns - k - 1)).flatMap (fun j => (sec j).map Psi.time) = Y at *
  have e1 : X ++ ((L ++ o :: R).map Psi.time ++ Y) =
      (X ++ L.map Psi.time) ++ o.time :: (R.map Psi.time ++ Y) := by simp
  have e2 : X ++ ((L ++ R).map Psi.time ++ Y) = (X ++ L.map Psi.time) ++ (R.map Psi.time ++ Y) := by simp
  rw [e1, e2, invs_insert]
  rw [e2] at hfresh
  generalize X ++ L.map Psi.time = A at *
  have hB : (R.map Psi.time ++ Y).length = R.length + Y.length := by simp
  generalize R.map Psi.time ++ Y = B at *
  rw [List.mem_append, not_or] at hfresh
  have c1 := countP_lt_le_add B o.time hfresh.2
  rw [List.countP_append, countP_le_of_not_mem A _ hfresh.1, ← pow_add]
  have c2 : A.countP (fun y => decide (o.time < y)) + B.countP (fun y => decide (o.time ≤ y)) + Y.length + R.length +
      invs (A ++ B) = (invs (A ++ B) + A.countP (fun y => decide (o.time < y)) +
      B.countP (fun y => decide (y < o.time))) + 2 * B.countP (fun y => decide (o.time ≤ y)) := by omega
  rw [c2, pow_add _ _ (2 * _), pow_mul]
  simp

theorem inSector_cons_self (E : PEnv) (m : Multiset (Psi T)) (o : Psi T) :
    E.inSector (E.sector o.flavor) (o ::ₘ m) = o ::ₘ E.inSector (E.sector o.flavor) m :=
  Multiset.filter_cons_of_pos _ rfl

theorem inSector_cons_ne (E : PEnv) (m : Multiset (Psi T)) (o : Psi T) (k : ℕ) (h : k ≠ E.sector o.flavor) :
    E.inSector k (o ::ₘ m) = E.inSector k m :=
  Multiset.filter_cons_of_neg _ (fun e => h e.symm)

theorem mem_inSector (E : PEnv) (k : ℕ) (m : Multiset (Psi T)) (o : Psi T) :
    o ∈ E.inSector k m ↔ o ∈ m ∧ E.sector o.flavor = k := Multiset.mem_filter

/-- The sign of the order by sectors. -/
def PSide.sgn (E : PEnv) (p : PSide T) : ℤ := (-1) ^ invs (p.order E)

theorem PSide.sgn_sq (E : PEnv) (p : PSide T) : p.sgn E * p.sgn E = 1 := by
  unfold PSide.sgn
  rw [← pow_add, ← two_mul, pow_mul]
  simp

theorem PSide.add1_ok {E : PEnv} {p : PSide T} {m : Multiset (Psi T)} (h : p.OK E m) (o : Psi T)
    (hv : E.Valid o) (ho : o.time ∉ m.map Psi.time) :
    ∃ p', p.add1 E o = .ok (p', p.sgn E * p'.sgn E) ∧ p'.OK E (o ::ₘ m) ∧ p'.rem = p.rem ∧
      p'.add = Function.update p.add (E.sector o.flavor) (p.add (E.sector o.flavor) ++ [o]) ∧ p'.act = p.act := by
  have hk := hv.2
  obtain ⟨hs1, -⟩ := h.set.insert o ho
  have ho' : o.time ∉ (E.inSector (E.sector o.flavor) m).map Psi.time := by
    intro hm
    obtain ⟨x, hx, e⟩ := Multiset.mem_map.1 hm
    exact ho (e ▸ Multiset.mem_map_of_mem _ ((mem_inSector _ _ _ _).1 hx).1)
  obtain ⟨hs2, L, R, e1, e2, e3⟩ := (h.sec _ hk).insert o ho'
  refine ⟨⟨(p.set.insert o).1, Function.update p.sec (E.sector o.flavor) ((p.sec (E.sector o.flavor)).insert o).1,
    p.rem, Function.update p.add (E.sector o.flavor) (p.add (E.sector o.flavor) ++ [o]), p.act⟩, ?_, ?_, rfl, rfl, rfl⟩
  · unfold PSide.add1
    unfold PEnv.Valid at hv
    rw [if_pos hv]
    simp only [Except.ok.injEq, Prod.mk.injEq, true_and]
    have hfresh : o.time ∉ p.order E := by
      intro hm
      apply ho
      rw [← h.order_coe]
      exact hm
    have := order_insert E p.sec (E.sector o.flavor) hk L R o e1 hfresh
    have hsg := PSide.sgn_sq E p
    unfold PSide.numOps
    rw [paritySign_eq, h.upper, e3]
    unfold PSide.sgn PSide.order at *
    rw [e2, this, mul_comm, mul_assoc, hsg, mul_one]
  · refine ⟨hs1, ?_, ?_⟩
    · intro k hk'
      by_cases e : k = E.sector o.flavor
      · subst e
        simp only [Function.update_self]
        rw [inSector_cons_self]
        exact hs2
      · simp only [Function.update_of_ne e]
        rw [inSector_cons_ne _ _ _ _ e]
        exact h.sec k hk'
    · intro x hx
      rcases Multiset.mem_cons.1 hx with rfl | hx
      · exact hv
      · exact h.valid x hx

theorem PSide.remove1_ok {E : PEnv} {p : PSide T} {m : Multiset (Psi T)} (h : p.OK E m) (o : Psi T)
    (ho : o ∈ m) :
    ∃ p', p.remove1 E o = .ok (p', p.sgn E * p'.sgn E) ∧ p'.OK E (m.erase o) ∧ p'.add = p.add ∧
      p'.rem = Function.update p.rem (E.sector o.flavor) (p.rem (E.sector o.flavor) ++ [o]) ∧ p'.act = p.act := by
  have hv := h.valid o ho
  have hk := hv.2
  obtain ⟨m', rfl⟩ := Multiset.exists_cons_of_mem ho
  rw [Multiset.erase_cons_head]
  obtain ⟨hs1, L0, R0, d1, d2, d3⟩ := h.set.erase o ho
  rw [Multiset.erase_cons_head] at hs1
  have hsk := h.sec _ hk
  rw [inSector_cons_self] at hsk
  obtain ⟨hs2, L, R, e1, e2, e3⟩ := hsk.erase o (Multiset.mem_cons_self _ _)
  rw [Multiset.erase_cons_head] at hs2
  have hOK : PSide.OK E ⟨(p.set.erase o).1, Function.update p.sec (E.sector o.flavor) ((p.sec (E.sector o.flavor)).erase o).1,
    Function.update p.rem (E.sector o.flavor) (p.rem (E.sector o.flavor) ++ [o]), p.add, p.act⟩ m' := by
    refine ⟨hs1, ?_, ?_⟩
    · intro k hk'
      by_cases e : k = E.sector o.flavor
      · subst e
        simp only [Function.update_self]
        exact hs2
      · simp only [Function.update_of_ne e]
        rw [← inSector_cons_ne _ _ _ _ e]
        exact h.sec k hk'
    · exact fun x hx => h.valid x (Multiset.mem_cons_of_mem hx)
  refine ⟨_, ?_, hOK, rfl, rfl, rfl⟩
  unfold PSide.remove1
  unfold PEnv.Valid at hv
  rw [if_pos hv]
  simp only [Except.ok.injEq, Prod.mk.injEq, true_and]
  have hnd := h.set.nodup
  rw [Multiset.map_cons, Multiset.nodup_cons] at hnd
  have hup := hOK.upper o.time
  have hfresh : o.time ∉ (List.range E.ns).flatMap fun j =>
      ((Function.update p.sec (E.sector o.flavor) (L ++ R)) j).map Psi.time := by
    intro hm
    apply hnd.1
    rw [← hOK.order_coe]
    rw [← e2] at hm
    exact hm
  have hupd : Function.update (Function.update p.sec (E.sector o.flavor) (L ++ R)) (E.sector o.flavor) (L ++ o :: R) = p.sec := by
    rw [Function.update_idem, ← e1, Function.update_eq_self]
  have := order_insert E (Function.update p.sec (E.sector o.flavor) (L ++ R)) (E.sector o.flavor) hk L R o
    (by simp) hfresh
  rw [hupd] at this
  unfold PSide.numOps
  rw [paritySign_eq, e3]
  have hu1 : p.set.upper o.time = (p.set.erase o).1.upper o.time + 1 := by
    rw [d2]
    unfold OpSet.upper
    nth_rewrite 1 [d1]
    rw [List.countP_append, List.countP_append, List.countP_cons_of_pos (by simp)]
    omega
  have hlen : ((List.range E.ns).map fun j => if E.sector o.flavor < j then
      ((Function.update p.sec (E.sector o.flavor) (L ++ R)) j).length else 0) =
      (List.range E.ns).map fun j => if E.sector o.flavor < j then (p.sec j).length else 0 := by
    apply List.map_congr_left
    intro j _
    by_cases hj : E.sector o.flavor < j
    · rw [if_pos hj, if_pos hj, Function.update_of_ne (by omega)]
    · rw [if_neg hj, if_neg hj]
  rw [hlen] at this
  unfold PSide.order at hup
  rw [hu1, hup]
  unfold PSide.sgn PSide.order
  simp only [e2]
  rw [this]
  have hq : ∀ q : ℕ, (-1 : ℤ) ^ q * (-1) ^ q = 1 := by
    intro q; rw [← pow_add, ← two_mul, pow_mul]; simp
  rw [mul_assoc, hq, mul_one]
  have : ∀ a b c : ℕ, (-1 : ℤ) ^ (a + 1 + b + (c + 1)) = (-1) ^ (a + b + c) := by
    intro a b c
    have : a + 1 + b + (c + 1) = (a + b + c) + 2 := by ring
    rw [this, pow_add]; simp
  rw [this]

theorem update_append_filter (E : PEnv) (f : ℕ → List (Psi T)) (o : Psi T) (l : List (Psi T)) (k : ℕ) :
    (Function.update f (E.sector o.flavor) (f (E.sector o.flavor) ++ [o])) k ++
        l.filter (fun o => E.sector o.flavor = k) =
      f k ++ (o :: l).filter (fun o => E.sector o.flavor = k) := by
  by_cases e : E.sector o.flavor = k
  · subst e; simp
  · rw [Function.update_of_ne (fun h => e h.symm), List.filter_cons_of_neg (by simpa using e)]

theorem PSide.addAll_ok {E : PEnv} (l : List (Psi T)) : ∀ {p : PSide T} {m : Multiset (Psi T)} (s : ℤ),
    p.OK E m → (∀ o ∈ l, E.Valid o) → ((m + l).map Psi.time).Nodup →
    ∃ p', p.addAll E l s = .ok (p', s * (p.sgn E * p'.sgn E)) ∧ p'.OK E (m + l) ∧ p'.rem = p.rem ∧
      (∀ k, p'.add k = p.add k ++ l.filter fun o => E.sector o.flavor = k) ∧ p'.act = p.act := by
  induction l with
  | nil =>
    intro p m s h _ _
    refine ⟨p, ?_, by simpa using h, rfl, by simp, rfl⟩
    rw [PSide.addAll, PSide.sgn_sq, mul_one]
  | cons o l ih =>
    intro p m s h hv hn
    have e : m + ((o :: l : List (Psi T)) : Multiset (Psi T)) = (o ::ₘ m) + l := by
      rw [← Multiset.cons_coe, Multiset.add_cons, Multiset.cons_add]
    rw [e] at hn ⊢
    have ho : o.time ∉ m.map Psi.time := by
      rw [Multiset.cons_add, Multiset.map_cons, Multiset.nodup_cons] at hn
      intro hmem
      apply hn.1
      rw [Multiset.map_add]
      exact Multiset.mem_add.2 (Or.inl hmem)
    obtain ⟨p1, a1, a2, a3, a4, a5⟩ := PSide.add1_ok h o (hv o (by simp)) ho
    obtain ⟨p2, b1, b2, b3, b4, b5⟩ := ih (s * (p.sgn E * p1.sgn E)) a2
      (fun x hx => hv x (List.mem_cons_of_mem _ hx)) hn
    refine ⟨p2, ?_, b2, b3.trans a3, ?_, b5.trans a5⟩
    · rw [PSide.addAll, a1]
      simp only [Except.bind]
      rw [b1]
      congr 2
      have := PSide.sgn_sq E p1
      linear_combination (s * p.sgn E * p2.sgn E) * this
    · intro k
      rw [b4, a4, update_append_filter]

theorem PSide.removeAll_ok {E : PEnv} (l : List (Psi T)) : ∀ {p : PSide T} {m : Multiset (Psi T)} (s : ℤ),
    p.OK E m → (l : Multiset (Psi T)) ≤ m →
    ∃ p', p.removeAll E l s = .ok (p', s * (p.sgn E * p'.sgn E)) ∧ p'.OK E (m - l) ∧ p'.add = p.add ∧
      (∀ k, p'.rem k = p.rem k ++ l.filter fun o => E.sector o.flavor = k) ∧ p'.act = p.act := by
  induction l with
  | nil =>
    intro p m s h _
    refine ⟨p, ?_, by simpa using h, rfl, by simp, rfl⟩
    rw [PSide.removeAll, PSide.sgn_sq, mul_one]
  | cons o l ih =>
    intro p m s h hl
    rw [← Multiset.cons_coe] at hl ⊢
    have ho : o ∈ m := Multiset.mem_of_le hl (Multiset.mem_cons_self _ _)
    obtain ⟨p1, a1, a2, a3, a4, a5⟩ := PSide.remove1_ok h o ho
    have hl' : (l : Multiset (Psi T)) ≤ m.erase o := by
      rw [← Multiset.cons_le_cons_iff o, Multiset.cons_erase ho]
      exact hl
    obtain ⟨p2, b1, b2, b3, b4, b5⟩ := ih (s * (p.sgn E * p1.sgn E)) a2 hl'
    rw [Multiset.sub_cons]
    refine ⟨p2, ?_, b2, b3.trans a3, ?_, b5.trans a5⟩
    · rw [PSide.removeAll, a1]
      simp only [Except.bind]
      rw [b1]
      congr 2
      have := PSide.sgn_sq E p1
      linear_combination (s * p.sgn E * p2.sgn E) * this
    · intro k
      rw [b4, a4, update_append_filter]

theorem filter_flatMap_coe (E : PEnv) (l : List (Psi T)) (h : ∀ o ∈ l, E.Valid o) :
    (((List.range E.ns).flatMap fun k => l.filter fun o => E.sector o.flavor = k : List (Psi T)) :
      Multiset (Psi T)) = l := by
  rw [flatMap_coe (l : Multiset (Psi T)) (fun o => E.sector o.flavor)
    (fun k => l.filter fun o => E.sector o.flavor = k) E.ns (fun k _ => by simp)]
  exact Multiset.filter_eq_self.2 fun o ho => (h o ho).2

/-- Reverting the sets. -/
theorem PSide.revert_ok {E : PEnv} {p : PSide T} {m : Multiset (Psi T)} {rem add : List (Psi T)}
    (h : p.OK E (m - rem + add)) (hr : (rem : Multiset (Psi T)) ≤ m) (hm : (m.map Psi.time).Nodup)
    (hv : ∀ o ∈ m, E.Valid o)
    (h1 : ∀ k, k < E.ns → p.rem k = rem.filter fun o => E.sector o.flavor = k)
    (h2 : ∀ k, k < E.ns → p.add k = add.filter fun o => E.sector o.flavor = k) :
    (p.revert E.ns).OK E m := by
  have hvr : ∀ o ∈ rem, E.Valid o := fun o ho => hv o (Multiset.mem_of_le hr ho)
  have hva : ∀ o ∈ add, E.Valid o := fun o ho => h.valid o (Multiset.mem_add.2 (Or.inr ho))
  have eA : (((List.range E.ns).flatMap p.add : List (Psi T)) : Multiset (Psi T)) = add := by
    rw [← filter_flatMap_coe E add hva]
    congr 1
    apply List.flatMap_congr
    intro k hk
    exact h2 k (List.mem_range.1 hk)
  have eR : (((List.range E.ns).flatMap p.rem : List (Psi T)) : Multiset (Psi T)) = rem := by
    rw [← filter_flatMap_coe E rem hvr]
    congr 1
    apply List.flatMap_congr
    intro k hk
    exact h1 k (List.mem_range.1 hk)
  have e0 : m - (rem : Multiset (Psi T)) + (add : Multiset (Psi T)) - add + rem = m := by
    rw [Multiset.add_sub_cancel_right, Multiset.sub_add_cancel hr]
  refine ⟨?_, ?_, hv⟩
  · have a1 := h.set.eraseAll ((List.range E.ns).flatMap p.add) (by rw [eA]; exact Multiset.le_add_left _ _)
    have a2 := a1.insertAll ((List.range E.ns).flatMap p.rem) (by rw [eA, eR, e0]; exact hm)
    rw [eA, eR, e0] at a2
    exact a2
  · intro k hk
    have hadd : E.inSector k ((m - (rem : Multiset (Psi T)) + (add : Multiset (Psi T)))) =
        E.inSector k (m - (rem : Multiset (Psi T))) + ((p.add k : List (Psi T)) : Multiset (Psi T)) := by
      rw [h2 k hk]; unfold PEnv.inSector; rw [Multiset.filter_add, Multiset.filter_coe]
    have hrem : E.inSector k (m - (rem : Multiset (Psi T))) + ((p.rem k : List (Psi T)) : Multiset (Psi T)) =
        E.inSector k m := by
      have : ((p.rem k : List (Psi T)) : Multiset (Psi T)) = E.inSector k (rem : Multiset (Psi T)) := by
        rw [h1 k hk]; simp [PEnv.inSector]
      rw [this]
      unfold PEnv.inSector
      rw [← Multiset.filter_add, Multiset.sub_add_cancel hr]
    have hs := h.sec k hk
    rw [hadd] at hs
    have a1 := hs.eraseAll (p.add k) (Multiset.le_add_left _ _)
    rw [Multiset.add_sub_cancel_right] at a1
    have a2 := a1.insertAll (p.rem k) (by
      rw [hrem]
      exact Multiset.nodup_of_le (Multiset.map_le_map (Multiset.filter_le _ _)) hm)
    rw [hrem] at a2
    unfold PSide.revert
    simp only [if_pos hk]
    exact a2

theorem PSide.OK.congr {E : PEnv} {p q : PSide T} {m : Multiset (Psi T)} (h : p.OK E m)
    (h1 : q.set = p.set) (h2 : q.sec = p.sec) : q.OK E m :=
  ⟨by rw [h1]; exact h.set, by rw [h2]; exact h.sec, h.valid⟩

end CTHyb
