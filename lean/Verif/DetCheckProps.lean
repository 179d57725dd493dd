import Verif.DetCheckLemmas

/-!
C81: the assertions of the determinant matrices.  They never fail in a history of legal requests; which errors
they find and which they cannot find.
-/

namespace CTHyb

open Equiv

variable {T K : Type} [LinearOrder T]

/-! ### Specification -/

/-- Operators, position maps, sets and sign of a block fit together; nothing is said about its matrix. -/
structure DM.Tidy (s : DM T K) : Prop where
  state : s.state = .waiting
  cdLen : s.cd.ops.length = s.n
  cLen : s.c.ops.length = s.n
  cdOK : s.cd.OK
  cOK : s.c.OK
  perm : s.perm = (-1) ^ (opInvs s.c.ops + opInvs s.cd.ops)

/-- The number of pairs of operators whose order in time is opposite to the order of their sectors. -/
def crossings (E : PEnv) (s : OpSet T) : ℕ := invs (s.map fun o => E.sector o.flavor)

/-! ### Sets -/

theorem insertAll_facts (l : List (Psi T)) : ∀ s : OpSet T, s.Sorted →
    OpSet.Sorted (l.foldl (fun m o => (OpSet.insert m o).1) s) ∧
    (l.foldl (fun m o => (OpSet.insert m o).1) s).length ≤ s.length + l.length ∧
    ((l.foldl (fun m o => (OpSet.insert m o).1) s).length = s.length + l.length →
      (l.foldl (fun m o => (OpSet.insert m o).1) s).Perm (s ++ l)) ∧
    ∀ x ∈ l.foldl (fun m o => (OpSet.insert m o).1) s, x ∈ s ∨ x ∈ l := by
  induction l with
  | nil => intro s hs; simp [hs]
  | cons o l ih =>
    intro s hs
    obtain ⟨h1, h2, h3, h4⟩ := ih (s.insert o).1 (OpSet.insert_sorted s o hs)
    simp only [List.foldl_cons, List.length_cons]
    cases hb : (s.insert o).2 with
    | false =>
      have e := OpSet.insert_fst_of_false s o hb
      rw [e] at h1 h2 h3 h4 ⊢
      refine ⟨h1, by omega, fun h => by omega, fun x hx => ?_⟩
      rcases h4 x hx with h | h
      · exact Or.inl h
      · exact Or.inr (List.mem_cons_of_mem _ h)
    | true =>
      have hn : ∀ x ∈ s, x ≠ o := fun x hx e => (OpSet.insert_snd_iff s o hs).1 hb x hx (by rw [e])
      have hp : ((s.insert o).1).Perm (o :: s) := by
        refine (List.perm_ext_iff_of_nodup (sorted_nodup _ (OpSet.insert_sorted s o hs)) ?_).2 ?_
        · exact List.nodup_cons.2 ⟨fun h => hn o h rfl, sorted_nodup _ hs⟩
        · intro x
          rw [OpSet.mem_insert s o x hb, List.mem_cons]
      have hl := hp.length_eq
      rw [List.length_cons] at hl
      refine ⟨h1, by omega, fun h => ?_, fun x hx => ?_⟩
      · refine (h3 (by omega)).trans ((hp.append_right l).trans ?_)
        exact List.perm_middle.symm
      · rcases h4 x hx with h | h
        · rcases (OpSet.mem_insert s o x hb).1 h with h | h
          · exact Or.inr (by rw [h]; exact List.mem_cons_self)
          · exact Or.inl h
        · exact Or.inr (List.mem_cons_of_mem _ h)

/-- A set made of operators at different times contains all of them. -/
theorem OpSet.ofList_holds (l : List (Psi T)) (h : (l.map Psi.time).Nodup) : Holds (OpSet.ofList l) l := by
  have h0 : Holds ([] : OpSet T) (0 : Multiset (Psi T)) := ⟨by simp [OpSet.Sorted], rfl⟩
  have := Holds.insertAll l h0 (by simpa using h)
  rwa [zero_add] at this

theorem OpSet.ofList_sorted (l : List (Psi T)) : (OpSet.ofList l).Sorted :=
  (insertAll_facts l [] (by simp [OpSet.Sorted])).1

theorem OpSet.ofList_holds_of_length (l : List (Psi T)) (h : (OpSet.ofList l).length = l.length) :
    Holds (OpSet.ofList l) l := by
  obtain ⟨h1, -, h3, -⟩ := insertAll_facts l [] (by simp [OpSet.Sorted])
  exact ⟨h1, Multiset.coe_eq_coe.2 (by simpa [OpSet.ofList] using h3 (by simpa [OpSet.ofList] using h))⟩

theorem Holds.unique {s t : OpSet T} {m : Multiset (Psi T)} (hs : Holds s m) (ht : Holds t m) : s = t := by
  refine OpSet.eq_of_mem_iff s t hs.1 ht.1 fun x => ?_
  have hp : s.Perm t := Multiset.coe_eq_coe.1 (hs.2.trans ht.2.symm)
  exact hp.mem_iff

theorem PSide.union_eq (E : PEnv) (p : PSide T) :
    p.union E = OpSet.ofList ((List.range E.ns).flatMap p.sec) := by
  unfold PSide.union OpSet.ofList
  rw [List.foldl_flatMap]

/-! ### One block -/

theorem timesPermutation_eq (l : List (Psi T)) (h : (l.map Psi.time).Nodup) :
    timesPermutation l = some ((-1) ^ opInvs l) := by
  obtain ⟨σ, hm, hf⟩ := C20_permutation (l.map Psi.time).get (List.nodup_iff_injective_get.1 h)
  unfold timesPermutation
  rw [hf _ (by unfold combFuel; omega)]
  congr 1
  exact sign_of_sorting_asc _ h σ fun i j hij => not_lt.2 (hm hij).le

theorem Side.posRight_core {s : Side T} (h : s.Core) : s.posRight s.ops.length = true := by
  unfold Side.posRight
  rw [List.all_eq_true]
  intro p hp
  rw [h.pos.mem_iff, List.mem_zipIdx_iff_getElem?, List.getElem?_map] at hp
  cases ho : s.ops[p.2]? with
  | none => rw [ho] at hp; simp at hp
  | some o =>
    rw [ho] at hp
    have h1 := (List.getElem?_eq_some_iff.1 ho).1
    have h2 : o.time = p.1 := by simpa using hp
    simp [h1, h2]

/-- A map with as many entries as operators, all of them right, contains all operators at their positions, and
no two operators have the same time. -/
theorem Side.core_of_posRight {s : Side T} (hk : (s.pos.map Prod.fst).Nodup) (hl : s.pos.length = s.ops.length)
    {num : ℕ} (h : s.posRight num = true) : s.Core := by
  have hsub : ∀ p ∈ s.pos, p ∈ (s.ops.map Psi.time).zipIdx := by
    intro p hp
    unfold Side.posRight at h
    have := List.all_eq_true.1 h p hp
    rw [List.mem_zipIdx_iff_getElem?, List.getElem?_map]
    cases ho : s.ops[p.2]? with
    | none => rw [ho] at this; simp at this
    | some o =>
      rw [ho] at this
      simp only [Bool.and_eq_true, decide_eq_true_eq] at this
      simp [this.2]
  have hp : s.pos.Perm ((s.ops.map Psi.time).zipIdx) := by
    refine List.Subperm.perm_of_length_le (List.subperm_of_subset (List.Nodup.of_map _ hk) hsub) ?_
    rw [List.length_zipIdx, List.length_map, hl]
  refine ⟨?_, hp⟩
  have := hp.map Prod.fst
  rw [List.zipIdx_map_fst] at this
  exact this.nodup_iff.1 hk

theorem Side.findable_core {s : Side T} (h : s.Core) (n : ℕ) (hn : s.ops.length = n) : s.findable n = true := by
  unfold Side.findable
  rw [List.take_of_length_le (by omega), List.all_eq_true]
  intro o ho
  obtain ⟨i, hi, e⟩ := List.getElem_of_mem ho
  rw [h.at i o (by rw [← e]; exact List.getElem?_eq_getElem hi)]
  simp only [decide_eq_true_eq]
  omega

theorem Side.OK.set_eq {s : Side T} (h : s.OK) : s.set = OpSet.ofList s.ops :=
  Holds.unique (m := s.ops) ⟨h.sorted, Multiset.coe_eq_coe.2 h.set_perm⟩ (OpSet.ofList_holds _ h.nodup)

/-- **C81 (one block).**  For every object whose position maps have different keys, as `std::map` guarantees, no
assertion of `sanity_check` fails if and only if operators, maps, sets and sign fit together. -/
theorem C81_block (s : DM T K) (h1 : (s.cd.pos.map Prod.fst).Nodup) (h2 : (s.c.pos.map Prod.fst).Nodup) :
    s.sanity = true ↔ s.Tidy := by
  unfold DM.sanity
  simp only [Bool.and_eq_true, decide_eq_true_eq]
  constructor
  · rintro ⟨⟨⟨⟨⟨⟨⟨⟨⟨⟨⟨a1, a2⟩, a3⟩, a4⟩, a5⟩, a6⟩, a7⟩, a8⟩, -⟩, -⟩, a9⟩, a10⟩
    have k1 := Side.core_of_posRight h1 a5 a7
    have k2 := Side.core_of_posRight h2 (a4.trans a3) a6
    rw [List.take_of_length_le (by omega), List.take_of_length_le (by omega), timesPermutation_eq _ k1.nodup,
      timesPermutation_eq _ k2.nodup] at a8
    simp only [decide_eq_true_eq] at a8
    have o1 := OpSet.ofList_holds _ k1.nodup
    have o2 := OpSet.ofList_holds _ k2.nodup
    rw [← a9] at o1
    rw [← a10] at o2
    refine ⟨a1, a2.symm, by omega, ⟨k1, o1.1, fun x => ?_⟩, ⟨k2, o2.1, fun x => ?_⟩, by rw [a8, pow_add]⟩
    · exact (Multiset.coe_eq_coe.1 o1.2).mem_iff
    · exact (Multiset.coe_eq_coe.1 o2.2).mem_iff
  · intro h
    have l1 := h.cdLen
    have l2 := h.cLen
    have p1 := h.cdOK.pos.length_eq
    have p2 := h.cOK.pos.length_eq
    rw [List.length_zipIdx, List.length_map] at p1 p2
    refine ⟨⟨⟨⟨⟨⟨⟨⟨⟨⟨⟨h.state, l1.symm⟩, by omega⟩, by omega⟩, by omega⟩, ?_⟩,
      Side.posRight_core h.cdOK.toCore⟩, ?_⟩, Side.findable_core h.cdOK.toCore _ l1⟩,
      Side.findable_core h.cOK.toCore _ l2⟩, h.cdOK.set_eq⟩, h.cOK.set_eq⟩
    · rw [l1, ← l2]
      exact Side.posRight_core h.cOK.toCore
    · rw [List.take_of_length_le (by omega), List.take_of_length_le (by omega),
        timesPermutation_eq _ h.cdOK.nodup, timesPermutation_eq _ h.cOK.nodup]
      simp only [decide_eq_true_eq]
      rw [h.perm, pow_add]

theorem DM.Inv.sanity [Field K] {G : Psi T → Psi T → K} {s : DM T K} (h : s.Inv G) : s.sanity = true := by
  refine (C81_block s ?_ ?_).2 ⟨h.state, h.cdLen, h.cLen, h.cdOK, h.cOK, h.perm⟩
  · exact h.cd.pos_fst.nodup_iff.2 h.cd.nodup
  · exact h.c.pos_fst.nodup_iff.2 h.c.nodup

/-! ### The partitioned object -/

/-- The vector in actual order begins with the vectors of the blocks. -/
theorem actualOrderRight_iff (act : List (Psi T)) (ops : ℕ → List (Psi T)) (n : ℕ → ℕ) (ns : ℕ)
    (h : ∀ k, k < ns → (ops k).length = n k) :
    actualOrderRight act ops n ns = true ↔ ((List.range ns).flatMap ops) <+: act := by
  have hlen : ∀ m, m ≤ ns → ((List.range m).flatMap ops).length = ((List.range m).map n).sum := by
    intro m hm
    rw [List.length_flatMap]
    congr 1
    apply List.map_congr_left
    intro k hk
    exact h k (by rw [List.mem_range] at hk; omega)
  induction ns with
  | zero => simp [actualOrderRight]
  | succ m ih =>
    have ih' : actualOrderRight act ops n m = true ↔ ((List.range m).flatMap ops) <+: act :=
      ih (fun k hk => h k (by omega)) (fun k hk => hlen k (by omega))
    have e : actualOrderRight act ops n (m + 1) = true ↔ actualOrderRight act ops n m = true ∧
        ∀ i, i < n m → act[((List.range m).map n).sum + i]? = (ops m)[i]? := by
      unfold actualOrderRight
      rw [List.range_succ, List.all_append, Bool.and_eq_true]
      refine and_congr_right fun _ => ?_
      simp only [List.all_cons, List.all_nil, Bool.and_true, List.all_eq_true, List.mem_range]
      refine forall_congr' fun i => imp_congr_right fun hi => ?_
      have h1 : (ops m)[i]? = some ((ops m)[i]'(by rw [h m (by omega)]; exact hi)) := List.getElem?_eq_getElem _
      rw [h1]
      cases act[((List.range m).map n).sum + i]? with
      | none => simp
      | some a => simp
    rw [e, ih', List.range_succ, List.flatMap_append, ← hlen m (by omega)]
    simp only [List.flatMap_cons, List.flatMap_nil, List.append_nil]
    generalize (List.range m).flatMap ops = A
    rw [← h m (by omega)]
    generalize ops m = B
    constructor
    · rintro ⟨⟨R, rfl⟩, h2⟩
      have : B <+: R := by
        rw [List.prefix_iff_getElem?]
        intro i hi
        have := h2 i hi
        rw [List.getElem?_append_right (by omega), Nat.add_sub_cancel_left] at this
        rw [this, List.getElem?_eq_getElem hi]
      exact List.prefix_append_right_inj A |>.2 this
    · rintro ⟨R, rfl⟩
      refine ⟨⟨B ++ R, by simp⟩, fun i hi => ?_⟩
      rw [List.append_assoc, List.getElem?_append_right (by omega), Nat.add_sub_cancel_left,
        List.getElem?_append_left hi]

theorem PSide.OK.sanity {E : PEnv} {p : PSide T} (h : p.OK E p.act) : p.sanity E = true := by
  have hf : (((List.range E.ns).flatMap p.sec : List (Psi T)) : Multiset (Psi T)) = p.act := by
    rw [flatMap_coe (p.act : Multiset (Psi T)) (fun o => E.sector o.flavor) p.sec E.ns (fun k hk => (h.sec k hk).2)]
    exact Multiset.filter_eq_self.2 fun o ho => (h.valid o ho).2
  have hn := h.set.nodup
  have hu : Holds (p.union E) (p.act : Multiset (Psi T)) := by
    rw [PSide.union_eq, ← hf]
    refine OpSet.ofList_holds _ ?_
    rw [← hf] at hn
    exact hn
  unfold PSide.sanity
  simp only [Bool.and_eq_true, decide_eq_true_eq, List.all_eq_true, List.mem_range]
  refine ⟨⟨hu.unique h.set, hu.unique (OpSet.ofList_holds _ hn)⟩, fun k hk o ho => ?_⟩
  have : o ∈ E.inSector k (p.act : Multiset (Psi T)) := by rw [← (h.sec k hk).2]; exact ho
  have := (mem_inSector E k _ o).1 this
  exact ⟨(h.valid o this.1).1, this.2⟩

/-- **C81 (no false alarm).**  In a consistent object no assertion fails: neither in the blocks, nor about the
lengths of the vectors, nor in the check of the whole object. -/
theorem C81_no_alarm [Field K] (E : PEnv) (G : Psi T → Psi T → K) (s : PM T K) (h : s.Inv E G) :
    (∀ k, k < E.ns → (s.blocks k).sanity = true) ∧ s.actSizes = true ∧ s.sanity E = true := by
  have hb : ∀ k, k < E.ns → (s.blocks k).sanity = true := fun k hk => (h.block k hk).sanity
  have l1 : s.cd.set.length = s.cd.act.length := (Multiset.coe_eq_coe.1 h.cdOK.set.2).length_eq
  have l2 : s.cd.act.length = ((List.range E.ns).map fun k => (s.blocks k).n).sum := by
    conv_lhs => rw [h.cdAct]
    rw [List.length_flatMap]
    congr 1
    exact List.map_congr_left fun k hk => (h.block k (List.mem_range.1 hk)).cdLen
  have l3 : s.c.act.length = ((List.range E.ns).map fun k => (s.blocks k).n).sum := by
    conv_lhs => rw [h.cAct]
    rw [List.length_flatMap]
    congr 1
    exact List.map_congr_left fun k hk => (h.block k (List.mem_range.1 hk)).cLen
  refine ⟨hb, ?_, ?_⟩
  · unfold PM.actSizes
    simp only [Bool.and_eq_true, decide_eq_true_eq]
    omega
  · unfold PM.sanity
    rw [sectorSign_eq E _ h.cdOK.set.1, sectorSign_eq E _ h.cOK.set.1]
    simp only [Bool.and_eq_true, decide_eq_true_eq]
    refine ⟨⟨⟨⟨⟨h.cdOK.sanity, h.cOK.sanity⟩, l1.trans l2⟩, ?_⟩, ?_⟩, ?_⟩
    · rw [h.perm, pow_add, h.cdOK.order_sign, h.cOK.order_sign, mul_comm]
    · rw [actualOrderRight_iff _ _ _ _ fun k hk => (h.block k hk).cdLen, ← h.cdAct]
    · rw [actualOrderRight_iff _ _ _ _ fun k hk => (h.block k hk).cLen, ← h.cAct]

theorem PSide.sanity_spec {E : PEnv} {p : PSide T} (h : p.sanity E = true) :
    p.set = OpSet.ofList p.act ∧ ∀ o ∈ p.set, E.Valid o ∧ o ∈ p.sec (E.sector o.flavor) := by
  unfold PSide.sanity at h
  simp only [Bool.and_eq_true, decide_eq_true_eq, List.all_eq_true, List.mem_range] at h
  obtain ⟨⟨h1, h2⟩, h3⟩ := h
  refine ⟨by rw [← h1, h2], fun o ho => ?_⟩
  have h6 : o ∈ p.union E := by
    rw [h1]
    exact ho
  rw [PSide.union_eq] at h6
  obtain ⟨-, -, -, h7⟩ := insertAll_facts ((List.range E.ns).flatMap p.sec) [] (by simp [OpSet.Sorted])
  rcases h7 o h6 with h8 | h8
  · simp at h8
  · obtain ⟨k, hk, hok⟩ := List.mem_flatMap.1 h8
    rw [List.mem_range] at hk
    obtain ⟨a, b⟩ := h3 k hk o hok
    exact ⟨⟨a, by rw [b]; exact hk⟩, by rw [b]; exact hok⟩

/-- **C81 (what the check guarantees).**  If no assertion fails, the vectors in actual order are the vectors of the
blocks one after the other; all creation operators are at different times and their time-ordered set contains
exactly them; the same holds for annihilation operators if those of different sectors are at different times
(this is not checked, see `C81_equal_times_violated`); every operator in the sets has an existing flavor and is in
the set of its sector; and the stored sign is the parity of the pairs of operators of one kind whose order in time
is opposite to the order of their sectors. -/
theorem C81_meaning (E : PEnv) (s : PM T K) (hb : ∀ k, k < E.ns → (s.blocks k).sanity = true)
    (hl : s.actSizes = true) (h : s.sanity E = true) :
    s.cd.act = (List.range E.ns).flatMap (fun k => (s.blocks k).cd.ops) ∧
    s.c.act = (List.range E.ns).flatMap (fun k => (s.blocks k).c.ops) ∧
    Holds s.cd.set s.cd.act ∧ ((s.c.act.map Psi.time).Nodup → Holds s.c.set s.c.act) ∧
    (∀ o ∈ s.cd.set, E.Valid o ∧ o ∈ s.cd.sec (E.sector o.flavor)) ∧
    (∀ o ∈ s.c.set, E.Valid o ∧ o ∈ s.c.sec (E.sector o.flavor)) ∧
    s.perm = (-1) ^ (crossings E s.cd.set + crossings E s.c.set) := by
  unfold PM.actSizes at hl
  unfold PM.sanity at h
  simp only [Bool.and_eq_true, decide_eq_true_eq] at hl h
  obtain ⟨⟨⟨⟨⟨h1, h2⟩, h3⟩, h4⟩, h5⟩, h6⟩ := h
  have hlen : ∀ k, k < E.ns → (s.blocks k).cd.ops.length = (s.blocks k).n ∧
      (s.blocks k).c.ops.length = (s.blocks k).n := by
    intro k hk
    have := hb k hk
    unfold DM.sanity at this
    simp only [Bool.and_eq_true, decide_eq_true_eq] at this
    obtain ⟨⟨⟨⟨⟨⟨⟨⟨⟨⟨⟨-, a2⟩, a3⟩, -⟩, -⟩, -⟩, -⟩, -⟩, -⟩, -⟩, -⟩, -⟩ := this
    omega
  rw [actualOrderRight_iff _ _ _ _ fun k hk => (hlen k hk).1] at h5
  rw [actualOrderRight_iff _ _ _ _ fun k hk => (hlen k hk).2] at h6
  have e1 := h5.eq_of_length (by
    rw [List.length_flatMap, hl.1, h3]
    congr 1
    exact List.map_congr_left fun k hk => (hlen k (List.mem_range.1 hk)).1)
  have e2 := h6.eq_of_length (by
    rw [List.length_flatMap, hl.2, h3]
    congr 1
    exact List.map_congr_left fun k hk => (hlen k (List.mem_range.1 hk)).2)
  obtain ⟨p1, p2⟩ := PSide.sanity_spec h1
  obtain ⟨q1, q2⟩ := PSide.sanity_spec h2
  have hs1 : s.cd.set.Sorted := by rw [p1]; exact OpSet.ofList_sorted _
  have hs2 : s.c.set.Sorted := by rw [q1]; exact OpSet.ofList_sorted _
  rw [sectorSign_eq E _ hs1, sectorSign_eq E _ hs2] at h4
  simp only [decide_eq_true_eq] at h4
  refine ⟨e1.symm, e2.symm, ?_, fun hn => ?_, p2, q2, by rw [h4, pow_add]; rfl⟩
  · rw [p1]
    exact OpSet.ofList_holds_of_length _ (by rw [← p1, hl.1])
  · rw [q1]
    exact OpSet.ofList_holds _ hn

/-- **C81 (wrong sign).**  A wrong sign in an otherwise consistent object is always noticed. -/
theorem C81_wrong_sign [Field K] (E : PEnv) (G : Psi T → Psi T → K) (s : PM T K) (h : s.Inv E G) (p : ℤ)
    (hp : p ≠ s.perm) : ({ s with perm := p } : PM T K).sanity E = false := by
  by_contra hc
  rw [Bool.not_eq_false] at hc
  obtain ⟨a1, a2, a3⟩ := C81_no_alarm E G s h
  have e1 := (C81_meaning E s a1 a2 a3).2.2.2.2.2.2
  have e2 := (C81_meaning E { s with perm := p } a1 a2 hc).2.2.2.2.2.2
  exact hp (e2.trans e1.symm)

/-- **C81 (blind to the matrix).**  Whatever the stored matrices are, the checks pass if they did: a wrong inverse is
never noticed here (it is by the check of C76). -/
theorem C81_blind_inverse (E : PEnv) (s : PM T K) (bad : ℕ → ℕ → ℕ → K) :
    let s' : PM T K := { s with blocks := fun k => { s.blocks k with inv := bad k } }
    (∀ k, (s'.blocks k).sanity = (s.blocks k).sanity) ∧ s'.actSizes = s.actSizes ∧ s'.sanity E = s.sanity E :=
  ⟨fun _ => rfl, rfl, rfl⟩

/-! ### Histories with assertions -/

section
variable [Field K] [DecidableEq K]

theorem asserted_true {α : Type} {b : Bool} (h : b = true) (a : α) : asserted b a = .ok a := by
  rw [asserted, if_pos h]

theorem PM.stepDbg_ok (E : PEnv) (G : Psi T → Psi T → K) (hG : E.BlockDiag G) (s : PM T K)
    (h : s.Inv E G) (ch : HybChange T) (acc : Bool) (ha : ch.Adm s.cd.act s.c.act) (hs : ch.PShape E) :
    s.stepDbg E G ch acc = Except.dbg (s.step E G ch acc) := by
  obtain ⟨r, s1, h1, -, ⟨s2, a1, a2, -⟩, h3⟩ := C18_update E G hG s h ch ha hs
  have hall : ((List.range E.ns).all fun k => (s.blocks k).sanity) = true := by
    rw [List.all_eq_true]
    exact fun k hk => (C81_no_alarm E G s h).1 k (List.mem_range.1 hk)
  unfold PM.stepDbg PM.step PM.tryUpdateDbg
  rw [asserted_true hall]
  simp only [Except.bind, h1, Except.dbg]
  by_cases hc : acc = true ∧ r ≠ 0
  · rw [if_pos hc, if_pos hc]
    obtain ⟨s3, b1, b2, -⟩ := h3 hc.2
    obtain ⟨c1, c2, c3⟩ := C81_no_alarm E G s3 b2
    unfold PM.performDbg
    rw [b1]
    simp only [Except.dbg, Except.bind]
    rw [asserted_true]
    rw [c2, c3, Bool.and_true, Bool.and_true, List.all_eq_true]
    intro k hk
    rw [c1 k (List.mem_range.1 hk), Bool.or_true]
  · rw [if_neg hc, if_neg hc]
    obtain ⟨c1, c2, c3⟩ := C81_no_alarm E G s2 a2
    unfold PM.rejectDbg
    rw [a1]
    simp only [Except.dbg, Except.bind]
    rw [asserted_true]
    rw [c2, Bool.and_true, List.all_eq_true]
    intro k hk
    rw [c1 k (List.mem_range.1 hk), Bool.or_true]

/-- **C81 (histories).**  In every history of requests of the kinds made by the solver, performed or rejected, no
assertion fails: the program built without NDEBUG makes the same steps, with the same ratios, as the program built
with NDEBUG, and no check fails in the state at the end. -/
theorem C81_history (E : PEnv) (G : Psi T → Psi T → K) (hG : E.BlockDiag G)
    (hist : List (HybChange T × Bool)) : ∀ (s : PM T K), s.Inv E G → s.Legal E G hist →
    ∃ done s', s.run E G hist = .ok (done, s') ∧ s.runDbg E G hist = .ok (done, s') ∧
      (∀ k, k < E.ns → (s'.blocks k).sanity = true) ∧ s'.actSizes = true ∧ s'.sanity E = true := by
  induction hist with
  | nil => exact fun s h _ => ⟨[], s, rfl, rfl, C81_no_alarm E G s h⟩
  | cons x hist ih =>
    obtain ⟨ch, acc⟩ := x
    rintro s h ⟨ha, hs, hl⟩
    obtain ⟨r, b, s2, e1, e2, -⟩ := PM.step_ok E G hG s h ch acc ha hs
    obtain ⟨done, s', f1, f2, f3⟩ := ih s2 e2 (hl _ _ e1)
    refine ⟨(if b then [(r, ch)] else []) ++ done, s', ?_, ?_, f3⟩
    · rw [PM.run, e1]
      simp only [Except.bind]
      rw [f1]
    · rw [PM.runDbg, PM.stepDbg_ok E G hG s h ch acc ha hs, e1]
      simp only [Except.dbg, Except.bind]
      rw [f2]

/-- **C81 (constructor).**  Nor does an assertion fail in the constructor with a list of pairs of operators at
different times and with a determinant which is not zero. -/
theorem C81_build (E : PEnv) (G : Psi T → Psi T → K) (hG : E.BlockDiag G)
    (l : List (Psi T × Psi T)) (hv : ∀ p ∈ l, E.Valid p.1 ∧ E.Valid p.2)
    (hn : ((l.map Prod.fst ++ l.map Prod.snd).map Psi.time).Nodup)
    (hd : timeDet G (l.map Prod.snd) (l.map Prod.fst) ≠ 0) :
    ∃ s : PM T K, PM.build E G l = .ok s ∧ PM.buildDbg E G l = .ok s ∧ s.Inv E G := by
  obtain ⟨h0, s, b1, b2, -⟩ := C18_build E G hG l hv hn hd
  refine ⟨s, b1, ?_, b2⟩
  unfold PM.build at b1
  obtain ⟨c1, c2, c3⟩ := C81_no_alarm E G s b2
  have hall : ((List.range E.ns).all fun k => ((PM.empty : PM T K).blocks k).sanity) = true := by
    rw [List.all_eq_true]
    exact fun k hk => (C81_no_alarm E G _ h0).1 k (List.mem_range.1 hk)
  unfold PM.buildDbg PM.tryUpdateDbg
  rw [asserted_true hall]
  simp only [Except.bind]
  cases ht : (PM.empty : PM T K).tryUpdate E G ⟨[], [], l.map Prod.fst, l.map Prod.snd⟩ with
  | error e => rw [ht] at b1; simp [Except.bind] at b1
  | ok r =>
    rw [ht] at b1
    simp only [Except.bind] at b1
    simp only [Except.dbg]
    unfold PM.performDbg
    rw [b1]
    simp only [Except.dbg, Except.bind]
    rw [asserted_true]
    · simp only
      rw [asserted_true c3]
    · rw [c2, c3, Bool.and_true, Bool.and_true, List.all_eq_true]
      intro k hk
      rw [c1 k (List.mem_range.1 hk), Bool.or_true]

/-- **C81 (rebuilding).**  Whatever the stored matrices have become, no assertion fails in
`rebuild_inverse_matrix`. -/
theorem C81_rebuild (E : PEnv) (G : Psi T → Psi T → K) (s : PM T K) (h : s.Inv E G) (bad : ℕ → ℕ → ℕ → K) :
    ∃ s2, PM.rebuildDbg E G { s with blocks := fun k => { s.blocks k with inv := bad k } } = .ok s2 ∧
      s2.Inv E G := by
  obtain ⟨s2, a1, a2, -⟩ := C18_rebuild E G s h bad
  refine ⟨s2, ?_, a2⟩
  unfold PM.rebuildDbg
  rw [asserted_true]
  · simp only [Except.bind, a1, Except.dbg]
    rw [asserted_true]
    rw [List.all_eq_true]
    exact fun k hk => (C81_no_alarm E G s2 a2).1 k (List.mem_range.1 hk)
  · rw [List.all_eq_true]
    intro k hk
    rw [decide_eq_true_eq]
    exact (h.block k (List.mem_range.1 hk)).cdLen.symm

end

/-! ### `init` -/

/-- **C81 (sectors).**  The assertion about mutual connections passes exactly for symmetric connections; the
assertion about the sectors never fails; and if the former passes, a hybridization function which vanishes between
flavors which are not connected vanishes between different sectors. -/
theorem C81_init [Field K] (nf : ℕ) (conn : ℕ → ℕ → Bool) :
    (initAsserts nf conn = true ↔ ∀ f f2, f < nf → f2 < nf → conn f f2 = conn f2 f) ∧
    ∃ E, PEnv.init nf conn = some E ∧ E.initSectorAsserts conn = true ∧
      (initAsserts nf conn = true → ∀ G : Psi T → Psi T → K,
        (∀ a b, a.flavor < nf → b.flavor < nf → conn a.flavor b.flavor = false → a.flavor ≠ b.flavor →
          G a b = 0) → E.BlockDiag G) := by
  have h0 : initAsserts nf conn = true ↔ ∀ f f2, f < nf → f2 < nf → conn f f2 = conn f2 f := by
    unfold initAsserts
    simp only [List.all_eq_true, List.mem_range, decide_eq_true_eq]
    constructor
    · intro h f f2 hf hf2
      rcases lt_trichotomy f f2 with hlt | rfl | hlt
      · exact (h f2 hf2 f hlt).symm
      · rfl
      · exact h f hf f2 hlt
    · intro h f hf f2 hlt
      exact h f f2 hf (lt_trans hlt hf)
  refine ⟨h0, ?_⟩
  obtain ⟨E, h1, h2, -, -, h5, h6⟩ := C18_sectors (T := T) (K := K) nf conn
  refine ⟨E, h1, ?_, fun h => h6 (h0.1 h)⟩
  unfold PEnv.initSectorAsserts
  simp only [List.all_eq_true, List.mem_range, Bool.or_eq_true, decide_eq_true_eq, Bool.not_eq_true']
  intro f hf f2 hlt
  rw [h2] at hf
  by_cases hc : conn f f2 = true
  · exact Or.inl ((h5 f hf f2 (lt_trans hlt hf)).2 (Relation.EqvGen.rel _ _ ⟨hlt, hf, hc⟩))
  · exact Or.inr (by simpa using hc)

/-! ### Blind spots -/

/-- **C81 (blocks exchanged).**  If the operators of the sectors are stored in the blocks of other sectors, no
assertion notices: the blocks are only compared with the vectors made from them.  Here the blocks are exchanged by
any permutation `π` of the sectors. -/
theorem C81_blocks_exchanged_violated [Field K] (E : PEnv) (G : Psi T → Psi T → K) (s : PM T K) (h : s.Inv E G)
    (π : Perm ℕ) (hπ : ∀ k, π k < E.ns ↔ k < E.ns) :
    let s' : PM T K := ({ s with blocks := fun k => s.blocks (π k) } : PM T K).reconstruct E.ns
    (∀ k, k < E.ns → (s'.blocks k).sanity = true) ∧ s'.actSizes = true ∧ s'.sanity E = true := by
  intro s'
  obtain ⟨a1, a2, a3⟩ := C81_no_alarm E G s h
  have hp : ((List.range E.ns).map π).Perm (List.range E.ns) := by
    refine (List.perm_ext_iff_of_nodup (List.nodup_range.map π.injective) List.nodup_range).2 fun k => ?_
    rw [List.mem_map, List.mem_range]
    constructor
    · rintro ⟨j, hj, rfl⟩
      exact (hπ j).2 (List.mem_range.1 hj)
    · intro hk
      refine ⟨π.symm k, List.mem_range.2 ?_, by simp⟩
      rw [← hπ]
      simpa using hk
  have p1 : s'.cd.act.Perm s.cd.act := by
    rw [h.cdAct]
    have : s'.cd.act = ((List.range E.ns).map π).flatMap fun k => (s.blocks k).cd.ops := by
      rw [List.flatMap_map]; rfl
    rw [this]
    exact hp.flatMap_right _
  have p2 : s'.c.act.Perm s.c.act := by
    rw [h.cAct]
    have : s'.c.act = ((List.range E.ns).map π).flatMap fun k => (s.blocks k).c.ops := by
      rw [List.flatMap_map]; rfl
    rw [this]
    exact hp.flatMap_right _
  have k1 : s'.cd.OK E s'.cd.act := by
    have : ((s'.cd.act : List (Psi T)) : Multiset (Psi T)) = s.cd.act := Multiset.coe_eq_coe.2 p1
    rw [this]
    exact ⟨h.cdOK.set, h.cdOK.sec, h.cdOK.valid⟩
  have k2 : s'.c.OK E s'.c.act := by
    have : ((s'.c.act : List (Psi T)) : Multiset (Psi T)) = s.c.act := Multiset.coe_eq_coe.2 p2
    rw [this]
    exact ⟨h.cOK.set, h.cOK.sec, h.cOK.valid⟩
  have hsum : ((List.range E.ns).map fun k => (s'.blocks k).n).sum =
      ((List.range E.ns).map fun k => (s.blocks k).n).sum := by
    have : ((List.range E.ns).map fun k => (s'.blocks k).n) =
        ((List.range E.ns).map π).map fun k => (s.blocks k).n := by rw [List.map_map]; rfl
    rw [this]
    exact (hp.map _).sum_eq
  refine ⟨fun k hk => a1 (π k) ((hπ k).2 hk), ?_, ?_⟩
  · unfold PM.actSizes at a2 ⊢
    rw [p1.length_eq, p2.length_eq]
    exact a2
  · unfold PM.sanity at a3 ⊢
    simp only [Bool.and_eq_true] at a3 ⊢
    obtain ⟨⟨⟨⟨⟨-, -⟩, b3⟩, b4⟩, -⟩, -⟩ := a3
    refine ⟨⟨⟨⟨⟨k1.sanity, k2.sanity⟩, ?_⟩, b4⟩, ?_⟩, ?_⟩
    · rw [hsum]
      exact b3
    · exact (actualOrderRight_iff _ _ _ _ fun k hk => (h.block (π k) ((hπ k).2 hk)).cdLen).2 List.prefix_rfl
    · exact (actualOrderRight_iff _ _ _ _ fun k hk => (h.block (π k) ((hπ k).2 hk)).cLen).2 List.prefix_rfl

/-- A block with one pair of operators. -/
def onePair (a b : Psi ℕ) : DM ℕ ℚ :=
  { (DM.empty : DM ℕ ℚ) with
    cd := ⟨[a], [(a.time, 0)], [a]⟩
    c := ⟨[b], [(b.time, 0)], [b]⟩
    n := 1
    inv := fun _ _ => 1 }

/-- Two sectors with one pair each; the sets are made from the operators. -/
def twoPairs (a b a' b' : Psi ℕ) (p : ℤ) : PM ℕ ℚ where
  blocks := fun k => if k = 0 then onePair a b else onePair a' b'
  cd := ⟨OpSet.ofList [a, a'], fun k => if k = 0 then [a] else [a'], fun _ => [], fun _ => [], [a, a']⟩
  c := ⟨OpSet.ofList [b, b'], fun k => if k = 0 then [b] else [b'], fun _ => [], fun _ => [], [b, b']⟩
  perm := p
  newPerm := p

/-- **C81 (equal times).**  Two annihilation operators of different sectors at the same time are not noticed,
although one of them is missing in the time-ordered set: the size of the set of annihilation operators is compared
with nothing.  (For creation operators this is noticed, see below.) -/
theorem C81_equal_times_violated :
    ∃ (E : PEnv) (s : PM ℕ ℚ), (∀ k, k < E.ns → (s.blocks k).sanity = true) ∧ s.actSizes = true ∧
      s.sanity E = true ∧ ∃ o ∈ s.c.act, o ∉ s.c.set := by
  refine ⟨⟨2, 2, id⟩, twoPairs ⟨1, .creation, 0⟩ ⟨5, .annihilation, 0⟩ ⟨3, .creation, 1⟩ ⟨5, .annihilation, 1⟩ 1,
    by decide, by decide, by decide, ?_⟩
  exact ⟨⟨5, .annihilation, 1⟩, by decide, by decide⟩

/-- The same for creation operators is noticed. -/
example : (twoPairs ⟨1, .creation, 0⟩ ⟨3, .annihilation, 0⟩ ⟨1, .creation, 1⟩ ⟨5, .annihilation, 1⟩ 1).sanity
    ⟨2, 2, id⟩ = false := by decide

/-- An object with a negative sign: the annihilation operators are in the order of the sectors, the creation
operators are not. -/
example : let s := fun p => twoPairs ⟨4, .creation, 0⟩ ⟨5, .annihilation, 0⟩ ⟨3, .creation, 1⟩ ⟨6, .annihilation, 1⟩ p
    (∀ k, k < 2 → ((s (-1)).blocks k).sanity = true) ∧ (s (-1)).actSizes = true ∧
    (s (-1)).sanity ⟨2, 2, id⟩ = true ∧ (s 1).sanity ⟨2, 2, id⟩ = false := by decide

/-- Errors in a block which are noticed: a wrong position, a wrong sign, an operator missing in the set, a wrong
state.  The first block is right. -/
example : (onePair ⟨4, .creation, 0⟩ ⟨5, .annihilation, 0⟩).sanity = true ∧
    ({ onePair ⟨4, .creation, 0⟩ ⟨5, .annihilation, 0⟩ with
      cd := ⟨[⟨4, .creation, 0⟩], [(4, 1)], [⟨4, .creation, 0⟩]⟩ } : DM ℕ ℚ).sanity = false ∧
    ({ onePair ⟨4, .creation, 0⟩ ⟨5, .annihilation, 0⟩ with perm := -1 } : DM ℕ ℚ).sanity = false ∧
    ({ onePair ⟨4, .creation, 0⟩ ⟨5, .annihilation, 0⟩ with
      cd := ⟨[⟨4, .creation, 0⟩], [(4, 0)], []⟩ } : DM ℕ ℚ).sanity = false ∧
    ({ onePair ⟨4, .creation, 0⟩ ⟨5, .annihilation, 0⟩ with state := .tryAdd } : DM ℕ ℚ).sanity = false := by
  decide

/-- A consistent object with three pairs in two sectors, made by the constructor with assertions; it satisfies the
hypotheses of all theorems above about consistent objects. -/
example : ∃ s : PM ℕ ℚ, PM.buildDbg exE exPG exPairs = .ok s ∧ s.Inv exE exPG := by
  obtain ⟨s, -, h1, h2⟩ := C81_build exE exPG exPG_diag exPairs (by
      intro p hp
      simp only [exPairs, List.mem_cons, List.not_mem_nil, or_false] at hp
      rcases hp with rfl | rfl | rfl <;> simp [PEnv.Valid, exE]) (by decide) (by rw [exPairs_det]; norm_num)
  exact ⟨s, h1, h2⟩

/-- An exchange of the two sectors, as in `C81_blocks_exchanged_violated`. -/
example : ∀ k, Equiv.swap 0 1 k < exE.ns ↔ k < exE.ns := by
  intro k
  rcases k with _ | _ | k
  · decide
  · decide
  · rw [Equiv.swap_apply_of_ne_of_ne (by omega) (by omega)]

/-- Connections which are not mutual are reported by `init`. -/
example : initAsserts 3 exConn = true ∧ initAsserts 2 (fun a b => a == 0 && b == 1) = false := by decide

end CTHyb
