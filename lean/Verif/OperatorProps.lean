import Verif.Operator

/-!
C03: undoing recorded changes restores the container.
Also: `update_operators` has exactly the advertised effect on the set of operators.
-/

namespace CTHyb

variable {T : Type} [LinearOrder T]

/-! ### Helper lemmas -/

theorem insert_erase_cancel (s : OpSet T) (op : Psi T) (hs : s.Sorted)
    (h : (s.insert op).2 = true) : ((s.insert op).1.erase op).1 = s := by
  have habs := (OpSet.insert_snd_iff s op hs).1 h
  apply OpSet.eq_of_mem_iff _ _ (OpSet.erase_sorted _ _ (OpSet.insert_sorted _ _ hs)) hs
  intro y
  rw [OpSet.mem_erase _ _ _ (OpSet.insert_sorted _ _ hs), OpSet.mem_insert _ _ _ h]
  constructor
  · rintro ⟨rfl | hy, hne⟩
    · exact absurd rfl hne
    · exact hy
  · intro hy; exact ⟨Or.inr hy, habs y hy⟩

theorem erase_insert_cancel (s : OpSet T) (op : Psi T) (hs : s.Sorted) (hm : op ∈ s) :
    ((s.erase op).1.insert op).1 = s := by
  have hse := OpSet.erase_sorted s op hs
  have hins : ((s.erase op).1.insert op).2 = true := by
    rw [OpSet.insert_snd_iff _ _ hse]
    intro x hx
    exact ((OpSet.mem_erase s op x hs).1 hx).2
  apply OpSet.eq_of_mem_iff _ _ (OpSet.insert_sorted _ _ hse) hs
  intro y
  rw [OpSet.mem_insert _ _ _ hins, OpSet.mem_erase _ _ _ hs]
  constructor
  · rintro (rfl | ⟨hy, _⟩)
    · exact hm
    · exact hy
  · intro hy
    by_cases ht : y.time = op.time
    · exact Or.inl (OpSet.time_inj s hs hy hm ht)
    · exact Or.inr ⟨hy, ht⟩

theorem revertChanges_append_single (s : OpSet T) (rec : Record T) (a : Psi T × Action) :
    revertChanges s (rec ++ [a]) = revertChanges (revertOne s a) rec := by
  simp [revertChanges]

/-- Invariant of the erase loop. -/
theorem safeErase_revert (s : OpSet T) (rem : List (Psi T)) (rec : Record T) (s0 : OpSet T)
    (hs : s.Sorted) (hrev : revertChanges s rec = s0)
    (hmem : ∀ x ∈ rem, ∀ y ∈ s, y.time = x.time → y = x) :
    let r := safeEraseWithRecord s rem rec
    r.ops.Sorted ∧ revertChanges r.ops r.record = s0 := by
  induction rem generalizing s rec with
  | nil => exact ⟨hs, hrev⟩
  | cons op rest ih =>
    unfold safeEraseWithRecord
    by_cases h1 : (s.erase op).2 = 1
    · simp only [h1, if_true]
      have hex : ∃ x ∈ s, x.time = op.time := by
        by_contra hno
        rw [OpSet.erase_snd, if_neg hno] at h1; exact absurd h1 (by decide)
      obtain ⟨x, hx, hxt⟩ := hex
      have hop : op ∈ s := by
        have := hmem op (by simp) x hx hxt; rwa [← this]
      apply ih
      · exact OpSet.erase_sorted s op hs
      · rw [revertChanges_append_single]
        simp only [revertOne]
        rw [erase_insert_cancel s op hs hop]; exact hrev
      · intro x hx y hy
        exact hmem x (by simp [hx]) y ((OpSet.mem_erase s op y hs).1 hy).1
    · simp only [h1, if_false]
      refine ⟨OpSet.erase_sorted s op hs, ?_⟩
      have habs : ∀ x ∈ s, x.time ≠ op.time := by
        intro x hx hxt
        apply h1; rw [OpSet.erase_snd, if_pos ⟨x, hx, hxt⟩]
      rw [OpSet.erase_fst_of_absent s op habs]; exact hrev

/-- Invariant of the insertion loop. -/
theorem safeInsert_revert (s : OpSet T) (add : List (Psi T)) (rec : Record T) (s0 : OpSet T)
    (hs : s.Sorted) (hrev : revertChanges s rec = s0) :
    let r := safeInsertWithRecord s add rec
    r.ops.Sorted ∧ revertChanges r.ops r.record = s0 := by
  induction add generalizing s rec with
  | nil => exact ⟨hs, hrev⟩
  | cons op rest ih =>
    unfold safeInsertWithRecord
    cases h1 : (s.insert op).2 with
    | true =>
      simp only [h1, if_true]
      apply ih
      · exact OpSet.insert_sorted s op hs
      · rw [revertChanges_append_single]
        simp only [revertOne]
        rw [insert_erase_cancel s op hs h1]; exact hrev
    | false =>
      simp only [h1, Bool.false_eq_true, if_false]
      rw [OpSet.insert_fst_of_false s op h1]
      exact ⟨hs, hrev⟩

theorem safeErase_ok (s : OpSet T) (rem : List (Psi T)) (rec : Record T) (hs : s.Sorted)
    (hmem : ∀ x ∈ rem, x ∈ s) (hnd : (rem.map (·.time)).Nodup) :
    (safeEraseWithRecord s rem rec).ok = true ∧
    ∀ y, y ∈ (safeEraseWithRecord s rem rec).ops ↔ y ∈ s ∧ y ∉ rem := by
  induction rem generalizing s rec with
  | nil => simp [safeEraseWithRecord]
  | cons op rest ih =>
    unfold safeEraseWithRecord
    have hop : op ∈ s := hmem op (by simp)
    have h1 : (s.erase op).2 = 1 := by
      rw [OpSet.erase_snd, if_pos ⟨op, hop, rfl⟩]
    simp only [h1, if_true]
    rw [List.map_cons, List.nodup_cons] at hnd
    have hrest : ∀ x ∈ rest, x ∈ (s.erase op).1 := by
      intro x hx
      rw [OpSet.mem_erase s op x hs]
      refine ⟨hmem x (by simp [hx]), ?_⟩
      intro ht
      exact hnd.1 (List.mem_map.2 ⟨x, hx, ht⟩)
    obtain ⟨ho, hm⟩ := ih (s.erase op).1 (rec ++ [(op, Action.removal)])
      (OpSet.erase_sorted s op hs) hrest hnd.2
    refine ⟨ho, fun y => ?_⟩
    rw [hm y, OpSet.mem_erase s op y hs, List.mem_cons, not_or]
    constructor
    · rintro ⟨⟨h2, h3⟩, h4⟩
      exact ⟨h2, ⟨by rintro rfl; exact h3 rfl, h4⟩⟩
    · rintro ⟨h2, h3, h4⟩
      refine ⟨⟨h2, ?_⟩, h4⟩
      intro ht; exact h3 (OpSet.time_inj s hs h2 hop ht)

theorem safeInsert_ok_iff (s : OpSet T) (add : List (Psi T)) (rec : Record T) (hs : s.Sorted) :
    ((safeInsertWithRecord s add rec).ok = true ↔
      (add.map (·.time)).Nodup ∧ ∀ x ∈ add, ∀ y ∈ s, y.time ≠ x.time) ∧
    ((safeInsertWithRecord s add rec).ok = true →
      ∀ y, y ∈ (safeInsertWithRecord s add rec).ops ↔ y ∈ s ∨ y ∈ add) := by
  induction add generalizing s rec with
  | nil => simp [safeInsertWithRecord]
  | cons op rest ih =>
    unfold safeInsertWithRecord
    cases h1 : (s.insert op).2 with
    | true =>
      simp only [h1, if_true]
      have habs := (OpSet.insert_snd_iff s op hs).1 h1
      obtain ⟨ih1, ih2⟩ := ih (s.insert op).1 (rec ++ [(op, Action.insertion)])
        (OpSet.insert_sorted s op hs)
      constructor
      · rw [ih1]
        simp only [OpSet.mem_insert s op _ h1, List.map_cons, List.nodup_cons, List.mem_map,
          List.mem_cons, forall_eq_or_imp, not_exists, not_and]
        constructor
        · rintro ⟨hn, hall⟩
          exact ⟨⟨fun x hx ht => (hall x hx).1 ht.symm, hn⟩, habs, fun x hx => (hall x hx).2⟩
        · rintro ⟨⟨h2, hn⟩, _, h4⟩
          exact ⟨hn, fun x hx => ⟨fun ht => h2 x hx ht.symm, h4 x hx⟩⟩
      · intro hok y
        rw [ih2 hok y, OpSet.mem_insert s op y h1, List.mem_cons]; tauto
    | false =>
      simp only [h1, Bool.false_eq_true, if_false, false_iff, false_implies, and_true]
      intro hcon
      have : (s.insert op).2 = true :=
        (OpSet.insert_snd_iff s op hs).2 (fun x hx => hcon.2 op (by simp) x hx)
      rw [h1] at this; exact Bool.false_ne_true this

/-! ### C03 -/

/-- **C03 (erasures).**  Whatever the list of operators to erase, and wherever the batch stops
because an operator is missing, replaying the record backwards restores the container.
The hypothesis says that an operator to be erased which shares its time with a stored one
*is* the stored one; it cannot be dropped, see `C03_foreign_operator_not_restored`. -/
theorem C03_revert_erase (s : OpSet T) (rem : List (Psi T)) (hs : s.Sorted)
    (hmem : ∀ x ∈ rem, ∀ y ∈ s, y.time = x.time → y = x) :
    revertChanges (safeEraseWithRecord s rem []).ops (safeEraseWithRecord s rem []).record = s :=
  (safeErase_revert s rem [] s hs rfl hmem).2

/-- **C03 (insertions).**  Whatever the list of operators to insert, and wherever the batch stops
because a time is taken, replaying the record backwards restores the container. -/
theorem C03_revert_insert (s : OpSet T) (add : List (Psi T)) (hs : s.Sorted) :
    revertChanges (safeInsertWithRecord s add []).ops (safeInsertWithRecord s add []).record = s :=
  (safeInsert_revert s add [] s hs rfl).2

/-- **C03 (whole batch of `update_operators`).**  If the operators to be removed are stored
operators with different times, the fatal exception cannot occur; when a duplicate is met the
container is returned unchanged; on success the record undoes the change exactly, the container
is still sorted, and it holds exactly the old operators that were not removed together with the
added ones; and success happens exactly if the added times are distinct and not occupied by a
remaining operator. -/
theorem C03_update_operators (s : OpSet T) (rem add : List (Psi T)) (hs : s.Sorted)
    (hrem : ∀ x ∈ rem, x ∈ s) (hnd : rem.Nodup) :
    match updateOperators s rem add with
    | .success s' rec =>
        revertChanges s' rec = s ∧ s'.Sorted ∧ (∀ y, y ∈ s' ↔ (y ∈ s ∧ y ∉ rem) ∨ y ∈ add) ∧
        ((add.map (·.time)).Nodup ∧ ∀ x ∈ add, ∀ y ∈ s, y ∉ rem → y.time ≠ x.time)
    | .duplicate s' =>
        s' = s ∧ ¬ ((add.map (·.time)).Nodup ∧ ∀ x ∈ add, ∀ y ∈ s, y ∉ rem → y.time ≠ x.time)
    | .fatal _ => False := by
  have hnd' : (rem.map (·.time)).Nodup := by
    refine List.Nodup.map_on ?_ hnd
    intro x hx y hy hxy
    exact OpSet.time_inj s hs (hrem x hx) (hrem y hy) hxy
  have hfor : ∀ x ∈ rem, ∀ y ∈ s, y.time = x.time → y = x :=
    fun x hx y hy h => OpSet.time_inj s hs hy (hrem x hx) h
  obtain ⟨eok, emem⟩ := safeErase_ok s rem [] hs hrem hnd'
  obtain ⟨esort, erev⟩ := safeErase_revert s rem [] s hs rfl hfor
  obtain ⟨isort, irev⟩ := safeInsert_revert (safeEraseWithRecord s rem []).ops add
    (safeEraseWithRecord s rem []).record s esort erev
  obtain ⟨iok, imem⟩ := safeInsert_ok_iff (safeEraseWithRecord s rem []).ops add
    (safeEraseWithRecord s rem []).record esort
  unfold updateOperators
  simp only [eok, if_true]
  have hiff : ((add.map (·.time)).Nodup ∧ ∀ x ∈ add, ∀ y ∈ (safeEraseWithRecord s rem []).ops,
      y.time ≠ x.time) ↔
      ((add.map (·.time)).Nodup ∧ ∀ x ∈ add, ∀ y ∈ s, y ∉ rem → y.time ≠ x.time) := by
    simp only [emem, and_imp]
  cases hi : (safeInsertWithRecord (safeEraseWithRecord s rem []).ops add
      (safeEraseWithRecord s rem []).record).ok with
  | true =>
    simp only [if_true]
    refine ⟨irev, isort, ?_, hiff.1 (iok.1 hi)⟩
    intro y; rw [imem hi y, emem y]
  | false =>
    simp only [Bool.false_eq_true, if_false]
    refine ⟨irev, ?_⟩
    rw [← hiff, ← iok, hi]; simp

/-- Non-vacuity of `C03_update_operators`: a container with three operators, one removed, two
added, the second of which collides after one insertion already took place. -/
example :
    let a : Psi ℕ := ⟨1, .creation, 0⟩
    let b : Psi ℕ := ⟨2, .annihilation, 1⟩
    let c : Psi ℕ := ⟨5, .creation, 1⟩
    let s : OpSet ℕ := [a, b, c]
    s.Sorted ∧ (∀ x ∈ [b], x ∈ s) ∧ [b].Nodup ∧
      updateOperators s [b] [⟨3, .creation, 0⟩, ⟨5, .annihilation, 0⟩] = .duplicate s := by
  refine ⟨?_, ?_, ?_, ?_⟩
  · simp [OpSet.Sorted]
  · simp
  · simp
  · rfl

/-- The hypothesis of `C03_revert_erase` is needed: the container is searched by time only, so
erasing an operator that differs from the stored one in flavor removes the stored one and the
undo inserts the foreign one. -/
theorem C03_foreign_operator_not_restored :
    ∃ (s : OpSet ℕ) (rem : List (Psi ℕ)), s.Sorted ∧
      (safeEraseWithRecord s rem []).ok = true ∧
      revertChanges (safeEraseWithRecord s rem []).ops (safeEraseWithRecord s rem []).record ≠ s :=
  ⟨[⟨1, .creation, 0⟩], [⟨1, .creation, 7⟩], by simp [OpSet.Sorted], by decide, by decide⟩

end CTHyb
