import Mathlib.Order.Basic
import Mathlib.Data.Prod.Lex
import Mathlib.Data.List.Sort
import Mathlib.Data.List.Basic
import Mathlib.Data.Rat.Defs
import Mathlib.Algebra.Order.Ring.Rat

/-!
Model of `src/operator.hpp`: operator times, operators, the time-ordered container
`operator_container_t` and the functions that change it.
-/

namespace CTHyb

/-- `OperatorTimeTemplate<T>` (src/operator.hpp:25-41): a time and a small index which
resolves equal times.  `α` stands for the floating-point type. -/
structure OpTime (α : Type) where
  time : α
  small : Int
deriving DecidableEq, Repr

/-- `operator<(OperatorTimeTemplate, OperatorTimeTemplate)` (src/operator.hpp:51-58). -/
def OpTime.ltCode {α : Type} [LinearOrder α] (t1 t2 : OpTime α) : Bool :=
  if t1.time = t2.time then decide (t1.small < t2.small) else decide (t1.time < t2.time)

/-- `operator<=(OperatorTimeTemplate, OperatorTimeTemplate)` (src/operator.hpp:60-67). -/
def OpTime.leCode {α : Type} [LinearOrder α] (t1 t2 : OpTime α) : Bool :=
  if t1.time = t2.time then decide (t1.small ≤ t2.small) else decide (t1.time ≤ t2.time)

/-- The lexicographic pair behind an operator time; used to give `OpTime` its order. -/
def OpTime.toLexPair {α : Type} (t : OpTime α) : α ×ₗ Int := toLex (t.time, t.small)

theorem OpTime.toLexPair_injective {α : Type} :
    Function.Injective (OpTime.toLexPair (α := α)) := by
  intro a b h
  have h' : (a.time, a.small) = (b.time, b.small) := h
  cases a; cases b; simp_all

/-- Order on operator times: the lexicographic one.  `OpTime.ltCode_iff` and
`OpTime.leCode_iff` prove that the C++ comparison functions compute exactly this order. -/
instance {α : Type} [LinearOrder α] : LinearOrder (OpTime α) :=
  LinearOrder.lift' OpTime.toLexPair OpTime.toLexPair_injective

theorem OpTime.lt_def {α : Type} [LinearOrder α] (a b : OpTime α) :
    a < b ↔ a.time < b.time ∨ (a.time = b.time ∧ a.small < b.small) := by
  change a.toLexPair < b.toLexPair ↔ _
  exact Prod.Lex.lt_iff

theorem OpTime.le_def {α : Type} [LinearOrder α] (a b : OpTime α) :
    a ≤ b ↔ a.time < b.time ∨ (a.time = b.time ∧ a.small ≤ b.small) := by
  change a.toLexPair ≤ b.toLexPair ↔ _
  exact Prod.Lex.le_iff

theorem OpTime.ltCode_iff {α : Type} [LinearOrder α] (a b : OpTime α) :
    a.ltCode b = true ↔ a < b := by
  rw [OpTime.lt_def]; unfold OpTime.ltCode
  by_cases h : a.time = b.time
  · simp [h]
  · simp [h]

theorem OpTime.leCode_iff {α : Type} [LinearOrder α] (a b : OpTime α) :
    a.leCode b = true ↔ a ≤ b := by
  rw [OpTime.le_def]; unfold OpTime.leCode
  by_cases h : a.time = b.time
  · simp [h]
  · simp [h, lt_iff_le_and_ne]

/-- `OPERATOR_TYPE` (src/operator.hpp, enum at the top of the file); the value `INVALID_OP`
of default-constructed operators is not modelled. -/
inductive OpType
  | creation
  | annihilation
deriving DecidableEq, Repr

/-- `class psi` (src/operator.hpp:111-141).  The unused member `site_` is dropped.  The time
type is any linear order `T` (in the code `OperatorTime`, i.e. `OpTime` above). -/
structure Psi (T : Type) where
  time : T
  type : OpType
  flavor : Nat
deriving DecidableEq, Repr

/-- `operator_container_t` (src/operator.hpp:209), an ordered unique index with the comparison
`operator<(psi, psi)` (157-159), which looks at times only.  Modelled as the list of its
elements in iteration order. -/
abbrev OpSet (T : Type) := List (Psi T)

variable {T : Type} [LinearOrder T]

/-- The invariant of the container: strictly increasing times. -/
def OpSet.Sorted (s : OpSet T) : Prop := s.Pairwise (fun a b => a.time < b.time)

/-- `operators.insert(op)`: returns the container and whether the insertion took place; an
element with the same time blocks the insertion (standard semantics of a unique ordered
index, used at src/operator.hpp:261, 283, 313). -/
def OpSet.insert : OpSet T → Psi T → OpSet T × Bool
  | [], op => ([op], true)
  | x :: xs, op =>
    if op.time < x.time then (op :: x :: xs, true)
    else if x.time < op.time then
      let r := OpSet.insert xs op
      (x :: r.1, r.2)
    else (x :: xs, false)

/-- `operators.erase(key)`: removes the element with the *time* of `op` and returns the number
of removed elements (standard semantics, used at src/operator.hpp:226, 242, 311). -/
def OpSet.erase : OpSet T → Psi T → OpSet T × Nat
  | [], _ => ([], 0)
  | x :: xs, op =>
    if x.time = op.time then (xs, 1)
    else
      let r := OpSet.erase xs op
      (x :: r.1, r.2)

/-- `operators.find(op)`: lookup by time (src/operator.hpp:222). -/
def OpSet.find (s : OpSet T) (op : Psi T) : Option (Psi T) :=
  s.find? (fun x => decide (x.time = op.time))

/-- `ActionType` (src/operator.hpp, enum). -/
inductive Action
  | insertion
  | removal
deriving DecidableEq, Repr

/-- The type of the record of changes, `std::vector<std::pair<psi,ActionType>>`. -/
abbrev Record (T : Type) := List (Psi T × Action)

/-- Result of a batch of container changes: container, record so far, and whether the
function returned normally (`true`) or threw (`false`). -/
structure BatchResult (T : Type) where
  ops : OpSet T
  record : Record T
  ok : Bool

/-- `safe_erase_with_record` (src/operator.hpp:236-248): erases one by one, appending to the
record; throws (here `ok = false`) at the first operator that is not found, keeping the
changes made so far. -/
def safeEraseWithRecord (s : OpSet T) : List (Psi T) → Record T → BatchResult T
  | [], rec => ⟨s, rec, true⟩
  | op :: rest, rec =>
    let r := s.erase op
    if r.2 = 1 then safeEraseWithRecord r.1 rest (rec ++ [(op, .removal)])
    else ⟨r.1, rec, false⟩

/-- `safe_insert_with_record` (src/operator.hpp:277-290): inserts one by one, appending to the
record; throws (`ok = false`) at the first operator whose time is taken. -/
def safeInsertWithRecord (s : OpSet T) : List (Psi T) → Record T → BatchResult T
  | [], rec => ⟨s, rec, true⟩
  | op :: rest, rec =>
    let r := s.insert op
    if r.2 then safeInsertWithRecord r.1 rest (rec ++ [(op, .insertion)])
    else ⟨r.1, rec, false⟩

/-- The body of the loop of `revert_changes` (src/operator.hpp:310-314); the results of
`erase`/`insert` are ignored as in the code. -/
def revertOne (s : OpSet T) : Psi T × Action → OpSet T
  | (op, .insertion) => (s.erase op).1
  | (op, .removal) => (s.insert op).1

/-- `revert_changes` (src/operator.hpp:305-316): undo the record from the back. -/
def revertChanges (s : OpSet T) (rec : Record T) : OpSet T :=
  rec.reverse.foldl revertOne s

/-- `safe_erase` for one operator (src/operator.hpp:221-227): throws if there is no operator
at that time. -/
def safeErase (s : OpSet T) (op : Psi T) : Option (OpSet T) :=
  match s.find op with
  | none => none
  | some _ => some (s.erase op).1

/-- `safe_insert` for one operator (src/operator.hpp:260-268): throws if the time is taken. -/
def safeInsert (s : OpSet T) (op : Psi T) : Option (OpSet T) :=
  let r := s.insert op
  if r.2 then some r.1 else none

/-- Outcome of `LocalUpdater::update_operators` (src/moves/moves.ipp:215-242). -/
inductive UpdOps (T : Type)
  /-- `true` returned, operators changed -/
  | success (ops : OpSet T) (record : Record T)
  /-- `false` returned after a duplicate was found and the changes were undone -/
  | duplicate (ops : OpSet T)
  /-- the "Fatal error" exception (an operator to be erased was not present); the
  container keeps the partial changes -/
  | fatal (ops : OpSet T)

/-- `LocalUpdater::update_operators` (src/moves/moves.ipp:215-242). -/
def updateOperators (s : OpSet T) (rem add : List (Psi T)) : UpdOps T :=
  let e := safeEraseWithRecord s rem []
  if e.ok then
    let i := safeInsertWithRecord e.ops add e.record
    if i.ok then .success i.ops i.record
    else .duplicate (revertChanges i.ops i.record)
  else .fatal e.ops

/-! ### Basic facts about the container -/

theorem OpSet.insert_snd_iff (s : OpSet T) (op : Psi T) (hs : s.Sorted) :
    (s.insert op).2 = true ↔ ∀ x ∈ s, x.time ≠ op.time := by
  induction s with
  | nil => simp [OpSet.insert]
  | cons x xs ih =>
    have hx := (List.pairwise_cons.1 hs).1
    have hxs : OpSet.Sorted xs := (List.pairwise_cons.1 hs).2
    unfold OpSet.insert
    by_cases h1 : op.time < x.time
    · simp only [h1, if_true, List.mem_cons, forall_eq_or_imp, true_iff]
      exact ⟨h1.ne', fun y hy => (h1.trans (hx y hy)).ne'⟩
    · by_cases h2 : x.time < op.time
      · simp [h1, h2, ih hxs, h2.ne]
      · have : x.time = op.time := le_antisymm (not_lt.1 h1) (not_lt.1 h2)
        simp [this]

theorem OpSet.insert_fst_of_false (s : OpSet T) (op : Psi T) (h : (s.insert op).2 = false) :
    (s.insert op).1 = s := by
  induction s with
  | nil => simp [OpSet.insert] at h
  | cons x xs ih =>
    unfold OpSet.insert at h ⊢
    by_cases h1 : op.time < x.time
    · simp [h1] at h
    · by_cases h2 : x.time < op.time
      · simp only [h1, h2, if_true, if_false] at h ⊢
        rw [ih h]
      · simp [h1, h2]

theorem OpSet.mem_insert (s : OpSet T) (op y : Psi T) (h : (s.insert op).2 = true) :
    y ∈ (s.insert op).1 ↔ y = op ∨ y ∈ s := by
  induction s with
  | nil => simp [OpSet.insert]
  | cons x xs ih =>
    unfold OpSet.insert at h ⊢
    by_cases h1 : op.time < x.time
    · simp [h1]
    · by_cases h2 : x.time < op.time
      · simp only [h1, h2, if_true, if_false] at h ⊢
        rw [List.mem_cons, ih h, List.mem_cons]; tauto
      · simp [h1, h2] at h

theorem OpSet.insert_sorted (s : OpSet T) (op : Psi T) (hs : s.Sorted) :
    OpSet.Sorted (s.insert op).1 := by
  induction s with
  | nil => simp [OpSet.insert, OpSet.Sorted]
  | cons x xs ih =>
    have hx := (List.pairwise_cons.1 hs).1
    have hxs : OpSet.Sorted xs := (List.pairwise_cons.1 hs).2
    unfold OpSet.insert
    by_cases h1 : op.time < x.time
    · simp only [h1, if_true]
      refine List.pairwise_cons.2 ⟨?_, hs⟩
      intro y hy
      rcases List.mem_cons.1 hy with rfl | hy
      · exact h1
      · exact h1.trans (hx y hy)
    · by_cases h2 : x.time < op.time
      · simp only [h1, h2, if_true, if_false]
        refine List.pairwise_cons.2 ⟨?_, ih hxs⟩
        intro y hy
        cases hb : (OpSet.insert xs op).2 with
        | true =>
          rcases (OpSet.mem_insert xs op y hb).1 hy with rfl | hy
          · exact h2
          · exact hx y hy
        | false =>
          rw [OpSet.insert_fst_of_false xs op hb] at hy
          exact hx y hy
      · simpa [h1, h2] using hs

/-- Two sorted containers with the same elements are the same. -/
theorem OpSet.eq_of_mem_iff (s t : OpSet T) (hs : s.Sorted) (ht : t.Sorted)
    (h : ∀ x, x ∈ s ↔ x ∈ t) : s = t := by
  have ps : s.Nodup := hs.imp (fun {a b} hab => by rintro rfl; exact lt_irrefl _ hab)
  have pt : t.Nodup := ht.imp (fun {a b} hab => by rintro rfl; exact lt_irrefl _ hab)
  have hp : s.Perm t := (List.perm_ext_iff_of_nodup ps pt).2 h
  exact hp.eq_of_pairwise
    (fun a b _ _ hab hba => absurd hab (not_lt.2 hba.le)) hs ht

theorem OpSet.time_inj (s : OpSet T) (hs : s.Sorted) {a b : Psi T} (ha : a ∈ s) (hb : b ∈ s)
    (h : a.time = b.time) : a = b := by
  induction s with
  | nil => simp at ha
  | cons x xs ih =>
    have hx := (List.pairwise_cons.1 hs).1
    rcases List.mem_cons.1 ha with rfl | ha' <;> rcases List.mem_cons.1 hb with rfl | hb'
    · rfl
    · exact absurd h (hx b hb').ne
    · exact absurd h (hx a ha').ne'
    · exact ih (List.pairwise_cons.1 hs).2 ha' hb'

theorem OpSet.erase_snd (s : OpSet T) (op : Psi T) :
    (s.erase op).2 = if ∃ x ∈ s, x.time = op.time then 1 else 0 := by
  induction s with
  | nil => simp [OpSet.erase]
  | cons x xs ih =>
    unfold OpSet.erase
    by_cases h : x.time = op.time
    · simp [h]
    · simp [h, ih]

theorem OpSet.erase_fst_of_absent (s : OpSet T) (op : Psi T)
    (h : ∀ x ∈ s, x.time ≠ op.time) : (s.erase op).1 = s := by
  induction s with
  | nil => simp [OpSet.erase]
  | cons x xs ih =>
    unfold OpSet.erase
    have hx : x.time ≠ op.time := h x (by simp)
    simp [hx, ih (fun y hy => h y (by simp [hy]))]

theorem OpSet.mem_erase (s : OpSet T) (op y : Psi T) (hs : s.Sorted) :
    y ∈ (s.erase op).1 ↔ y ∈ s ∧ y.time ≠ op.time := by
  induction s with
  | nil => simp [OpSet.erase]
  | cons x xs ih =>
    have hx := (List.pairwise_cons.1 hs).1
    have hxs : OpSet.Sorted xs := (List.pairwise_cons.1 hs).2
    unfold OpSet.erase
    by_cases h : x.time = op.time
    · simp only [h, if_true]
      constructor
      · intro hy; exact ⟨by simp [hy], by rw [← h]; exact (hx y hy).ne'⟩
      · rintro ⟨hy, hne⟩
        rcases List.mem_cons.1 hy with rfl | hy
        · exact absurd h hne
        · exact hy
    · simp only [h, if_false, List.mem_cons, ih hxs]
      constructor
      · rintro (rfl | ⟨h1, h2⟩)
        · exact ⟨Or.inl rfl, h⟩
        · exact ⟨Or.inr h1, h2⟩
      · rintro ⟨rfl | h1, h2⟩
        · exact Or.inl rfl
        · exact Or.inr ⟨h1, h2⟩

theorem OpSet.erase_sublist (s : OpSet T) (op : Psi T) : (s.erase op).1.Sublist s := by
  induction s with
  | nil => simp [OpSet.erase]
  | cons x xs ih =>
    unfold OpSet.erase
    by_cases h : x.time = op.time
    · simp [h]
    · simp only [h, if_false]; exact ih.cons_cons x

theorem OpSet.erase_sorted (s : OpSet T) (op : Psi T) (hs : s.Sorted) :
    OpSet.Sorted (s.erase op).1 := List.Pairwise.sublist (OpSet.erase_sublist s op) hs

end CTHyb
