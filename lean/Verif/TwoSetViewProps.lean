import Verif.TwoSetView
import Mathlib.Data.List.Sort
import Mathlib.Data.List.Perm.Basic

/-!
Property C47: iterating over the merged view of two ordered sets.
-/

namespace CTHyb

variable {α : Type} [LinearOrder α]

/-- Strictly increasing lists: the elements of an ordered set. -/
def StrictSorted (l : List α) : Prop := l.Pairwise (· < ·)

/-- With one element current and the rest disjoint, the loop visits the current element followed by the
ordered union of the rest. -/
theorem visitLoop_spec (n : ℕ) : ∀ (it : ViewIter α) (x : α), it.cur = some x →
    n = it.rest1.length + it.rest2.length + 1 → StrictSorted it.rest1 → StrictSorted it.rest2 →
    (∀ a ∈ it.rest1, a ∉ it.rest2) →
    ∃ l, visitLoop n it = some (x :: l) ∧ l.Perm (it.rest1 ++ it.rest2) ∧ StrictSorted l := by
  induction n with
  | zero => intro it x _ h; omega
  | succ n ih =>
    intro it x hc hn h1 h2 hd
    obtain ⟨i, c, r1, r2⟩ := it
    simp only at hc hn h1 h2 hd
    subst hc
    cases r1 with
    | nil =>
      cases r2 with
      | nil =>
        have : n = 0 := by simpa using hn
        subst this
        exact ⟨[], by simp [visitLoop, ViewIter.proceed], by simp, List.Pairwise.nil⟩
      | cons b bs =>
        obtain ⟨l, hl, hp, hs⟩ := ih ⟨i + 1, some b, [], bs⟩ b rfl (by simpa using hn) h1
          (List.pairwise_cons.1 h2).2 (by simp)
        refine ⟨b :: l, by simp [visitLoop, ViewIter.proceed, hl], by simpa using hp, ?_⟩
        refine List.pairwise_cons.2 ⟨fun y hy => ?_, hs⟩
        exact (List.pairwise_cons.1 h2).1 y (by simpa using hp.mem_iff.1 hy)
    | cons a as =>
      cases r2 with
      | nil =>
        obtain ⟨l, hl, hp, hs⟩ := ih ⟨i + 1, some a, as, []⟩ a rfl (by simpa using hn)
          (List.pairwise_cons.1 h1).2 h2 (by simp)
        refine ⟨a :: l, by simp [visitLoop, ViewIter.proceed, hl], by simpa using hp, ?_⟩
        refine List.pairwise_cons.2 ⟨fun y hy => ?_, hs⟩
        exact (List.pairwise_cons.1 h1).1 y (by simpa using hp.mem_iff.1 hy)
      | cons b bs =>
        obtain ⟨ha, has⟩ := List.pairwise_cons.1 h1
        obtain ⟨hb, hbs⟩ := List.pairwise_cons.1 h2
        rcases lt_trichotomy a b with h | h | h
        · obtain ⟨l, hl, hp, hs⟩ := ih ⟨i + 1, some a, as, b :: bs⟩ a rfl (by simp at hn ⊢; omega)
            has h2 (fun y hy => hd y (List.mem_cons_of_mem _ hy))
          refine ⟨a :: l, by simp [visitLoop, ViewIter.proceed, hl, h], by simpa using hp, ?_⟩
          refine List.pairwise_cons.2 ⟨fun y hy => ?_, hs⟩
          rcases List.mem_append.1 (hp.mem_iff.1 hy) with hy | hy
          · exact ha y hy
          · rcases List.mem_cons.1 hy with rfl | hy
            · exact h
            · exact h.trans (hb y hy)
        · exact absurd (h ▸ List.mem_cons_self) (hd a List.mem_cons_self)
        · obtain ⟨l, hl, hp, hs⟩ := ih ⟨i + 1, some b, a :: as, bs⟩ b rfl (by simp at hn ⊢; omega)
            h1 hbs (fun y hy hy' => hd y hy (List.mem_cons_of_mem _ hy'))
          refine ⟨b :: l, by simp [visitLoop, ViewIter.proceed, hl, h, not_lt.2 h.le], ?_, ?_⟩
          · exact ((hp.cons b).trans List.perm_middle.symm)
          refine List.pairwise_cons.2 ⟨fun y hy => ?_, hs⟩
          rcases List.mem_append.1 (hp.mem_iff.1 hy) with hy | hy
          · rcases List.mem_cons.1 hy with rfl | hy
            · exact h
            · exact h.trans (ha y hy)
          · exact hb y hy

/-- C47, partial: if the first set is not empty and the sets have no common element, iterating visits
each element of both sets exactly once in increasing order.  Missing: an empty first set, for which the
claim is false (`C47_empty_first`). -/
theorem C47_view_partial (s1 s2 : List α) (hne : s1 ≠ []) (h1 : StrictSorted s1) (h2 : StrictSorted s2)
    (hd : ∀ a ∈ s1, a ∉ s2) :
    ∃ l, viewVisit s1 s2 = some l ∧ l.Perm (s1 ++ s2) ∧ StrictSorted l ∧ l.length = s1.length + s2.length := by
  suffices h : ∃ l, viewVisit s1 s2 = some l ∧ l.Perm (s1 ++ s2) ∧ StrictSorted l by
    obtain ⟨l, h1, h2, h3⟩ := h
    exact ⟨l, h1, h2, h3, by rw [h2.length_eq, List.length_append]⟩
  cases s1 with
  | nil => exact absurd rfl hne
  | cons a as =>
    cases s2 with
    | nil =>
      obtain ⟨l, hl, hp, hs⟩ := visitLoop_spec ((a :: as).length) ⟨0, some a, as, []⟩ a rfl (by simp)
        (List.pairwise_cons.1 h1).2 h2 (by simp)
      refine ⟨a :: l, by simp [viewVisit, viewIterBegin, viewBegin] at hl ⊢; exact hl, by simpa using hp, ?_⟩
      refine List.pairwise_cons.2 ⟨fun y hy => ?_, hs⟩
      exact (List.pairwise_cons.1 h1).1 y (by simpa using hp.mem_iff.1 hy)
    | cons b bs =>
      obtain ⟨ha, has⟩ := List.pairwise_cons.1 h1
      obtain ⟨hb, hbs⟩ := List.pairwise_cons.1 h2
      have hlast : (a :: as).getLast (List.cons_ne_nil _ _) ≠ (b :: bs).getLast (List.cons_ne_nil _ _) := by
        intro h
        exact hd _ (List.getLast_mem (List.cons_ne_nil a as)) (h ▸ List.getLast_mem (List.cons_ne_nil b bs))
      rcases lt_trichotomy a b with h | h | h
      · obtain ⟨l, hl, hp, hs⟩ := visitLoop_spec ((a :: as).length + (b :: bs).length)
          ⟨0, some a, as, b :: bs⟩ a rfl (by simp; omega) has h2 (fun y hy => hd y (List.mem_cons_of_mem _ hy))
        refine ⟨a :: l, ?_, by simpa using hp, ?_⟩
        · simp only [viewVisit, viewIterBegin, viewBegin, if_neg hlast, if_pos h, Option.map_some,
            Option.bind_some, List.head?_cons, List.tail_cons, Nat.sub_zero]
          exact hl
        refine List.pairwise_cons.2 ⟨fun y hy => ?_, hs⟩
        rcases List.mem_append.1 (hp.mem_iff.1 hy) with hy | hy
        · exact ha y hy
        · rcases List.mem_cons.1 hy with rfl | hy
          · exact h
          · exact h.trans (hb y hy)
      · exact absurd (h ▸ List.mem_cons_self) (hd a List.mem_cons_self)
      · obtain ⟨l, hl, hp, hs⟩ := visitLoop_spec ((a :: as).length + (b :: bs).length)
          ⟨0, some b, a :: as, bs⟩ b rfl (by simp; omega) h1 hbs
          (fun y hy hy' => hd y hy (List.mem_cons_of_mem _ hy'))
        refine ⟨b :: l, ?_, (hp.cons b).trans List.perm_middle.symm, ?_⟩
        · simp only [viewVisit, viewIterBegin, viewBegin, if_neg hlast, if_neg (not_lt.2 h.le), if_pos h,
            Option.map_some, Option.bind_some, List.head?_cons, List.tail_cons, Nat.sub_zero]
          exact hl
        refine List.pairwise_cons.2 ⟨fun y hy => ?_, hs⟩
        rcases List.mem_append.1 (hp.mem_iff.1 hy) with hy | hy
        · rcases List.mem_cons.1 hy with rfl | hy
          · exact h
          · exact h.trans (ha y hy)
        · exact hb y hy

theorem visitLoop_second (bs : List α) : ∀ (i : ℕ) (x b : α),
    visitLoop (bs.length + 1) ⟨i, some x, [], b :: bs⟩ = some (x :: (b :: bs).dropLast) := by
  induction bs with
  | nil => intro i x b; simp [visitLoop, ViewIter.proceed]
  | cons c cs ih =>
    intro i x b
    rw [List.length_cons, visitLoop]
    simp only [ViewIter.proceed, Option.bind_some]
    rw [ih (i + 1) b c]
    rfl

/-- C47 is false for an empty first set: the first element of the second set is visited twice and the
last one never, because `set2_` is a copy and the position in the second set is not advanced. -/
theorem C47_empty_first (b : α) (bs : List α) :
    viewVisit [] (b :: bs) = some (b :: (b :: bs).dropLast) := by
  have h := visitLoop_second bs 0 b b
  simp only [viewVisit, viewIterBegin, viewBegin, Option.map_some, Option.bind_some, List.head?_cons,
    List.length_nil, List.length_cons, Nat.sub_zero, Nat.zero_add]
  exact h

/-- So at least two elements in the second set suffice for an element to be missed. -/
theorem C47_empty_first_missed (s2 : List α) (h2 : StrictSorted s2) (hl : 2 ≤ s2.length) :
    ∃ l x, viewVisit [] s2 = some l ∧ x ∈ s2 ∧ x ∉ l := by
  cases s2 with
  | nil => simp at hl
  | cons b bs =>
    have hbs : bs ≠ [] := by rintro rfl; simp at hl
    refine ⟨_, (b :: bs).getLast (List.cons_ne_nil _ _), C47_empty_first b bs, List.getLast_mem _, ?_⟩
    have happ := List.dropLast_append_getLast (List.cons_ne_nil b bs)
    have hp : (( b :: bs).dropLast ++ [(b :: bs).getLast (List.cons_ne_nil _ _)]).Pairwise (· < ·) := by
      rw [happ]; exact h2
    have hlt := (List.pairwise_append.1 hp).2.2
    intro hm
    rcases List.mem_cons.1 hm with he | hm
    · have : (b :: bs).getLast (List.cons_ne_nil _ _) ∈ bs := by
        rw [List.getLast_cons hbs]; exact List.getLast_mem hbs
      have := (List.pairwise_cons.1 h2).1 _ this
      rw [he] at this
      exact lt_irrefl _ this
    · exact lt_irrefl _ (hlt _ hm _ (by simp))

/-- Common elements are always noticed: if both sets are not empty and have a common element, the view
throws, in the constructor or during the iteration. -/
theorem visitLoop_common (n : ℕ) : ∀ (it : ViewIter α), n = it.rest1.length + it.rest2.length + 1 →
    StrictSorted it.rest1 → StrictSorted it.rest2 → (∃ a ∈ it.rest1, a ∈ it.rest2) →
    visitLoop n it = none := by
  induction n with
  | zero => intro it h; omega
  | succ n ih =>
    intro it hn h1 h2 hd
    obtain ⟨i, c, r1, r2⟩ := it
    simp only at hn h1 h2 hd
    cases c with
    | none => simp [visitLoop]
    | some x =>
    cases r1 with
    | nil => simp at hd
    | cons a as =>
      cases r2 with
      | nil => simp at hd
      | cons b bs =>
        obtain ⟨ha, has⟩ := List.pairwise_cons.1 h1
        obtain ⟨hb, hbs⟩ := List.pairwise_cons.1 h2
        rcases lt_trichotomy a b with h | h | h
        · have := ih ⟨i + 1, some a, as, b :: bs⟩ (by simp at hn ⊢; omega) has h2 (by
            obtain ⟨y, hy, hy'⟩ := hd
            refine ⟨y, ?_, hy'⟩
            rcases List.mem_cons.1 hy with rfl | hy
            · rcases List.mem_cons.1 hy' with rfl | hy'
              · exact absurd h (lt_irrefl _)
              · exact absurd (h.trans (hb _ hy')) (lt_irrefl _)
            · exact hy)
          simp [visitLoop, ViewIter.proceed, h, this]
        · simp [visitLoop, ViewIter.proceed, h]
        · have := ih ⟨i + 1, some b, a :: as, bs⟩ (by simp at hn ⊢; omega) h1 hbs (by
            obtain ⟨y, hy, hy'⟩ := hd
            refine ⟨y, hy, ?_⟩
            rcases List.mem_cons.1 hy' with rfl | hy'
            · rcases List.mem_cons.1 hy with rfl | hy
              · exact absurd h (lt_irrefl _)
              · exact absurd (h.trans (ha _ hy)) (lt_irrefl _)
            · exact hy')
          simp [visitLoop, ViewIter.proceed, h, not_lt.2 h.le, this]

/-- C47: a common element always leads to an exception. -/
theorem C47_duplicates (s1 s2 : List α) (h1 : StrictSorted s1) (h2 : StrictSorted s2)
    (hd : ∃ a ∈ s1, a ∈ s2) : viewVisit s1 s2 = none := by
  cases s1 with
  | nil => simp at hd
  | cons a as =>
    cases s2 with
    | nil => simp at hd
    | cons b bs =>
      obtain ⟨ha, has⟩ := List.pairwise_cons.1 h1
      obtain ⟨hb, hbs⟩ := List.pairwise_cons.1 h2
      by_cases hlast : (a :: as).getLast (List.cons_ne_nil _ _) = (b :: bs).getLast (List.cons_ne_nil _ _)
      · simp only [viewVisit, viewIterBegin, viewBegin, if_pos hlast]; rfl
      rcases lt_trichotomy a b with h | h | h
      · have := visitLoop_common ((a :: as).length + (b :: bs).length) ⟨0, some a, as, b :: bs⟩
          (by simp; omega) has h2 (by
            obtain ⟨y, hy, hy'⟩ := hd
            refine ⟨y, ?_, hy'⟩
            rcases List.mem_cons.1 hy with rfl | hy
            · rcases List.mem_cons.1 hy' with rfl | hy'
              · exact absurd h (lt_irrefl _)
              · exact absurd (h.trans (hb _ hy')) (lt_irrefl _)
            · exact hy)
        simp only [viewVisit, viewIterBegin, viewBegin, if_neg hlast, if_pos h, Option.map_some,
            Option.bind_some, List.head?_cons, List.tail_cons, Nat.sub_zero]
        exact this
      · simp [viewVisit, viewIterBegin, viewBegin, h]
      · have := visitLoop_common ((a :: as).length + (b :: bs).length) ⟨0, some b, a :: as, bs⟩
          (by simp; omega) h1 hbs (by
            obtain ⟨y, hy, hy'⟩ := hd
            refine ⟨y, hy, ?_⟩
            rcases List.mem_cons.1 hy' with rfl | hy'
            · rcases List.mem_cons.1 hy with rfl | hy
              · exact absurd h (lt_irrefl _)
              · exact absurd (h.trans (ha _ hy)) (lt_irrefl _)
            · exact hy')
        simp only [viewVisit, viewIterBegin, viewBegin, if_neg hlast, if_neg (not_lt.2 h.le), if_pos h,
            Option.map_some, Option.bind_some, List.head?_cons, List.tail_cons, Nat.sub_zero]
        exact this

/-- C47 is false for `it++`: the object itself never moves, however often it is incremented, and the
returned iterator is the *advanced* one. -/
theorem C47_postincrement (it : ViewIter α) (r : ViewIter α × ViewIter α) (h : it.postInc = some r) :
    r.2 = it ∧ r.1.index = it.index + 1 := by
  obtain ⟨i, c, r1, r2⟩ := it
  unfold ViewIter.postInc ViewIter.proceed at h
  cases r1 <;> cases r2 <;> simp only [Option.map_some] at h
  · cases h; exact ⟨rfl, rfl⟩
  · cases h; exact ⟨rfl, rfl⟩
  · cases h; exact ⟨rfl, rfl⟩
  · split_ifs at h
    · cases h; exact ⟨rfl, rfl⟩
    · cases h; exact ⟨rfl, rfl⟩
    · cases h

example : viewVisit [1, 4, 6] [2, 3, 9, 11] = some [1, 2, 3, 4, 6, 9, 11] := by decide
example : viewVisit [5, 7] ([] : List ℕ) = some [5, 7] := by decide
example : viewVisit [] [2, 3, 9] = some [2, 2, 3] := by decide
example : viewVisit [1, 3, 5] [2, 3, 4] = none := by decide

end CTHyb
