import Mathlib.Order.Basic
import Mathlib.Data.List.Basic

/-!
Model of `TwoSetView` (src/util.hpp:328-467), an iterator over the union of two ordered sets.  Sets are
the lists of their elements in iteration order; an iterator into a set is the list of the elements from
its position on.  The member declaration `const Set &set1_, set2_;` (util.hpp:388) makes `set1_` a
reference but `set2_` a copy; iterators of the copy differ from those of the argument.
-/

namespace CTHyb

/-- `TwoSetViewConstIterator` (util.hpp:393-467): index, current position `it_` (only the element is
kept; `none`: end), and the remaining elements `it1_next_`, `it2_next_`. -/
structure ViewIter (α : Type) where
  index : ℕ
  cur : Option α
  rest1 : List α
  rest2 : List α
deriving DecidableEq, Repr

variable {α : Type} [LinearOrder α]

/-- Where `it_begin` points after the first part of the constructor (util.hpp:334-359). -/
inductive BeginAt
  | set1
  | set2
  | copyOfSet2
deriving DecidableEq

/-- Choice of `it_begin` (util.hpp:334-359); `none`: exception.  The last elements are compared as well. -/
def viewBegin (s1 s2 : List α) : Option BeginAt :=
  match s1, s2 with
  | [], [] => none
  | [], _ :: _ => some .copyOfSet2
  | _ :: _, [] => some .set1
  | a :: as, b :: bs =>
    if (a :: as).getLast (List.cons_ne_nil _ _) = (b :: bs).getLast (List.cons_ne_nil _ _) then none
    else if a < b then some .set1
    else if b < a then some .set2
    else none

/-- `begin()` as set up by the constructor (util.hpp:361-369); `it1_next`, `it2_next` start at the
beginning of the *arguments* and are advanced if `it_begin` equals that beginning. -/
def viewIterBegin (s1 s2 : List α) : Option (ViewIter α) :=
  (viewBegin s1 s2).map fun w =>
    match w with
    | .set1 => ⟨0, s1.head?, s1.tail, s2⟩
    | .set2 => ⟨0, s2.head?, s1, s2.tail⟩
    | .copyOfSet2 => ⟨0, s2.head?, s1, s2⟩

/-- `proceed` (util.hpp:440-461); `none`: exception. -/
def ViewIter.proceed (it : ViewIter α) : Option (ViewIter α) :=
  match it.rest1, it.rest2 with
  | [], [] => some { it with index := it.index + 1 }
  | [], b :: bs => some ⟨it.index + 1, some b, [], bs⟩
  | a :: as, [] => some ⟨it.index + 1, some a, as, []⟩
  | a :: as, b :: bs =>
    if a < b then some ⟨it.index + 1, some a, as, b :: bs⟩
    else if b < a then some ⟨it.index + 1, some b, a :: as, bs⟩
    else none

/-- `operator++()` (util.hpp:398-401): the new iterator (second component) is also the returned value. -/
def ViewIter.preInc (it : ViewIter α) : Option (ViewIter α × ViewIter α) :=
  it.proceed.map fun i => (i, i)

/-- `operator++(int)` (util.hpp:403-407): returned value and state of the object after the call. -/
def ViewIter.postInc (it : ViewIter α) : Option (ViewIter α × ViewIter α) :=
  it.proceed.map fun copy => (copy, it)

/-- The loop `for (it = begin; it != end; ++it) visit(*it)` with `n` iterations left; iterators are
compared by their index (util.hpp:409-411), which grows by one in each iteration.  `none`: exception or
dereferencing the end. -/
def visitLoop : ℕ → ViewIter α → Option (List α)
  | 0, _ => some []
  | n + 1, it =>
    it.cur.bind fun x => it.proceed.bind fun i => (visitLoop n i).map (x :: ·)

/-- All elements visited by iterating over the view; the index of `end()` is the sum of the sizes
(util.hpp:370). -/
def viewVisit (s1 s2 : List α) : Option (List α) :=
  (viewIterBegin s1 s2).bind fun b => visitLoop (s1.length + s2.length - b.index) b

end CTHyb
