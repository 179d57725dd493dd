import Verif.EigenBasisProps
import Verif.GlobalUpdateProps
import Verif.UtilProps
import Verif.HybProps

/-!
The global shift (src/impurity.ipp:667-688, src/moves/moves.hpp:45-64): which operators wrap around
β, the order of the operators after the shift, and the hybridization function as the matrix element
between two operators.  `shiftOp` is in `Util`, `translationally_invariant` in `EigenBasis`.
-/

namespace CTHyb

open Matrix

variable {R : Type} [Field R] [LinearOrder R]

/-- `new_t > beta_` (moves.hpp:52): the operator is moved across β. -/
def wraps (beta s : R) (o : TPsi R) : Bool := decide (beta < o.time.time + s)

/-- The matrix element of the determinant: `HybridizationFunction::operator()` for two operators
(mc_config.hpp:41-54), the row of the table given by the two flavours.  An access outside the table,
which C33 excludes for times in the interval, would give 0 here. -/
def hybG {K : Type} [FloorRing R] [AddCommGroup K] [Module R K] (beta : R) (ntau : ℕ)
    (F : ℕ → ℕ → ℕ → K) (c cd : TPsi R) : K :=
  (hybEval beta ntau (F c.flavor cd.flavor) c.time.time cd.time.time).getD 0

/-! ### Order of the shifted operators -/

variable [IsStrictOrderedRing R]

/-- Times inside the interval (0, β]. -/
def InRange (beta : R) (l : List (TPsi R)) : Prop := ∀ o ∈ l, 0 < o.time.time ∧ o.time.time ≤ beta

omit [IsStrictOrderedRing R] in
theorem shiftOp_time_wraps {beta s : R} {o : TPsi R} (h : wraps beta s o = true) :
    (shiftOp beta s o).time = ⟨o.time.time + s - beta, o.time.small⟩ := by
  unfold shiftOp shiftTime
  rw [if_pos (by simpa [wraps] using h)]

omit [IsStrictOrderedRing R] in
theorem shiftOp_time_not_wraps {beta s : R} {o : TPsi R} (h : wraps beta s o = false) :
    (shiftOp beta s o).time = ⟨o.time.time + s, o.time.small⟩ := by
  unfold shiftOp shiftTime
  rw [if_neg (by simpa [wraps] using h)]

/-- The shift keeps the order of two operators which both wrap or both do not, and reverses the others. -/
theorem shiftOp_lt {beta s : R} {a b : TPsi R} (ha : 0 < a.time.time ∧ a.time.time ≤ beta)
    (hb : 0 < b.time.time ∧ b.time.time ≤ beta) :
    (shiftOp beta s a).time < (shiftOp beta s b).time ↔
      if wraps beta s a = wraps beta s b then a.time < b.time else ¬ a.time < b.time := by
  rcases h1 : wraps beta s a with _ | _ <;> rcases h2 : wraps beta s b with _ | _ <;>
    simp only [OpTime.lt_def, shiftOp_time_wraps, shiftOp_time_not_wraps, h1, h2, if_true,
      reduceCtorEq, if_false]
  · constructor
    · rintro (h | ⟨h, k⟩)
      · exact Or.inl (by linarith)
      · exact Or.inr ⟨by linarith, k⟩
    · rintro (h | ⟨h, k⟩)
      · exact Or.inl (by linarith)
      · exact Or.inr ⟨by linarith, k⟩
  · simp only [wraps, decide_eq_false_iff_not, decide_eq_true_eq, not_lt] at h1 h2
    constructor
    · rintro (h | ⟨h, -⟩) <;> linarith
    · intro h
      exact absurd (Or.inl (by linarith)) h
  · simp only [wraps, decide_eq_false_iff_not, decide_eq_true_eq, not_lt] at h1 h2
    constructor
    · rintro - (h | ⟨h, -⟩) <;> linarith
    · intro _
      exact Or.inl (by linarith)
  · constructor
    · rintro (h | ⟨h, k⟩)
      · exact Or.inl (by linarith)
      · exact Or.inr ⟨by linarith, k⟩
    · rintro (h | ⟨h, k⟩)
      · exact Or.inl (by linarith)
      · exact Or.inr ⟨by linarith, k⟩

/-- Number of operators of a list which wrap around. -/
def wrapCount (beta s : R) (l : List (TPsi R)) : ℕ := l.countP (wraps beta s)

/-- Parity of one comparison. -/
theorem shift_parity_one {beta s : R} (a : TPsi R) (ha : 0 < a.time.time ∧ a.time.time ≤ beta)
    (l : List (TPsi R)) (hl : InRange beta l) :
    (((l.map (shiftOp beta s)).map Psi.time).countP (fun y => decide ((shiftOp beta s a).time < y)) : ZMod 2) =
      ((l.map Psi.time).countP (fun y => decide (a.time < y)) : ℕ) +
        (if wraps beta s a then (l.length : ZMod 2) else 0) + (wrapCount beta s l : ℕ) := by
  induction l with
  | nil => simp [wrapCount]
  | cons b l ih =>
    have hb := hl b (by simp)
    have ih := ih fun o ho => hl o (by simp [ho])
    simp only [List.map_cons, List.countP_cons, wrapCount, Nat.cast_add, List.length_cons] at ih ⊢
    rw [ih]
    have key := shiftOp_lt (s := s) ha hb
    have hind : (((if decide ((shiftOp beta s a).time < (shiftOp beta s b).time) = true then 1 else 0 : ℕ)) : ZMod 2) =
        ((if decide (a.time < b.time) = true then 1 else 0 : ℕ)) + (if wraps beta s a = true then 1 else 0) +
          ((if wraps beta s b = true then 1 else 0 : ℕ)) := by
      simp only [decide_eq_true_eq, key]
      by_cases h3 : a.time < b.time <;> rcases wraps beta s a with _ | _ <;>
        rcases wraps beta s b with _ | _ <;> simp [h3] <;> decide
    rw [hind]
    rcases wraps beta s a with _ | _
    · simp; ring
    · simp; ring

theorem shift_outOfOrder {beta s : R} (l : List (TPsi R)) (hl : InRange beta l) :
    ((outOfOrder ((l.map (shiftOp beta s)).map Psi.time) : ℕ) : ZMod 2) =
      (outOfOrder (l.map Psi.time) : ℕ) + ((l.length : ZMod 2) + 1) * (wrapCount beta s l : ℕ) := by
  induction l with
  | nil => simp [wrapCount, outOfOrder]
  | cons a l ih =>
    have ha := hl a (by simp)
    have hl' : InRange beta l := fun o ho => hl o (by simp [ho])
    have h1 := shift_parity_one (s := s) a ha l hl'
    have ih := ih hl'
    have two : (1 : ZMod 2) + 1 = 0 := by decide
    simp only [List.map_cons, outOfOrder, Nat.cast_add, wrapCount, List.countP_cons, List.length_cons] at h1 ih ⊢
    rw [h1, ih]
    rcases h2 : wraps beta s a with _ | _
    · simp; ring
    · simp; linear_combination (-1 : ZMod 2) * two

theorem shift_crossCount {beta s : R} (l m : List (TPsi R)) (hl : InRange beta l) (hm : InRange beta m) :
    ((crossCount ((l.map (shiftOp beta s)).map Psi.time) ((m.map (shiftOp beta s)).map Psi.time) : ℕ) : ZMod 2) =
      (crossCount (l.map Psi.time) (m.map Psi.time) : ℕ) + (wrapCount beta s l : ℕ) * (m.length : ZMod 2) +
        (l.length : ZMod 2) * (wrapCount beta s m : ℕ) := by
  induction l with
  | nil => simp [wrapCount, crossCount]
  | cons a l ih =>
    have ha := hl a (by simp)
    have hl' : InRange beta l := fun o ho => hl o (by simp [ho])
    have h1 := shift_parity_one (s := s) a ha m hm
    have ih := ih hl'
    simp only [List.map_cons, crossCount_cons_left, Nat.cast_add, List.length_cons] at h1 ih ⊢
    rw [h1, ih]
    simp only [wrapCount, List.countP_cons]
    rcases h2 : wraps beta s a with _ | _
    · simp; ring
    · simp; ring

end CTHyb
