import Verif.SlidingWindow
import Mathlib.Tactic.Ring
import Mathlib.Tactic.FieldSimp
import Mathlib.Tactic.Positivity
import Mathlib.Tactic.Linarith
import Mathlib.Tactic.NormNum
import Mathlib.Algebra.BigOperators.Fin

/-! C22-C24: trace independent of the window position, saving and restoring, sweeps. -/

namespace CTHyb

variable {R Ket Bra K ι : Type}

/-- What the window expects of the impurity model: `exp` of a sum, bras dual to kets, invalid
states propagate unchanged and count as zero. -/
structure Evol.Lawful [Ring R] [Zero K] (E : Evol R Ket Bra K) : Prop where
  prop_zero : ∀ k, E.propK 0 k = k
  prop_add : ∀ a b k, E.propK (a + b) k = E.propK b (E.propK a k)
  adj_prop : ∀ t b k, E.product (E.propB t b) k = E.product b (E.propK t k)
  adj_op : ∀ y f b k, E.product (E.opB y f b) k = E.product b (E.opK y f k)
  invK_prop : ∀ t k, E.invK k = true → E.propK t k = k
  invK_op : ∀ y f k, E.invK k = true → E.opK y f k = k
  invK_zero : ∀ b k, E.invK k = true → E.product b k = 0
  invB_zero : ∀ b k, E.invB b = true → E.product b k = 0

/-- Specification: the time-ordered evolution of a ket from time `a` to time `c`, the operators
being given in increasing time:
`exp(-(c-t_m)H) O_m exp(-(t_m-t_{m-1})H) … O_1 exp(-(t_1-a)H) |k⟩`. -/
def timeOrdered [Sub R] (E : Evol R Ket Bra K) (c : R) : List (TPsi R) → R → Ket → Ket
  | [], a, k => E.propK (c - a) k
  | o :: rest, a, k =>
    timeOrdered E c rest o.time.time (E.opK o.type o.flavor (E.propK (o.time.time - a) k))

/-- Specification: the full trace, all operators applied between 0 and β. -/
def fullTrace [Ring R] [Fintype ι] [AddCommMonoid K] (V : SWEnv R Ket Bra K ι)
    (ops : OpSet (OpTime R)) : K :=
  ∑ i, V.E.product (V.bra0 i) (timeOrdered V.E V.beta ops 0 (V.ket0 i))

section seg
variable [CommRing R] [Zero K] {E : Evol R Ket Bra K}

theorem timeOrdered_inv (hE : E.Lawful) (c : R) (l : List (TPsi R)) (a : R) (k : Ket)
    (h : E.invK k = true) : timeOrdered E c l a k = k := by
  induction l generalizing a with
  | nil => exact hE.invK_prop _ _ h
  | cons o l ih =>
    simp only [timeOrdered, hE.invK_prop _ _ h, hE.invK_op _ _ _ h]
    exact ih _

theorem ketLoop_eq (hE : E.Lawful) (c : R) (o : TPsi R) (l : List (TPsi R)) (k : Ket) :
    ketLoop E c (o :: l) k = timeOrdered E c l o.time.time (E.opK o.type o.flavor k) := by
  induction l generalizing o k with
  | nil => rfl
  | cons o' l ih => exact ih o' _

theorem evolveKet_eq (hE : E.Lawful) (l : List (TPsi R)) (a c : R) (k : Ket) :
    evolveKet E l a c k = timeOrdered E c l a k := by
  unfold evolveKet
  by_cases h : E.invK k = true
  · simp [h, timeOrdered_inv hE c l a k h]
  · simp only [h]
    cases l with
    | nil => rfl
    | cons o l => exact ketLoop_eq hE c o l _

theorem timeOrdered_append (hE : E.Lawful) (b c : R) (l1 l2 : List (TPsi R)) (a : R) (k : Ket) :
    timeOrdered E c (l1 ++ l2) a k = timeOrdered E c l2 b (timeOrdered E b l1 a k) := by
  induction l1 generalizing a k with
  | nil =>
    cases l2 with
    | nil =>
      simp only [List.nil_append, timeOrdered]
      rw [← hE.prop_add]; congr 1; ring
    | cons o l2 =>
      simp only [List.nil_append, timeOrdered]
      rw [← hE.prop_add]; congr 3; ring
  | cons o l1 ih => exact ih _ _

theorem timeOrdered_snoc (c : R) (l : List (TPsi R)) (o : TPsi R) (a : R) (k : Ket) :
    timeOrdered E c (l ++ [o]) a k =
      E.propK (c - o.time.time) (E.opK o.type o.flavor (timeOrdered E o.time.time l a k)) := by
  induction l generalizing a k with
  | nil => rfl
  | cons o' l ih => exact ih _ _

theorem braLoop_eq (hE : E.Lawful) (a : R) (o : TPsi R) (l : List (TPsi R)) (b : Bra) (k : Ket) :
    E.product (braLoop E a (o :: l) b) k =
      E.product b (E.opK o.type o.flavor (timeOrdered E o.time.time l.reverse a k)) := by
  induction l generalizing o b with
  | nil => simp only [braLoop, hE.adj_prop, hE.adj_op]; rfl
  | cons o' l ih =>
    rw [braLoop, ih o', hE.adj_prop, hE.adj_op, List.reverse_cons, timeOrdered_snoc]

theorem evolveBra_eq (hE : E.Lawful) (l : List (TPsi R)) (c a : R) (b : Bra) (k : Ket) :
    E.product (evolveBra E l c a b) k = E.product b (timeOrdered E c l a k) := by
  unfold evolveBra
  by_cases h : E.invB b = true
  · simp [h, hE.invB_zero _ _ h]
  · simp only [h]
    cases hl : l.reverse with
    | nil =>
      have : l = [] := by simpa using hl
      subst this
      exact hE.adj_prop _ _ _
    | cons o r =>
      have hl' : l = r.reverse ++ [o] := by
        rw [← List.reverse_reverse l, hl]; simp
      rw [hl', timeOrdered_snoc]
      simp only [Bool.false_eq_true, if_false]
      rw [braLoop_eq hE, hE.adj_prop]

end seg

section windowStacks
variable [Field R] [LinearOrder R] (V : SWEnv R Ket Bra K ι)

/-- Ket that belongs to edge position `d`. -/
def expR (ops : OpSet (OpTime R)) (n : ℕ) : ℕ → ι → Ket
  | 0 => V.ket0
  | d + 1 => fun i => evolveKet V.E
      (rangeCO ops (tauEdge V.beta n d) (tauEdge V.beta n (d + 1)))
      (tauEdge V.beta n d) (tauEdge V.beta n (d + 1)) (expR ops n d i)

/-- Bra that belongs to edge position `2n - d`. -/
def expL (ops : OpSet (OpTime R)) (n : ℕ) : ℕ → ι → Bra
  | 0 => V.bra0
  | d + 1 => fun i => evolveBra V.E
      (rangeOC ops (tauEdge V.beta n (2 * n - (d + 1))) (tauEdge V.beta n (2 * n - d)))
      (tauEdge V.beta n (2 * n - d)) (tauEdge V.beta n (2 * n - (d + 1))) (expL ops n d i)

/-- Stack with `d + 1` entries. -/
def stackOf {α : Type} (f : ℕ → α) : ℕ → List α
  | 0 => [f 0]
  | d + 1 => f (d + 1) :: stackOf f d

theorem stackOf_length {α : Type} (f : ℕ → α) (d : ℕ) : (stackOf f d).length = d + 1 := by
  induction d with
  | zero => rfl
  | succ d ih => simp [stackOf, ih]

theorem stackOf_drop {α : Type} (f : ℕ → α) (d m : ℕ) (h : m ≤ d) :
    (stackOf f d).drop m = stackOf f (d - m) := by
  induction d generalizing m with
  | zero => have : m = 0 := by omega
            subst this; rfl
  | succ d ih =>
    cases m with
    | zero => rfl
    | succ m =>
      simp only [stackOf, List.drop_succ_cons]
      rw [ih m (by omega)]; congr 1; omega

theorem stackOf_head {α : Type} (f : ℕ → α) (d : ℕ) : ∃ tl, stackOf f d = f d :: tl := by
  cases d with
  | zero => exact ⟨[], rfl⟩
  | succ d => exact ⟨stackOf f d, rfl⟩

theorem stackOf_congr {α : Type} (f g : ℕ → α) (d : ℕ) (h : ∀ q ≤ d, f q = g q) :
    stackOf f d = stackOf g d := by
  induction d with
  | zero => simp [stackOf, h 0 le_rfl]
  | succ d ih =>
    simp only [stackOf]
    rw [h (d + 1) le_rfl, ih (fun q hq => h q (by omega))]

/-- The caches are those of the current operators. -/
structure StacksOK (ops : OpSet (OpTime R)) (s : SWState Ket Bra ι) : Prop where
  posL : s.posL ≤ 2 * s.n
  right : s.right = stackOf (expR V ops s.n) s.posR
  left : s.left = stackOf (expL V ops s.n) (2 * s.n - s.posL)

variable {V}

theorem fwdRight1_ok {ops : OpSet (OpTime R)} {s : SWState Ket Bra ι} (h : StacksOK V ops s) :
    ∃ s', fwdRight1 V ops s = some s' ∧ StacksOK V ops s' ∧ s'.n = s.n ∧ s'.posL = s.posL ∧
      s'.posR = s.posR + 1 ∧ s'.dirLeft = s.dirLeft := by
  obtain ⟨tl, htl⟩ := stackOf_head (expR V ops s.n) s.posR
  have hr := h.right
  rw [htl] at hr
  have e : fwdRight1 V ops s = some { s with posR := s.posR + 1, right := ((fun i => evolveKet V.E
      (rangeCO ops (tauEdge V.beta s.n s.posR) (tauEdge V.beta s.n (s.posR + 1)))
      (tauEdge V.beta s.n s.posR) (tauEdge V.beta s.n (s.posR + 1)) (expR V ops s.n s.posR i)) ::
        expR V ops s.n s.posR :: tl) } := by
    unfold fwdRight1; rw [hr]
  refine ⟨_, e, ⟨h.posL, ?_, h.left⟩, rfl, rfl, rfl, rfl⟩
  show _ = stackOf _ (s.posR + 1)
  rw [stackOf, htl]; rfl

theorem fwdLeft1_ok {ops : OpSet (OpTime R)} {s : SWState Ket Bra ι} (h : StacksOK V ops s)
    (hp : 0 < s.posL) :
    ∃ s', fwdLeft1 V ops s = some s' ∧ StacksOK V ops s' ∧ s'.n = s.n ∧ s'.posL = s.posL - 1 ∧
      s'.posR = s.posR ∧ s'.dirLeft = s.dirLeft := by
  obtain ⟨p, hpe⟩ : ∃ p, s.posL = p + 1 := ⟨s.posL - 1, by omega⟩
  obtain ⟨tl, htl⟩ := stackOf_head (expL V ops s.n) (2 * s.n - s.posL)
  have hl := h.left
  rw [htl] at hl
  have hle := h.posL
  have e1 : 2 * s.n - p = 2 * s.n - s.posL + 1 := by omega
  have e2 : 2 * s.n - (2 * s.n - s.posL + 1) = p := by omega
  have e3 : 2 * s.n - (2 * s.n - s.posL) = p + 1 := by omega
  have e : fwdLeft1 V ops s = some { s with left := ((fun i => evolveBra V.E
      (rangeOC ops (tauEdge V.beta s.n p) (tauEdge V.beta s.n (p + 1)))
      (tauEdge V.beta s.n (p + 1)) (tauEdge V.beta s.n p) (expL V ops s.n (2 * s.n - s.posL) i)) ::
        expL V ops s.n (2 * s.n - s.posL) :: tl), posL := p } := by
    unfold fwdLeft1
    split
    · rename_i b bs p' hb hp'
      rw [hl] at hb
      obtain ⟨rfl, rfl⟩ := List.cons.inj hb
      obtain rfl : p = p' := by omega
      rfl
    · rename_i hno
      exact absurd hpe (hno _ _ _ hl)
  refine ⟨_, e, ⟨by show p ≤ 2 * s.n; omega, h.right, ?_⟩, rfl,
    by simp [hpe], rfl, rfl⟩
  show _ = stackOf _ (2 * s.n - p)
  rw [e1, stackOf, htl]
  show _ :: _ = _ :: _
  congr 1
  funext i
  simp only [expL, e2, e3]

theorem backRight_ok {ops : OpSet (OpTime R)} {s : SWState Ket Bra ι} (h : StacksOK V ops s)
    (m : ℕ) (hm : m ≤ s.posR) :
    ∃ s', backRight m s = some s' ∧ StacksOK V ops s' ∧ s'.n = s.n ∧ s'.posL = s.posL ∧
      s'.posR = s.posR - m ∧ s'.dirLeft = s.dirLeft := by
  have hl : ¬ s.right.length < m := by rw [h.right, stackOf_length]; omega
  have e : backRight m s = some { s with right := s.right.drop m, posR := s.posR - m } := by
    unfold backRight; rw [if_neg (by omega), if_neg hl]
  refine ⟨_, e, ⟨h.posL, ?_, h.left⟩, rfl, rfl, rfl, rfl⟩
  show s.right.drop m = _
  rw [h.right, stackOf_drop _ _ _ hm]

theorem backLeft_ok {ops : OpSet (OpTime R)} {s : SWState Ket Bra ι} (h : StacksOK V ops s)
    (m : ℕ) (hm : s.posL + m ≤ 2 * s.n) :
    ∃ s', backLeft m s = some s' ∧ StacksOK V ops s' ∧ s'.n = s.n ∧ s'.posL = s.posL + m ∧
      s'.posR = s.posR ∧ s'.dirLeft = s.dirLeft := by
  have hl : ¬ s.left.length < m := by rw [h.left, stackOf_length]; omega
  have e : backLeft m s = some { s with left := s.left.drop m, posL := s.posL + m } := by
    unfold backLeft; rw [if_neg (by omega), if_neg hl]
  refine ⟨_, e, ⟨hm, h.right, ?_⟩, rfl, rfl, rfl, rfl⟩
  show s.left.drop m = stackOf _ (2 * s.n - (s.posL + m))
  rw [h.left, stackOf_drop _ _ _ (by omega)]
  congr 1; omega

theorem iterFwdRight_ok {ops : OpSet (OpTime R)} (m : ℕ) {s : SWState Ket Bra ι}
    (h : StacksOK V ops s) :
    ∃ s', iterOpt (fwdRight1 V ops) m s = some s' ∧ StacksOK V ops s' ∧ s'.n = s.n ∧
      s'.posL = s.posL ∧ s'.posR = s.posR + m ∧ s'.dirLeft = s.dirLeft := by
  induction m generalizing s with
  | zero => exact ⟨s, rfl, h, rfl, rfl, rfl, rfl⟩
  | succ m ih =>
    obtain ⟨s1, e1, h1, a1, a2, a3, a4⟩ := fwdRight1_ok h
    obtain ⟨s2, e2, h2, b1, b2, b3, b4⟩ := ih h1
    exact ⟨s2, by simp [iterOpt, e1, e2], h2, by omega, by omega, by omega, by rw [b4, a4]⟩

theorem iterFwdLeft_ok {ops : OpSet (OpTime R)} (m : ℕ) {s : SWState Ket Bra ι}
    (h : StacksOK V ops s) (hm : m ≤ s.posL) :
    ∃ s', iterOpt (fwdLeft1 V ops) m s = some s' ∧ StacksOK V ops s' ∧ s'.n = s.n ∧
      s'.posL = s.posL - m ∧ s'.posR = s.posR ∧ s'.dirLeft = s.dirLeft := by
  induction m generalizing s with
  | zero => exact ⟨s, rfl, h, rfl, rfl, rfl, rfl⟩
  | succ m ih =>
    obtain ⟨s1, e1, h1, a1, a2, a3, a4⟩ := fwdLeft1_ok h (by omega)
    obtain ⟨s2, e2, h2, b1, b2, b3, b4⟩ := ih h1 (by omega)
    exact ⟨s2, by simp [iterOpt, e1, e2], h2, by omega, by omega, by omega, by rw [b4, a4]⟩

theorem iterBackRight_ok {ops : OpSet (OpTime R)} (m : ℕ) {s : SWState Ket Bra ι}
    (h : StacksOK V ops s) (hm : m ≤ s.posR) :
    ∃ s', iterOpt (backRight 1) m s = some s' ∧ StacksOK V ops s' ∧ s'.n = s.n ∧
      s'.posL = s.posL ∧ s'.posR = s.posR - m ∧ s'.dirLeft = s.dirLeft := by
  induction m generalizing s with
  | zero => exact ⟨s, rfl, h, rfl, rfl, rfl, rfl⟩
  | succ m ih =>
    obtain ⟨s1, e1, h1, a1, a2, a3, a4⟩ := backRight_ok h 1 (by omega)
    obtain ⟨s2, e2, h2, b1, b2, b3, b4⟩ := ih h1 (by omega)
    exact ⟨s2, by simp [iterOpt, e1, e2], h2, by omega, by omega, by omega, by rw [b4, a4]⟩

theorem iterBackLeft_ok {ops : OpSet (OpTime R)} (m : ℕ) {s : SWState Ket Bra ι}
    (h : StacksOK V ops s) (hm : s.posL + m ≤ 2 * s.n) :
    ∃ s', iterOpt (backLeft 1) m s = some s' ∧ StacksOK V ops s' ∧ s'.n = s.n ∧
      s'.posL = s.posL + m ∧ s'.posR = s.posR ∧ s'.dirLeft = s.dirLeft := by
  induction m generalizing s with
  | zero => exact ⟨s, rfl, h, rfl, rfl, rfl, rfl⟩
  | succ m ih =>
    obtain ⟨s1, e1, h1, a1, a2, a3, a4⟩ := backLeft_ok h 1 (by omega)
    obtain ⟨s2, e2, h2, b1, b2, b3, b4⟩ := ih h1 (by omega)
    exact ⟨s2, by simp [iterOpt, e1, e2], h2, by omega, by omega, by omega, by rw [b4, a4]⟩

/-- Stacks of depth one with the outer states. -/
def Bottom (V : SWEnv R Ket Bra K ι) (s : SWState Ket Bra ι) : Prop :=
  s.left = [V.bra0] ∧ s.right = [V.ket0]

theorem resetStacks_ok {ops : OpSet (OpTime R)} {s : SWState Ket Bra ι} (h : StacksOK V ops s) :
    ∃ s', resetStacks s = some s' ∧ Bottom V s' ∧ s'.dirLeft = s.dirLeft := by
  have l1 : s.right.length - 1 = s.posR := by rw [h.right, stackOf_length]; omega
  obtain ⟨s1, e1, h1, a1, a2, a3, a4⟩ := iterBackRight_ok s.posR h le_rfl
  have hle := h.posL
  have l2 : s1.left.length - 1 = 2 * s1.n - s1.posL := by rw [h1.left, stackOf_length]; omega
  obtain ⟨s2, e2, h2, b1, b2, b3, b4⟩ := iterBackLeft_ok (2 * s1.n - s1.posL) h1 (by omega)
  refine ⟨s2, by simp [resetStacks, l1, e1, l2, e2], ⟨?_, ?_⟩, by rw [b4, a4]⟩
  · rw [h2.left]
    have : 2 * s2.n - s2.posL = 0 := by omega
    rw [this]; rfl
  · rw [h2.right]
    have : s2.posR = 0 := by omega
    rw [this]; rfl

theorem reset_bottom {s : SWState Ket Bra ι} (h : Bottom V s) : resetStacks s = some s := by
  simp [resetStacks, h.1, h.2, iterOpt]

/-- Direction after `set_window_size`. -/
def newDir (n newR : ℕ) (d : Bool) : Bool :=
  if newR = 0 then true else if newR = 2 * n - 2 then false else d

theorem setWindowSize_ok' {s s1 : SWState Ket Bra ι} (ops : OpSet (OpTime R)) (n newR : ℕ)
    (d : Bool) (hr : resetStacks s = some s1) (hb : Bottom V s1) :
    ∃ s', setWindowSize V n ops newR d s = some s' ∧ StacksOK V ops s' ∧ s'.n = n ∧
      (2 ≤ n → s'.posR = newR ∧ s'.posL = 2 * n - (2 * n - 2 - newR) ∧ s'.dirLeft = newDir n newR d) ∧
      (n < 2 → s'.posR = 0 ∧ s'.posL = 2 * n ∧ s'.dirLeft = s1.dirLeft) := by
  have hok : StacksOK V ops { s1 with n := n, posR := 0, posL := 2 * n } :=
    ⟨le_rfl, hb.2, by simp [hb.1, stackOf, expL]⟩
  unfold setWindowSize
  rw [hr]
  simp only [Option.bind_some]
  by_cases hn : 2 ≤ n
  · rw [if_pos hn]
    obtain ⟨s3, e3, h3, a1, a2, a3, a4⟩ := iterFwdRight_ok newR hok
    have a1' : s3.n = n := a1
    have a2' : s3.posL = 2 * n := a2
    have a3' : s3.posR = newR := by rw [a3]; simp
    obtain ⟨s4, e4, h4, b1, b2, b3, b4⟩ := iterFwdLeft_ok (2 * n - 2 - newR) h3 (by omega)
    rw [e3]
    simp only [Option.bind_some]
    rw [e4]
    refine ⟨_, rfl, ⟨h4.posL, h4.right, h4.left⟩, by show s4.n = n; omega, fun _ => ⟨?_, ?_, ?_⟩,
      fun h => by omega⟩
    · show s4.posR = newR; omega
    · show s4.posL = _; omega
    · show (if s4.posR = 0 then true else if s4.posR = 2 * n - 2 then false else d) = _
      have : s4.posR = newR := by omega
      rw [this]; rfl
  · rw [if_neg hn]
    exact ⟨_, rfl, hok, rfl, fun h => by omega, fun _ => ⟨rfl, rfl, rfl⟩⟩

theorem setWindowSize_ok {s : SWState Ket Bra ι} {ops0 : OpSet (OpTime R)} (h : StacksOK V ops0 s)
    (ops : OpSet (OpTime R)) (n newR : ℕ) (d : Bool) :
    ∃ s', setWindowSize V n ops newR d s = some s' ∧ StacksOK V ops s' ∧ s'.n = n ∧
      (2 ≤ n → s'.posR = newR ∧ s'.posL = 2 * n - (2 * n - 2 - newR) ∧ s'.dirLeft = newDir n newR d) ∧
      (n < 2 → s'.posR = 0 ∧ s'.posL = 2 * n ∧ s'.dirLeft = s.dirLeft) := by
  obtain ⟨s1, e1, hb, hd⟩ := resetStacks_ok h
  obtain ⟨s', h1, h2, h3, h4, h5⟩ := setWindowSize_ok' ops n newR d e1 hb
  exact ⟨s', h1, h2, h3, h4, fun hn => by rw [← hd]; exact h5 hn⟩

theorem moveRightTo_ok {ops : OpSet (OpTime R)} {s : SWState Ket Bra ι} (h : StacksOK V ops s)
    (p : ℕ) :
    ∃ s', moveRightTo V ops p s = some s' ∧ StacksOK V ops s' ∧ s'.n = s.n ∧ s'.posL = s.posL ∧
      s'.posR = p ∧ s'.dirLeft = s.dirLeft := by
  unfold moveRightTo
  by_cases h1 : p < s.posR
  · rw [if_pos h1]
    obtain ⟨s', a, b, c, d, e, f⟩ := backRight_ok h (s.posR - p) (by omega)
    exact ⟨s', a, b, c, d, by omega, f⟩
  · rw [if_neg h1]
    by_cases h2 : s.posR < p
    · rw [if_pos h2]
      obtain ⟨s', a, b, c, d, e, f⟩ := iterFwdRight_ok (p - s.posR) h
      exact ⟨s', a, b, c, d, by omega, f⟩
    · rw [if_neg h2]
      exact ⟨s, rfl, h, rfl, rfl, by omega, rfl⟩

theorem moveLeftTo_ok {ops : OpSet (OpTime R)} {s : SWState Ket Bra ι} (h : StacksOK V ops s)
    (p : ℕ) (hp : p ≤ 2 * s.n) :
    ∃ s', moveLeftTo V ops p s = some s' ∧ StacksOK V ops s' ∧ s'.n = s.n ∧ s'.posL = p ∧
      s'.posR = s.posR ∧ s'.dirLeft = s.dirLeft := by
  unfold moveLeftTo
  by_cases h1 : p < s.posL
  · rw [if_pos h1]
    obtain ⟨s', a, b, c, d, e, f⟩ := iterFwdLeft_ok (s.posL - p) h (by omega)
    exact ⟨s', a, b, c, by omega, e, f⟩
  · rw [if_neg h1]
    by_cases h2 : s.posL < p
    · rw [if_pos h2]
      obtain ⟨s', a, b, c, d, e, f⟩ := backLeft_ok h (p - s.posL) (by omega)
      exact ⟨s', a, b, c, by omega, e, f⟩
    · rw [if_neg h2]
      exact ⟨s, rfl, h, rfl, by omega, rfl, rfl⟩

/-- Specification of one step of the sweep on (right edge, left edge, direction). -/
def stepPos (n : ℕ) (p : ℕ × ℕ × Bool) : ℕ × ℕ × Bool :=
  if n = 1 then p
  else if p.2.2 then (if p.2.1 = 2 * n then (p.1 - 1, p.2.1 - 1, false) else (p.1 + 1, p.2.1 + 1, true))
  else (if p.1 = 0 then (p.1 + 1, p.2.1 + 1, true) else (p.1 - 1, p.2.1 - 1, false))

theorem moveNext_ok {ops : OpSet (OpTime R)} {s : SWState Ket Bra ι} (h : StacksOK V ops s)
    (hn : 1 ≤ s.n) (hw : s.posL = s.posR + 2) :
    ∃ s', moveNext V ops s = some s' ∧ StacksOK V ops s' ∧ s'.n = s.n ∧
      (s'.posR, s'.posL, s'.dirLeft) = stepPos s.n (s.posR, s.posL, s.dirLeft) ∧
      s'.posL = s'.posR + 2 := by
  have hle := h.posL
  unfold moveNext stepPos
  by_cases h1 : s.n = 1
  · simp only [h1, if_true]
    exact ⟨s, rfl, h, h1, rfl, hw⟩
  · simp only [h1, if_false]
    have toLeft : ∀ d, s.posL < 2 * s.n → ∃ s', moveWindow V ops true { s with dirLeft := d } = some s' ∧
        StacksOK V ops s' ∧ s'.n = s.n ∧ s'.posR = s.posR + 1 ∧ s'.posL = s.posL + 1 ∧
        s'.dirLeft = d := by
      intro d hlt
      have h' : StacksOK V ops { s with dirLeft := d } := ⟨h.posL, h.right, h.left⟩
      obtain ⟨s1, e1, k1, a1, a2, a3, a4⟩ := fwdRight1_ok h'
      simp only at a1 a2 a3 a4
      obtain ⟨s2, e2, k2, b1, b2, b3, b4⟩ := backLeft_ok k1 1 (by omega)
      exact ⟨s2, by simp [moveWindow, e1, e2], k2, by omega, by omega, by omega, by rw [b4, a4]⟩
    have toRight : ∀ d, 0 < s.posR → ∃ s', moveWindow V ops false { s with dirLeft := d } = some s' ∧
        StacksOK V ops s' ∧ s'.n = s.n ∧ s'.posR = s.posR - 1 ∧ s'.posL = s.posL - 1 ∧
        s'.dirLeft = d := by
      intro d hlt
      have h' : StacksOK V ops { s with dirLeft := d } := ⟨h.posL, h.right, h.left⟩
      obtain ⟨s1, e1, k1, a1, a2, a3, a4⟩ := backRight_ok h' 1 (by show 1 ≤ s.posR; omega)
      simp only at a1 a2 a3 a4
      obtain ⟨s2, e2, k2, b1, b2, b3, b4⟩ := fwdLeft1_ok k1 (by omega)
      exact ⟨s2, by simp [moveWindow, e1, e2], k2, by omega, by omega, by omega, by rw [b4, a4]⟩
    by_cases hd : s.dirLeft = true
    · simp only [hd, if_true]
      by_cases hb : s.posL = 2 * s.n
      · rw [if_pos hb, if_pos hb]
        obtain ⟨s', e, k, c1, c2, c3, c4⟩ := toRight false (by omega)
        exact ⟨s', e, k, c1, by rw [c2, c3, c4], by omega⟩
      · simp only [hb, if_false]
        obtain ⟨s', e, k, c1, c2, c3, c4⟩ := toLeft true (by omega)
        exact ⟨s', by rw [← e, ← hd], k, c1, by rw [c2, c3, c4], by omega⟩
    · have hd' : s.dirLeft = false := by simpa using hd
      simp only [hd', Bool.false_eq_true, if_false]
      by_cases hb : s.posR = 0
      · rw [if_pos hb, if_pos hb]
        obtain ⟨s', e, k, c1, c2, c3, c4⟩ := toLeft true (by omega)
        exact ⟨s', e, k, c1, by rw [c2, c3, c4], by omega⟩
      · simp only [hb, if_false]
        obtain ⟨s', e, k, c1, c2, c3, c4⟩ := toRight false (by omega)
        exact ⟨s', by rw [← e, ← hd'], k, c1, by rw [c2, c3, c4], by omega⟩

end windowStacks

/-! ### Values of the cached states -/

section values
variable [Field R] [LinearOrder R] [IsStrictOrderedRing R]

theorem opT_le {a b : R} : opT a ≤ opT b ↔ a ≤ b := by
  rw [OpTime.le_def]; simp [opT, le_iff_lt_or_eq]

theorem opT_lt {a b : R} : opT a < opT b ↔ a < b := by
  rw [OpTime.lt_def]; simp [opT]

theorem tauEdge_zero (beta : R) (n : ℕ) : tauEdge beta n 0 = 0 := by simp [tauEdge]

theorem tauEdge_top (beta : R) (n : ℕ) (hn : 1 ≤ n) : tauEdge beta n (2 * n) = beta := by
  have : (n : R) ≠ 0 := by exact_mod_cast (by omega : n ≠ 0)
  unfold tauEdge; push_cast; field_simp

theorem tauEdge_mono {beta : R} (hb : 0 ≤ beta) (n : ℕ) {p q : ℕ} (h : p ≤ q) :
    tauEdge beta n p ≤ tauEdge beta n q := by
  unfold tauEdge
  have : (p : R) ≤ q := by exact_mod_cast h
  gcongr

/-- Operators sorted in time and inside `[0, β]`. -/
def OpsOK (beta : R) (ops : OpSet (OpTime R)) : Prop :=
  ops.Sorted ∧ ∀ o ∈ ops, opT 0 ≤ o.time ∧ o.time ≤ opT beta

theorem filter_split {α : Type} (l : List α) (q : α → Bool)
    (h : l.Pairwise (fun a b => q b = true → q a = true)) :
    l.filter q ++ l.filter (fun a => !q a) = l := by
  induction l with
  | nil => rfl
  | cons a l ih =>
    rw [List.pairwise_cons] at h
    by_cases ha : q a = true
    · simp only [List.filter_cons, ha, if_true, Bool.not_true, Bool.false_eq_true, if_false,
        List.cons_append]
      rw [ih h.2]
    · have hall : ∀ b ∈ l, q b = false := by
        intro b hb
        by_contra hc
        exact ha (h.1 b hb (by simpa using hc))
      have e1 : l.filter q = [] := by
        rw [List.filter_eq_nil_iff]; intro b hb; simp [hall b hb]
      have e2 : l.filter (fun a => !q a) = l := by
        rw [List.filter_eq_self]; intro b hb; simp [hall b hb]
      simp [List.filter_cons, ha, e1, e2]

theorem split_lt {l : OpSet (OpTime R)} (h : l.Sorted) (t : OpTime R) :
    l.filter (fun o => decide (o.time < t)) ++ l.filter (fun o => decide (t ≤ o.time)) = l := by
  have := filter_split l (fun o => decide (o.time < t))
    (List.Pairwise.imp (fun {a b} hab => by
      simp only [decide_eq_true_eq]; exact fun hb => lt_trans hab hb) h)
  simpa only [← decide_not, not_lt] using this

theorem split_le {l : OpSet (OpTime R)} (h : l.Sorted) (t : OpTime R) :
    l.filter (fun o => decide (o.time ≤ t)) ++ l.filter (fun o => decide (t < o.time)) = l := by
  have := filter_split l (fun o => decide (o.time ≤ t))
    (List.Pairwise.imp (fun {a b} hab => by
      simp only [decide_eq_true_eq]; exact fun hb => le_trans hab.le hb) h)
  simpa only [← decide_not, not_le] using this

variable {V : SWEnv R Ket Bra K ι}

theorem expR_value [Zero K] (hE : V.E.Lawful) (hb : 0 ≤ V.beta) {ops : OpSet (OpTime R)}
    (ho : OpsOK V.beta ops) (n p : ℕ) (i : ι) :
    expR V ops n p i = timeOrdered V.E (tauEdge V.beta n p)
      (ops.filter (fun o => decide (o.time < opT (tauEdge V.beta n p)))) 0 (V.ket0 i) := by
  induction p with
  | zero =>
    have : ops.filter (fun o => decide (o.time < opT (tauEdge V.beta n 0))) = [] := by
      rw [List.filter_eq_nil_iff]; intro o h
      rw [tauEdge_zero]; simpa using (ho.2 o h).1
    rw [this]
    simp [expR, timeOrdered, tauEdge_zero, hE.prop_zero]
  | succ p ih =>
    rw [expR]
    simp only []
    rw [evolveKet_eq hE, ih, ← timeOrdered_append hE]
    congr 1
    have hm : opT (tauEdge V.beta n p) ≤ opT (tauEdge V.beta n (p + 1)) :=
      opT_le.2 (tauEdge_mono hb n (Nat.le_succ p))
    have hs : OpSet.Sorted (ops.filter (fun o => decide (o.time < opT (tauEdge V.beta n (p + 1))))) :=
      List.Pairwise.filter _ ho.1
    rw [← split_lt hs (opT (tauEdge V.beta n p)), List.filter_filter, List.filter_filter]
    congr 1
    · apply List.filter_congr
      intro o _
      simp only [← Bool.decide_and]
      congr 1
      exact propext ⟨fun h => ⟨h, lt_of_lt_of_le h hm⟩, fun h => h.1⟩

theorem expL_value [Zero K] (hE : V.E.Lawful) (hb : 0 ≤ V.beta) {ops : OpSet (OpTime R)}
    (ho : OpsOK V.beta ops) (n : ℕ) (hn : 1 ≤ n) (d : ℕ) (hd : d ≤ 2 * n) (i : ι) (k : Ket) :
    V.E.product (expL V ops n d i) k = V.E.product (V.bra0 i) (timeOrdered V.E V.beta
      (ops.filter (fun o => decide (opT (tauEdge V.beta n (2 * n - d)) < o.time)))
      (tauEdge V.beta n (2 * n - d)) k) := by
  induction d generalizing k with
  | zero =>
    have : ops.filter (fun o => decide (opT (tauEdge V.beta n (2 * n - 0)) < o.time)) = [] := by
      rw [List.filter_eq_nil_iff]; intro o h
      rw [Nat.sub_zero, tauEdge_top _ _ hn]; simpa using (ho.2 o h).2
    rw [this]
    simp [expL, timeOrdered, tauEdge_top _ _ hn, hE.prop_zero]
  | succ d ih =>
    rw [expL]
    simp only []
    rw [evolveBra_eq hE, ih (by omega), ← timeOrdered_append hE]
    congr 2
    have hm : opT (tauEdge V.beta n (2 * n - (d + 1))) ≤ opT (tauEdge V.beta n (2 * n - d)) :=
      opT_le.2 (tauEdge_mono hb n (by omega))
    have hs : OpSet.Sorted (ops.filter
        (fun o => decide (opT (tauEdge V.beta n (2 * n - (d + 1))) < o.time))) :=
      List.Pairwise.filter _ ho.1
    rw [← split_le hs (opT (tauEdge V.beta n (2 * n - d))), List.filter_filter, List.filter_filter]
    congr 1
    · apply List.filter_congr
      intro o _
      rw [Bool.and_comm]
    · apply List.filter_congr
      intro o _
      simp only [← Bool.decide_and]
      congr 1
      exact propext ⟨fun h => ⟨h, lt_of_le_of_lt hm h⟩, fun h => h.1⟩

/-- The trace with caches of the current operators is the full trace. -/
theorem computeTrace_ok [Fintype ι] [AddCommMonoid K] (hE : V.E.Lawful) (hb : 0 ≤ V.beta)
    {ops : OpSet (OpTime R)} (ho : OpsOK V.beta ops) {s : SWState Ket Bra ι} (h : StacksOK V ops s)
    (hn : 1 ≤ s.n) (hp : s.posR ≤ s.posL) : computeTrace V ops s = some (fullTrace V ops) := by
  obtain ⟨t1, ht1⟩ := stackOf_head (expL V ops s.n) (2 * s.n - s.posL)
  obtain ⟨t2, ht2⟩ := stackOf_head (expR V ops s.n) s.posR
  unfold computeTrace
  rw [h.left, h.right, ht1, ht2]
  simp only [fullTrace]
  congr 1
  apply Finset.sum_congr rfl
  intro i _
  have hle := h.posL
  have e1 : 2 * s.n - (2 * s.n - s.posL) = s.posL := by omega
  set a := tauEdge V.beta s.n s.posR with ha
  set c := tauEdge V.beta s.n s.posL with hc
  have hac : opT a ≤ opT c := opT_le.2 (tauEdge_mono hb _ hp)
  have key : V.E.product (expL V ops s.n (2 * s.n - s.posL) i)
      (evolveKet V.E (rangeCC ops a c) a c (expR V ops s.n s.posR i)) =
      V.E.product (V.bra0 i) (timeOrdered V.E V.beta ops 0 (V.ket0 i)) := by
    rw [expL_value hE hb ho _ hn _ (by omega), e1, evolveKet_eq hE, expR_value hE hb ho, ← ha, ← hc,
      ← timeOrdered_append hE, ← timeOrdered_append hE]
    congr 2
    rw [← List.append_assoc]
    conv_rhs => rw [← split_le ho.1 (opT c)]
    rw [List.append_cancel_right_eq]
    have hs : OpSet.Sorted (ops.filter (fun o => decide (o.time ≤ opT c))) :=
      List.Pairwise.filter _ ho.1
    rw [← split_lt hs (opT a), List.filter_filter, List.filter_filter]
    unfold rangeCC
    rw [List.append_cancel_right_eq]
    apply List.filter_congr
    intro o _
    simp only [← Bool.decide_and]
    congr 1
    exact propext ⟨fun h => ⟨h, (lt_of_lt_of_le h hac).le⟩, fun h => h.1⟩
  rw [← key]
  by_cases hk : V.E.invK (expR V ops s.n s.posR i) = true
  · simp only [hk, Bool.true_or, if_true]
    unfold evolveKet
    simp only [hk, if_true]
    rw [hE.invK_zero _ _ hk]
  · by_cases hbr : V.E.invB (expL V ops s.n (2 * s.n - s.posL) i) = true
    · simp only [hbr, Bool.or_true, if_true]
      rw [hE.invB_zero _ _ hbr]
    · simp [hk, hbr]

/-! ### Changes of operators inside the window -/

theorem expR_congr {ops ops' : OpSet (OpTime R)} (hb : 0 ≤ V.beta) (n p : ℕ)
    (h : ops.filter (fun o => decide (o.time < opT (tauEdge V.beta n p))) =
      ops'.filter (fun o => decide (o.time < opT (tauEdge V.beta n p)))) (q : ℕ) (hq : q ≤ p) :
    expR V ops n q = expR V ops' n q := by
  induction q with
  | zero => rfl
  | succ q ih =>
    have hr : ∀ l : OpSet (OpTime R), rangeCO l (tauEdge V.beta n q) (tauEdge V.beta n (q + 1)) =
        rangeCO (l.filter (fun o => decide (o.time < opT (tauEdge V.beta n p))))
          (tauEdge V.beta n q) (tauEdge V.beta n (q + 1)) := by
      intro l
      unfold rangeCO
      rw [List.filter_filter]
      apply List.filter_congr
      intro o _
      simp only [← Bool.decide_and]
      congr 1
      have hm := opT_le.2 (tauEdge_mono hb n hq)
      exact propext ⟨fun h => ⟨h, lt_of_lt_of_le h.2 hm⟩, fun h => h.1⟩
    simp only [expR]
    rw [ih (by omega), hr ops, h, ← hr ops']

theorem expL_congr {ops ops' : OpSet (OpTime R)} (hb : 0 ≤ V.beta) (n d : ℕ)
    (h : ops.filter (fun o => decide (opT (tauEdge V.beta n (2 * n - d)) < o.time)) =
      ops'.filter (fun o => decide (opT (tauEdge V.beta n (2 * n - d)) < o.time)))
    (q : ℕ) (hq : q ≤ d) : expL V ops n q = expL V ops' n q := by
  induction q with
  | zero => rfl
  | succ q ih =>
    have hr : ∀ l : OpSet (OpTime R), rangeOC l (tauEdge V.beta n (2 * n - (q + 1)))
          (tauEdge V.beta n (2 * n - q)) =
        rangeOC (l.filter (fun o => decide (opT (tauEdge V.beta n (2 * n - d)) < o.time)))
          (tauEdge V.beta n (2 * n - (q + 1))) (tauEdge V.beta n (2 * n - q)) := by
      intro l
      unfold rangeOC
      rw [List.filter_filter]
      apply List.filter_congr
      intro o _
      simp only [← Bool.decide_and]
      congr 1
      have hm := opT_le.2 (tauEdge_mono hb n (by omega : 2 * n - d ≤ 2 * n - (q + 1)))
      exact propext ⟨fun h => ⟨h, lt_of_le_of_lt hm h.1⟩, fun h => h.1⟩
    simp only [expL]
    rw [ih (by omega), hr ops, h, ← hr ops']

/-- `ops'` differs from `ops` only by operators inside the closed window. -/
def SameOutside (beta : R) (s : SWState Ket Bra ι) (ops ops' : OpSet (OpTime R)) : Prop :=
  (∀ o, o.time < opT (tauEdge beta s.n s.posR) ∨ opT (tauEdge beta s.n s.posL) < o.time →
    (o ∈ ops ↔ o ∈ ops'))

theorem sorted_ext {l l' : OpSet (OpTime R)} (h : l.Sorted) (h' : l'.Sorted)
    (hm : ∀ o, o ∈ l ↔ o ∈ l') : l = l' := by
  have nd : l.Nodup := h.imp (fun hab => by rintro rfl; exact lt_irrefl _ hab)
  have nd' : l'.Nodup := h'.imp (fun hab => by rintro rfl; exact lt_irrefl _ hab)
  have hp : l.Perm l' := (List.perm_ext_iff_of_nodup nd nd').2 hm
  exact hp.eq_of_pairwise (fun a b _ _ h1 h2 => absurd (lt_trans h1 h2) (lt_irrefl _)) h h'

theorem StacksOK.change {ops ops' : OpSet (OpTime R)} (hb : 0 ≤ V.beta) {s : SWState Ket Bra ι}
    (h : StacksOK V ops s) (ho : OpsOK V.beta ops) (ho' : OpsOK V.beta ops')
    (hs : SameOutside V.beta s ops ops') : StacksOK V ops' s := by
  have hle := h.posL
  have e1 : 2 * s.n - (2 * s.n - s.posL) = s.posL := by omega
  refine ⟨h.posL, ?_, ?_⟩
  · rw [h.right]
    apply stackOf_congr
    intro q hq
    refine expR_congr hb s.n s.posR ?_ q hq
    apply sorted_ext (List.Pairwise.filter _ ho.1) (List.Pairwise.filter _ ho'.1)
    intro o
    simp only [List.mem_filter, decide_eq_true_eq]
    constructor
    · exact fun ⟨a, b⟩ => ⟨(hs o (Or.inl b)).1 a, b⟩
    · exact fun ⟨a, b⟩ => ⟨(hs o (Or.inl b)).2 a, b⟩
  · rw [h.left]
    apply stackOf_congr
    intro q hq
    refine expL_congr hb s.n _ ?_ q hq
    rw [e1]
    apply sorted_ext (List.Pairwise.filter _ ho.1) (List.Pairwise.filter _ ho'.1)
    intro o
    simp only [List.mem_filter, decide_eq_true_eq]
    constructor
    · exact fun ⟨a, b⟩ => ⟨(hs o (Or.inr b)).1 a, b⟩
    · exact fun ⟨a, b⟩ => ⟨(hs o (Or.inr b)).2 a, b⟩

/-! ### Histories -/

/-- What can happen to a window during a simulation. -/
inductive SWAct (R : Type)
  | setSize (n newR : ℕ) (d : Bool)
  | next
  | rightTo (p : ℕ)
  | leftTo (p : ℕ)
  | restore (st : SavedState)
  | change (ops' : OpSet (OpTime R))

/-- Window and current operators after an action. -/
def SWAct.exec (V : SWEnv R Ket Bra K ι) (c : SWState Ket Bra ι × OpSet (OpTime R)) :
    SWAct R → Option (SWState Ket Bra ι × OpSet (OpTime R))
  | .setSize n newR d => (setWindowSize V n c.2 newR d c.1).map (·, c.2)
  | .next => (moveNext V c.2 c.1).map (·, c.2)
  | .rightTo p => (moveRightTo V c.2 p c.1).map (·, c.2)
  | .leftTo p => (moveLeftTo V c.2 p c.1).map (·, c.2)
  | .restore st => (restoreState V c.2 st c.1).map (·, c.2)
  | .change ops' => some (c.1, ops')

/-- Allowed use (the asserts of the class, and changes of operators inside the window only). -/
def SWAct.allowed (V : SWEnv R Ket Bra K ι) (c : SWState Ket Bra ι × OpSet (OpTime R)) :
    SWAct R → Prop
  | .setSize n newR _ => 1 ≤ n ∧ newR ≤ 2 * n - 2
  | .next => c.1.posL = c.1.posR + 2
  | .rightTo p => p ≤ c.1.posL
  | .leftTo p => c.1.posR ≤ p ∧ p ≤ 2 * c.1.n
  | .restore st => 1 ≤ st.n ∧ st.posR ≤ st.posL ∧ st.posL ≤ 2 * st.n
  | .change ops' => OpsOK V.beta ops' ∧ SameOutside V.beta c.1 c.2 ops'

/-- `Reach V c c'`: some allowed history leads from `c` to `c'` without exception. -/
inductive Reach (V : SWEnv R Ket Bra K ι) (c : SWState Ket Bra ι × OpSet (OpTime R)) :
    SWState Ket Bra ι × OpSet (OpTime R) → Prop
  | refl : Reach V c c
  | step (c1 c2) (a : SWAct R) : Reach V c c1 → a.allowed V c1 → a.exec V c1 = some c2 → Reach V c c2

/-- Window invariant. -/
structure SWInv (V : SWEnv R Ket Bra K ι) (c : SWState Ket Bra ι × OpSet (OpTime R)) : Prop where
  ops : OpsOK V.beta c.2
  caches : StacksOK V c.2 c.1
  n_pos : 1 ≤ c.1.n
  le : c.1.posR ≤ c.1.posL

theorem restoreState_ok {ops0 : OpSet (OpTime R)} {s : SWState Ket Bra ι} (h : StacksOK V ops0 s)
    (ops : OpSet (OpTime R)) (st : SavedState) (hst : st.posL ≤ 2 * st.n) :
    ∃ s', restoreState V ops st s = some s' ∧ StacksOK V ops s' ∧ s'.n = st.n ∧
      s'.posL = st.posL ∧ (2 ≤ st.n → s'.posR = st.posR ∧ s'.dirLeft = newDir st.n st.posR st.dirLeft) ∧
      (st.n < 2 → s'.posR = 0) := by
  obtain ⟨s1, e1, h1, n1, a1, b1⟩ := setWindowSize_ok h ops st.n st.posR st.dirLeft
  obtain ⟨s2, e2, h2, n2, l2, r2, d2⟩ := moveLeftTo_ok h1 st.posL (by omega)
  refine ⟨s2, by simp [restoreState, e1, e2], h2, by omega, l2, fun hn => ?_, fun hn => ?_⟩
  · obtain ⟨u, v, w⟩ := a1 hn
    exact ⟨by omega, by rw [d2, w]⟩
  · have := b1 hn; omega

theorem SWInv.exec (hb : 0 ≤ V.beta) {c : SWState Ket Bra ι × OpSet (OpTime R)} (h : SWInv V c)
    (a : SWAct R) (ha : a.allowed V c) : ∃ c', a.exec V c = some c' ∧ SWInv V c' := by
  obtain ⟨ho, hs, hn, hle⟩ := h
  cases a with
  | setSize n newR d =>
    obtain ⟨hn1, hr⟩ : 1 ≤ n ∧ newR ≤ 2 * n - 2 := ha
    obtain ⟨s', e, k, n1, a1, b1⟩ := setWindowSize_ok hs c.2 n newR d
    refine ⟨(s', c.2), by simp [SWAct.exec, e], ho, k, by show 1 ≤ s'.n; omega, ?_⟩
    show s'.posR ≤ s'.posL
    by_cases h2 : 2 ≤ n
    · have := a1 h2; omega
    · have := b1 (by omega); omega
  | next =>
    obtain ⟨s', e, k, n1, a1, b1⟩ := moveNext_ok hs hn ha
    exact ⟨(s', c.2), by simp [SWAct.exec, e], ho, k, by show 1 ≤ s'.n; omega,
      by show s'.posR ≤ s'.posL; omega⟩
  | rightTo p =>
    have hp : p ≤ c.1.posL := ha
    obtain ⟨s', e, k, n1, l1, r1, d1⟩ := moveRightTo_ok hs p
    exact ⟨(s', c.2), by simp [SWAct.exec, e], ho, k, by show 1 ≤ s'.n; omega,
      by show s'.posR ≤ s'.posL; omega⟩
  | leftTo p =>
    obtain ⟨hp1, hp2⟩ : c.1.posR ≤ p ∧ p ≤ 2 * c.1.n := ha
    obtain ⟨s', e, k, n1, l1, r1, d1⟩ := moveLeftTo_ok hs p hp2
    exact ⟨(s', c.2), by simp [SWAct.exec, e], ho, k, by show 1 ≤ s'.n; omega,
      by show s'.posR ≤ s'.posL; omega⟩
  | restore st =>
    obtain ⟨h1, h2, h3⟩ : 1 ≤ st.n ∧ st.posR ≤ st.posL ∧ st.posL ≤ 2 * st.n := ha
    obtain ⟨s', e, k, n1, l1, a1, b1⟩ := restoreState_ok hs c.2 st h3
    refine ⟨(s', c.2), by simp [SWAct.exec, e], ho, k, by show 1 ≤ s'.n; omega, ?_⟩
    show s'.posR ≤ s'.posL
    by_cases h2 : 2 ≤ st.n
    · have := a1 h2; omega
    · have := b1 (by omega); omega
  | change ops' =>
    obtain ⟨h1, h2⟩ : OpsOK V.beta ops' ∧ SameOutside V.beta c.1 c.2 ops' := ha
    exact ⟨(c.1, ops'), rfl, h1, hs.change hb ho h1 h2, hn, hle⟩

theorem init_inv (n : ℕ) (hn : 1 ≤ n) (ops : OpSet (OpTime R)) (ho : OpsOK V.beta ops)
    (pl pr nn : ℕ) (d : Bool) :
    ∃ s, initStacks V n ops pl pr nn d = some s ∧ SWInv V (s, ops) ∧ s.n = n ∧ s.posR = 0 ∧
      s.posL = 2 := by
  have hb : Bottom V (⟨nn, pl, pr, d, [V.bra0], [V.ket0]⟩ : SWState Ket Bra ι) := ⟨rfl, rfl⟩
  obtain ⟨s', h1, h2, h3, h4, h5⟩ := setWindowSize_ok' ops n 0 true (reset_bottom hb) hb
  refine ⟨s', h1, ⟨ho, h2, by show 1 ≤ s'.n; omega, ?_⟩, h3, ?_⟩
  · show s'.posR ≤ s'.posL
    by_cases h2 : 2 ≤ n
    · have := h4 h2; omega
    · have := h5 (by omega); omega
  · by_cases h2 : 2 ≤ n
    · have := h4 h2; omega
    · have := h5 (by omega); omega

theorem reach_inv (hb : 0 ≤ V.beta) {c c' : SWState Ket Bra ι × OpSet (OpTime R)} (h : SWInv V c)
    (hr : Reach V c c') : SWInv V c' := by
  induction hr with
  | refl => exact h
  | step c1 c2 a _ ha he ih =>
    obtain ⟨c', e, k⟩ := SWInv.exec hb ih a ha
    rw [he] at e
    rw [Option.some.inj e]; exact k

/-- **C22.** After `init_stacks` and any allowed history of window moves, resizing, saving and
restoring, interleaved with changes of operators inside the window in force at the time, the trace
computed from the cached states is the trace of the full time-ordered product of the current
operators. -/
theorem C22_trace_window_independent [Fintype ι] [AddCommMonoid K] (hE : V.E.Lawful)
    (hb : 0 ≤ V.beta) (n : ℕ) (hn : 1 ≤ n) (ops0 : OpSet (OpTime R)) (ho : OpsOK V.beta ops0)
    (pl pr nn : ℕ) (d : Bool) (s0 : SWState Ket Bra ι)
    (h0 : initStacks V n ops0 pl pr nn d = some s0) (s : SWState Ket Bra ι)
    (ops : OpSet (OpTime R)) (hr : Reach V (s0, ops0) (s, ops)) :
    computeTrace V ops s = some (fullTrace V ops) := by
  obtain ⟨s0', e, hi, -⟩ := init_inv (V := V) n hn ops0 ho pl pr nn d
  rw [h0] at e
  obtain rfl := Option.some.inj e
  have := reach_inv hb hi hr
  exact computeTrace_ok hE hb this.ops this.caches this.n_pos this.le

/-- **C22, no exception.** `init_stacks` succeeds for `n ≥ 1`, and in no reachable state an allowed
action throws or pops an empty stack. -/
theorem C22_no_exception (hb : 0 ≤ V.beta) (n : ℕ) (hn : 1 ≤ n) (ops0 : OpSet (OpTime R))
    (ho : OpsOK V.beta ops0) (pl pr nn : ℕ) (d : Bool) :
    ∃ s0, initStacks V n ops0 pl pr nn d = some s0 ∧
      ∀ c, Reach V (s0, ops0) c → ∀ a : SWAct R, a.allowed V c → (a.exec V c).isSome := by
  obtain ⟨s0, e, hi, -⟩ := init_inv (V := V) n hn ops0 ho pl pr nn d
  refine ⟨s0, e, fun c hr a ha => ?_⟩
  obtain ⟨c', h, -⟩ := SWInv.exec hb (reach_inv hb hi hr) a ha
  simp [h]

/-! ### C23 and C24 -/

theorem iterMoveNext {ops : OpSet (OpTime R)} (m : ℕ) {s : SWState Ket Bra ι}
    (h : StacksOK V ops s) (hn : 1 ≤ s.n) (hw : s.posL = s.posR + 2) :
    ∃ s', iterOpt (moveNext V ops) m s = some s' ∧ StacksOK V ops s' ∧ s'.n = s.n ∧
      (s'.posR, s'.posL, s'.dirLeft) = (stepPos s.n)^[m] (s.posR, s.posL, s.dirLeft) ∧
      s'.posL = s'.posR + 2 := by
  induction m generalizing s with
  | zero => exact ⟨s, rfl, h, rfl, rfl, hw⟩
  | succ m ih =>
    obtain ⟨s1, e1, k1, n1, p1, w1⟩ := moveNext_ok h hn hw
    obtain ⟨s2, e2, k2, n2, p2, w2⟩ := ih k1 (by omega) w1
    refine ⟨s2, by simp [iterOpt, e1, e2], k2, by omega, ?_, w2⟩
    rw [p2, n1, p1, Function.iterate_succ_apply]

/-- At the two ends the direction does not matter for the next step. -/
theorem stepPos_dir (n r : ℕ) (hn : 2 ≤ n) (d : Bool) :
    stepPos n (r, r + 2, newDir n r d) = stepPos n (r, r + 2, d) := by
  have hn1 : n ≠ 1 := by omega
  by_cases h0 : r = 0
  · subst h0
    have : ¬ (2 = 2 * n) := by omega
    cases d <;> simp [stepPos, newDir, hn1, this]
  · by_cases h1 : r = 2 * n - 2
    · have e : r + 2 = 2 * n := by omega
      cases d <;> simp only [stepPos, newDir, if_neg hn1, if_neg h0, if_pos e, if_pos h1] <;> simp
    · simp [newDir, h0, h1]

/-- **C23.** Save the state of the window (`n` windows; if `n = 1` the right edge at 0, where it
always is between measurements), do anything allowed, and restore: number of windows and both
edges are the saved ones, whatever the intermediate state; and if the window had its normal width,
the following sweep visits exactly the positions it would have visited without interruption. -/
theorem C23_restore (hb : 0 ≤ V.beta) (n : ℕ) (hn : 1 ≤ n) (ops0 : OpSet (OpTime R))
    (ho : OpsOK V.beta ops0) (pl pr nn : ℕ) (d : Bool) (s0 : SWState Ket Bra ι)
    (h0 : initStacks V n ops0 pl pr nn d = some s0)
    (c c' : SWState Ket Bra ι × OpSet (OpTime R)) (hr : Reach V (s0, ops0) c) (hr' : Reach V c c')
    (h1 : 2 ≤ c.1.n ∨ c.1.posR = 0) :
    ∃ s, restoreState V c'.2 (getState c.1) c'.1 = some s ∧
      s.n = c.1.n ∧ s.posL = c.1.posL ∧ s.posR = c.1.posR ∧
      (c.1.posL = c.1.posR + 2 → ∀ m, ∃ a b, iterOpt (moveNext V c'.2) m s = some a ∧
        iterOpt (moveNext V c.2) m c.1 = some b ∧ a.posL = b.posL ∧ a.posR = b.posR) := by
  obtain ⟨s0', e, hi, -⟩ := init_inv (V := V) n hn ops0 ho pl pr nn d
  rw [h0] at e
  obtain rfl := Option.some.inj e
  have I := reach_inv hb hi hr
  have I' := reach_inv hb I hr'
  obtain ⟨s, e, k, n1, l1, a1, b1⟩ := restoreState_ok I'.caches c'.2 (getState c.1) I.caches.posL
  have en : (getState c.1).n = c.1.n := rfl
  have er : (getState c.1).posR = c.1.posR := rfl
  have el : (getState c.1).posL = c.1.posL := rfl
  rw [en] at n1 a1 b1
  rw [er] at a1
  rw [el] at l1
  have hpos := I.n_pos
  have hR : s.posR = c.1.posR := by
    by_cases h2 : 2 ≤ c.1.n
    · exact (a1 h2).1
    · have := b1 (by omega); omega
  refine ⟨s, e, n1, l1, hR, fun hw m => ?_⟩
  obtain ⟨a, ea, -, -, pa, -⟩ := iterMoveNext (ops := c'.2) m k (by omega) (by omega)
  obtain ⟨b, eb, -, -, pb, -⟩ := iterMoveNext m I.caches hpos hw
  refine ⟨a, b, ea, eb, ?_⟩
  have key : ((stepPos s.n)^[m] (s.posR, s.posL, s.dirLeft)).1 =
      ((stepPos c.1.n)^[m] (c.1.posR, c.1.posL, c.1.dirLeft)).1 ∧
      ((stepPos s.n)^[m] (s.posR, s.posL, s.dirLeft)).2.1 =
      ((stepPos c.1.n)^[m] (c.1.posR, c.1.posL, c.1.dirLeft)).2.1 := by
    rw [n1, hR, l1]
    cases m with
    | zero => exact ⟨rfl, rfl⟩
    | succ m =>
      rw [Function.iterate_succ_apply, Function.iterate_succ_apply]
      by_cases h2 : 2 ≤ c.1.n
      · rw [(a1 h2).2, hw, stepPos_dir _ _ h2]
        exact ⟨rfl, rfl⟩
      · have : c.1.n = 1 := by omega
        have fix : ∀ (p : ℕ × ℕ × Bool) (m : ℕ), (stepPos 1)^[m] p = p := by
          intro p m
          induction m with
          | zero => rfl
          | succ m ih => rw [Function.iterate_succ_apply]; simpa [stepPos] using ih
        rw [this]
        have st : ∀ p, stepPos 1 p = p := fun p => fix p 1
        rw [st, st, fix, fix]
        exact ⟨rfl, rfl⟩
  rw [← pa, ← pb] at key
  exact ⟨key.2, key.1⟩

/-- Position of the right edge in the course of a sweep, as a function of the phase: up from 0 to
`2n-2` and down again. -/
def wave (n j : ℕ) : ℕ :=
  if j % (2 * (2 * n - 2)) ≤ 2 * n - 2 then j % (2 * (2 * n - 2))
  else 2 * (2 * n - 2) - j % (2 * (2 * n - 2))

/-- Phase of a window position. -/
def phase (n r : ℕ) (dirLeft : Bool) : ℕ := if dirLeft then r else 2 * (2 * n - 2) - r

theorem stepPos_phase (n : ℕ) (hn : 2 ≤ n) (j r : ℕ) (d : Bool)
    (h : j < 2 * (2 * n - 2) ∧ ((r = j ∧ j ≤ 2 * n - 2 ∧ (d = true ∨ j = 0 ∨ j = 2 * n - 2)) ∨
      (2 * n - 2 < j ∧ r = 2 * (2 * n - 2) - j ∧ d = false))) :
    ∃ r' d', stepPos n (r, r + 2, d) = (r', r' + 2, d') ∧
      (let j' := if j + 1 = 2 * (2 * n - 2) then 0 else j + 1
       j' < 2 * (2 * n - 2) ∧ ((r' = j' ∧ j' ≤ 2 * n - 2 ∧ (d' = true ∨ j' = 0 ∨ j' = 2 * n - 2)) ∨
        (2 * n - 2 < j' ∧ r' = 2 * (2 * n - 2) - j' ∧ d' = false))) := by
  have hn1 : n ≠ 1 := by omega
  cases d with
  | true =>
    by_cases hb : r + 2 = 2 * n
    · refine ⟨r - 1, false, ?_, ?_⟩
      · simp only [stepPos, hn1, if_false, if_true, hb, Prod.mk.injEq, true_and, and_true]; omega
      · simp at h ⊢; split <;> omega
    · refine ⟨r + 1, true, ?_, ?_⟩
      · simp [stepPos, hn1, hb]
      · simp at h ⊢; split <;> omega
  | false =>
    by_cases hb : r = 0
    · refine ⟨r + 1, true, ?_, ?_⟩
      · simp [stepPos, hn1, hb]
      · simp at h ⊢; split <;> omega
    · refine ⟨r - 1, false, ?_, ?_⟩
      · simp [stepPos, hn1, hb]; omega
      · simp at h ⊢; split <;> omega

theorem stepPos_wave (n : ℕ) (hn : 2 ≤ n) (r : ℕ) (hr : r ≤ 2 * n - 2) (d : Bool) (m : ℕ) :
    ((stepPos n)^[m] (r, r + 2, d)).1 = wave n (phase n r d + m) := by
  have gen : ∀ m, ∃ r' d', (stepPos n)^[m] (r, r + 2, d) = (r', r' + 2, d') ∧
      (let j' := (phase n r d + m) % (2 * (2 * n - 2))
       j' < 2 * (2 * n - 2) ∧ ((r' = j' ∧ j' ≤ 2 * n - 2 ∧ (d' = true ∨ j' = 0 ∨ j' = 2 * n - 2)) ∨
        (2 * n - 2 < j' ∧ r' = 2 * (2 * n - 2) - j' ∧ d' = false))) := by
    intro m
    induction m with
    | zero =>
      refine ⟨r, d, rfl, Nat.mod_lt _ (by omega), ?_⟩
      cases d with
      | true =>
        left
        have : (phase n r true + 0) % (2 * (2 * n - 2)) = r := by
          simp only [phase, if_true, Nat.add_zero]; exact Nat.mod_eq_of_lt (by omega)
        rw [this]; exact ⟨rfl, hr, Or.inl rfl⟩
      | false =>
        by_cases h0 : r = 0
        · left
          have : (phase n r false + 0) % (2 * (2 * n - 2)) = 0 := by
            subst h0; simp [phase]
          rw [this]; exact ⟨h0, by omega, Or.inr (Or.inl rfl)⟩
        · have : (phase n r false + 0) % (2 * (2 * n - 2)) = 2 * (2 * n - 2) - r := by
            simp only [phase, Bool.false_eq_true, if_false, Nat.add_zero]
            exact Nat.mod_eq_of_lt (by omega)
          rw [this]
          by_cases h1 : r = 2 * n - 2
          · left; refine ⟨by omega, by omega, Or.inr (Or.inr (by omega))⟩
          · right; exact ⟨by omega, by omega, rfl⟩
    | succ m ih =>
      obtain ⟨r', d', e, hj⟩ := ih
      obtain ⟨r2, d2, e2, hj2⟩ := stepPos_phase n hn _ r' d' hj
      refine ⟨r2, d2, by rw [Function.iterate_succ_apply', e, e2], ?_⟩
      have : (phase n r d + (m + 1)) % (2 * (2 * n - 2)) =
          if (phase n r d + m) % (2 * (2 * n - 2)) + 1 = 2 * (2 * n - 2) then 0
          else (phase n r d + m) % (2 * (2 * n - 2)) + 1 := by
        have hlt := Nat.mod_lt (phase n r d + m) (by omega : 2 * (2 * n - 2) > 0)
        rw [← Nat.add_assoc, Nat.add_mod]
        rw [Nat.mod_eq_of_lt (by omega : 1 < 2 * (2 * n - 2))]
        split
        · rename_i h; rw [h, Nat.mod_self]
        · exact Nat.mod_eq_of_lt (by omega)
      rw [this]; exact hj2
  obtain ⟨r', d', e, h1, h2⟩ := gen m
  rw [e]
  unfold wave
  split <;> simp only <;> omega

/-- **C24.** From every reachable state with the normal window width, for every number of steps:
no step fails, the window keeps its width and stays inside `[0, 2n]`, and for `n ≥ 2` its position
is the triangular wave. -/
theorem C24_sweep (hb : 0 ≤ V.beta) (n : ℕ) (hn : 1 ≤ n) (ops0 : OpSet (OpTime R))
    (ho : OpsOK V.beta ops0) (pl pr nn : ℕ) (d : Bool) (s0 : SWState Ket Bra ι)
    (h0 : initStacks V n ops0 pl pr nn d = some s0)
    (c : SWState Ket Bra ι × OpSet (OpTime R)) (hr : Reach V (s0, ops0) c)
    (hw : c.1.posL = c.1.posR + 2) (m : ℕ) :
    ∃ s, iterOpt (moveNext V c.2) m c.1 = some s ∧ s.n = c.1.n ∧ s.posL = s.posR + 2 ∧
      s.posL ≤ 2 * s.n ∧
      (2 ≤ c.1.n → s.posR = wave c.1.n (phase c.1.n c.1.posR c.1.dirLeft + m)) ∧
      (c.1.n = 1 → s.posR = 0) := by
  obtain ⟨s0', e, hi, -⟩ := init_inv (V := V) n hn ops0 ho pl pr nn d
  rw [h0] at e
  obtain rfl := Option.some.inj e
  have I := reach_inv hb hi hr
  obtain ⟨s, e, k, n1, p1, w1⟩ := iterMoveNext m I.caches I.n_pos hw
  have := k.posL
  refine ⟨s, e, n1, w1, this, fun h2 => ?_, fun h1 => by omega⟩
  have hle := I.caches.posL
  have := stepPos_wave c.1.n h2 c.1.posR (by omega) c.1.dirLeft m
  rw [← hw, ← p1] at this
  exact this

/-- **C24.** A full sweep of `2(2n-2)` steps returns to the starting position, and every position is
visited during it. -/
theorem C24_period (hb : 0 ≤ V.beta) (n : ℕ) (hn : 1 ≤ n) (ops0 : OpSet (OpTime R))
    (ho : OpsOK V.beta ops0) (pl pr nn : ℕ) (d : Bool) (s0 : SWState Ket Bra ι)
    (h0 : initStacks V n ops0 pl pr nn d = some s0)
    (c : SWState Ket Bra ι × OpSet (OpTime R)) (hr : Reach V (s0, ops0) c)
    (hw : c.1.posL = c.1.posR + 2) :
    (∃ s, iterOpt (moveNext V c.2) (2 * (2 * c.1.n - 2)) c.1 = some s ∧ s.posR = c.1.posR ∧
      s.posL = c.1.posL) ∧
    ∀ r ≤ 2 * c.1.n - 2, ∃ m ≤ 2 * (2 * c.1.n - 2), ∃ s,
      iterOpt (moveNext V c.2) m c.1 = some s ∧ s.posR = r ∧ s.posL = r + 2 := by
  have sw := C24_sweep hb n hn ops0 ho pl pr nn d s0 h0 c hr hw
  obtain ⟨s0', e, hi, -⟩ := init_inv (V := V) n hn ops0 ho pl pr nn d
  rw [h0] at e
  obtain rfl := Option.some.inj e
  have I := reach_inv hb hi hr
  have hle := I.caches.posL
  have hpos := I.n_pos
  by_cases h2 : 2 ≤ c.1.n
  · have hz : c.1.posR = wave c.1.n (phase c.1.n c.1.posR c.1.dirLeft + 0) :=
      stepPos_wave c.1.n h2 c.1.posR (by omega) c.1.dirLeft 0
    constructor
    · obtain ⟨s, e, n1, w1, l1, p1, -⟩ := sw (2 * (2 * c.1.n - 2))
      have hs : s.posR = c.1.posR := by
        rw [p1 h2]; conv_rhs => rw [hz]
        simp [wave]
      exact ⟨s, e, hs, by omega⟩
    · intro r hr
      -- the step number at which phase `r` is reached
      set P := 2 * (2 * c.1.n - 2) with hP
      have hPpos : 0 < P := by omega
      set f := phase c.1.n c.1.posR c.1.dirLeft with hf
      have hlt := Nat.mod_lt f hPpos
      refine ⟨(r + (P - f % P)) % P, (Nat.mod_lt _ hPpos).le, ?_⟩
      obtain ⟨s, e, n1, w1, l1, p1, -⟩ := sw ((r + (P - f % P)) % P)
      have hph : (f + (r + (P - f % P)) % P) % P = r := by
        have h1 : (f + (r + (P - f % P)) % P) % P = (f % P + (r + (P - f % P))) % P := by
          rw [Nat.add_mod, Nat.mod_mod, ← Nat.add_mod_mod, Nat.mod_add_mod, Nat.add_mod_mod]
          simp
        rw [h1]
        have : f % P + (r + (P - f % P)) = r + P := by omega
        rw [this, Nat.add_mod_right, Nat.mod_eq_of_lt (by omega)]
      have hs : s.posR = r := by
        rw [p1 h2]
        unfold wave
        rw [← hP, hph, if_pos hr]
      exact ⟨s, e, hs, by omega⟩
  · have h1 : c.1.n = 1 := by omega
    constructor
    · exact ⟨c.1, by simp [h1, iterOpt], rfl, rfl⟩
    · intro r hr
      exact ⟨0, by omega, c.1, rfl, by omega, by omega⟩

end values

/-! ### Concrete case: two states, `exp(-tH)` with `H` nilpotent, the operators exchange the states
with a factor depending on the flavour. -/

/-- Toy model: kets and bras are vectors with two components (an invalid state is the zero vector). -/
def toyEvol : Evol ℚ (ℚ × ℚ) (ℚ × ℚ) ℚ where
  propK t v := (v.1 + t * v.2, v.2)
  opK y f v := if y = .creation then (v.2, (f + 2) * v.1) else (3 * v.2, v.1)
  propB t v := (v.1, t * v.1 + v.2)
  opB y f v := if y = .creation then ((f + 2) * v.2, v.1) else (v.2, 3 * v.1)
  product b k := b.1 * k.1 + b.2 * k.2
  invK v := decide (v = (0, 0))
  invB v := decide (v = (0, 0))

theorem toyEvol_lawful : toyEvol.Lawful where
  prop_zero k := by simp [toyEvol]
  prop_add a b k := by ext <;> simp [toyEvol]; ring
  adj_prop t b k := by simp [toyEvol]; ring
  adj_op y f b k := by cases y <;> simp [toyEvol] <;> ring
  invK_prop t k h := by simp only [toyEvol, decide_eq_true_eq] at h; subst h; simp [toyEvol]
  invK_op y f k h := by
    simp only [toyEvol, decide_eq_true_eq] at h; subst h; cases y <;> simp [toyEvol]
  invK_zero b k h := by simp only [toyEvol, decide_eq_true_eq] at h; subst h; simp [toyEvol]
  invB_zero b k h := by simp only [toyEvol, decide_eq_true_eq] at h; subst h; simp [toyEvol]

/-- β = 1 and two outer states. -/
def toyEnv : SWEnv ℚ (ℚ × ℚ) (ℚ × ℚ) ℚ (Fin 2) where
  E := toyEvol
  beta := 1
  ket0 i := if i = 0 then (1, 0) else (0, 1)
  bra0 i := if i = 0 then (1, 0) else (0, 1)

/-- Operators at 0, 1/4 (on an edge of two windows), 1/3 and 1 (= β). -/
def toyOps : OpSet (OpTime ℚ) :=
  [⟨⟨0, 0⟩, .creation, 0⟩, ⟨⟨1/4, 0⟩, .annihilation, 0⟩, ⟨⟨1/3, 0⟩, .creation, 1⟩,
   ⟨⟨1, 0⟩, .annihilation, 1⟩]

/-- The same with the operator at 1/3 moved to 2/5 and the one at 1/4 removed. -/
def toyOps' : OpSet (OpTime ℚ) :=
  [⟨⟨0, 0⟩, .creation, 0⟩, ⟨⟨2/5, 0⟩, .creation, 1⟩, ⟨⟨1, 0⟩, .annihilation, 1⟩]

theorem toyOps_ok : OpsOK toyEnv.beta toyOps := by
  constructor
  · unfold OpSet.Sorted; decide +kernel
  · decide +kernel

theorem toyOps'_ok : OpsOK toyEnv.beta toyOps' := by
  constructor
  · unfold OpSet.Sorted; decide +kernel
  · decide +kernel

/-- The history used below: two windows, one step to the left, a change inside the window
`[1/4, 3/4]`, then one window only, for the measurement. -/
example : ∃ s0 s, initStacks toyEnv 2 toyOps 0 0 0 false = some s0 ∧
    Reach toyEnv (s0, toyOps) (s, toyOps') ∧ s.n = 3 ∧ s.posR = 2 ∧ s.posL = 4 ∧
    computeTrace toyEnv toyOps' s = some (fullTrace toyEnv toyOps') := by
  obtain ⟨s0, e0, hi, hn0, hr0, hl0⟩ :=
    init_inv (V := toyEnv) 2 (by norm_num) toyOps toyOps_ok 0 0 0 false
  have hb : (0 : ℚ) ≤ toyEnv.beta := by simp [toyEnv]
  obtain ⟨s1, e1, k1, n1, p1, w1⟩ := moveNext_ok hi.caches (show 1 ≤ s0.n by omega)
    (show s0.posL = s0.posR + 2 by omega)
  have hd : s1.posR = 1 := by
    have := congrArg Prod.fst p1
    simp only [stepPos, hn0, hr0, hl0] at this
    cases hdir : s0.dirLeft <;> simp [hdir] at this <;> exact this
  obtain ⟨s2, e2, k2, n2, a2, b2⟩ :=
    setWindowSize_ok (V := toyEnv) k1 toyOps' 3 2 true
  have r1 : Reach toyEnv (s0, toyOps) (s1, toyOps) :=
    Reach.step _ _ SWAct.next Reach.refl (by show s0.posL = s0.posR + 2; omega)
      (by simp [SWAct.exec, e1])
  have hso : SameOutside toyEnv.beta s1 toyOps toyOps' := by
    intro o ho
    have hn' : s1.n = 2 := by rw [n1]; exact hn0
    rw [hn', w1, hd] at ho
    have ea : tauEdge toyEnv.beta 2 1 = 1 / 4 := by norm_num [tauEdge, toyEnv]
    have eb : tauEdge toyEnv.beta 2 3 = 3 / 4 := by norm_num [tauEdge, toyEnv]
    rw [ea, eb] at ho
    simp only [toyOps, toyOps', List.mem_cons, List.not_mem_nil, or_false]
    constructor
    · rintro (h | h | h | h)
      · exact Or.inl h
      · subst h; simp [opT, OpTime.lt_def] at ho; norm_num at ho
      · subst h; simp [opT, OpTime.lt_def] at ho; norm_num at ho
      · exact Or.inr (Or.inr h)
    · rintro (h | h | h)
      · exact Or.inl h
      · subst h; simp [opT, OpTime.lt_def] at ho; norm_num at ho
      · exact Or.inr (Or.inr (Or.inr h))
  have r2 : Reach toyEnv (s0, toyOps) (s1, toyOps') :=
    Reach.step _ _ (SWAct.change toyOps') r1 ⟨toyOps'_ok, hso⟩ rfl
  have r3 : Reach toyEnv (s0, toyOps) (s2, toyOps') :=
    Reach.step _ _ (SWAct.setSize 3 2 true) r2 (by simp [SWAct.allowed]) (by simp [SWAct.exec, e2])
  have h2 := a2 (by norm_num)
  refine ⟨s0, s2, e0, r3, n2, h2.1, by omega, ?_⟩
  exact C22_trace_window_independent toyEvol_lawful hb 2 (by norm_num) toyOps toyOps_ok 0 0 0 false
    s0 e0 s2 toyOps' r3

/-- The value is not trivial: the trace of the four operators. -/
example : fullTrace toyEnv toyOps = 1333 / 24 ∧ fullTrace toyEnv toyOps' ≠ fullTrace toyEnv toyOps := by
  constructor <;> decide +kernel

example : (initStacks toyEnv 3 toyOps 0 0 0 false).bind (fun s => (iterOpt (moveNext toyEnv toyOps) 3 s).bind
    (computeTrace toyEnv toyOps)) = some (fullTrace toyEnv toyOps) := by decide +kernel

/-- C24 on three windows: right edges during one sweep of `2(2n-2) = 8` steps. -/
example : (List.range 9).map (fun m => (initStacks toyEnv 3 toyOps 0 0 0 false).bind
    (fun s => (iterOpt (moveNext toyEnv toyOps) m s).map (·.posR))) =
    [0, 1, 2, 3, 4, 3, 2, 1, 0].map some := by decide +kernel

/-- C23: the wrong right edge if a state with one window and right edge not at 0 were saved: the
hypothesis of `C23_restore` is needed. -/
theorem C23_one_window_counterexample : ∃ s s' s'' : SWState (ℚ × ℚ) (ℚ × ℚ) (Fin 2),
    initStacks toyEnv 1 toyOps 0 0 0 false = some s ∧
    moveRightTo toyEnv toyOps 1 s = some s' ∧
    restoreState toyEnv toyOps (getState s') s' = some s'' ∧ s''.posR ≠ s'.posR := by
  obtain ⟨s, e, hi, hn, hr, hl⟩ :=
    init_inv (V := toyEnv) 1 (by norm_num) toyOps toyOps_ok 0 0 0 false
  obtain ⟨s', e', k', n', l', r', -⟩ := moveRightTo_ok hi.caches 1
  obtain ⟨s'', e'', k'', n'', l'', -, b''⟩ := restoreState_ok k' toyOps (getState s') k'.posL
  refine ⟨s, s', s'', e, e', e'', ?_⟩
  have h1 : s''.posR = 0 := b'' (by show s'.n < 2; have : s'.n = s.n := n'; omega)
  omega

end CTHyb
