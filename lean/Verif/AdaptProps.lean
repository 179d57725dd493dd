import Verif.Adapt
import Verif.ChecksProps
import Verif.HistogramProps
import Verif.ShiftMoveProps

/-!
C74: the adaptation of the random walk.  Before thermalization the number of windows follows the mean of the last hundred expansion
orders and the largest steps of the shifts stay within fixed limits; afterwards nothing is adapted any more, except for the weights of
the worm spaces, which change once when all processes are thermalized.  The printed acceptance rate is the ratio of all accepted to all
valid moves of an updater since the construction of the simulation.

The specification consists of `ordersBefore`, `movesOf` and the two numbers counted with them; it does not refer to the state.
-/

namespace CTHyb

/-! ### Specification -/

/-- **Specification.**  The expansion orders at the ends of the iterations before the time for thermalization was over. -/
def ordersBefore : List AOp → List ℕ
  | [] => []
  | .timeOver :: _ => []
  | .step order _ :: l => order :: ordersBefore l
  | _ :: l => ordersBefore l

/-- **Specification.**  The attempts of an updater: whether a move was generated and whether it was accepted. -/
def movesOf (name : String) : List AOp → List (Bool × Bool)
  | [] => []
  | .move n _ valid accepted :: l => if n = name then (valid, accepted) :: movesOf name l else movesOf name l
  | _ :: l => movesOf name l

/-- **Specification.**  Number of valid moves. -/
def validMoves (name : String) (ops : List AOp) : ℕ := ((movesOf name ops).filter fun m => m.1).length

/-- **Specification.**  Number of accepted moves. -/
def acceptedMoves (name : String) (ops : List AOp) : ℕ := ((movesOf name ops).filter fun m => m.1 && m.2).length

/-- The operation is `prepare_for_measurement`. -/
def AOp.isPrepare : AOp → Bool
  | .prepare _ => true
  | _ => false

/-- The operation is a measurement. -/
def AOp.isMeasure : AOp → Bool
  | .measure _ => true
  | _ => false

/-- An operation that can occur: a flavor of the model, a worm space in use. -/
def AOp.allowed (p : AdaptParams) (w : WormParams) : AOp → Prop
  | .move _ (.shift _ f) _ _ => f < p.flavors
  | .adjust s => InSpaces w s
  | .visit s => InSpaces w s
  | .step _ s => InSpaces w s
  | _ => True

/-! ### Lemmas -/

theorem mapOpt_forall {α β : Type} (f : α → Option β) (P : α → Prop) (Q : β → Prop) (h : ∀ a b, P a → f a = some b → Q b) :
    ∀ l l', (∀ a ∈ l, P a) → mapOpt f l = some l' → ∀ b ∈ l', Q b := by
  intro l
  induction l with
  | nil => intro l' _ e; simp only [mapOpt, Option.some.injEq] at e; subst e; simp
  | cons a l ih =>
    intro l' hl e
    simp only [mapOpt, Option.bind_eq_some_iff, Option.map_eq_some_iff] at e
    obtain ⟨b, e1, l'', e2, rfl⟩ := e
    intro c hc
    rcases List.mem_cons.1 hc with rfl | hc
    · exact h a c (hl a (List.mem_cons_self ..)) e1
    · exact ih l'' (fun x hx => hl x (List.mem_cons_of_mem _ hx)) e2 c hc

theorem mapOpt_ok {α β : Type} (f : α → Option β) (l : List α) (h : ∀ a ∈ l, ∃ b, f a = some b) : ∃ l', mapOpt f l = some l' := by
  induction l with
  | nil => exact ⟨[], rfl⟩
  | cons a l ih =>
    obtain ⟨b, e⟩ := h a (List.mem_cons_self ..)
    obtain ⟨l', e'⟩ := ih fun x hx => h x (List.mem_cons_of_mem _ hx)
    exact ⟨b :: l', by simp [mapOpt, e, e']⟩

theorem mapOpt_map {α β γ : Type} (f : α → Option β) (g : α → γ) (g' : β → γ) (h : ∀ a b, f a = some b → g' b = g a) :
    ∀ l l', mapOpt f l = some l' → l'.map g' = l.map g := by
  intro l
  induction l with
  | nil => intro l' e; simp only [mapOpt, Option.some.injEq] at e; subst e; rfl
  | cons a l ih =>
    intro l' e
    simp only [mapOpt, Option.bind_eq_some_iff, Option.map_eq_some_iff] at e
    obtain ⟨b, e1, l'', e2, rfl⟩ := e
    rw [List.map_cons, List.map_cons, h a b e1, ih l'' e2]

/-- Induction over a history. -/
theorem runAdapt_cons (p : AdaptParams) (a : Adapt) (op : AOp) (ops : List AOp) :
    runAdapt p a (op :: ops) = (a.exec p op).bind fun a' => runAdapt p a' ops := by
  unfold runAdapt
  rw [List.foldl_cons, Option.bind_some]
  cases a.exec p op with
  | none =>
    rw [Option.bind_none]
    induction ops with
    | nil => rfl
    | cons o l ih => rw [List.foldl_cons, Option.bind_none]; exact ih
  | some a' => rfl

theorem runAdapt_append (p : AdaptParams) (ops : List AOp) : ∀ (a : Adapt) (ops' : List AOp),
    runAdapt p a (ops ++ ops') = (runAdapt p a ops).bind fun a' => runAdapt p a' ops' := by
  induction ops with
  | nil => intro a ops'; rfl
  | cons o l ih =>
    intro a ops'
    rw [List.cons_append, runAdapt_cons, runAdapt_cons]
    cases a.exec p o with
    | none => rfl
    | some a' => exact ih a' ops'

/-- An invariant of all operations holds after a history. -/
theorem runAdapt_inv (p : AdaptParams) (I : Adapt → Prop) (ok : AOp → Prop) (h : ∀ a op a', I a → ok op → a.exec p op = some a' → I a') :
    ∀ (ops : List AOp) (a a' : Adapt), I a → (∀ op ∈ ops, ok op) → runAdapt p a ops = some a' → I a' := by
  intro ops
  induction ops with
  | nil => intro a a' ha _ e; exact Option.some.inj e ▸ ha
  | cons o l ih =>
    intro a a' ha hok e
    rw [runAdapt_cons, Option.bind_eq_some_iff] at e
    obtain ⟨b, e1, e2⟩ := e
    exact ih b a' (h a o b ha (hok o (List.mem_cons_self ..)) e1) (fun x hx => hok x (List.mem_cons_of_mem _ hx)) e2

theorem record_parts (l : List String) : ∀ a : Adapt, (l.foldl Adapt.record a).orders = a.orders ∧
    (l.foldl Adapt.record a).nWin = a.nWin ∧ (l.foldl Adapt.record a).shift = a.shift ∧
    (l.foldl Adapt.record a).movers = a.movers ∧ (l.foldl Adapt.record a).tables = a.tables ∧
    (l.foldl Adapt.record a).thermalized = a.thermalized := by
  induction l with
  | nil => intro a; exact ⟨rfl, rfl, rfl, rfl, rfl, rfl⟩
  | cons n l ih => intro a; rw [List.foldl_cons]; exact ih (a.record n)

theorem measure_parts (p : AdaptParams) (a : Adapt) (s : Space) : (a.measure p s).orders = a.orders ∧
    (a.measure p s).nWin = a.nWin ∧ (a.measure p s).shift = { a.shift with opt := a.shift.opt.reset } ∧
    (a.measure p s).movers = a.movers ∧ (a.measure p s).tables = a.tables.measure.2 ∧
    (a.measure p s).thermalized = a.thermalized := by
  unfold Adapt.measure
  dsimp only
  obtain ⟨b1, b2, b3, b4, b5, b6⟩ := record_parts (p.bath ++ p.worm)
    { a with tables := a.tables.measure.2, shift := { a.shift with opt := a.shift.opt.reset } }
  split_ifs
  · obtain ⟨c1, c2, c3, c4, c5, c6⟩ := record_parts p.bath ((p.bath ++ p.worm).foldl Adapt.record
      { a with tables := a.tables.measure.2, shift := { a.shift with opt := a.shift.opt.reset } })
    exact ⟨c1.trans b1, c2.trans b2, c3.trans b3, c4.trans b4, c5.trans b5, c6.trans b6⟩
  · exact ⟨b1, b2, b3, b4, b5, b6⟩

theorem shift_callBack {u u' : ShiftU ℝ} {v acc : Bool} {d : ℝ} {f : ℕ} (e : u.callBack v acc d f = some u') :
    u' = u ∨ ∃ x o, u.opt.addSample d x f = some o ∧ u' = { u with opt := o } := by
  unfold ShiftU.callBack at e
  by_cases hv : v = true
  · rw [if_pos hv] at e
    obtain ⟨o, e1, rfl⟩ := Option.map_eq_some_iff.1 e
    exact Or.inr ⟨_, o, e1, rfl⟩
  · rw [if_neg hv] at e
    exact Or.inl (Option.some.inj e).symm

theorem mover_callBack {u u' : MoverU ℝ} {beta : ℝ} {v acc : Bool} {d : ℝ} (e : u.callBack beta v acc d = some u') :
    u' = u ∨ ∃ x y o, u.opt.addSample x y 0 = some o ∧ u' = { u with opt := o } := by
  unfold MoverU.callBack at e
  by_cases hv : v = true
  · rw [if_pos hv] at e
    obtain ⟨o, e1, rfl⟩ := Option.map_eq_some_iff.1 e
    exact Or.inr ⟨_, _, o, e1, rfl⟩
  · rw [if_neg hv] at e
    exact Or.inl (Option.some.inj e).symm

/-- What a move changes. -/
theorem move_parts {p : AdaptParams} {a a' : Adapt} {n : String} {u : AUpd} {v acc : Bool} (e : a.move p n u v acc = some a') :
    a'.orders = a.orders ∧ a'.nWin = a.nWin ∧ a'.tables = a.tables ∧ a'.thermalized = a.thermalized ∧
    a'.counters = Function.update a.counters n (finalizeUpdate (a.counters n) v acc) ∧ a'.samples = a.samples ∧
    a'.shift.maxDist = a.shift.maxDist ∧ a'.movers.map (fun e => (e.1, e.2.maxDist)) = a.movers.map (fun e => (e.1, e.2.maxDist)) := by
  cases u with
  | plain => simp only [Adapt.move, Option.some.injEq] at e; subst e; exact ⟨rfl, rfl, rfl, rfl, rfl, rfl, rfl, rfl⟩
  | shift d f =>
    simp only [Adapt.move, Option.map_eq_some_iff] at e
    obtain ⟨s', e1, rfl⟩ := e
    refine ⟨rfl, rfl, rfl, rfl, rfl, rfl, ?_, rfl⟩
    show s'.maxDist = _
    rcases shift_callBack e1 with rfl | ⟨_, o, -, rfl⟩ <;> rfl
  | mover s d =>
    simp only [Adapt.move, Option.map_eq_some_iff] at e
    obtain ⟨m, e1, rfl⟩ := e
    refine ⟨rfl, rfl, rfl, rfl, rfl, rfl, rfl, ?_⟩
    refine mapOpt_map _ _ _ ?_ _ _ e1
    intro x y hxy
    split_ifs at hxy
    · obtain ⟨q, hq, rfl⟩ := Option.map_eq_some_iff.1 hxy
      show (x.1, q.maxDist) = _
      rcases mover_callBack hq with rfl | ⟨_, _, o, -, rfl⟩ <;> rfl
    · rw [Option.some.inj hxy]

theorem updateMC_parts {p : AdaptParams} {a a' : Adapt} {order : ℕ} (e : a.updateMC p order = some a') :
    a.thermalized = false ∧ a'.orders = pushHist a.orders (order : ℝ) ∧
    a'.nWin = nWinStandard p.winMin p.winMax (a'.orders.sum / a'.orders.length) p.flavors ∧
    a.shift.updateParams = some a'.shift ∧
    mapOpt (fun e : Space × MoverU ℝ => e.2.updateParams.map fun u => (e.1, u)) a.movers = some a'.movers ∧
    a'.tables = a.tables ∧ a'.thermalized = a.thermalized ∧ a'.counters = a.counters ∧ a'.samples = a.samples := by
  unfold Adapt.updateMC at e
  split_ifs at e with h
  simp only [Option.bind_eq_some_iff, Option.map_eq_some_iff] at e
  obtain ⟨sh, e1, mv, e2, rfl⟩ := e
  exact ⟨by simpa using h, rfl, rfl, e1, e2, rfl, rfl, rfl, rfl⟩

/-! ### The number of windows -/

theorem pushHist_last (h : List ℝ) (hl : h.length ≤ 100) (x : ℝ) :
    pushHist h x = (h ++ [x]).drop ((h ++ [x]).length - 100) := by
  unfold pushHist
  dsimp only
  simp only [List.length_append, List.length_singleton]
  split_ifs with c
  · congr 1; omega
  · rw [show h.length + 1 - 100 = 0 by omega, List.drop_zero]

theorem exec_orders {p : AdaptParams} {a a' : Adapt} {op : AOp} (e : a.exec p op = some a') :
    (∀ o s, op = .step o s → a.thermalized = true → a'.orders = a.orders ∧ a'.nWin = a.nWin ∧ a'.thermalized = true) ∧
    (∀ o s, op = .step o s → a.thermalized = false → a'.orders = pushHist a.orders (o : ℝ) ∧
      a'.nWin = nWinStandard p.winMin p.winMax (a'.orders.sum / a'.orders.length) p.flavors ∧ a'.thermalized = false) ∧
    ((∀ o s, op ≠ .step o s) → a'.orders = a.orders ∧ a'.nWin = a.nWin ∧ (op ≠ .timeOver → a'.thermalized = a.thermalized)) ∧
    (op = .timeOver → a'.thermalized = true) := by
  cases op with
  | move n u v acc =>
    obtain ⟨h1, h2, -, h3, -⟩ := move_parts (show a.move p n u v acc = some a' from e)
    exact ⟨fun _ _ h => by simp at h, fun _ _ h => by simp at h, fun _ => ⟨h1, h2, fun _ => h3⟩, fun h => by simp at h⟩
  | adjust s =>
    simp only [Adapt.exec, Option.map_eq_some_iff] at e
    obtain ⟨t, -, rfl⟩ := e
    exact ⟨fun _ _ h => by simp at h, fun _ _ h => by simp at h, fun _ => ⟨rfl, rfl, fun _ => rfl⟩, fun h => by simp at h⟩
  | visit s =>
    simp only [Adapt.exec, Option.map_eq_some_iff] at e
    obtain ⟨t, -, rfl⟩ := e
    exact ⟨fun _ _ h => by simp at h, fun _ _ h => by simp at h, fun _ => ⟨rfl, rfl, fun _ => rfl⟩, fun h => by simp at h⟩
  | step o s =>
    simp only [Adapt.exec, Adapt.step] at e
    refine ⟨?_, ?_, fun h => absurd rfl (h o s), fun h => by simp at h⟩
    · intro o' s' _ ht
      rw [if_pos ht] at e
      obtain ⟨t, -, rfl⟩ := Option.map_eq_some_iff.1 e
      exact ⟨rfl, rfl, ht⟩
    · intro o' s' h ht
      rw [if_neg (by simp [ht])] at e
      obtain ⟨-, h1, h2, -, -, -, h3, -⟩ := updateMC_parts e
      rw [AOp.step.injEq] at h
      rw [← h.1]
      exact ⟨h1, h2, h3.trans ht⟩
  | timeOver =>
    simp only [Adapt.exec, Option.some.injEq] at e
    subst e
    exact ⟨fun _ _ h => by simp at h, fun _ _ h => by simp at h, fun _ => ⟨rfl, rfl, fun h => absurd rfl h⟩, fun _ => rfl⟩
  | prepare f =>
    simp only [Adapt.exec, Adapt.prepare, Option.map_eq_some_iff] at e
    obtain ⟨t, -, rfl⟩ := e
    exact ⟨fun _ _ h => by simp at h, fun _ _ h => by simp at h, fun _ => ⟨rfl, rfl, fun _ => rfl⟩, fun h => by simp at h⟩
  | measure s =>
    simp only [Adapt.exec, Option.some.injEq] at e
    subst e
    obtain ⟨h1, h2, -, -, -, h3⟩ := measure_parts p a s
    exact ⟨fun _ _ h => by simp at h, fun _ _ h => by simp at h, fun _ => ⟨h1, h2, fun _ => h3⟩, fun h => by simp at h⟩

theorem frozen_orders (p : AdaptParams) (ops : List AOp) (a a' : Adapt) (ht : a.thermalized = true)
    (e : runAdapt p a ops = some a') : a'.orders = a.orders ∧ a'.nWin = a.nWin ∧ a'.thermalized = true := by
  refine runAdapt_inv p (fun b => b.orders = a.orders ∧ b.nWin = a.nWin ∧ b.thermalized = true) (fun _ => True) ?_ ops a a'
    ⟨rfl, rfl, ht⟩ (fun _ _ => trivial) e
  rintro b op b' ⟨h1, h2, h3⟩ - eb
  obtain ⟨k1, -, k3, k4⟩ := exec_orders eb
  by_cases hs : ∃ o s, op = .step o s
  · obtain ⟨o, s, rfl⟩ := hs
    obtain ⟨q1, q2, q3⟩ := k1 o s rfl h3
    exact ⟨q1.trans h1, q2.trans h2, q3⟩
  · obtain ⟨q1, q2, q3⟩ := k3 fun o s h => hs ⟨o, s, h⟩
    refine ⟨q1.trans h1, q2.trans h2, ?_⟩
    by_cases ho : op = .timeOver
    · exact k4 ho
    · exact (q3 ho).trans h3

theorem orders_run (p : AdaptParams) : ∀ (ops : List AOp) (a a' : Adapt), a.thermalized = false → a.orders.length ≤ 100 →
    runAdapt p a ops = some a' →
    a'.orders = (a.orders ++ (ordersBefore ops).map fun k : ℕ => (k : ℝ)).drop ((a.orders.length + (ordersBefore ops).length) - 100) ∧
    a'.nWin = (if ordersBefore ops = [] then a.nWin
      else nWinStandard p.winMin p.winMax (a'.orders.sum / a'.orders.length) p.flavors) := by
  intro ops
  induction ops with
  | nil =>
    intro a a' _ hl e
    rw [show a' = a from (Option.some.inj e).symm]
    simp only [ordersBefore, List.map_nil, List.append_nil, List.length_nil, Nat.add_zero, if_true]
    exact ⟨by rw [show a.orders.length - 100 = 0 by omega, List.drop_zero], trivial⟩
  | cons op l ih =>
    intro a a' ht hl e
    rw [runAdapt_cons, Option.bind_eq_some_iff] at e
    obtain ⟨b, e1, e2⟩ := e
    obtain ⟨-, k2, k3, k4⟩ := exec_orders e1
    by_cases hs : ∃ o s, op = .step o s
    · obtain ⟨o, s, rfl⟩ := hs
      obtain ⟨q1, q2, q3⟩ := k2 o s rfl ht
      have hb : b.orders = (a.orders ++ [(o : ℝ)]).drop ((a.orders ++ [(o : ℝ)]).length - 100) := q1.trans (pushHist_last _ hl _)
      have hbl : b.orders.length ≤ 100 := by rw [hb, List.length_drop]; omega
      obtain ⟨r1, r2⟩ := ih b a' q3 hbl e2
      rw [show ordersBefore (AOp.step o s :: l) = o :: ordersBefore l from rfl]
      refine ⟨?_, ?_⟩
      · rw [r1, hb]
        simp only [List.length_drop, List.length_append, List.length_singleton, List.map_cons, List.length_cons, List.length_nil]
        rw [show a.orders ++ (o : ℝ) :: (ordersBefore l).map (fun k : ℕ => (k : ℝ)) =
          (a.orders ++ [(o : ℝ)]) ++ (ordersBefore l).map (fun k : ℕ => (k : ℝ)) by simp,
          ← List.drop_append_of_le_length (by simp; omega), List.drop_drop]
        congr 1
        omega
      · rw [if_neg (by simp), r2]
        split_ifs with hn
        · rw [q2]
          have : a'.orders = b.orders := by
            rw [r1, hn]
            simp only [List.map_nil, List.append_nil, List.length_nil, Nat.add_zero]
            rw [show b.orders.length - 100 = 0 by omega, List.drop_zero]
          rw [this]
        · rfl
    · obtain ⟨q1, q2, q3⟩ := k3 fun o s h => hs ⟨o, s, h⟩
      by_cases ho : op = .timeOver
      · subst ho
        obtain ⟨r1, r2, -⟩ := frozen_orders p l b a' (k4 rfl) e2
        simp only [ordersBefore, List.map_nil, List.append_nil, List.length_nil, Nat.add_zero, if_true]
        exact ⟨by rw [show a.orders.length - 100 = 0 by omega, List.drop_zero, r1, q1], r2.trans q2⟩
      · obtain ⟨r1, r2⟩ := ih b a' ((q3 ho).trans ht) (by rw [q1]; exact hl) e2
        have : ordersBefore (op :: l) = ordersBefore l := by
          cases op with
          | step o s => exact absurd ⟨o, s, rfl⟩ hs
          | timeOver => exact absurd rfl ho
          | _ => rfl
        rw [this, ← q1, ← q2]
        exact ⟨r1, r2⟩

/-- **C74 (number of windows).**  In a process in which no simulation has run before, the number of windows at any time is one before
the first iteration ends, and then the mean of the last at most hundred expansion orders seen before the time for thermalization was
over, divided by the number of flavors, rounded up and limited by the two parameters; it does not change afterwards. -/
theorem C74_windows (p : AdaptParams) (t : WormTables) (ops : List AOp) (a : Adapt)
    (e : runAdapt p (Adapt.init p [] t) ops = some a) :
    a.nWin = if ordersBefore ops = [] then 1 else
      nWinStandard p.winMin p.winMax
        ((((ordersBefore ops).drop ((ordersBefore ops).length - 100)).sum : ℝ) /
          ((ordersBefore ops).drop ((ordersBefore ops).length - 100)).length) p.flavors := by
  obtain ⟨h1, h2⟩ := orders_run p ops _ a rfl (Nat.zero_le _) e
  rw [h2]
  show (if _ then (1 : ℤ) else _) = _
  have h1' : a.orders = ((ordersBefore ops).drop ((ordersBefore ops).length - 100)).map fun k : ℕ => (k : ℝ) := by
    rw [h1, List.map_drop]
    show List.drop (0 + _ - 100) ([] ++ _) = _
    rw [Nat.zero_add, List.nil_append]
  rw [h1', List.length_map, Nat.cast_list_sum]

/-! ### The largest steps -/

/-- **Specification.**  A length between a bin and seven tenths of `β`. -/
def stepBounds (beta : ℝ) (bins : ℕ) (d : ℝ) : Prop := beta / 2 / bins ≤ d ∧ 0 < d ∧ d ≤ 7 / 10 * beta

/-- State of an optimizer. -/
structure OptOK (beta : ℝ) (flavors bins : ℕ) (o : StepOpt ℝ) : Prop where
  maxVal : o.maxVal = 1 / 2 * beta
  numBins : o.numBins = bins
  len : o.hists.length = flavors
  cutLen : o.cut.length = flavors
  hist : ∀ h ∈ o.hists, h.maxVal = 1 / 2 * beta
  cut : ∀ d ∈ o.cut, 0 < d ∧ d ≤ 7 / 10 * beta

theorem OptOK.init (beta : ℝ) (hb : 0 < beta) (flavors bins : ℕ) :
    OptOK beta flavors bins (StepOpt.init bins (1 / 2 * beta) flavors (1 / 2 * beta)) where
  maxVal := rfl
  numBins := rfl
  len := List.length_replicate
  cutLen := List.length_replicate
  hist := fun h hh => by rw [List.eq_of_mem_replicate hh]; rfl
  cut := fun d hd => by rw [List.eq_of_mem_replicate hd]; constructor <;> linarith

theorem OptOK.reset {beta : ℝ} {flavors bins : ℕ} {o : StepOpt ℝ} (h : OptOK beta flavors bins o) : OptOK beta flavors bins o.reset where
  maxVal := h.maxVal
  numBins := h.numBins
  len := by rw [← h.len]; exact List.length_map _
  cutLen := h.cutLen
  hist := fun x hx => by
    obtain ⟨y, hy, rfl⟩ := List.mem_map.1 hx
    exact h.hist y hy
  cut := h.cut

theorem addSample_maxVal (h : Hist ℝ) (d v : ℝ) : (h.addSample d v).1.maxVal = h.maxVal := by
  unfold Hist.addSample
  dsimp only
  split_ifs <;> rfl

theorem OptOK.addSample {beta : ℝ} {flavors bins : ℕ} {o o' : StepOpt ℝ} (h : OptOK beta flavors bins o) {d v : ℝ} {f : ℕ}
    (e : o.addSample d v f = some o') : OptOK beta flavors bins o' := by
  unfold StepOpt.addSample at e
  split_ifs at e
  rw [← Option.some.inj e]
  refine ⟨h.maxVal, h.numBins, by rw [← h.len]; exact List.length_modify .., h.cutLen, ?_, h.cut⟩
  intro x hx
  obtain ⟨i, hi, rfl⟩ := List.getElem_of_mem hx
  simp only [List.length_modify] at hi
  simp only [List.getElem_modify]
  split_ifs
  · rw [addSample_maxVal]; exact h.hist _ (List.getElem_mem _)
  · exact h.hist _ (List.getElem_mem _)

theorem optUpdate_length {hs : List (Hist ℝ)} {cut cut' : List ℝ} {mv r m v : ℝ} {n : ℕ}
    (e : optUpdate hs cut mv n r m = some (cut', v)) : cut'.length = min hs.length cut.length := by
  unfold optUpdate at e
  dsimp only at e
  split at e
  · cases e
  · rename_i d ds heq
    rw [Option.some.injEq, Prod.mk.injEq] at e
    rw [← e.1, List.length_zipWith]

theorem optUpdate_some {hs : List (Hist ℝ)} {cut : List ℝ} (mv r m : ℝ) (n : ℕ) (h : 0 < hs.length) (h' : 0 < cut.length) :
    ∃ q, optUpdate hs cut mv n r m = some q := by
  unfold optUpdate
  dsimp only
  split
  · rename_i heq
    have := congrArg List.length heq
    rw [List.length_zipWith, List.length_nil] at this
    omega
  · exact ⟨_, rfl⟩

/-- One call of `update_cutoff`. -/
theorem OptOK.update {beta : ℝ} (hb : 0 < beta) {flavors bins : ℕ} (hbins : 0 < bins) {o : StepOpt ℝ} (h : OptOK beta flavors bins o)
    {ratio : ℝ} {cut' : List ℝ} {v : ℝ} (e : optUpdate o.hists o.cut o.maxVal o.numBins ratio (105 / 100) = some (cut', v)) :
    OptOK beta flavors bins { o with cut := cut' } ∧ stepBounds beta bins v := by
  have hm : o.maxVal = 1 / 2 * beta := h.maxVal
  obtain ⟨h1, -, h3, h4, h5⟩ := C53_optimizer o.maxVal (7 / 10 * beta) ratio (105 / 100) o.numBins (by norm_num)
    (by rw [hm]; linarith) (by rw [hm]; linarith) o.hists (fun x hx => (h.hist x hx).trans hm.symm) o.cut cut' v h.cut e
  have hbin : (1 : ℝ) ≤ bins := by exact_mod_cast hbins
  rw [hm, h.numBins] at h3 h5
  have hle : 1 / 2 * beta / (bins : ℝ) ≤ 7 / 10 * beta := by
    rw [div_le_iff₀ (by linarith)]
    nlinarith
  refine ⟨⟨hm, h.numBins, h.len, ?_, h.hist, h1⟩, ?_, h4, ?_⟩
  · show cut'.length = _
    rw [optUpdate_length e, h.len, h.cutLen, min_self]
  · rw [show beta / 2 = 1 / 2 * beta by ring]; exact h3
  · exact h5.trans (max_le le_rfl hle)

theorem OptOK.updates {beta : ℝ} (hb : 0 < beta) {flavors bins : ℕ} (hbins : 0 < bins) :
    ∀ (n : ℕ) (o : StepOpt ℝ), OptOK beta flavors bins o → ∀ r, shiftUpdateParams o.hists o.maxVal o.numBins n o.cut = some r →
    OptOK beta flavors bins { o with cut := r.1 } ∧ r.2.length = n ∧ ∀ d ∈ r.2, stepBounds beta bins d := by
  intro n
  induction n with
  | zero =>
    intro o h r e
    simp only [shiftUpdateParams, Option.some.injEq] at e
    subst e
    exact ⟨h, rfl, fun d hd => by simp at hd⟩
  | succ n ih =>
    intro o h r e
    simp only [shiftUpdateParams] at e
    split at e
    · cases e
    · rename_i cut' d h1
      obtain ⟨a1, a2⟩ := h.update hb hbins h1
      split at e
      · cases e
      · rename_i cut'' ds h2
        obtain ⟨b1, b2, b3⟩ := ih { o with cut := cut' } a1 (cut'', ds) h2
        rw [← Option.some.inj e]
        refine ⟨b1, by rw [List.length_cons, b2], ?_⟩
        intro x hx
        rcases List.mem_cons.1 hx with rfl | hx
        · exact a2
        · exact b3 x hx

theorem updates_some (hs : List (Hist ℝ)) (mv : ℝ) (bins : ℕ) (hl : 0 < hs.length) : ∀ (n : ℕ) (cut : List ℝ), 0 < cut.length →
    ∃ r, shiftUpdateParams hs mv bins n cut = some r := by
  intro n
  induction n with
  | zero => intro cut _; exact ⟨_, rfl⟩
  | succ n ih =>
    intro cut hc
    obtain ⟨⟨c', v⟩, e⟩ := optUpdate_some (hs := hs) (cut := cut) mv (1 / 100) (105 / 100) bins hl hc
    obtain ⟨⟨c'', ds⟩, e'⟩ := ih c' (by rw [optUpdate_length e]; omega)
    exact ⟨(c'', v :: ds), by simp only [shiftUpdateParams, e, e']⟩

/-- The state of the adaptive updaters. -/
structure UpdOK (p : AdaptParams) (a : Adapt) : Prop where
  opt : OptOK p.beta p.flavors p.nTau a.shift.opt
  len : a.shift.maxDist.length = p.flavors
  dist : ∀ d ∈ a.shift.maxDist, stepBounds p.beta p.nTau d
  mover : ∀ e ∈ a.movers, OptOK p.beta 1 100 e.2.opt ∧ stepBounds p.beta 100 e.2.maxDist

theorem stepBounds_init (beta : ℝ) (hb : 0 < beta) (bins : ℕ) (h : 0 < bins) : stepBounds beta bins (1 / 2 * beta) := by
  have hbin : (1 : ℝ) ≤ bins := by exact_mod_cast h
  refine ⟨?_, by linarith, by linarith⟩
  rw [div_le_iff₀ (by linarith)]
  nlinarith

theorem UpdOK.init (p : AdaptParams) (hb : 0 < p.beta) (hn : 0 < p.nTau) (h : List ℝ) (t : WormTables) : UpdOK p (Adapt.init p h t) where
  opt := OptOK.init p.beta hb p.flavors p.nTau
  len := List.length_replicate
  dist := fun d hd => by rw [List.eq_of_mem_replicate hd]; exact stepBounds_init p.beta hb p.nTau hn
  mover := fun e he => by
    obtain ⟨x, -, rfl⟩ := List.mem_map.1 he
    exact ⟨OptOK.init p.beta hb 1 100, stepBounds_init p.beta hb 100 (by norm_num)⟩

theorem UpdOK.exec {p : AdaptParams} (hb : 0 < p.beta) (hn : 0 < p.nTau) {a a' : Adapt} {op : AOp} (h : UpdOK p a)
    (e : a.exec p op = some a') : UpdOK p a' := by
  cases op with
  | move n u v acc =>
    have e' : a.move p n u v acc = some a' := e
    cases u with
    | plain => simp only [Adapt.move, Option.some.injEq] at e'; subst e'; exact ⟨h.opt, h.len, h.dist, h.mover⟩
    | shift d f =>
      simp only [Adapt.move, Option.map_eq_some_iff] at e'
      obtain ⟨s', e1, rfl⟩ := e'
      rcases shift_callBack e1 with rfl | ⟨_, o, e2, rfl⟩
      · exact ⟨h.opt, h.len, h.dist, h.mover⟩
      · exact ⟨h.opt.addSample e2, h.len, h.dist, h.mover⟩
    | mover s d =>
      simp only [Adapt.move, Option.map_eq_some_iff] at e'
      obtain ⟨m, e1, rfl⟩ := e'
      refine ⟨h.opt, h.len, h.dist, ?_⟩
      refine mapOpt_forall _ (fun x : Space × MoverU ℝ => OptOK p.beta 1 100 x.2.opt ∧ stepBounds p.beta 100 x.2.maxDist)
        (fun x : Space × MoverU ℝ => OptOK p.beta 1 100 x.2.opt ∧ stepBounds p.beta 100 x.2.maxDist) ?_ _ _ h.mover e1
      intro x y hx hxy
      split_ifs at hxy with c
      · obtain ⟨q, hq, rfl⟩ := Option.map_eq_some_iff.1 hxy
        rcases mover_callBack hq with rfl | ⟨_, _, o, e2, rfl⟩
        · exact hx
        · exact ⟨hx.1.addSample e2, hx.2⟩
      · rw [← Option.some.inj hxy]; exact hx
  | adjust s =>
    simp only [Adapt.exec, Option.map_eq_some_iff] at e
    obtain ⟨t, -, rfl⟩ := e
    exact ⟨h.opt, h.len, h.dist, h.mover⟩
  | visit s =>
    simp only [Adapt.exec, Option.map_eq_some_iff] at e
    obtain ⟨t, -, rfl⟩ := e
    exact ⟨h.opt, h.len, h.dist, h.mover⟩
  | step o s =>
    simp only [Adapt.exec, Adapt.step] at e
    split_ifs at e
    · obtain ⟨t, -, rfl⟩ := Option.map_eq_some_iff.1 e
      exact ⟨h.opt, h.len, h.dist, h.mover⟩
    · obtain ⟨-, -, -, e1, e2, -⟩ := updateMC_parts e
      unfold ShiftU.updateParams at e1
      obtain ⟨r, e3, e4⟩ := Option.map_eq_some_iff.1 e1
      obtain ⟨c1, c2, c3⟩ := h.opt.updates hb hn _ _ r e3
      rw [h.len] at c2
      refine ⟨by rw [← e4]; exact c1, by rw [← e4]; exact c2, by rw [← e4]; exact c3, ?_⟩
      refine mapOpt_forall _ (fun x : Space × MoverU ℝ => OptOK p.beta 1 100 x.2.opt ∧ stepBounds p.beta 100 x.2.maxDist)
        (fun x : Space × MoverU ℝ => OptOK p.beta 1 100 x.2.opt ∧ stepBounds p.beta 100 x.2.maxDist) ?_ _ _ h.mover e2
      intro x y hx hxy
      obtain ⟨q, hq, rfl⟩ := Option.map_eq_some_iff.1 hxy
      unfold MoverU.updateParams at hq
      obtain ⟨⟨r1, r2⟩, e5, rfl⟩ := Option.map_eq_some_iff.1 hq
      exact hx.1.update hb (by norm_num) e5
  | timeOver =>
    simp only [Adapt.exec, Option.some.injEq] at e
    subst e
    exact ⟨h.opt, h.len, h.dist, h.mover⟩
  | prepare f =>
    simp only [Adapt.exec, Adapt.prepare, Option.map_eq_some_iff] at e
    obtain ⟨t, -, rfl⟩ := e
    refine ⟨h.opt.reset, h.len, h.dist, ?_⟩
    intro x hx
    obtain ⟨y, hy, rfl⟩ := List.mem_map.1 hx
    exact ⟨(h.mover y hy).1.reset, (h.mover y hy).2⟩
  | measure s =>
    simp only [Adapt.exec, Option.some.injEq] at e
    subst e
    obtain ⟨-, -, h3, h4, -⟩ := measure_parts p a s
    exact ⟨by rw [h3]; exact h.opt.reset, by rw [h3]; exact h.len, by rw [h3]; exact h.dist, by rw [h4]; exact h.mover⟩

/-- **C74 (largest steps).**  At any time the largest step of the single-operator shift of every flavor lies between the width of a bin
and `0.7 β`, and so does that of every mover of the worm with its hundred bins; there is one value for each flavor. -/
theorem C74_steps (p : AdaptParams) (hb : 0 < p.beta) (hn : 0 < p.nTau) (h : List ℝ) (t : WormTables) (ops : List AOp) (a : Adapt)
    (e : runAdapt p (Adapt.init p h t) ops = some a) :
    a.shift.maxDist.length = p.flavors ∧ (∀ d ∈ a.shift.maxDist, stepBounds p.beta p.nTau d) ∧
      ∀ m ∈ a.movers, stepBounds p.beta 100 m.2.maxDist := by
  have := runAdapt_inv p (UpdOK p) (fun _ => True) (fun b op b' hb' _ eb => hb'.exec hb hn eb) ops _ a (UpdOK.init p hb hn h t)
    (fun _ _ => trivial) e
  exact ⟨this.len, this.dist, fun m hm => (this.mover m hm).2⟩

/-! ### After thermalization -/

theorem everyStep_weights {t t' : WormTables} {s : Space} (e : t.everyStep s = some t') : t'.weight = t.weight ∧ t'.wmap = t.wmap := by
  unfold WormTables.everyStep at e
  split_ifs at e
  obtain ⟨n, -, rfl⟩ := Option.map_eq_some_iff.1 e
  exact ⟨rfl, rfl⟩

theorem visit_weights {t t' : WormTables} {s : Space} {th : Bool} (e : t.visit th s = some t') :
    t'.weight = t.weight ∧ t'.wmap = t.wmap := by
  unfold WormTables.visit at e
  split_ifs at e
  · obtain ⟨n, -, rfl⟩ := Option.map_eq_some_iff.1 e
    exact ⟨rfl, rfl⟩
  · rw [Option.some.inj e]; exact ⟨rfl, rfl⟩

theorem adjust_thermalized {t t' : WormTables} {s : Space} (e : t.adjust true s = some t') : t' = t := by
  unfold WormTables.adjust at e
  split at e
  · exact (Option.some.inj e).symm
  · rw [if_pos rfl] at e; exact (Option.some.inj e).symm

theorem exec_frozen {p : AdaptParams} {a a' : Adapt} {op : AOp} (ht : a.thermalized = true) (e : a.exec p op = some a') :
    a'.thermalized = true ∧ a'.nWin = a.nWin ∧ a'.shift.maxDist = a.shift.maxDist ∧
    a'.movers.map (fun e => (e.1, e.2.maxDist)) = a.movers.map (fun e => (e.1, e.2.maxDist)) ∧
    (op.isPrepare = false → a'.tables.weight = a.tables.weight ∧ a'.tables.wmap = a.tables.wmap) := by
  cases op with
  | move n u v acc =>
    obtain ⟨-, h1, h2, h3, -, -, h4, h5⟩ := move_parts (show a.move p n u v acc = some a' from e)
    exact ⟨h3.trans ht, h1, h4, h5, fun _ => by rw [h2]; exact ⟨rfl, rfl⟩⟩
  | adjust s =>
    simp only [Adapt.exec, Option.map_eq_some_iff] at e
    obtain ⟨t, e1, rfl⟩ := e
    rw [ht] at e1
    exact ⟨ht, rfl, rfl, rfl, fun _ => by rw [adjust_thermalized e1]; exact ⟨rfl, rfl⟩⟩
  | visit s =>
    simp only [Adapt.exec, Option.map_eq_some_iff] at e
    obtain ⟨t, e1, rfl⟩ := e
    exact ⟨ht, rfl, rfl, rfl, fun _ => visit_weights e1⟩
  | step o s =>
    simp only [Adapt.exec, Adapt.step] at e
    rw [if_pos ht] at e
    obtain ⟨t, e1, rfl⟩ := Option.map_eq_some_iff.1 e
    exact ⟨ht, rfl, rfl, rfl, fun _ => everyStep_weights e1⟩
  | timeOver =>
    simp only [Adapt.exec, Option.some.injEq] at e
    subst e
    exact ⟨rfl, rfl, rfl, rfl, fun _ => ⟨rfl, rfl⟩⟩
  | prepare f =>
    simp only [Adapt.exec, Adapt.prepare, Option.map_eq_some_iff] at e
    obtain ⟨t, -, rfl⟩ := e
    exact ⟨ht, rfl, rfl, by simp [List.map_map, Function.comp_def], fun h => by simp [AOp.isPrepare] at h⟩
  | measure s =>
    simp only [Adapt.exec, Option.some.injEq] at e
    subst e
    obtain ⟨-, h1, h2, h3, h4, h5⟩ := measure_parts p a s
    exact ⟨h5.trans ht, h1, by rw [h2], by rw [h3], fun _ => by rw [h4]; exact ⟨rfl, rfl⟩⟩

/-- **C74 (frozen).**  Once the time for thermalization is over, whatever happens: the number of windows and the largest steps of all
updaters keep their values, and the weights of the worm spaces change only in `prepare_for_measurement`. -/
theorem C74_frozen (p : AdaptParams) (a a' : Adapt) (ops : List AOp) (ht : a.thermalized = true) (e : runAdapt p a ops = some a') :
    a'.nWin = a.nWin ∧ a'.shift.maxDist = a.shift.maxDist ∧
    a'.movers.map (fun e => (e.1, e.2.maxDist)) = a.movers.map (fun e => (e.1, e.2.maxDist)) ∧
    ((∀ op ∈ ops, op.isPrepare = false) → a'.tables.weight = a.tables.weight ∧ a'.tables.wmap = a.tables.wmap) := by
  have h1 := runAdapt_inv p (fun b => b.thermalized = true ∧ b.nWin = a.nWin ∧ b.shift.maxDist = a.shift.maxDist ∧
    b.movers.map (fun e => (e.1, e.2.maxDist)) = a.movers.map (fun e => (e.1, e.2.maxDist))) (fun _ => True) (by
      rintro b op b' ⟨k1, k2, k3, k4⟩ - eb
      obtain ⟨q1, q2, q3, q4, -⟩ := exec_frozen k1 eb
      exact ⟨q1, q2.trans k2, q3.trans k3, q4.trans k4⟩) ops a a' ⟨ht, rfl, rfl, rfl⟩ (fun _ _ => trivial) e
  refine ⟨h1.2.1, h1.2.2.1, h1.2.2.2, fun hp => ?_⟩
  exact (runAdapt_inv p (fun b => b.thermalized = true ∧ b.tables.weight = a.tables.weight ∧ b.tables.wmap = a.tables.wmap)
    (fun op => op.isPrepare = false) (by
      rintro b op b' ⟨k1, k2, k3⟩ hop eb
      obtain ⟨q1, -, -, -, q5⟩ := exec_frozen k1 eb
      exact ⟨q1, (q5 hop).1.trans k2, (q5 hop).2.trans k3⟩) ops a a' ⟨ht, rfl, rfl⟩ hp e).2

/-! ### Nothing fails -/

/-- What happens to the tables of worm spaces. -/
def tablesOps : Bool → List AOp → List TOp
  | _, [] => []
  | th, .adjust s :: l => .adjust th s :: tablesOps th l
  | th, .visit s :: l => .visit th s :: tablesOps th l
  | th, .step _ s :: l => if th then .step s :: tablesOps th l else tablesOps th l
  | _, .timeOver :: l => tablesOps true l
  | th, .prepare f :: l => .prepare f :: tablesOps th l
  | th, .measure _ :: l => .measure :: tablesOps th l
  | th, .move _ _ _ _ :: l => tablesOps th l

theorem runTables_cons (t : WormTables) (op : TOp) (ops : List TOp) :
    runTables t (op :: ops) = (t.exec op).bind fun t' => runTables t' ops := by
  unfold runTables
  rw [List.foldl_cons, Option.bind_some]
  cases t.exec op with
  | none =>
    rw [Option.bind_none]
    induction ops with
    | nil => rfl
    | cons o l ih => rw [List.foldl_cons, Option.bind_none]; exact ih
  | some t' => rfl

theorem addSample_some (o : StepOpt ℝ) (d v : ℝ) (f : ℕ) (h : f < o.hists.length) : ∃ o', o.addSample d v f = some o' := by
  unfold StepOpt.addSample
  rw [if_pos h]
  exact ⟨_, rfl⟩

theorem move_some {p : AdaptParams} {w : WormParams} {a : Adapt} (h : UpdOK p a) (n : String) (u : AUpd) (v acc : Bool)
    (ha : (AOp.move n u v acc).allowed p w) : ∃ a', a.move p n u v acc = some a' := by
  cases u with
  | plain => exact ⟨_, rfl⟩
  | shift d f =>
    have hf : f < a.shift.opt.hists.length := by rw [h.opt.len]; exact ha
    have : ∃ s, a.shift.callBack v acc d f = some s := by
      unfold ShiftU.callBack
      by_cases hv : v = true
      · obtain ⟨o, e⟩ := addSample_some a.shift.opt d (if acc then 1 else 0) f hf
        rw [if_pos hv, e]; exact ⟨_, rfl⟩
      · rw [if_neg hv]; exact ⟨_, rfl⟩
    obtain ⟨s, e⟩ := this
    exact ⟨{ a with counters := Function.update a.counters n (finalizeUpdate (a.counters n) v acc), shift := s }, by
      simp only [Adapt.move, e, Option.map_some]⟩
  | mover s d =>
    have : ∃ m, mapOpt (fun e : Space × MoverU ℝ =>
        if e.1 = s then (e.2.callBack p.beta v acc d).map fun u => (e.1, u) else some e) a.movers = some m := by
      refine mapOpt_ok _ _ fun x hx => ?_
      split_ifs
      · unfold MoverU.callBack
        by_cases hv : v = true
        · obtain ⟨o, e⟩ := addSample_some x.2.opt (min d (p.beta - d)) (if acc then 1 else 0) 0 (by
            rw [(h.mover x hx).1.len]; exact Nat.one_pos)
          rw [if_pos hv, e]; exact ⟨_, rfl⟩
        · rw [if_neg hv]; exact ⟨_, rfl⟩
      · exact ⟨_, rfl⟩
    obtain ⟨m, e⟩ := this
    exact ⟨{ a with counters := Function.update a.counters n (finalizeUpdate (a.counters n) v acc), movers := m }, by
      simp only [Adapt.move, e, Option.map_some]⟩

theorem updateMC_some {p : AdaptParams} (hf : 0 < p.flavors) {a : Adapt} (h : UpdOK p a) (ht : a.thermalized = false) (o : ℕ) :
    ∃ a', a.updateMC p o = some a' := by
  obtain ⟨r, e1⟩ := updates_some a.shift.opt.hists a.shift.opt.maxVal a.shift.opt.numBins (by rw [h.opt.len]; exact hf)
    a.shift.maxDist.length a.shift.opt.cut (by rw [h.opt.cutLen]; exact hf)
  have : ∃ m, mapOpt (fun e : Space × MoverU ℝ => e.2.updateParams.map fun u => (e.1, u)) a.movers = some m := by
    refine mapOpt_ok _ _ fun x hx => ?_
    obtain ⟨q, e⟩ := optUpdate_some (hs := x.2.opt.hists) (cut := x.2.opt.cut) x.2.opt.maxVal (1 / 10) (105 / 100) x.2.opt.numBins
      (by rw [(h.mover x hx).1.len]; exact Nat.one_pos) (by rw [(h.mover x hx).1.cutLen]; exact Nat.one_pos)
    unfold MoverU.updateParams
    rw [e]
    exact ⟨_, rfl⟩
  obtain ⟨m, e2⟩ := this
  unfold Adapt.updateMC
  rw [if_neg (by simp [ht])]
  simp only [ShiftU.updateParams, e1, Option.map_some, Option.bind_some, e2]
  exact ⟨_, rfl⟩

theorem run_exists {p : AdaptParams} {w : WormParams} (hb : 0 < p.beta) (hn : 0 < p.nTau) (hf : 0 < p.flavors) :
    ∀ (ops : List AOp) (a : Adapt) (t' : WormTables), UpdOK p a → (∀ op ∈ ops, op.allowed p w) →
    runTables a.tables (tablesOps a.thermalized ops) = some t' → ∃ a', runAdapt p a ops = some a' ∧ a'.tables = t' := by
  intro ops
  induction ops with
  | nil => intro a t' _ _ e; exact ⟨a, rfl, Option.some.inj e⟩
  | cons op l ih =>
    intro a t' h hall e
    have hl : ∀ op ∈ l, op.allowed p w := fun x hx => hall x (List.mem_cons_of_mem _ hx)
    have key : ∀ b, a.exec p op = some b → runTables b.tables (tablesOps b.thermalized l) = some t' →
        ∃ a', runAdapt p a (op :: l) = some a' ∧ a'.tables = t' := by
      intro b e1 e2
      rw [runAdapt_cons, e1]
      exact ih b t' (h.exec hb hn e1) hl e2
    cases op with
    | move n u v acc =>
      obtain ⟨b, e1⟩ := move_some h n u v acc (hall _ (List.mem_cons_self ..))
      obtain ⟨-, -, h2, h3, -⟩ := move_parts e1
      exact key b e1 (by rw [h2, h3]; exact e)
    | adjust s =>
      rw [tablesOps, runTables_cons, Option.bind_eq_some_iff] at e
      obtain ⟨t1, e1, e2⟩ := e
      have e1 : a.tables.adjust a.thermalized s = some t1 := e1
      exact key { a with tables := t1 } (by simp only [Adapt.exec, e1, Option.map_some]) e2
    | visit s =>
      rw [tablesOps, runTables_cons, Option.bind_eq_some_iff] at e
      obtain ⟨t1, e1, e2⟩ := e
      have e1 : a.tables.visit a.thermalized s = some t1 := e1
      exact key { a with tables := t1 } (by simp only [Adapt.exec, e1, Option.map_some]) e2
    | step o s =>
      by_cases ht : a.thermalized = true
      · rw [tablesOps, if_pos ht, runTables_cons, Option.bind_eq_some_iff] at e
        obtain ⟨t1, e1, e2⟩ := e
        have e1 : a.tables.everyStep s = some t1 := e1
        exact key { a with tables := t1 } (by simp only [Adapt.exec, Adapt.step, if_pos ht, e1, Option.map_some]) e2
      · have ht' : a.thermalized = false := by simpa using ht
        rw [tablesOps, if_neg ht] at e
        obtain ⟨b, e1⟩ := updateMC_some hf h ht' o
        obtain ⟨-, -, -, -, -, h2, h3, -⟩ := updateMC_parts e1
        exact key b (by simp only [Adapt.exec, Adapt.step, if_neg ht, e1]) (by rw [h2, h3]; exact e)
    | timeOver => exact key { a with thermalized := true } rfl e
    | prepare f =>
      rw [tablesOps, runTables_cons, Option.bind_eq_some_iff] at e
      obtain ⟨t1, e1, e2⟩ := e
      have e1 : a.tables.prepare f = some t1 := e1
      refine key _ (by simp only [Adapt.exec, Adapt.prepare, e1, Option.map_some]; rfl) ?_
      exact e2
    | measure s =>
      rw [tablesOps, runTables_cons, Option.bind_eq_some_iff] at e
      obtain ⟨t1, e1, e2⟩ := e
      have e1 : some a.tables.measure.2 = some t1 := e1
      obtain ⟨-, -, -, -, h4, h5⟩ := measure_parts p a s
      exact key (a.measure p s) rfl (by rw [h4, h5, Option.some.inj e1]; exact e2)

theorem tablesOps_space {p : AdaptParams} {w : WormParams} : ∀ (ops : List AOp) (th : Bool), (∀ op ∈ ops, op.allowed p w) →
    ∀ op ∈ tablesOps th ops, InSpaces w op.space := by
  intro ops
  induction ops with
  | nil => intro th _ op h; simp [tablesOps] at h
  | cons o l ih =>
    intro th hall op h
    have hl : ∀ op ∈ l, op.allowed p w := fun x hx => hall x (List.mem_cons_of_mem _ hx)
    have ho := hall o (List.mem_cons_self ..)
    cases o with
    | move n u v acc => exact ih th hl op h
    | timeOver => exact ih true hl op h
    | step o s =>
      rw [tablesOps] at h
      split_ifs at h
      · rcases List.mem_cons.1 h with rfl | h
        · exact ho
        · exact ih th hl op h
      · exact ih th hl op h
    | adjust s =>
      rcases List.mem_cons.1 h with rfl | h
      · exact ho
      · exact ih th hl op h
    | visit s =>
      rcases List.mem_cons.1 h with rfl | h
      · exact ho
      · exact ih th hl op h
    | prepare f =>
      rcases List.mem_cons.1 h with rfl | h
      · exact Or.inl rfl
      · exact ih th hl op h
    | measure s =>
      rcases List.mem_cons.1 h with rfl | h
      · exact Or.inl rfl
      · exact ih th hl op h

theorem tablesOps_prepare : ∀ (ops : List AOp) (th : Bool),
    ((tablesOps th ops).filter TOp.isPrepare).length = (ops.filter AOp.isPrepare).length := by
  intro ops
  induction ops with
  | nil => intro th; rfl
  | cons o l ih =>
    intro th
    cases o with
    | move n u v acc => exact ih th
    | timeOver => exact ih true
    | step o s =>
      rw [tablesOps]
      split_ifs
      · exact ih th
      · exact ih th
    | adjust s => exact ih th
    | visit s => exact ih th
    | prepare f => exact congrArg (· + 1) (ih th)
    | measure s => exact ih th

/-- **C74 (no failure).**  A history of moves, adjustments, iterations and measurements in the flavors of the model and the spaces in use
with at most one preparation of the measurement never fails: there is always a flavor to be adapted, an index is never out of range, the
parameters are not adapted after thermalization, and the learning of the weights is not synchronized after its end. -/
theorem C74_run (p : AdaptParams) (hb : 0 < p.beta) (hn : 0 < p.nTau) (hf : 0 < p.flavors) (w : WormParams) (t : WormTables)
    (ht : createWormUpdaters w = some t) (h : List ℝ) (ops : List AOp) (hall : ∀ op ∈ ops, op.allowed p w)
    (hp : (ops.filter AOp.isPrepare).length ≤ 1) :
    ∃ a, runAdapt p (Adapt.init p h t) ops = some a ∧ TablesOK w a.tables := by
  obtain ⟨t', e, hok, -⟩ := C72_history w t ht (tablesOps false ops) (tablesOps_space ops false hall)
    (by rw [tablesOps_prepare]; exact hp)
  obtain ⟨a, e1, rfl⟩ := run_exists hb hn hf ops (Adapt.init p h t) t' (UpdOK.init p hb hn h t) hall e
  exact ⟨a, e1, hok⟩

/-! ### Statistics of the updaters -/

/-- What an updater has counted so far, recorded or not. -/
def total (f : Counters → ℕ) (a : Adapt) (n : String) : ℕ := ((a.samples n).map f).sum + f (a.counters n)

theorem total_record (f : Counters → ℕ) (hf : f ⟨0, 0, 0⟩ = 0) (a : Adapt) (m n : String) : total f (a.record m) n = total f a n := by
  unfold total Adapt.record
  dsimp only
  by_cases h : n = m
  · subst h
    simp [hf]
  · rw [Function.update_of_ne h, Function.update_of_ne h]

theorem total_records (f : Counters → ℕ) (hf : f ⟨0, 0, 0⟩ = 0) (n : String) (l : List String) :
    ∀ a : Adapt, total f (l.foldl Adapt.record a) n = total f a n := by
  induction l with
  | nil => intro a; rfl
  | cons m l ih => intro a; rw [List.foldl_cons, ih, total_record f hf]

theorem records_zero (n : String) (l : List String) : ∀ a : Adapt,
    (a.counters n = ⟨0, 0, 0⟩ ∨ n ∈ l → (l.foldl Adapt.record a).counters n = ⟨0, 0, 0⟩) ∧
    (n ∈ l ∨ a.samples n ≠ [] → (l.foldl Adapt.record a).samples n ≠ []) := by
  induction l with
  | nil => intro a; exact ⟨fun h => h.resolve_right (by simp), fun h => h.resolve_left (by simp)⟩
  | cons m l ih =>
    intro a
    rw [List.foldl_cons]
    have h1 : n = m → (a.record m).counters n = ⟨0, 0, 0⟩ := fun h => by subst h; simp [Adapt.record]
    have h1' : a.counters n = ⟨0, 0, 0⟩ → (a.record m).counters n = ⟨0, 0, 0⟩ := fun h => by
      by_cases hm : n = m
      · exact h1 hm
      · simp only [Adapt.record]; rw [Function.update_of_ne hm]; exact h
    have h2 : n = m → (a.record m).samples n ≠ [] := fun h => by subst h; simp [Adapt.record]
    have h2' : a.samples n ≠ [] → (a.record m).samples n ≠ [] := fun h => by
      by_cases hm : n = m
      · exact h2 hm
      · simp only [Adapt.record]; rw [Function.update_of_ne hm]; exact h
    obtain ⟨k1, k2⟩ := ih (a.record m)
    refine ⟨fun h => k1 ?_, fun h => k2 ?_⟩
    · rcases h with h | h
      · exact Or.inl (h1' h)
      · rcases List.mem_cons.1 h with h | h
        · exact Or.inl (h1 h)
        · exact Or.inr h
    · rcases h with h | h
      · rcases List.mem_cons.1 h with h | h
        · exact Or.inr (h2 h)
        · exact Or.inl h
      · exact Or.inr (h2' h)

theorem total_exec (f : Counters → ℕ) (hf : f ⟨0, 0, 0⟩ = 0) (g : Bool × Bool → ℕ)
    (hg : ∀ c v acc, f (finalizeUpdate c v acc) = f c + g (v, acc)) {p : AdaptParams} {a a' : Adapt} {op : AOp} (n : String)
    (e : a.exec p op = some a') : total f a' n = total f a n + ((movesOf n [op]).map g).sum := by
  cases op with
  | move m u v acc =>
    obtain ⟨-, -, -, -, h1, h2, -⟩ := move_parts (show a.move p m u v acc = some a' from e)
    unfold total
    rw [h1, h2]
    by_cases h : m = n
    · subst h
      rw [Function.update_self, hg]
      simp only [movesOf, if_true, List.map_cons, List.map_nil, List.sum_cons, List.sum_nil]
      omega
    · rw [Function.update_of_ne (fun h' => h h'.symm)]
      simp [movesOf, h]
  | adjust s =>
    simp only [Adapt.exec, Option.map_eq_some_iff] at e
    obtain ⟨t, -, rfl⟩ := e
    rfl
  | visit s =>
    simp only [Adapt.exec, Option.map_eq_some_iff] at e
    obtain ⟨t, -, rfl⟩ := e
    rfl
  | step o s =>
    simp only [Adapt.exec, Adapt.step] at e
    split_ifs at e
    · obtain ⟨t, -, rfl⟩ := Option.map_eq_some_iff.1 e
      rfl
    · obtain ⟨-, -, -, -, -, -, -, h1, h2⟩ := updateMC_parts e
      unfold total
      rw [h1, h2]
      rfl
  | timeOver =>
    simp only [Adapt.exec, Option.some.injEq] at e
    subst e
    rfl
  | prepare f =>
    simp only [Adapt.exec, Adapt.prepare, Option.map_eq_some_iff] at e
    obtain ⟨t, -, rfl⟩ := e
    rfl
  | measure s =>
    simp only [Adapt.exec, Option.some.injEq] at e
    subst e
    unfold Adapt.measure
    dsimp only
    split_ifs
    · rw [total_records f hf, total_records f hf]; rfl
    · rw [total_records f hf]; rfl

theorem movesOf_cons (n : String) (op : AOp) (l : List AOp) : movesOf n (op :: l) = movesOf n [op] ++ movesOf n l := by
  cases op with
  | move m u v acc =>
    simp only [movesOf]
    split_ifs <;> rfl
  | _ => rfl

theorem total_run (f : Counters → ℕ) (hf : f ⟨0, 0, 0⟩ = 0) (g : Bool × Bool → ℕ)
    (hg : ∀ c v acc, f (finalizeUpdate c v acc) = f c + g (v, acc)) (p : AdaptParams) (n : String) :
    ∀ (ops : List AOp) (a a' : Adapt), runAdapt p a ops = some a' → total f a' n = total f a n + ((movesOf n ops).map g).sum := by
  intro ops
  induction ops with
  | nil => intro a a' e; rw [Option.some.inj e]; rfl
  | cons op l ih =>
    intro a a' e
    rw [runAdapt_cons, Option.bind_eq_some_iff] at e
    obtain ⟨b, e1, e2⟩ := e
    rw [ih b a' e2, total_exec f hf g hg n e1, movesOf_cons n op l, List.map_append, List.sum_append]
    omega

theorem sum_filter (P : Bool × Bool → Bool) (l : List (Bool × Bool)) : (l.map fun m => if P m then 1 else 0).sum = (l.filter P).length := by
  induction l with
  | nil => rfl
  | cons a l ih =>
    rw [List.map_cons, List.sum_cons, ih, List.filter_cons]
    split_ifs
    · simp; omega
    · simp

/-- **C74 (statistics).**  At any time, and whichever updaters were recorded how often, the samples of an updater and its counters
together contain every attempt, every valid move and every accepted move made since the construction of the simulation exactly once. -/
theorem C74_total (p : AdaptParams) (h : List ℝ) (t : WormTables) (ops : List AOp) (a : Adapt)
    (e : runAdapt p (Adapt.init p h t) ops = some a) (n : String) :
    ((a.samples n).map Counters.attempted).sum + (a.counters n).attempted = (movesOf n ops).length ∧
    ((a.samples n).map Counters.valid).sum + (a.counters n).valid = validMoves n ops ∧
    ((a.samples n).map Counters.accepted).sum + (a.counters n).accepted = acceptedMoves n ops := by
  refine ⟨?_, ?_, ?_⟩
  · have := total_run Counters.attempted rfl (fun _ => 1) (fun c v acc => rfl) p n ops _ a e
    simpa [total, Adapt.init] using this
  · have := total_run Counters.valid rfl (fun m => if m.1 then 1 else 0) (fun c v acc => rfl) p n ops _ a e
    rw [sum_filter (fun m => m.1)] at this
    simpa [total, Adapt.init, validMoves] using this
  · have := total_run Counters.accepted rfl (fun m => if m.1 && m.2 then 1 else 0) (fun c v acc => rfl) p n ops _ a e
    rw [sum_filter (fun m => m.1 && m.2)] at this
    simpa [total, Adapt.init, acceptedMoves] using this

/-- After a measurement the counters of a recorded updater are zero. -/
theorem measure_zero (p : AdaptParams) (a : Adapt) (s : Space) (n : String) (hn : n ∈ p.bath ++ p.worm) :
    (a.measure p s).counters n = ⟨0, 0, 0⟩ ∧ (a.measure p s).samples n ≠ [] := by
  unfold Adapt.measure
  dsimp only
  obtain ⟨b1, b2⟩ := records_zero n (p.bath ++ p.worm)
    { a with tables := a.tables.measure.2, shift := { a.shift with opt := a.shift.opt.reset } }
  split_ifs
  · obtain ⟨c1, c2⟩ := records_zero n p.bath ((p.bath ++ p.worm).foldl Adapt.record
      { a with tables := a.tables.measure.2, shift := { a.shift with opt := a.shift.opt.reset } })
    exact ⟨c1 (Or.inl (b1 (Or.inr hn))), c2 (Or.inr (b2 (Or.inl hn)))⟩
  · exact ⟨b1 (Or.inr hn), b2 (Or.inl hn)⟩

/-- The history of a process that ends with a measurement. -/
structure Proc (p : AdaptParams) where
  orders : List ℝ
  tables : WormTables
  ops : List AOp
  last : Space
  result : Adapt
  run : runAdapt p (Adapt.init p orders tables) (ops ++ [.measure last]) = some result

theorem movesOf_append (n : String) (l l' : List AOp) : movesOf n (l ++ l') = movesOf n l ++ movesOf n l' := by
  induction l with
  | nil => rfl
  | cons o l ih => rw [List.cons_append, movesOf_cons, ih, movesOf_cons n o l, List.append_assoc]

theorem Proc.sums {p : AdaptParams} (q : Proc p) (n : String) (hn : n ∈ p.bath ++ p.worm) :
    ((q.result.samples n).map Counters.valid).sum = validMoves n q.ops ∧
    ((q.result.samples n).map Counters.accepted).sum = acceptedMoves n q.ops ∧ q.result.samples n ≠ [] := by
  obtain ⟨-, h2, h3⟩ := C74_total p q.orders q.tables _ q.result q.run n
  have e := q.run
  rw [runAdapt_append, Option.bind_eq_some_iff] at e
  obtain ⟨b, -, e2⟩ := e
  have hm : q.result = b.measure p q.last := (Option.some.inj e2).symm
  obtain ⟨z1, z2⟩ := measure_zero p b q.last n hn
  rw [← hm] at z1 z2
  rw [z1] at h2 h3
  have hv : validMoves n (q.ops ++ [.measure q.last]) = validMoves n q.ops := by
    unfold validMoves
    rw [movesOf_append]
    simp [movesOf]
  have ha : acceptedMoves n (q.ops ++ [.measure q.last]) = acceptedMoves n q.ops := by
    unfold acceptedMoves
    rw [movesOf_append]
    simp [movesOf]
  rw [hv] at h2
  rw [ha] at h3
  exact ⟨by simpa using h2, by simpa using h3, z2⟩

theorem flat_sum {p : AdaptParams} (f : Counters → ℕ) (n : String) (l : List (Proc p)) :
    (((l.map Proc.result).flatMap fun a => a.samples n).map fun c => (f c : ℝ)).sum =
      ((l.map fun q => ((q.result.samples n).map f).sum).sum : ℕ) := by
  induction l with
  | nil => simp
  | cons q l ih =>
    rw [List.map_cons, List.flatMap_cons, List.map_append, List.sum_append, ih, List.map_cons, List.sum_cons, Nat.cast_add]
    congr 1
    rw [Nat.cast_list_sum, List.map_map]
    rfl

/-- **C74 (acceptance rate).**  If the histories of the processes end with a measurement, the rate printed for an updater is the number
of accepted moves of all processes divided by the number of valid moves of all processes, although the numbers of samples of the
processes differ and the updaters of the bath are recorded twice in the space without worm; nothing sensible is printed exactly if there
was no valid move. -/
theorem C74_rate (p : AdaptParams) (procs : List (Proc p)) (n : String) (hn : n ∈ p.bath ++ p.worm) :
    printedRate (procs.map Proc.result) n =
      if (procs.map fun q => validMoves n q.ops).sum = 0 then none
      else some ((((procs.map fun q => acceptedMoves n q.ops).sum : ℕ) : ℝ) / (((procs.map fun q => validMoves n q.ops).sum : ℕ) : ℝ)) := by
  have hv : (procs.map fun q => ((q.result.samples n).map Counters.valid).sum) = procs.map fun q => validMoves n q.ops :=
    List.map_congr_left fun q _ => (q.sums n hn).1
  have ha : (procs.map fun q => ((q.result.samples n).map Counters.accepted).sum) = procs.map fun q => acceptedMoves n q.ops :=
    List.map_congr_left fun q _ => (q.sums n hn).2.1
  unfold printedRate
  dsimp only
  rw [flat_sum Counters.valid, flat_sum Counters.accepted, hv, ha]
  set L := (procs.map Proc.result).flatMap fun a => a.samples n with hL
  by_cases hl : L.length = 0
  · rw [if_pos (Or.inl hl)]
    have : procs = [] := by
      rcases procs with _ | ⟨q, l⟩
      · rfl
      · exfalso
        rw [hL, List.map_cons, List.flatMap_cons, List.length_append] at hl
        exact (q.sums n hn).2.2 (List.length_eq_zero_iff.1 (by omega))
    subst this
    rfl
  · have hl' : (L.length : ℝ) ≠ 0 := by exact_mod_cast hl
    by_cases hz : (procs.map fun q => validMoves n q.ops).sum = 0
    · rw [if_pos hz, if_pos (Or.inr (by rw [hz]; simp))]
    · rw [if_neg hz, if_neg]
      · rw [div_div_div_cancel_right₀ hl']
      · rintro (h | h)
        · exact hl h
        · rcases div_eq_zero_iff.1 h with h | h
          · exact hz (by exact_mod_cast h)
          · exact hl' h

/-! ### What does not hold -/

/-- **C74 fails for the statistics of the measurement.**  The counters are not cleared at the end of the thermalization: for all
parameters and worm spaces there is a history in which the only move after the preparation of the measurement is accepted, but the
printed rate is one half. -/
theorem C74_rate_violated (p : AdaptParams) (hb : 0 < p.beta) (hn : 0 < p.nTau) (hf : 0 < p.flavors) (w : WormParams) (t : WormTables)
    (ht : createWormUpdaters w = some t) (n : String) (hmem : n ∈ p.bath ++ p.worm) :
    ∃ (before after : List AOp) (a : Adapt), (∀ op ∈ before ++ after, op.allowed p w) ∧
      runAdapt p (Adapt.init p [] t) (before ++ [.timeOver, .prepare (fun _ => 0)] ++ after ++ [.measure .z]) = some a ∧
      validMoves n after = 1 ∧ acceptedMoves n after = 1 ∧ printedRate [a] n = some (1 / 2) := by
  have hall : ∀ op ∈ [AOp.move n .plain true false, .timeOver, .prepare (fun _ => 0), .move n .plain true true, .measure .z],
      op.allowed p w := by
    intro op hop
    simp only [List.mem_cons, List.not_mem_nil, or_false] at hop
    rcases hop with rfl | rfl | rfl | rfl | rfl <;> trivial
  obtain ⟨a, e, -⟩ := C74_run p hb hn hf w t ht [] _ hall (by simp [List.filter, AOp.isPrepare])
  refine ⟨[.move n .plain true false], [.move n .plain true true], a, ?_, e, ?_, ?_, ?_⟩
  · intro op hop
    simp only [List.cons_append, List.nil_append, List.mem_cons, List.not_mem_nil, or_false] at hop
    rcases hop with rfl | rfl <;> trivial
  · simp [validMoves, movesOf]
  · simp [acceptedMoves, movesOf]
  · have := C74_rate p [⟨[], t, [.move n .plain true false, .timeOver, .prepare (fun _ => 0), .move n .plain true true], .z, a, e⟩] n hmem
    rw [List.map_cons, List.map_nil] at this
    rw [this]
    simp [validMoves, acceptedMoves, movesOf]

/-- **C74 fails for a second simulation of a process.**  The list of expansion orders is shared by all simulations of a process: the same
history leads to another number of windows if a simulation has run before. -/
theorem C74_shared_violated (w : WormParams) (t : WormTables) (ht : createWormUpdaters w = some t) :
    ∃ (p : AdaptParams) (ops1 ops2 : List AOp) (a1 a2 b : Adapt),
      (∀ op ∈ ops1 ++ ops2, op.allowed p w) ∧
      runAdapt p (Adapt.init p [] t) ops1 = some a1 ∧ runAdapt p (Adapt.init p a1.orders t) ops2 = some a2 ∧
      runAdapt p (Adapt.init p [] t) ops2 = some b ∧ a2.nWin = 5 ∧ b.nWin = 1 := by
  have hs : ∀ (p : AdaptParams) (k : ℕ), ∀ op ∈ [AOp.step k .z], op.allowed p w := by
    intro p k op hop
    rw [List.mem_singleton] at hop
    subst hop
    exact Or.inl rfl
  let p : AdaptParams := ⟨10, 1, 100, 1, 100, [], []⟩
  have hb : (0 : ℝ) < p.beta := by norm_num [p]
  obtain ⟨a1, e1, -⟩ := C74_run p hb (by norm_num [p]) (by norm_num [p]) w t ht [] [.step 9 .z] (hs p 9) (by simp [AOp.isPrepare])
  obtain ⟨a2, e2, -⟩ := C74_run p hb (by norm_num [p]) (by norm_num [p]) w t ht a1.orders [.step 1 .z] (hs p 1) (by simp [AOp.isPrepare])
  obtain ⟨b, e3, -⟩ := C74_run p hb (by norm_num [p]) (by norm_num [p]) w t ht [] [.step 1 .z] (hs p 1) (by simp [AOp.isPrepare])
  have o1 : a1.orders = [9] := by
    have := (orders_run p _ _ a1 rfl (Nat.zero_le _) e1).1
    rw [this]
    simp [ordersBefore, Adapt.init]
  refine ⟨p, [.step 9 .z], [.step 1 .z], a1, a2, b, ?_, e1, e2, e3, ?_, ?_⟩
  · intro op hop
    rcases List.mem_append.1 hop with h | h
    · exact hs p 9 op h
    · exact hs p 1 op h
  · have hl : (Adapt.init p a1.orders t).orders.length ≤ 100 := by show a1.orders.length ≤ 100; rw [o1]; simp
    obtain ⟨q1, q2⟩ := orders_run p _ _ a2 rfl hl e2
    have q1' : a2.orders = [9, 1] := by rw [q1]; simp [ordersBefore, Adapt.init, o1]
    rw [q2, q1']
    norm_num [ordersBefore, nWinStandard, p]
  · rw [C74_windows p t _ b e3]
    norm_num [ordersBefore, nWinStandard, p]

/-! ### A concrete case -/

/-- A simulation with a shift and a mover; two iterations before thermalization, one after it. -/
noncomputable example (t : WormTables) (ht : createWormUpdaters ⟨0, 0, 0, 0⟩ = some t) :
    ∃ a, runAdapt ⟨10, 2, 100, 1, 100, [shiftName], ["G1_mover"]⟩
      (Adapt.init ⟨10, 2, 100, 1, 100, [shiftName], ["G1_mover"]⟩ [] t)
      [.move shiftName (.shift 3 1) true true, .step 4 .z, .move "G1_mover" (.mover .g1 7) true false, .adjust .g1, .step 7 .g1,
        .timeOver, .prepare (fun _ => 0), .visit .g1, .step 50 .g1, .measure .g1] = some a ∧ a.nWin = 3 := by
  obtain ⟨a, e, -⟩ := C74_run ⟨10, 2, 100, 1, 100, [shiftName], ["G1_mover"]⟩ (by norm_num) (by norm_num) (by norm_num) ⟨0, 0, 0, 0⟩ t ht
    [] [.move shiftName (.shift 3 1) true true, .step 4 .z, .move "G1_mover" (.mover .g1 7) true false, .adjust .g1, .step 7 .g1,
        .timeOver, .prepare (fun _ => 0), .visit .g1, .step 50 .g1, .measure .g1] (by
      intro op hop
      simp only [List.mem_cons, List.not_mem_nil, or_false] at hop
      rcases hop with rfl | rfl | rfl | rfl | rfl | rfl | rfl | rfl | rfl | rfl <;> simp [AOp.allowed, InSpaces, Active]) (by simp [List.filter, AOp.isPrepare])
  refine ⟨a, e, ?_⟩
  rw [C74_windows _ _ _ _ e]
  rw [if_neg (by simp [ordersBefore])]
  norm_num [ordersBefore, nWinStandard]

end CTHyb
