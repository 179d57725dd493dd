import Verif.Mpi
import Mathlib.Data.List.Infix
import Mathlib.Data.Fintype.BigOperators
import Mathlib.Algebra.Order.BigOperators.Group.Finset
import Mathlib.Algebra.BigOperators.Group.Finset.Basic
import Mathlib.Data.Prod.Lex
import Mathlib.Order.WellFounded
import Mathlib.Data.Fintype.Pi
import Mathlib.Tactic.Linarith

/-!
Properties C41 (matching collective operations) and C42 (runs which are not thermalized).
-/

namespace CTHyb

variable {n : ℕ}

/-! ### Invariant -/

/-- Specification: the rank has left the loop of `run`. -/
def Loc.left : Loc → Prop
  | .finish | .wait .collect | .exitOk | .exitErr => True
  | _ => False

/-- Specification: no exception is thrown in `update` and `measure`. -/
def NoThrow (E : MEnv n) : Prop := ∀ r i, (E.rank r).throws i = false

/-- The call a rank is in. -/
def callOf : Loc → List Coll
  | .wait k => [k]
  | _ => []

/-- Global phases between two collective operations. -/
inductive Phase
  | reduce | sync | check | measure | ended | done

/-- What holds for one rank in a phase. -/
def phaseR (e : REnv) (b : Bool) (s : RankState) : Phase → Prop
  | .reduce => b = false ∧ s.stopped = false ∧ (s.loc = .top ∨ s.loc = .wait .allThermalized)
  | .sync => b = true ∧ s.stopped = false ∧ s.therm = true ∧ s.loc = .wait .syncHistogram
  | .check => b = false ∧ s.stopped = false ∧ (s.loc = .body ∨ s.loc = .wait .stop)
  | .measure => b = true ∧ s.stopped = false ∧ s.therm = true ∧
      (s.loc = .top ∨ s.loc = .body ∨ s.loc = .wait .stop)
  | .ended => (b = true → s.therm = true) ∧
      (s.loc = .finish ∨ (s.loc = .wait .collect ∧ s.therm = true ∧ e.visited = true) ∨
        (s.loc = .exitErr ∧ (s.therm = false ∨ e.visited = false)))
  | .done => s.loc = .exitOk ∧ s.therm = true ∧ e.visited = true

/-- Phases after a reduction which found a rank that is not thermalized. -/
def Phase.afterCheck : Phase → Prop
  | .check | .ended => True
  | _ => False

/-- Invariant of one rank. -/
def rInv (e : REnv) (H : List Coll) (b : Bool) (ph : Phase) (s : RankState) : Prop :=
  s.all = b ∧ s.calls = H ++ callOf s.loc ∧ phaseR e b s ph

/-- Completed collective operations at the end. -/
def phaseH (H : List Coll) : Phase → Prop
  | .ended => ∃ H0, H = H0 ++ [.stop] ∧ .collect ∉ H0
  | .done => ∃ H0, H = H0 ++ [.stop, .collect] ∧ .collect ∉ H0
  | _ => .collect ∉ H

/-- Invariant of the whole program. -/
def MInv (E : MEnv n) (S : MState n) : Prop :=
  ∃ H b ph, (∀ r, rInv (E.rank r) H b ph (S r)) ∧
    (b = false → ph.afterCheck → ∃ r, (S r).therm = false) ∧ phaseH H ph

theorem rInv_local {e : REnv} (ht : ∀ i, e.throws i = false) {H : List Coll} {b : Bool} {ph : Phase}
    {s s' : RankState} (h : rInv e H b ph s) (hs : localStep e s = some s') :
    rInv e H b ph s' ∧ (ph.afterCheck → s'.therm = s.therm) := by
  obtain ⟨loc, iter, therm, all, stopped, scheduled, calls⟩ := s
  obtain ⟨ha, hc, hp⟩ := h
  simp only at ha hc
  subst ha
  cases ph with
  | reduce =>
    obtain ⟨hb, hst, hl⟩ := hp
    simp only at hb hst hl
    subst hb hst
    rcases hl with rfl | rfl
    · simp only [localStep, Bool.false_eq_true, if_false, Option.some.injEq] at hs
      subst hs
      refine ⟨⟨rfl, ?_, rfl, rfl, Or.inr rfl⟩, fun h => h.elim⟩
      simp only [RankState.call, hc, callOf, List.append_nil]
    · simp [localStep] at hs
  | sync =>
    obtain ⟨hb, hst, hth, hl⟩ := hp
    simp only at hl
    subst hl
    simp [localStep] at hs
  | check =>
    obtain ⟨hb, hst, hl⟩ := hp
    simp only at hb hst hl
    subst hb hst
    rcases hl with rfl | rfl
    · simp only [localStep, ht, Bool.false_eq_true, if_false, Bool.not_false, Bool.or_true, if_true,
        Option.some.injEq] at hs
      subst hs
      refine ⟨⟨rfl, ?_, rfl, rfl, Or.inr rfl⟩, fun _ => rfl⟩
      simp only [RankState.call, hc, callOf, List.append_nil]
    · simp [localStep] at hs
  | measure =>
    obtain ⟨hb, hst, hth, hl⟩ := hp
    simp only at hb hst hth hl
    subst hb hst hth
    rcases hl with rfl | rfl | rfl
    · simp only [localStep, if_true, Option.some.injEq] at hs
      subst hs
      refine ⟨⟨rfl, ?_, rfl, rfl, by simp, Or.inr (Or.inl rfl)⟩, fun h => h.elim⟩
      simp only [hc, callOf]
    · simp only [localStep, ht, Bool.false_eq_true, if_false, Bool.not_true, Bool.or_false,
        Bool.false_or] at hs
      generalize (if scheduled = true then e.pending iter else e.uninit iter) = c at hs
      cases c
      all_goals
        simp only [Bool.false_eq_true, if_false, if_true, Option.some.injEq] at hs
        subst hs
      on_goal 2 => refine ⟨⟨rfl, ?_, rfl, rfl, rfl, Or.inr (Or.inr rfl)⟩, fun h => h.elim⟩
      · refine ⟨⟨rfl, ?_, rfl, rfl, rfl, Or.inl rfl⟩, fun h => h.elim⟩
        simp only [hc, callOf]
      · simp only [RankState.call, hc, callOf, List.append_nil]
    · simp [localStep] at hs
  | ended =>
    obtain ⟨hb, hl⟩ := hp
    simp only at hb hl
    rcases hl with rfl | ⟨rfl, -⟩ | ⟨rfl, -⟩
    · simp only [localStep] at hs
      cases therm
      · simp at hs
        subst hs
        refine ⟨⟨rfl, ?_, hb, Or.inr (Or.inr ⟨rfl, Or.inl rfl⟩)⟩, fun _ => rfl⟩
        simp only [hc, callOf]
      · cases hv : e.visited
        · simp [hv] at hs
          subst hs
          refine ⟨⟨rfl, ?_, hb, Or.inr (Or.inr ⟨rfl, Or.inr hv⟩)⟩, fun _ => rfl⟩
          simp only [hc, callOf]
        · simp [hv] at hs
          subst hs
          refine ⟨⟨rfl, ?_, hb, Or.inr (Or.inl ⟨rfl, rfl, hv⟩)⟩, fun _ => rfl⟩
          simp only [RankState.call, hc, callOf, List.append_nil]
    · simp [localStep] at hs
    · simp [localStep] at hs
  | done =>
    obtain ⟨hl, -⟩ := hp
    simp only at hl
    subst hl
    simp [localStep] at hs

theorem minv_coll {E : MEnv n} {S : MState n} (h : MInv E S) {k : Coll} (hk : ∀ r, (S r).loc = .wait k) :
    MInv E (complete E S k) := by
  obtain ⟨H, b, ph, hr, hx, hH⟩ := h
  have hc : ∀ r, (S r).calls = H ++ [k] := fun r => by
    have := (hr r).2.1
    rwa [hk r] at this
  have h0 := (hr 0).2.2
  have key : (k = .allThermalized ∧ ph = .reduce) ∨ (k = .syncHistogram ∧ ph = .sync) ∨
      (k = .stop ∧ (ph = .check ∨ ph = .measure)) ∨ (k = .collect ∧ ph = .ended) := by
    cases ph <;> simp only [phaseR, hk] at h0 <;> simp_all
  rcases key with ⟨rfl, rfl⟩ | ⟨rfl, rfl⟩ | ⟨rfl, hph⟩ | ⟨rfl, rfl⟩
  · -- reduction
    by_cases hall : ∀ q, (S q).therm = true
    · have hd : decide (∀ q, (S q).therm = true) = true := decide_eq_true hall
      cases hf : E.flat
      · refine ⟨H ++ [.allThermalized], true, .measure, fun r => ?_, fun h => Bool.noConfusion h, by simpa [phaseH] using hH⟩
        obtain ⟨ha, -, hb, hst, -⟩ := hr r
        simp only [complete, hd, afterReduce, hf, if_true, Bool.false_eq_true, if_false]
        refine ⟨rfl, ?_, rfl, hst, hall r, Or.inr (Or.inl rfl)⟩
        simp only [hc r, callOf, List.append_nil]
      · refine ⟨H ++ [.allThermalized], true, .sync, fun r => ?_, fun h => Bool.noConfusion h, by simpa [phaseH] using hH⟩
        obtain ⟨ha, -, hb, hst, -⟩ := hr r
        simp only [complete, hd, afterReduce, hf, if_true]
        refine ⟨rfl, ?_, rfl, hst, hall r, rfl⟩
        simp only [RankState.call, hc r, callOf]
    · have hd : decide (∀ q, (S q).therm = true) = false := decide_eq_false hall
      refine ⟨H ++ [.allThermalized], b, .check, fun r => ?_, fun _ _ => ?_, by simpa [phaseH] using hH⟩
      · obtain ⟨ha, -, hb, hst, -⟩ := hr r
        simp only [complete, hd, afterReduce, Bool.false_eq_true, if_false]
        refine ⟨ha, ?_, hb, hst, Or.inl rfl⟩
        simp only [hc r, callOf, List.append_nil]
      · push Not at hall
        obtain ⟨q, hq⟩ := hall
        refine ⟨q, ?_⟩
        simp only [complete, afterReduce]
        rw [decide_eq_false (by push Not; exact ⟨q, hq⟩)]
        simpa using hq
  · refine ⟨H ++ [.syncHistogram], b, .measure, fun r => ?_, fun h => ?_, by simpa [phaseH] using hH⟩
    · obtain ⟨ha, -, hb, hst, hth, -⟩ := hr r
      refine ⟨ha, ?_, hb, hst, hth, Or.inr (Or.inl rfl)⟩
      simp only [complete, hc r, callOf, List.append_nil]
    · have := (hr 0).2.2.1
      rw [h] at this
      cases this
  · -- stop
    have hst : ∀ r, (S r).stopped = false := fun r => by
      rcases hph with rfl | rfl
      · exact (hr r).2.2.2.1
      · exact (hr r).2.2.2.1
    cases hv : E.stop (S 0).iter
    · rcases hph with rfl | rfl
      · refine ⟨H ++ [.stop], b, .reduce, fun r => ?_, fun _ h => h.elim, by simpa [phaseH] using hH⟩
        obtain ⟨ha, -, hb, -, -⟩ := hr r
        simp only [complete, afterStop, hv, Bool.false_eq_true, if_false]
        refine ⟨ha, ?_, hb, rfl, Or.inl rfl⟩
        simp only [hc r, callOf, List.append_nil]
      · refine ⟨H ++ [.stop], b, .measure, fun r => ?_, fun _ h => h.elim, by simpa [phaseH] using hH⟩
        obtain ⟨ha, -, hb, -, hth, -⟩ := hr r
        simp only [complete, afterStop, hv, Bool.false_eq_true, if_false]
        refine ⟨ha, ?_, hb, rfl, hth, Or.inl rfl⟩
        simp only [hc r, callOf, List.append_nil]
    · refine ⟨H ++ [.stop], b, .ended, fun r => ?_, fun hb _ => ?_, H, rfl, by
        rcases hph with rfl | rfl <;> exact hH⟩
      · simp only [complete, afterStop, hv, if_true]
        refine ⟨(hr r).1, ?_, ?_, Or.inl rfl⟩
        · simp only [hc r, callOf, List.append_nil]
        · rcases hph with rfl | rfl
          · have := (hr r).2.2.1
            intro h; rw [h] at this; cases this
          · exact fun _ => (hr r).2.2.2.2.1
      · simp only [complete, afterStop, hv, if_true]
        rcases hph with rfl | rfl
        · exact hx hb trivial
        · have := (hr 0).2.2.1
          rw [hb] at this
          cases this
  · obtain ⟨H0, hH0, hH1⟩ := hH
    refine ⟨H ++ [.collect], b, .done, fun r => ?_, fun _ h => h.elim, H0, by simp [hH0], hH1⟩
    obtain ⟨ha, -, -, hl⟩ := hr r
    rcases hl with hl | ⟨-, hth, hv⟩ | ⟨hl, -⟩
    · rw [hk r] at hl; cases hl
    · refine ⟨ha, ?_, rfl, hth, hv⟩
      simp only [complete, hc r, callOf, List.append_nil]
    · rw [hk r] at hl; cases hl

theorem minv_step {E : MEnv n} (ht : NoThrow E) {S S' : MState n} (h : MInv E S) (hs : MStep E S S') :
    MInv E S' := by
  cases hs with
  | coll k hk => exact minv_coll h hk
  | loc r s' hl =>
    obtain ⟨H, b, ph, hr, hx, hH⟩ := h
    obtain ⟨h1, h2⟩ := rInv_local (ht r) (hr r) hl
    refine ⟨H, b, ph, fun q => ?_, fun hb ha => ?_, hH⟩
    · by_cases hq : q = r
      · subst hq; simpa using h1
      · simpa [Function.update_of_ne hq] using hr q
    · obtain ⟨q, hq⟩ := hx hb ha
      refine ⟨q, ?_⟩
      by_cases hqr : q = r
      · subst hqr; simpa [h2 ha] using hq
      · simpa [Function.update_of_ne hqr] using hq

theorem minv_reach {E : MEnv n} (ht : NoThrow E) {S : MState n} (h : MReach E S) : MInv E S := by
  induction h with
  | refl =>
    exact ⟨[], false, .reduce, fun r => ⟨rfl, rfl, rfl, rfl, Or.inl rfl⟩, fun _ h => h.elim, by simp [phaseH]⟩
  | tail _ hs ih => exact minv_step ht ih hs

/-! ### C41: matching collective operations -/

/-- C41, safety: at any moment the sequences of collective operations called by two ranks agree as far as
both go, and one rank is ahead of another by at most one call. -/
theorem C41_matching {E : MEnv n} (ht : NoThrow E) {S : MState n} (h : MReach E S) (r q : Fin (n + 1)) :
    ((S r).calls <+: (S q).calls ∨ (S q).calls <+: (S r).calls) ∧
      (S r).calls.length ≤ (S q).calls.length + 1 := by
  obtain ⟨H, b, ph, hr, -⟩ := minv_reach ht h
  have h1 := (hr r)
  have h2 := (hr q)
  obtain ⟨-, c1, p1⟩ := h1
  obtain ⟨-, c2, p2⟩ := h2
  rw [c1, c2]
  have hle : ∀ l, (callOf l).length ≤ 1 := fun l => by cases l <;> simp [callOf]
  refine ⟨?_, ?_⟩
  · have hsame : callOf (S r).loc = [] ∨ callOf (S q).loc = [] ∨ callOf (S r).loc = callOf (S q).loc := by
      cases ph <;> simp only [phaseR] at p1 p2
      · rcases p1.2.2 with h | h <;> rcases p2.2.2 with h' | h' <;> simp [h, h', callOf]
      · simp [p1.2.2.2, p2.2.2.2]
      · rcases p1.2.2 with h | h <;> rcases p2.2.2 with h' | h' <;> simp [h, h', callOf]
      · rcases p1.2.2.2 with h | h | h <;> rcases p2.2.2.2 with h' | h' | h' <;> simp [h, h', callOf]
      · rcases p1.2 with h | ⟨h, -⟩ | ⟨h, -⟩ <;> rcases p2.2 with h' | ⟨h', -⟩ | ⟨h', -⟩ <;>
          simp [h, h', callOf]
      · simp [p1.1, p2.1]
    rcases hsame with h | h | h
    · rw [h, List.append_nil]; exact Or.inl (List.prefix_append _ _)
    · rw [h, List.append_nil]; exact Or.inr (List.prefix_append _ _)
    · rw [h]; exact Or.inl (List.prefix_refl _)
  · have := hle (S r).loc
    simp only [List.length_append]
    omega

/-- In the phases before the end no rank has left the loop. -/
theorem not_left {e : REnv} {b : Bool} {s : RankState} {ph : Phase} (hp : phaseR e b s ph)
    (hl : s.loc.left) : ph = .ended ∨ ph = .done := by
  cases ph <;> simp only [phaseR] at hp
  · rcases hp.2.2 with h | h <;> rw [h] at hl <;> exact hl.elim
  · rw [hp.2.2.2] at hl; exact hl.elim
  · rcases hp.2.2 with h | h <;> rw [h] at hl <;> exact hl.elim
  · rcases hp.2.2.2 with h | h | h <;> rw [h] at hl <;> exact hl.elim
  · exact Or.inl rfl
  · exact Or.inr rfl

/-- C41: the ranks leave the loop together: as soon as one rank is behind the loop every rank is, and
all of them have made the same calls up to the same check for the end of the run; the only call made
afterwards is the collection of the results. -/
theorem C41_leave_together {E : MEnv n} (ht : NoThrow E) {S : MState n} (h : MReach E S)
    {r : Fin (n + 1)} (hl : (S r).loc.left) :
    ∃ H : List Coll, .collect ∉ H ∧ ∀ q, (S q).loc.left ∧
      ((S q).calls = H ++ [.stop] ∨ (S q).calls = H ++ [.stop, .collect]) := by
  obtain ⟨H, b, ph, hr, -, hH⟩ := minv_reach ht h
  rcases not_left (hr r).2.2 hl with rfl | rfl
  · obtain ⟨H0, rfl, hn⟩ := hH
    refine ⟨H0, hn, fun q => ?_⟩
    obtain ⟨-, hc, -, hq⟩ := hr q
    rcases hq with h | ⟨h, -⟩ | ⟨h, -⟩ <;> rw [h] at hc ⊢ <;> simp [hc, callOf, Loc.left]
  · obtain ⟨H0, rfl, hn⟩ := hH
    refine ⟨H0, hn, fun q => ?_⟩
    obtain ⟨-, hc, h, -⟩ := hr q
    rw [h] at hc ⊢
    simp [hc, callOf, Loc.left]

/-- C41: no deadlock inside the loop: as long as some rank has not left the loop the program can go on,
whatever the clocks say. -/
theorem C41_no_deadlock {E : MEnv n} (ht : NoThrow E) {S : MState n} (h : MReach E S)
    {r : Fin (n + 1)} (hl : ¬ (S r).loc.left) : ∃ S', MStep E S S' := by
  obtain ⟨H, b, ph, hr, -⟩ := minv_reach ht h
  by_cases hloc : ∃ q s', localStep (E.rank q) (S q) = some s'
  · obtain ⟨q, s', hq⟩ := hloc
    exact ⟨_, .loc S q s' hq⟩
  have hnone : ∀ q, localStep (E.rank q) (S q) = none := fun q => by
    cases hq : localStep (E.rank q) (S q) with
    | none => rfl
    | some s' => exact absurd ⟨q, s', hq⟩ hloc
  have htop : ∀ q, (S q).loc ≠ .top := fun q hq => by
    have := hnone q
    simp only [localStep, hq] at this
    split at this <;> cases this
  have hbody : ∀ q, (S q).loc ≠ .body := fun q hq => by
    have := hnone q
    simp only [localStep, hq] at this
    generalize (if (S q).scheduled = true then (E.rank q).pending (S q).iter
      else (E.rank q).uninit (S q).iter) = c at this
    split at this
    · cases this
    · split at this <;> cases this
  have hp := fun q => (hr q).2.2
  cases ph <;> simp only [phaseR] at hp
  · exact ⟨_, .coll S .allThermalized fun q => (hp q).2.2.resolve_left (htop q)⟩
  · exact ⟨_, .coll S .syncHistogram fun q => (hp q).2.2.2⟩
  · exact ⟨_, .coll S .stop fun q => (hp q).2.2.resolve_left (hbody q)⟩
  · exact ⟨_, .coll S .stop fun q => ((hp q).2.2.2.resolve_left (htop q)).resolve_left (hbody q)⟩
  · exfalso
    apply hl
    rcases (hp r).2 with h | ⟨h, -⟩ | ⟨h, -⟩ <;> rw [h] <;> trivial
  · exfalso
    apply hl
    rw [(hp r).1]; trivial

/-! ### Termination -/

/-- Specification: the check of the schedule becomes due again and again. -/
def Recurs (p : ℕ → Bool) : Prop := ∀ i, ∃ j, i ≤ j ∧ p j = true

/-- Specification of the surroundings under which a run has to end: the check becomes due again and
again on every rank (also as long as the schedule has not been initialised), and from some iteration on
rank 0 decides to stop. -/
structure Fair (E : MEnv n) : Prop where
  pending : ∀ r, Recurs (E.rank r).pending
  uninit : ∀ r, Recurs (E.rank r).uninit
  stop : ∃ I, ∀ i, I ≤ i → E.stop i = true

open Classical in
/-- Number of iterations until `p` holds. -/
noncomputable def dist (p : ℕ → Bool) (i : ℕ) : ℕ :=
  if h : ∃ j, i ≤ j ∧ p j = true then Nat.find h - i else 0

theorem dist_succ {p : ℕ → Bool} (hp : Recurs p) {i : ℕ} (h : p i = false) : dist p (i + 1) < dist p i := by
  classical
  have h1 := hp i
  have h2 := hp (i + 1)
  rw [dist, dif_pos h2, dist, dif_pos h1]
  have a := Nat.find_spec h1
  have b : i + 1 ≤ Nat.find h1 := by
    rcases Nat.lt_or_ge i (Nat.find h1) with h' | h'
    · exact h'
    · have : Nat.find h1 = i := le_antisymm h' a.1
      rw [this, h] at a
      cases a.2
  have c : Nat.find h2 ≤ Nat.find h1 := Nat.find_min' h2 ⟨b, a.2⟩
  omega

/-- Local steps of a rank before it waits or leaves. -/
noncomputable def localDist (e : REnv) (s : RankState) : ℕ :=
  match s.loc with
  | .top => if s.all then 2 * dist (if s.scheduled then e.pending else e.uninit) s.iter + 2 else 1
  | .body => if s.all then 2 * dist (if s.scheduled then e.pending else e.uninit) s.iter + 1 else 1
  | .finish => 1
  | _ => 0

/-- Remaining collective operations seen from rank 0, if it decides to stop from iteration `I` on. -/
def rootDist (I : ℕ) (s : RankState) : ℕ :=
  3 * (I - s.iter) + match s.loc with
    | .top => if s.all then 2 else 4
    | .wait .allThermalized => 4
    | .wait .syncHistogram => 3
    | .body => 2
    | .wait .stop => 2
    | .finish => 1
    | .wait .collect => 1
    | .exitOk => 0
    | .exitErr => 0

theorem localDist_step {e : REnv} (hp : Recurs e.pending) (hu : Recurs e.uninit) {s s' : RankState}
    (h : localStep e s = some s') : localDist e s' < localDist e s := by
  obtain ⟨loc, iter, therm, all, stopped, scheduled, calls⟩ := s
  cases loc with
  | top =>
    cases all <;> simp only [localStep, Bool.false_eq_true, if_false, if_true, Option.some.injEq] at h <;>
      subst h <;> simp [localDist, RankState.call]
  | body =>
    simp only [localStep] at h
    by_cases h1 : e.throws iter = true
    · rw [if_pos h1] at h
      cases h
      cases all <;> simp [localDist]
    · rw [if_neg h1] at h
      cases hc : (stopped || (if scheduled = true then e.pending iter else e.uninit iter) || !all)
      · rw [hc] at h
        simp only [Bool.false_eq_true, if_false, Option.some.injEq] at h
        subst h
        simp only [Bool.or_eq_false_iff, Bool.not_eq_false'] at hc
        obtain ⟨⟨-, hc⟩, rfl⟩ := hc
        simp only [localDist, if_true]
        cases scheduled
        · simp only [Bool.false_eq_true, if_false] at hc ⊢
          have := dist_succ hu hc
          omega
        · simp only [if_true] at hc ⊢
          have := dist_succ hp hc
          omega
      · rw [hc] at h
        simp only [if_true, Option.some.injEq] at h
        subst h
        cases all <;> simp [localDist, RankState.call]
  | finish =>
    simp only [localStep] at h
    split at h
    · cases h; simp [localDist]
    · split at h
      · cases h; simp [localDist]
      · split at h
        · cases h; simp [localDist, RankState.call]
        · cases h; simp [localDist]
  | wait k => simp [localStep] at h
  | exitOk => simp [localStep] at h
  | exitErr => simp [localStep] at h

theorem rootDist_local {e : REnv} (I : ℕ) {s s' : RankState} (h : localStep e s = some s') :
    rootDist I s' ≤ rootDist I s := by
  obtain ⟨loc, iter, therm, all, stopped, scheduled, calls⟩ := s
  cases loc with
  | top =>
    cases all <;> simp only [localStep, Bool.false_eq_true, if_false, if_true, Option.some.injEq] at h <;>
      subst h <;> simp [rootDist, RankState.call]
  | body =>
    simp only [localStep] at h
    by_cases h1 : e.throws iter = true
    · rw [if_pos h1] at h
      cases h
      simp [rootDist]
    · rw [if_neg h1] at h
      cases hc : (stopped || (if scheduled = true then e.pending iter else e.uninit iter) || !all)
      · rw [hc] at h
        simp only [Bool.false_eq_true, if_false, Option.some.injEq] at h
        subst h
        simp only [Bool.or_eq_false_iff, Bool.not_eq_false'] at hc
        obtain ⟨-, rfl⟩ := hc
        simp only [rootDist, if_true]
        omega
      · rw [hc] at h
        simp only [if_true, Option.some.injEq] at h
        subst h
        simp [rootDist, RankState.call]
  | finish =>
    simp only [localStep] at h
    split at h
    · cases h; simp [rootDist]
    · split at h
      · cases h; simp [rootDist]
      · split at h
        · cases h; simp [rootDist, RankState.call]
        · cases h; simp [rootDist]
  | wait k => simp [localStep] at h
  | exitOk => simp [localStep] at h
  | exitErr => simp [localStep] at h

theorem rootDist_coll {E : MEnv n} {I : ℕ} (hI : ∀ i, I ≤ i → E.stop i = true) {S : MState n} {k : Coll}
    (hk : (S 0).loc = .wait k) : rootDist I (complete E S k 0) < rootDist I (S 0) := by
  cases k with
  | allThermalized =>
    simp only [complete, afterReduce]
    split
    · split <;> simp [rootDist, RankState.call, hk]
    · simp [rootDist, hk]
  | syncHistogram => simp [complete, rootDist, hk]
  | collect => simp [complete, rootDist, hk]
  | stop =>
    simp only [complete, afterStop]
    cases hv : E.stop (S 0).iter
    on_goal 2 => simp [rootDist, hk]
    · have : (S 0).iter < I := by
        by_contra hc
        rw [hI _ (by omega)] at hv
        cases hv
      simp only [rootDist, hk, Bool.false_eq_true, if_false]
      split <;> omega

/-- The measure which decreases in every step. -/
noncomputable def mpiMeasure (E : MEnv n) (I : ℕ) (S : MState n) : ℕ ×ₗ ℕ :=
  toLex (rootDist I (S 0), ∑ r, localDist (E.rank r) (S r))

theorem mpiMeasure_step {E : MEnv n} (hf : Fair E) {I : ℕ} (hI : ∀ i, I ≤ i → E.stop i = true)
    {S S' : MState n} (h : MStep E S S') : mpiMeasure E I S' < mpiMeasure E I S := by
  rw [mpiMeasure, mpiMeasure, Prod.Lex.toLex_lt_toLex]
  cases h with
  | coll k hk => exact Or.inl (rootDist_coll hI (hk 0))
  | loc r s' hl =>
    have h1 : rootDist I (Function.update S r s' 0) ≤ rootDist I (S 0) := by
      by_cases h0 : (0 : Fin (n + 1)) = r
      · subst h0
        simpa using rootDist_local I hl
      · simp [Function.update_of_ne h0]
    have h2 : ∑ q, localDist (E.rank q) (Function.update S r s' q) < ∑ q, localDist (E.rank q) (S q) := by
      refine Finset.sum_lt_sum (fun q _ => ?_) ⟨r, Finset.mem_univ _, ?_⟩
      · by_cases hq : q = r
        · subst hq
          simpa using (localDist_step (hf.pending q) (hf.uninit q) hl).le
        · simp [Function.update_of_ne hq]
      · simpa using localDist_step (hf.pending r) (hf.uninit r) hl
    rcases h1.lt_or_eq with h | h
    · exact Or.inl h
    · exact Or.inr ⟨h, h2⟩

/-- C41, termination: under fair surroundings there is no infinite execution (also if exceptions are
thrown).  Missing for the full claim: the hypothesis `Fair.uninit` about the schedule before its members
are assigned, which the code does not guarantee (`C41_uninitialised_violated`). -/
theorem C41_terminates_partial {E : MEnv n} (hf : Fair E) :
    ¬ ∃ f : ℕ → MState n, ∀ i, MStep E (f i) (f (i + 1)) := by
  rintro ⟨f, h⟩
  obtain ⟨I, hI⟩ := hf.stop
  have hlt : ∀ i, mpiMeasure E I (f (i + 1)) < mpiMeasure E I (f i) := fun i => mpiMeasure_step hf hI (h i)
  have hwf : WellFounded ((· < ·) : ℕ ×ₗ ℕ → ℕ ×ₗ ℕ → Prop) := wellFounded_lt
  obtain ⟨m, ⟨i, rfl⟩, hm⟩ := hwf.has_min (Set.range fun i => mpiMeasure E I (f i)) ⟨_, 0, rfl⟩
  exact hm _ ⟨i + 1, rfl⟩ (hlt i)

/-- C41, completion: under fair surroundings and without exceptions every execution can be continued
until all ranks have left the loop (and by `C41_terminates_partial` it cannot be continued for ever
without that). -/
theorem C41_completes_partial {E : MEnv n} (ht : NoThrow E) (hf : Fair E) {S : MState n} (h : MReach E S) :
    ∃ S', Relation.ReflTransGen (MStep E) S S' ∧ ∀ r, (S' r).loc.left := by
  obtain ⟨I, hI⟩ := hf.stop
  have hwf : WellFounded ((· < ·) : ℕ ×ₗ ℕ → ℕ ×ₗ ℕ → Prop) := wellFounded_lt
  generalize hm : mpiMeasure E I S = m
  induction m using hwf.induction generalizing S with
  | _ m ih =>
    by_cases hl : ∀ r, (S r).loc.left
    · exact ⟨S, .refl, hl⟩
    · push Not at hl
      obtain ⟨r, hr⟩ := hl
      obtain ⟨S1, h1⟩ := C41_no_deadlock ht h hr
      obtain ⟨S2, h2, h3⟩ := ih _ (hm ▸ mpiMeasure_step hf hI h1) (h.tail h1) rfl
      exact ⟨S2, .head h1 h2, h3⟩

/-! ### Executing schedules -/

/-- One step of the program chosen by a scheduler: a rank makes a local step, or a collective operation
completes. -/
def actStep (E : MEnv n) (S : MState n) : Fin (n + 1) ⊕ Coll → Option (MState n)
  | .inl r => (localStep (E.rank r) (S r)).map (Function.update S r)
  | .inr k => if ∀ r, (S r).loc = .wait k then some (complete E S k) else none

/-- The program under a sequence of choices of the scheduler. -/
def runSched (E : MEnv n) : List (Fin (n + 1) ⊕ Coll) → MState n → Option (MState n)
  | [], S => some S
  | a :: as, S => (actStep E S a).bind (runSched E as)

theorem runSched_sound {E : MEnv n} (as : List (Fin (n + 1) ⊕ Coll)) :
    ∀ {S S' : MState n}, runSched E as S = some S' → Relation.ReflTransGen (MStep E) S S' := by
  induction as with
  | nil => intro S S' h; cases h; exact .refl
  | cons a as ih =>
    intro S S' h
    simp only [runSched, Option.bind_eq_some_iff] at h
    obtain ⟨S1, h1, h2⟩ := h
    refine .head ?_ (ih h2)
    cases a with
    | inl r =>
      simp only [actStep, Option.map_eq_some_iff] at h1
      obtain ⟨s', h3, rfl⟩ := h1
      exact .loc S r s' h3
    | inr k =>
      simp only [actStep] at h1
      split at h1
      · cases h1; exact .coll S k ‹_›
      · cases h1

/-- A state in which every rank waits in `collect` or has left `solve`, not all of them waiting, is final. -/
theorem final_of {E : MEnv n} {S : MState n} (h : ∀ r, localStep (E.rank r) (S r) = none)
    (h' : ∃ r, ∀ k, (S r).loc ≠ .wait k) : ¬ ∃ S', MStep E S S' := by
  rintro ⟨S', hs⟩
  cases hs with
  | loc r s' hl => rw [h r] at hl; cases hl
  | coll k hk =>
    obtain ⟨r, hr⟩ := h'
    exact hr k (hk r)

/-- Surroundings for the examples: rank `r` is thermalized at once iff `th r`. -/
def mpiEnv (n : ℕ) (th : Fin (n + 1) → Bool) : MEnv n where
  rank r := { therm := fun _ => th r, pending := fun _ => true, uninit := fun _ => true,
              throws := fun _ => false, visited := true }
  stop _ := true
  flat := true

theorem mpiEnv_fair (n : ℕ) (th : Fin (n + 1) → Bool) : Fair (mpiEnv n th) ∧ NoThrow (mpiEnv n th) :=
  ⟨⟨fun _ i => ⟨i, le_refl i, rfl⟩, fun _ i => ⟨i, le_refl i, rfl⟩, 0, fun _ _ => rfl⟩, fun _ _ => rfl⟩

/-- Three ranks, all thermalized at once: rank 2 is already in the first reduction while the others are
at the beginning; the hypotheses of `C41_matching` and `C41_no_deadlock` hold. -/
example : ∃ S, MReach (mpiEnv 2 fun _ => true) S ∧ (S 2).calls = [.allThermalized] ∧ (S 0).calls = [] ∧
    ¬ (S 0).loc.left :=
  ⟨_, runSched_sound [.inl 2] rfl, rfl, rfl, id⟩

/-- The complete run of these three ranks: all return 0 and have made the same four calls. -/
example : ∃ S, MReach (mpiEnv 2 fun _ => true) S ∧
    ∀ r, (S r).loc = .exitOk ∧ (S r).calls = [.allThermalized, .syncHistogram, .stop, .collect] := by
  refine ⟨_, runSched_sound [.inl 2, .inl 0, .inl 1, .inr .allThermalized, .inr .syncHistogram, .inl 1,
    .inl 2, .inl 0, .inr .stop, .inl 0, .inl 1, .inl 2, .inr .collect] rfl, fun r => ?_⟩
  match r with
  | 0 => exact ⟨rfl, rfl⟩
  | 1 => exact ⟨rfl, rfl⟩
  | 2 => exact ⟨rfl, rfl⟩

/-- Surroundings in which the check is due in every iteration, rank 0 always decides to stop, the process
is thermalized in the first iteration, but the test of the schedule whose members have no values yet
never succeeds. -/
def mpiEnvUninit : MEnv 0 where
  rank _ := { therm := fun _ => true, pending := fun _ => true, uninit := fun _ => false,
              throws := fun _ => false, visited := true }
  stop _ := true
  flat := false

/-- The state of the single process of `mpiEnvUninit` after `m` steps. -/
def uninitRun : ℕ → MState 0
  | 0 => fun _ => rankInit
  | 1 => fun _ => { rankInit with loc := .wait .allThermalized, therm := true, calls := [.allThermalized] }
  | m + 2 => fun _ =>
      { loc := if m % 2 = 0 then .body else .top, iter := (m + 1) / 2, therm := true, all := true,
        stopped := false, scheduled := false, calls := [.allThermalized] }

theorem uninitRun_step (m : ℕ) : MStep mpiEnvUninit (uninitRun m) (uninitRun (m + 1)) := by
  have upd : ∀ (S : MState 0) (s : RankState), Function.update S 0 s = fun _ => s := fun S s => by
    funext r
    rw [Fin.eq_zero r, Function.update_self]
  match m with
  | 0 =>
    have := MStep.loc (E := mpiEnvUninit) (uninitRun 0) 0 _ rfl
    rwa [upd] at this
  | 1 =>
    have h := MStep.coll (E := mpiEnvUninit) (uninitRun 1) .allThermalized (fun r => rfl)
    exact h
  | m + 2 =>
    by_cases hm : m % 2 = 0
    · have h1 : (m + 1) % 2 ≠ 0 := by omega
      have h2 : (m + 1 + 1) / 2 = (m + 1) / 2 + 1 := by omega
      have : localStep (mpiEnvUninit.rank 0) (uninitRun (m + 2) 0) = some (uninitRun (m + 3) 0) := by
        simp [localStep, uninitRun, hm, h1, h2, mpiEnvUninit]
      have := MStep.loc (E := mpiEnvUninit) (uninitRun (m + 2)) 0 _ this
      rw [upd] at this
      exact this
    · have h1 : (m + 1) % 2 = 0 := by omega
      have h2 : (m + 1 + 1) / 2 = (m + 1) / 2 := by omega
      have : localStep (mpiEnvUninit.rank 0) (uninitRun (m + 2) 0) = some (uninitRun (m + 3) 0) := by
        simp [localStep, uninitRun, hm, h1, h2]
      have := MStep.loc (E := mpiEnvUninit) (uninitRun (m + 2)) 0 _ this
      rw [upd] at this
      exact this

/-- C41 violated: because the members of the schedule are not initialised a run can go on for ever
although the check would be due in every iteration, rank 0 would always decide to stop and no exception
is thrown. -/
theorem C41_uninitialised_violated : ∃ E : MEnv 0, NoThrow E ∧ (∀ r i, (E.rank r).pending i = true) ∧
    (∀ i, E.stop i = true) ∧ ∃ f : ℕ → MState 0, (f 0 = fun _ => rankInit) ∧
      (∀ i, MStep E (f i) (f (i + 1))) ∧ ∀ i, ¬ (f i 0).loc.left := by
  refine ⟨mpiEnvUninit, fun _ _ => rfl, fun _ _ => rfl, fun _ => rfl, uninitRun, rfl, uninitRun_step, ?_⟩
  intro m
  match m with
  | 0 => exact id
  | 1 => exact id
  | m + 2 =>
    simp only [uninitRun]
    split <;> exact id

/-- Surroundings of two ranks, the second of which throws in its first update. -/
def mpiEnvThrow : MEnv 1 where
  rank r := { therm := fun _ => true, pending := fun _ => true, uninit := fun _ => true,
              throws := fun _ => r = 1, visited := true }
  stop _ := true
  flat := false

/-- C41 violated: if an exception is thrown on one rank this rank leaves `solve` while another one waits
for ever in the check for the end of the run. -/
theorem C41_exception_violated : ∃ E : MEnv 1, Fair E ∧ ∃ S, MReach E S ∧ (S 1).loc = .exitErr ∧
    (S 0).loc = .wait .stop ∧ ¬ ∃ S', MStep E S S' := by
  refine ⟨mpiEnvThrow, ⟨fun _ i => ⟨i, le_refl i, rfl⟩, fun _ i => ⟨i, le_refl i, rfl⟩, 0, fun _ _ => rfl⟩,
    _, runSched_sound [.inl 0, .inl 1, .inr .allThermalized, .inl 0, .inl 1] rfl, rfl, rfl,
    final_of (fun r => ?_) ⟨1, fun k h => ?_⟩⟩
  · match r with
    | 0 => rfl
    | 1 => rfl
  · cases h

/-! ### C42: runs which are not thermalized -/

/-- C42, what happens in every execution without exceptions in `update` and `measure`: in a final state
either all ranks are thermalized and have visited all configuration spaces, and all of them return 0, or
exactly the ranks for which this is not true return 1 and all others wait for ever in the collection of
the results. -/
theorem C42_outcome {E : MEnv n} (ht : NoThrow E) {S : MState n} (h : MReach E S)
    (hfin : ¬ ∃ S', MStep E S S') :
    ((∀ r, (S r).therm = true ∧ (E.rank r).visited = true) ∧ ∀ r, solveReturn (S r).loc = some 0) ∨
    ((∃ r, (S r).therm = false ∨ (E.rank r).visited = false) ∧
      ∀ r, if (S r).therm = true ∧ (E.rank r).visited = true then (S r).loc = .wait .collect
        else solveReturn (S r).loc = some 1) := by
  have hleft : ∀ r, (S r).loc.left := fun r => by
    by_contra hl
    exact hfin (C41_no_deadlock ht h hl)
  obtain ⟨H, b, ph, hr, -⟩ := minv_reach ht h
  have hp := fun r => (hr r).2.2
  rcases not_left (hp 0) (hleft 0) with rfl | rfl
  · simp only [phaseR] at hp
    have hnf : ∀ r, (S r).loc ≠ .finish := fun r hl => by
      cases hs : localStep (E.rank r) (S r) with
      | some s' => exact hfin ⟨_, .loc S r s' hs⟩
      | none =>
        simp only [localStep, hl] at hs
        split at hs
        · cases hs
        · split at hs
          · cases hs
          · split at hs <;> cases hs
    right
    refine ⟨?_, fun r => ?_⟩
    · by_contra hc
      push Not at hc
      refine hfin ⟨_, .coll S .collect fun r => ?_⟩
      rcases (hp r).2 with h | ⟨h, -⟩ | ⟨-, h⟩
      · exact absurd h (hnf r)
      · exact h
      · have := hc r
        rcases h with h | h
        · exact absurd h this.1
        · exact absurd h this.2
    · rcases (hp r).2 with h | ⟨h, h1, h2⟩ | ⟨h, h1⟩
      · exact absurd h (hnf r)
      · rw [if_pos ⟨h1, h2⟩]; exact h
      · rw [if_neg, h]
        · rfl
        · rintro ⟨h2, h3⟩
          rcases h1 with h1 | h1
          · rw [h1] at h2; cases h2
          · rw [h1] at h3; cases h3
  · simp only [phaseR] at hp
    left
    refine ⟨fun r => (hp r).2, fun r => ?_⟩
    rw [(hp r).1]
    rfl

/-- C42, safety: `solve` returns 0 on a rank only if every rank is thermalized and has visited all
configuration spaces; in particular an unthermalized run never yields results. -/
theorem C42_no_silent_success {E : MEnv n} (ht : NoThrow E) {S : MState n} (h : MReach E S)
    {r : Fin (n + 1)} (hr : solveReturn (S r).loc = some 0) (q : Fin (n + 1)) :
    (S q).therm = true ∧ (E.rank q).visited = true := by
  have hl : (S r).loc = .exitOk := by
    revert hr
    cases (S r).loc <;> simp [solveReturn]
  obtain ⟨H, b, ph, hi, -⟩ := minv_reach ht h
  have hp := fun r => (hi r).2.2
  rcases not_left (hp r) (by rw [hl]; trivial) with rfl | rfl
  · simp only [phaseR] at hp
    rcases (hp r).2 with h | ⟨h, -⟩ | ⟨h, -⟩ <;> rw [hl] at h <;> cases h
  · exact (hp q).2

/-- C42 for the patterns for which it holds: if the run stops before any rank is thermalized, then
`solve` returns 1 on every rank and nobody is left waiting.  Missing: the patterns in which some ranks
are thermalized and some are not (`C42_hang_violated`), and the exit code (`C42_exit_code_violated`). -/
theorem C42_none_thermalized_partial {E : MEnv n} (ht : NoThrow E) {S : MState n} (h : MReach E S)
    (hfin : ¬ ∃ S', MStep E S S') (hth : ∀ r, (S r).therm = false) (r : Fin (n + 1)) :
    solveReturn (S r).loc = some 1 := by
  rcases C42_outcome ht h hfin with ⟨h1, -⟩ | ⟨-, h1⟩
  · have := (h1 r).1
    rw [hth r] at this; cases this
  · have := h1 r
    rw [if_neg (by rw [hth r]; simp)] at this
    exact this

/-- C42 violated: two ranks, fair surroundings, no exceptions in `update` and `measure`; the time limit
is reached when only rank 0 is thermalized.  Rank 1 returns an error, rank 0 waits for ever in the
collection of the results. -/
theorem C42_hang_violated : ∃ E : MEnv 1, Fair E ∧ NoThrow E ∧ ∃ S, MReach E S ∧
    (S 1).therm = false ∧ solveReturn (S 1).loc = some 1 ∧ (S 0).loc = .wait .collect ∧
      ¬ ∃ S', MStep E S S' := by
  refine ⟨mpiEnv 1 fun r => r = 0, (mpiEnv_fair _ _).1, (mpiEnv_fair _ _).2,
    _, runSched_sound [.inl 0, .inl 1, .inr .allThermalized, .inl 0, .inl 1, .inr .stop, .inl 0, .inl 1] rfl,
    rfl, rfl, rfl, final_of (fun r => ?_) ⟨1, fun k h => ?_⟩⟩
  · match r with
    | 0 => rfl
    | 1 => rfl
  · cases h

/-- C42 violated: `solve` returns an error on every rank, and yet the program exits with 0 on every
rank. -/
theorem C42_exit_code_violated : ∃ E : MEnv 1, Fair E ∧ NoThrow E ∧ ∃ S, MReach E S ∧
    (¬ ∃ S', MStep E S S') ∧ ∀ r, (S r).therm = false ∧ solveReturn (S r).loc = some 1 ∧
      mainExit (S r).loc = some 0 := by
  refine ⟨mpiEnv 1 fun _ => false, (mpiEnv_fair _ _).1, (mpiEnv_fair _ _).2,
    _, runSched_sound [.inl 0, .inl 1, .inr .allThermalized, .inl 0, .inl 1, .inr .stop, .inl 0, .inl 1] rfl,
    final_of (fun r => ?_) ⟨1, fun k h => ?_⟩, fun r => ?_⟩
  · match r with
    | 0 => rfl
    | 1 => rfl
  · cases h
  · match r with
    | 0 => exact ⟨rfl, rfl, rfl⟩
    | 1 => exact ⟨rfl, rfl, rfl⟩

end CTHyb
