import Verif.SamplingLoopProps

/-!
The tour of the window in one sweep, and how often each update is called at each position.
-/

namespace CTHyb

/-- **Specification.**  The positions (right edge) of the window at the calls of `m`. -/
def callPositions (m : CMove) : List CMove → SavedState → List ℕ
  | [], _ => []
  | x :: xs, st => (if x = m then [st.posR] else []) ++ callPositions m xs (x.window st)

theorem callPositions_append (m : CMove) (xs ys : List CMove) (st : SavedState) :
    callPositions m (xs ++ ys) st = callPositions m xs st ++ callPositions m ys (xs.foldl (fun st x => x.window st) st) := by
  induction xs generalizing st with
  | nil => rfl
  | cons x xs ih => simp only [List.cons_append, callPositions, ih, List.foldl_cons, List.append_assoc]

theorem foldl_fixed (xs : List CMove) (st : SavedState) (h : ∀ x ∈ xs, ∀ st : SavedState, x.window st = st) :
    xs.foldl (fun st x => x.window st) st = st := by
  induction xs with
  | nil => rfl
  | cons x xs ih =>
    rw [List.foldl_cons, h x (by simp)]
    exact ih fun y hy => h y (by simp [hy])

theorem callPositions_fixed (m : CMove) (xs : List CMove) (st : SavedState) (h : ∀ x ∈ xs, ∀ st : SavedState, x.window st = st) :
    callPositions m xs st = List.replicate (xs.count m) st.posR := by
  induction xs with
  | nil => rfl
  | cons x xs ih =>
    rw [callPositions, h x (by simp), ih fun y hy => h y (by simp [hy]), List.count_cons]
    by_cases hx : x = m
    · simp [hx, List.replicate_succ]
    · simp [hx]

/-- The calls at one position, without the motion of the window. -/
def atPosition (nf rank : ℕ) (fl sh : Bool) (kinds movers : List WormKind) : List CMove :=
  List.replicate nf (CMove.insRem rank) ++ (if fl then List.replicate nf CMove.flavor else []) ++
    (if sh then List.replicate (nf * rank) CMove.shift else []) ++ transitionMoves nf kinds movers

theorem atPosition_fixed (nf rank : ℕ) (fl sh : Bool) (kinds movers : List WormKind) :
    ∀ x ∈ atPosition nf rank fl sh kinds movers, ∀ st : SavedState, x.window st = st := by
  intro x hx st
  unfold atPosition at hx
  simp only [List.mem_append] at hx
  rcases hx with ((hx | hx) | hx) | hx
  · rw [List.eq_of_mem_replicate hx]; rfl
  · split_ifs at hx
    · rw [List.eq_of_mem_replicate hx]; rfl
    · simp at hx
  · split_ifs at hx
    · rw [List.eq_of_mem_replicate hx]; rfl
    · simp at hx
  · exact transition_window _ _ _ _ hx st

/-- `k` steps of the window. -/
def nextN (k : ℕ) (st : SavedState) : SavedState := (fun st => CMove.next.window st)^[k] st

theorem nextN_eq (k : ℕ) (st : SavedState) : nextN k st =
    ⟨((stepPos st.n)^[k] (st.posR, st.posL, st.dirLeft)).2.1, ((stepPos st.n)^[k] (st.posR, st.posL, st.dirLeft)).1,
      ((stepPos st.n)^[k] (st.posR, st.posL, st.dirLeft)).2.2, st.n⟩ := by
  unfold nextN
  induction k with
  | zero => rfl
  | succ k ih => rw [Function.iterate_succ_apply', ih, Function.iterate_succ_apply']; rfl

theorem positions_calls (m : CMove) (hm : ∀ st : SavedState, m.window st = st) (nf rank : ℕ) (fl sh : Bool)
    (kinds movers : List WormKind) (k : ℕ) (st : SavedState) :
    callPositions m (List.replicate k (positionMoves nf rank fl sh kinds movers)).flatten st =
      ((List.range k).map fun j => (nextN j st).posR).flatMap
        (List.replicate ((atPosition nf rank fl sh kinds movers).count m)) ∧
    (List.replicate k (positionMoves nf rank fl sh kinds movers)).flatten.foldl (fun st x => x.window st) st = nextN k st := by
  have hpos : positionMoves nf rank fl sh kinds movers = atPosition nf rank fl sh kinds movers ++ [CMove.next] := rfl
  have hnm : CMove.next ≠ m := by
    rintro rfl
    have := hm ⟨2, 0, true, 2⟩
    simp [CMove.window, stepPos] at this
  induction k generalizing st with
  | zero => exact ⟨rfl, rfl⟩
  | succ k ih =>
    have hfold : (positionMoves nf rank fl sh kinds movers).foldl (fun st x => x.window st) st = CMove.next.window st := by
      rw [hpos, List.foldl_append, foldl_fixed _ _ (atPosition_fixed _ _ _ _ _ _)]; rfl
    rw [List.replicate_succ, List.flatten_cons, callPositions_append, List.foldl_append, hfold, (ih _).1, (ih _).2]
    constructor
    · rw [hpos, callPositions_append, callPositions_fixed m _ _ (atPosition_fixed _ _ _ _ _ _), List.range_succ_eq_map,
        List.map_cons, List.flatMap_cons, List.map_map]
      simp only [callPositions, if_neg hnm, List.append_nil]
      rfl
    · unfold nextN
      rw [Function.iterate_succ_apply]

theorem transition_count_zero (nf : ℕ) (kinds movers : List WormKind) (m : CMove)
    (h : (∃ r, m = .insRem r) ∨ m = .flavor ∨ m = .shift ∨ m = .next) : (transitionMoves nf kinds movers).count m = 0 := by
  rw [List.count_eq_zero]
  intro hm
  unfold transitionMoves at hm
  split_ifs at hm <;> rcases h with ⟨r, rfl⟩ | rfl | rfl | rfl <;> simp at hm

theorem transition_count_worm (nf : ℕ) (kinds movers : List WormKind) :
    (transitionMoves nf kinds movers).count CMove.worm = if kinds = [] then 0 else nf := by
  unfold transitionMoves
  by_cases hk : kinds = []
  · rw [if_pos hk, if_pos hk]; rfl
  · rw [if_neg hk, if_neg hk, List.count_flatten, List.map_replicate, List.sum_replicate]
    have h0 : ∀ l : List CMove, CMove.worm ∉ l → l.count CMove.worm = 0 := fun l h => List.count_eq_zero.2 h
    have h1 : (if WormKind.green 2 ∈ kinds then [CMove.green 2] else []).count CMove.worm = 0 := h0 _ (by split_ifs <;> simp)
    have h2 : (if WormKind.equalTime 1 ∈ kinds ∧ WormKind.corr 2 ∈ kinds then [CMove.connect] else []).count CMove.worm = 0 :=
      h0 _ (by split_ifs <;> simp)
    have h3 : (kinds.flatMap fun k => (if k ∈ movers then [CMove.wormMover k] else []) ++ [CMove.wormFlavor k]).count
        CMove.worm = 0 := by
      refine h0 _ fun h => ?_
      obtain ⟨k, _, hk⟩ := List.mem_flatMap.1 h
      split_ifs at hk <;> simp at hk
    rw [List.count_append, List.count_append, List.count_append, h1, h2, h3]
    simp

/-- **C61.**  The number of calls at one position of the window: the pair update as often as there are
flavors, the flavor update as often, the shift as often as operators are inserted by all pair updates,
the transitions between the spaces as often as there are flavors; then the window moves once. -/
theorem C61_calls_per_position (nf rank : ℕ) (fl sh : Bool) (kinds movers : List WormKind) :
    (positionMoves nf rank fl sh kinds movers).count (CMove.insRem rank) = nf ∧
    (positionMoves nf rank fl sh kinds movers).count CMove.flavor = (if fl then nf else 0) ∧
    (positionMoves nf rank fl sh kinds movers).count CMove.shift = (if sh then nf * rank else 0) ∧
    (positionMoves nf rank fl sh kinds movers).count CMove.worm = (if kinds = [] then 0 else nf) ∧
    (positionMoves nf rank fl sh kinds movers).count CMove.next = 1 := by
  have hw := transition_count_worm nf kinds movers
  have h0 := transition_count_zero nf kinds movers
  unfold positionMoves
  refine ⟨?_, ?_, ?_, ?_, ?_⟩
  · rw [List.count_append, List.count_append, h0 _ (Or.inl ⟨rank, rfl⟩)]
    cases fl <;> cases sh <;> simp [List.count_replicate]
  · rw [List.count_append, List.count_append, h0 _ (Or.inr (Or.inl rfl))]
    cases fl <;> cases sh <;> simp [List.count_replicate]
  · rw [List.count_append, List.count_append, h0 _ (Or.inr (Or.inr (Or.inl rfl)))]
    cases fl <;> cases sh <;> simp [List.count_replicate]
  · rw [List.count_append, List.count_append, hw]
    cases fl <;> cases sh <;> simp [List.count_replicate]
  · rw [List.count_append, List.count_append, h0 _ (Or.inr (Or.inr (Or.inr rfl)))]
    cases fl <;> cases sh <;> simp [List.count_replicate]

theorem count_atPosition (m : CMove) (hm : m ≠ .next) (nf rank : ℕ) (fl sh : Bool) (kinds movers : List WormKind) :
    (atPosition nf rank fl sh kinds movers).count m = (positionMoves nf rank fl sh kinds movers).count m := by
  have hpos : positionMoves nf rank fl sh kinds movers = atPosition nf rank fl sh kinds movers ++ [CMove.next] := rfl
  rw [hpos, List.count_append]
  simp [Ne.symm hm]

/-- **C61.**  A sweep which begins at the right end of the time axis, or with a new number `n ≥ 2` of
windows, calls the updates at the positions `0, …, 2n-3` in this order and leaves the window at the left
end; the next sweep with the same number goes back over `2n-2, …, 1`.  Every position inside is
reached once by each sweep. -/
theorem C61_sweep_tour (m : CMove) (hm : ∀ st : SavedState, m.window st = st) (nf nStd rank : ℕ) (fl sh : Bool)
    (kinds movers : List WormKind) (n : ℕ) (hn : n = max (nStd / rank) 1) (h2 : 2 ≤ n) (st : SavedState) :
    (st.n ≠ n ∨ (st.posR = 0 ∧ st.posL = 2) →
      callPositions m (sweepCMoves nf nStd rank fl sh kinds movers) st =
        (List.range (2 * n - 2)).flatMap (List.replicate ((positionMoves nf rank fl sh kinds movers).count m)) ∧
      ∃ d, (sweepCMoves nf nStd rank fl sh kinds movers).foldl (fun st x => x.window st) st = ⟨2 * n, 2 * n - 2, d, n⟩) ∧
    (st.n = n ∧ st.posR = 2 * n - 2 ∧ st.posL = 2 * n →
      callPositions m (sweepCMoves nf nStd rank fl sh kinds movers) st =
        ((List.range (2 * n - 2)).map fun j => 2 * n - 2 - j).flatMap
          (List.replicate ((positionMoves nf rank fl sh kinds movers).count m)) ∧
      ∃ d, (sweepCMoves nf nStd rank fl sh kinds movers).foldl (fun st x => x.window st) st = ⟨2, 0, d, n⟩) := by
  have hmn : m ≠ .next := by
    rintro rfl
    have := hm ⟨2, 0, true, 2⟩
    simp [CMove.window, stepPos] at this
  have hmr : ∀ k, CMove.resize k ≠ m := by
    rintro k rfl
    have := congrArg SavedState.n (hm ⟨2, 0, true, k + 1⟩)
    simp [CMove.window] at this
  have hs : sweepCMoves nf nStd rank fl sh kinds movers =
      CMove.resize n :: (List.replicate (2 * n - 2) (positionMoves nf rank fl sh kinds movers)).flatten := by
    unfold sweepCMoves
    simp only [← hn, max_eq_left (show 1 ≤ 2 * n - 2 by omega)]
  rw [hs, callPositions, if_neg (hmr n), List.nil_append, List.foldl_cons]
  obtain ⟨p1, p2⟩ := positions_calls m hm nf rank fl sh kinds movers (2 * n - 2) ((CMove.resize n).window st)
  rw [p1, p2, count_atPosition m hmn]
  constructor
  · intro h
    obtain ⟨d, hd⟩ : ∃ d, (CMove.resize n).window st = ⟨2, 0, d, n⟩ := by
      rcases eq_or_ne n st.n with e | e
      · obtain ⟨h0, h1⟩ := h.resolve_left fun hne => hne e.symm
        refine ⟨st.dirLeft, ?_⟩
        simp only [CMove.window, if_pos e]
        rw [← h0, ← h1, e]
      · exact ⟨_, by simp only [CMove.window, if_neg e]; rfl⟩
    rw [hd]
    have hj : ∀ j ≤ 2 * n - 2, ∃ d', nextN j ⟨2, 0, d, n⟩ = ⟨j + 2, j, d', n⟩ := by
      intro j hj
      obtain ⟨d', e, -⟩ := stepPos_up n h2 d j hj
      exact ⟨d', by rw [nextN_eq]; simp only [e]⟩
    constructor
    · congr 1
      refine (List.map_congr_left fun j hjr => ?_).trans (List.map_id _)
      obtain ⟨d', e⟩ := hj j (List.mem_range.1 hjr).le
      rw [e]; rfl
    · obtain ⟨d', e⟩ := hj (2 * n - 2) le_rfl
      exact ⟨d', by rw [e, Nat.sub_add_cancel (by omega)]⟩
  · rintro ⟨h0, h1, h3⟩
    have hd : (CMove.resize n).window st = ⟨2 * n, 2 * n - 2, st.dirLeft, n⟩ := by
      simp only [CMove.window, if_pos h0.symm]
      rw [← h1, ← h3, ← h0]
    rw [hd]
    have hj : ∀ j ≤ 2 * n - 2, ∃ d', nextN j ⟨2 * n, 2 * n - 2, st.dirLeft, n⟩ = ⟨2 * n - j, 2 * n - 2 - j, d', n⟩ := by
      intro j hj
      obtain ⟨d', e, -⟩ := stepPos_down n h2 st.dirLeft j hj
      exact ⟨d', by rw [nextN_eq]; simp only [e]⟩
    constructor
    · congr 1
      refine List.map_congr_left fun j hjr => ?_
      obtain ⟨d', e⟩ := hj j (List.mem_range.1 hjr).le
      rw [e]
    · obtain ⟨d', e⟩ := hj (2 * n - 2) le_rfl
      refine ⟨d', ?_⟩
      rw [e]
      congr 1 <;> omega

/-- **C61.**  With a single window a sweep makes its calls once, in that window. -/
theorem C61_sweep_one (m : CMove) (hm : ∀ st : SavedState, m.window st = st) (nf nStd rank : ℕ) (fl sh : Bool)
    (kinds movers : List WormKind) (hn : max (nStd / rank) 1 = 1) (st : SavedState) (h1 : st.n = 1 → st.posR = 0) :
    callPositions m (sweepCMoves nf nStd rank fl sh kinds movers) st =
      List.replicate ((positionMoves nf rank fl sh kinds movers).count m) 0 := by
  have hmn : m ≠ .next := by
    rintro rfl
    have := hm ⟨2, 0, true, 2⟩
    simp [CMove.window, stepPos] at this
  have hmr : ∀ k, CMove.resize k ≠ m := by
    rintro k rfl
    have := congrArg SavedState.n (hm ⟨2, 0, true, k + 1⟩)
    simp [CMove.window] at this
  have hs : sweepCMoves nf nStd rank fl sh kinds movers =
      CMove.resize 1 :: (List.replicate 1 (positionMoves nf rank fl sh kinds movers)).flatten := by
    unfold sweepCMoves
    simp only [hn]
    rfl
  rw [hs, callPositions, if_neg (hmr 1), List.nil_append,
    (positions_calls m hm nf rank fl sh kinds movers 1 ((CMove.resize 1).window st)).1, count_atPosition m hmn]
  have : (nextN 0 ((CMove.resize 1).window st)).posR = 0 := by
    show ((CMove.resize 1).window st).posR = 0
    simp only [CMove.window]
    split_ifs with h
    · exact h1 h.symm
    all_goals rfl
  simp [this]

/-- Standard number of windows five, rank 2 and two flavors: two windows, so two positions, with two pair
updates and four shifts at each. -/
example : callPositions (.insRem 2) (sweepCMoves 2 5 2 true true [] []) ⟨2, 0, true, 5⟩ = [0, 0, 1, 1] ∧
    callPositions .shift (sweepCMoves 2 5 2 true true [] []) ⟨4, 2, true, 2⟩ = [2, 2, 2, 2, 1, 1, 1, 1] := by
  decide

end CTHyb
