import Verif.DetMatrixCorrect

/-!
C16 and C17 for `DeterminantMatrix`: the protocol `try_update` / `perform_update` / `reject_update`
keeps the inverse matrix, the operators, the maps, the sets and the sign consistent, the returned ratio
is the ratio of the time-ordered determinants, and rejecting restores everything.
-/

namespace CTHyb

open Matrix

variable {T K : Type} [LinearOrder T] [Field K]

/-! ### The protocol -/

/-- One use of the object as in `LocalUpdater::update` (src/moves/moves.ipp:83-213): `try_update`, then
`perform_update` if the caller wants to accept and the ratio is not zero, otherwise `reject_update`.  The
answer contains the ratio and the decision. -/
noncomputable def DM.step [DecidableEq K] (G : Psi T → Psi T → K) (s : DM T K) (ch : HybChange T)
    (acc : Bool) : Except DErr ((K × Bool) × DM T K) :=
  (s.tryUpdate G ch).bind fun x =>
  if acc = true ∧ x.1 ≠ 0 then x.2.perform.bind fun s2 => .ok ((x.1, true), s2)
  else x.2.reject.bind fun s2 => .ok ((x.1, false), s2)

/-- A history of requests; the answer contains the changes which were made, with their ratios. -/
noncomputable def DM.run [DecidableEq K] (G : Psi T → Psi T → K) :
    DM T K → List (HybChange T × Bool) → Except DErr (List (K × HybChange T) × DM T K)
  | s, [] => .ok ([], s)
  | s, (ch, acc) :: h =>
    (s.step G ch acc).bind fun x =>
    (DM.run G x.2 h).bind fun y => .ok ((if x.1.2 then [(x.1.1, ch)] else []) ++ y.1, y.2)

/-- Every request of the history can be made when it is made, and is of a kind the solver uses. -/
def DM.Legal [DecidableEq K] (G : Psi T → Psi T → K) : DM T K → List (HybChange T × Bool) → Prop
  | _, [] => True
  | s, (ch, acc) :: h => ch.Adm s.cd.ops s.c.ops ∧ ch.Shape ∧
    ∀ x s', s.step G ch acc = .ok (x, s') → DM.Legal G s' h

/-! ### Helper lemmas -/

theorem DM.Inv.timeDet_ne_zero {G : Psi T → Psi T → K} {s : DM T K} (h : s.Inv G) :
    timeDet G s.c.ops s.cd.ops ≠ 0 := by
  rw [timeDet_eq G _ _ h.c.nodup h.cd.nodup, listDet_blk G _ _ s.n h.cLen h.cdLen]
  refine mul_ne_zero (by simp) ?_
  intro h0
  have := congrArg Matrix.det h.inv
  rw [det_mul, h0, mul_zero, det_one] at this
  exact zero_ne_one this

theorem DM.Inv.timeDet_perm {G : Psi T → Psi T → K} {s s2 : DM T K} (h : s2.Inv G)
    (h1 : s2.cd.ops.Perm s.cd.ops) (h2 : s2.c.ops.Perm s.c.ops) :
    timeDet G s2.c.ops s2.cd.ops = timeDet G s.c.ops s.cd.ops :=
  timeDet_congr G h2 h1 h.c.nodup h.cd.nodup

theorem DM.Inv.setMode {G : Psi T → Psi T → K} {s : DM T K} (h : s.Inv G) (m : Option DMode) :
    DM.Inv G { s with mode := m } :=
  ⟨⟨h.cd, h.c, h.cdLen, h.cLen, h.perm, h.inv⟩, h.state, h.cdOK, h.cOK, h.nodup⟩

theorem DM.empty_inv (G : Psi T → Psi T → K) : (DM.empty : DM T K).Inv G := by
  have h : (⟨[], [], []⟩ : Side T).OK :=
    ⟨⟨by simp, by simp⟩, by simp [OpSet.Sorted], by simp⟩
  exact ⟨⟨h.toCore, h.toCore, rfl, rfl, rfl, by ext i; exact i.elim0⟩, rfl, h, h, by simp [DM.empty]⟩

theorem DM.tryAdd_mode (G : Psi T → Psi T → K) (s : DM T K) (l : List (Psi T × Psi T)) (m : Option DMode)
    (r : K) (s1 : DM T K) (h : DM.tryAdd G { s with mode := m } l = .ok (r, s1)) :
    s.tryAdd G l = .ok (r, { s1 with mode := s.mode }) ∧ s1.mode = m := by
  unfold DM.tryAdd DM.check at h ⊢
  simp only [Except.bind] at h ⊢
  by_cases h1 : s.state = .waiting
  · rw [if_pos h1] at h ⊢
    have e : DM.insertionPossible { s with mode := m } l = s.insertionPossible l := rfl
    rw [e] at h
    simp only [] at h ⊢
    by_cases h2 : s.insertionPossible l = true
    · rw [if_pos h2] at h ⊢
      cases ha : addOps l s.cd s.c 0 with
      | error e => rw [ha] at h; simp at h
      | ok v =>
        rw [ha] at h
        simp only [Except.ok.injEq, Prod.mk.injEq] at h ⊢
        obtain ⟨rfl, rfl⟩ := h
        exact ⟨⟨rfl, rfl⟩, rfl⟩
    · rw [if_neg h2] at h ⊢
      simp only [Except.ok.injEq, Prod.mk.injEq] at h ⊢
      obtain ⟨rfl, rfl⟩ := h
      exact ⟨⟨rfl, rfl⟩, rfl⟩
  · rw [if_neg h1] at h
    simp at h

/-! ### C16 -/

/-- **C16 (stored determinant).**  In a consistent object `compute_determinant` gives the determinant of
the time-ordered matrix of hybridization functions, and it is not zero. -/
theorem C16_determinant (G : Psi T → Psi T → K) (s : DM T K) (h : s.Inv G) :
    s.determinant = timeDet G s.c.ops s.cd.ops ∧ s.determinant ≠ 0 := by
  have e : s.determinant = timeDet G s.c.ops s.cd.ops := by
    rw [timeDet_eq G _ _ h.c.nodup h.cd.nodup, listDet_blk G _ _ s.n h.cLen h.cdLen, DM.determinant, h.perm]
    have h1 := congrArg Matrix.det h.inv
    rw [det_mul, det_one] at h1
    have h2 : (blk s.inv 0 0 s.n s.n).det ≠ 0 := left_ne_zero_of_mul (by rw [h1]; exact one_ne_zero)
    rw [div_eq_iff h2, mul_assoc, mul_comm (Matrix.det _), h1, mul_one]
    push_cast
    rfl
  exact ⟨e, e ▸ h.timeDet_ne_zero⟩

/-- **C16 (constructors).**  The object without operators is consistent, and so is the one built from a list
of pairs at different times whose time-ordered determinant does not vanish; it contains these operators. -/
theorem C16_build (G : Psi T → Psi T → K) (l : List (Psi T × Psi T))
    (hn : ((l.map Prod.fst ++ l.map Prod.snd).map Psi.time).Nodup)
    (hd : timeDet G (l.map Prod.snd) (l.map Prod.fst) ≠ 0) :
    (DM.empty : DM T K).Inv G ∧ ∃ s : DM T K, DM.build G l = .ok s ∧ s.Inv G ∧
      s.cd.ops.Perm (l.map Prod.fst) ∧ s.c.ops.Perm (l.map Prod.snd) ∧
      s.determinant = timeDet G (l.map Prod.snd) (l.map Prod.fst) := by
  refine ⟨DM.empty_inv G, ?_⟩
  let ch : HybChange T := ⟨[], [], l.map Prod.fst, l.map Prod.snd⟩
  have ha : ch.Adm (DM.empty : DM T K).cd.ops (DM.empty : DM T K).c.ops := by
    refine ⟨by simp [ch], by simp [ch], ?_⟩
    simpa [ch, DM.empty] using hn
  obtain ⟨r, s1, h1, h2⟩ := DM.tryAdd_ok (s := { (DM.empty : DM T K) with mode := some .add })
    ((DM.empty_inv G).setMode _) rfl ch ha l rfl rfl rfl rfl
  obtain ⟨h3, h4⟩ := DM.tryAdd_mode G _ l _ r s1 h1
  have i1 : IsChanged ([] : List (Psi T)) [] (l.map Prod.snd) (l.map Prod.snd) := by simp [IsChanged]
  have i2 : IsChanged ([] : List (Psi T)) [] (l.map Prod.fst) (l.map Prod.fst) := by simp [IsChanged]
  have hr := h2.ratio (Or.inr (Or.inl rfl)) _ _ i1 i2
  have hr0 : r ≠ 0 := by
    intro h0
    rw [h0, zero_mul] at hr
    exact hd hr
  obtain ⟨s2, p1, p2, p3, p4⟩ := h2.perform hr0
  unfold DM.perform at p1
  rw [h4] at p1
  simp only [] at p1
  have e : DM.performAdd { s1 with mode := none } = .ok { s2 with mode := none } := by
    unfold DM.performAdd DM.check at p1 ⊢
    simp only [Except.bind] at p1 ⊢
    by_cases q1 : s1.state = .tryAdd
    · rw [if_pos q1] at p1 ⊢
      simp only [] at p1 ⊢
      by_cases q2 : s1.gN = s1.n
      · rw [if_pos q2] at p1 ⊢
        simp only [Except.ok.injEq] at p1 ⊢
        rw [← p1]
      · rw [if_neg q2] at p1; simp at p1
    · rw [if_neg q1] at p1; simp at p1
  refine ⟨{ s2 with mode := none }, ?_, p2.setMode _, p3.perm i2, p4.perm i1, ?_⟩
  · unfold DM.build
    rw [h3]
    exact e
  · rw [(C16_determinant G _ (p2.setMode none)).1]
    exact timeDet_congr G (p4.perm i1) (p3.perm i2) p2.c.nodup p2.cd.nodup

/-- **C16 (one update).**  For every consistent object and every request of the kinds used by the solver
which leaves all times different, `try_update` succeeds; the ratio it returns is the ratio of the
time-ordered determinants (if a request removes and adds operators of both kinds, this is only claimed if
the ratio is not zero or the operators which stay have a non-vanishing determinant, see
`C15_replace_singular_wrong`); `reject_update` leaves a consistent object with
the same operators and determinant; and if the ratio is not zero, `perform_update` leaves a consistent
object with the requested operators, whose determinant is the old one times the ratio. -/
theorem C16_update [DecidableEq K] (G : Psi T → Psi T → K) (s : DM T K) (h : s.Inv G) (ch : HybChange T)
    (ha : ch.Adm s.cd.ops s.c.ops) (hs : ch.Shape) :
    ∃ r s1, s.tryUpdate G ch = .ok (r, s1) ∧
      ((r ≠ 0 ∨ ch.cdRem = [] ∨ ch.cdAdd = [] ∨ ch.cRem = [] ∨ ch.cAdd = [] ∨
          ∃ cs cds, IsChanged s.c.ops ch.cRem [] cs ∧ IsChanged s.cd.ops ch.cdRem [] cds ∧
            timeDet G cs cds ≠ 0) →
        ∀ cs cds, IsChanged s.c.ops ch.cRem ch.cAdd cs → IsChanged s.cd.ops ch.cdRem ch.cdAdd cds →
          timeDet G cs cds = r * timeDet G s.c.ops s.cd.ops) ∧
      (∃ s2, s1.reject = .ok s2 ∧ s2.Inv G ∧ s2.cd.ops.Perm s.cd.ops ∧ s2.c.ops.Perm s.c.ops ∧
        s2.determinant = s.determinant) ∧
      (r ≠ 0 → ∃ s2, s1.perform = .ok s2 ∧ s2.Inv G ∧ IsChanged s.cd.ops ch.cdRem ch.cdAdd s2.cd.ops ∧
        IsChanged s.c.ops ch.cRem ch.cAdd s2.c.ops ∧ s2.determinant = r * s.determinant) := by
  obtain ⟨r, s1, h1, h2⟩ := DM.tryUpdate_ok h ch ha hs
  refine ⟨r, s1, h1, h2.ratio, ?_, ?_⟩
  · obtain ⟨s2, a1, a2, a3, a4⟩ := h2.reject
    refine ⟨s2, a1, a2, a3, a4, ?_⟩
    rw [(C16_determinant G s2 a2).1, (C16_determinant G s h).1, a2.timeDet_perm a3 a4]
  · intro hr
    obtain ⟨s2, a1, a2, a3, a4⟩ := h2.perform hr
    refine ⟨s2, a1, a2, a3, a4, ?_⟩
    rw [(C16_determinant G s2 a2).1, (C16_determinant G s h).1, h2.ratio (Or.inl hr) _ _ a4 a3]

/-- One step: it succeeds, and its effect is the requested one if it was performed, and none otherwise. -/
theorem DM.step_ok [DecidableEq K] (G : Psi T → Psi T → K) (s : DM T K) (h : s.Inv G) (ch : HybChange T)
    (acc : Bool) (ha : ch.Adm s.cd.ops s.c.ops) (hs : ch.Shape) :
    ∃ r b s2, s.step G ch acc = .ok ((r, b), s2) ∧ s2.Inv G ∧ (b = true → acc = true ∧ r ≠ 0) ∧
      (b = true → IsChanged s.cd.ops ch.cdRem ch.cdAdd s2.cd.ops ∧
        IsChanged s.c.ops ch.cRem ch.cAdd s2.c.ops ∧ s2.determinant = r * s.determinant) ∧
      (b = false → s2.cd.ops.Perm s.cd.ops ∧ s2.c.ops.Perm s.c.ops ∧ s2.determinant = s.determinant) := by
  obtain ⟨r, s1, h1, -, ⟨s2, a1, a2, a3, a4, a5⟩, h3⟩ := C16_update G s h ch ha hs
  unfold DM.step
  rw [h1]
  simp only [Except.bind]
  by_cases hc : acc = true ∧ r ≠ 0
  · rw [if_pos hc]
    obtain ⟨s3, b1, b2, b3, b4, b5⟩ := h3 hc.2
    rw [b1]
    exact ⟨r, true, s3, rfl, b2, fun _ => hc, fun _ => ⟨b3, b4, b5⟩, by simp⟩
  · rw [if_neg hc, a1]
    exact ⟨r, false, s2, rfl, a2, by simp, by simp, fun _ => ⟨a3, a4, a5⟩⟩

/-- **C16 (histories).**  After any history of requests, performed or rejected, nothing has failed, the
object is consistent, its operators are the initial ones with the performed changes applied, and its
determinant is the initial one times the product of the ratios of the performed changes. -/
theorem C16_history [DecidableEq K] (G : Psi T → Psi T → K) (hist : List (HybChange T × Bool)) :
    ∀ (s : DM T K), s.Inv G → s.Legal G hist →
    ∃ done s', s.run G hist = .ok (done, s') ∧ s'.Inv G ∧
      (done.map Prod.snd).Sublist (hist.map Prod.fst) ∧
      (s'.cd.ops : Multiset (Psi T)) = done.foldl (fun m x => m - (x.2.cdRem : Multiset (Psi T)) + x.2.cdAdd)
        (s.cd.ops : Multiset (Psi T)) ∧
      (s'.c.ops : Multiset (Psi T)) = done.foldl (fun m x => m - (x.2.cRem : Multiset (Psi T)) + x.2.cAdd)
        (s.c.ops : Multiset (Psi T)) ∧
      s'.determinant = (done.map Prod.fst).prod * s.determinant := by
  induction hist with
  | nil => exact fun s h _ => ⟨[], s, rfl, h, List.Sublist.refl _, rfl, rfl, by simp⟩
  | cons x hist ih =>
    obtain ⟨ch, acc⟩ := x
    rintro s h ⟨ha, hs, hl⟩
    obtain ⟨r, b, s2, e1, e2, -, e3, e4⟩ := DM.step_ok G s h ch acc ha hs
    obtain ⟨done, s', f1, f2, f3, f4, f5, f6⟩ := ih s2 e2 (hl _ _ e1)
    refine ⟨(if b then [(r, ch)] else []) ++ done, s', ?_, f2, ?_, ?_, ?_, ?_⟩
    · rw [DM.run, e1]
      simp only [Except.bind]
      rw [f1]
    · cases b
      · simpa using f3.cons _
      · simpa using f3
    · cases b
      · rw [f4, Multiset.coe_eq_coe.2 (e4 rfl).1]; rfl
      · rw [f4, (e3 rfl).1]; rfl
    · cases b
      · rw [f5, Multiset.coe_eq_coe.2 (e4 rfl).2.1]; rfl
      · rw [f5, (e3 rfl).2.1]; rfl
    · cases b
      · rw [f6, (e4 rfl).2.2]; rfl
      · rw [f6, (e3 rfl).2.2]
        simp only [if_true, List.cons_append, List.nil_append, List.map_cons, List.prod_cons]
        ring

/-- **C16 (rebuilding).**  Whatever the stored matrix of an otherwise consistent object has become, say by
accumulated rounding errors, `rebuild_inverse_matrix` restores the inverse: the object is consistent again,
with the same operators, and its determinant and stored matrix are those it had before the matrix was
damaged. -/
theorem C16_rebuild (G : Psi T → Psi T → K) (s : DM T K) (h : s.Inv G) (bad : ℕ → ℕ → K) :
    ∃ s2, DM.rebuild G { s with inv := bad } = .ok s2 ∧ s2.Inv G ∧ s2.cd = s.cd ∧ s2.c = s.c ∧
      s2.determinant = s.determinant ∧ ∀ i j, i < s.n → j < s.n → s2.inv i j = s.inv i j := by
  have e0 : (blk s.inv 0 0 s.n s.n) = (blk (gEntry G s.c.ops s.cd.ops) 0 0 s.n s.n)⁻¹ :=
    (Matrix.inv_eq_left_inv h.inv).symm
  have e1 : blk (ofMat (blk (gEntry G s.c.ops s.cd.ops) 0 0 s.n s.n)⁻¹) 0 0 s.n s.n = blk s.inv 0 0 s.n s.n := by
    rw [blk_ofMat, e0]
  refine ⟨{ s with inv := ofMat (blk (gEntry G s.c.ops s.cd.ops) 0 0 s.n s.n)⁻¹ }, ?_, ?_, rfl, rfl, ?_, ?_⟩
  · unfold DM.rebuild DM.check
    rw [if_pos h.state]
    show Except.ok _ = Except.ok _
    have : ∀ m, m = s.n → ({ s with
        n := m
        inv := ofMat (blk (gEntry G s.c.ops s.cd.ops) 0 0 m m)⁻¹ } : DM T K) =
        { s with inv := ofMat (blk (gEntry G s.c.ops s.cd.ops) 0 0 s.n s.n)⁻¹ } := by
      rintro m rfl; rfl
    exact congrArg Except.ok (this _ h.cdLen)
  · refine ⟨⟨h.cd, h.c, h.cdLen, h.cLen, h.perm, ?_⟩, h.state, h.cdOK, h.cOK, h.nodup⟩
    show blk (ofMat (blk (gEntry G s.c.ops s.cd.ops) 0 0 s.n s.n)⁻¹) 0 0 s.n s.n * _ = 1
    rw [e1]
    exact h.inv
  · simp only [DM.determinant]
    rw [e1]
  · intro i j hi hj
    have := congrFun (congrFun e1 ⟨i, hi⟩) ⟨j, hj⟩
    simpa [blk] using this

/-! ### The object as the determinant machinery of the updates -/

/-- `DeterminantMatrix` behind the interface used by the updates in `Verif.LocalUpdate`.  A failure is
kept and never goes away. -/
noncomputable def dmOps [DecidableEq K] (G : Psi T → Psi T → K) : DetOps T K (Except DErr (DM T K)) where
  tryUpdate x ch :=
    match x with
    | .error e => (0, .error e)
    | .ok s =>
      match s.tryUpdate G ch with
      | .error e => (0, .error e)
      | .ok (r, s1) => (r, .ok s1)
  perform x := x.bind DM.perform
  reject x := x.bind DM.reject
  cdagg x := match x with
    | .ok s => s.cd.ops
    | .error _ => []
  cs x := match x with
    | .ok s => s.c.ops
    | .error _ => []

/-- The determinant of an object which has not failed. -/
noncomputable def dmDet (x : Except DErr (DM T K)) : K :=
  match x with
  | .ok s => s.determinant
  | .error _ => 0

/-- **C16 (use in the updates).**  `DeterminantMatrix` satisfies everything the theorems about local
updates (C01, C02, C04) assume of the determinant machinery, for requests of the kinds used by the
solver. -/
theorem C16_lawful [DecidableEq K] (G : Psi T → Psi T → K) :
    (dmOps G).Lawful HybChange.Shape (fun x => ∃ s : DM T K, x = .ok s ∧ s.Inv G) dmDet := by
  have key : ∀ (x : Except DErr (DM T K)) (ch : HybChange T), (∃ s : DM T K, x = .ok s ∧ s.Inv G) →
      ch.Adm ((dmOps G).cdagg x) ((dmOps G).cs x) → ch.Shape →
      ∃ s r s1, x = .ok s ∧ (dmOps G).tryUpdate x ch = (r, .ok s1) ∧
      (∃ s2, s1.reject = .ok s2 ∧ s2.Inv G ∧ s2.cd.ops.Perm s.cd.ops ∧ s2.c.ops.Perm s.c.ops ∧
        s2.determinant = s.determinant) ∧
      (r ≠ 0 → ∃ s2, s1.perform = .ok s2 ∧ s2.Inv G ∧ IsChanged s.cd.ops ch.cdRem ch.cdAdd s2.cd.ops ∧
        IsChanged s.c.ops ch.cRem ch.cAdd s2.c.ops ∧ s2.determinant = r * s.determinant) := by
    rintro x ch ⟨s, rfl, h⟩ ha hs
    obtain ⟨r, s1, h1, -, h2, h3⟩ := C16_update G s h ch ha hs
    refine ⟨s, r, s1, rfl, ?_, h2, h3⟩
    simp only [dmOps, h1]
  constructor
  · intro x ch hx ha hs
    obtain ⟨s, r, s1, rfl, e, ⟨s2, a1, a2, a3, a4, a5⟩, -⟩ := key x ch hx ha hs
    rw [e]; exact ⟨s2, a1, a2⟩
  · intro x ch hx ha hs
    obtain ⟨s, r, s1, rfl, e, ⟨s2, a1, a2, a3, a4, a5⟩, -⟩ := key x ch hx ha hs
    rw [e]; simp only [dmOps, Except.bind, a1]; exact a3
  · intro x ch hx ha hs
    obtain ⟨s, r, s1, rfl, e, ⟨s2, a1, a2, a3, a4, a5⟩, -⟩ := key x ch hx ha hs
    rw [e]; simp only [dmOps, Except.bind, a1]; exact a4
  · intro x ch hx ha hs
    obtain ⟨s, r, s1, rfl, e, ⟨s2, a1, a2, a3, a4, a5⟩, -⟩ := key x ch hx ha hs
    rw [e]; simp only [dmOps, Except.bind, a1]; exact a5
  · intro x ch hx ha hs hr
    obtain ⟨s, r, s1, rfl, e, -, hp⟩ := key x ch hx ha hs
    rw [e] at hr ⊢
    obtain ⟨s2, a1, a2, a3, a4, a5⟩ := hp hr
    exact ⟨s2, a1, a2⟩
  · intro x ch hx ha hs hr
    obtain ⟨s, r, s1, rfl, e, -, hp⟩ := key x ch hx ha hs
    rw [e] at hr ⊢
    obtain ⟨s2, a1, a2, a3, a4, a5⟩ := hp hr
    simp only [dmOps, Except.bind, a1]; exact a3
  · intro x ch hx ha hs hr
    obtain ⟨s, r, s1, rfl, e, -, hp⟩ := key x ch hx ha hs
    rw [e] at hr ⊢
    obtain ⟨s2, a1, a2, a3, a4, a5⟩ := hp hr
    simp only [dmOps, Except.bind, a1]; exact a4
  · intro x ch hx ha hs hr
    obtain ⟨s, r, s1, rfl, e, -, hp⟩ := key x ch hx ha hs
    rw [e] at hr ⊢
    obtain ⟨s2, a1, a2, a3, a4, a5⟩ := hp hr
    simp only [dmOps, Except.bind, a1]; exact a5

/-! ### Requests for which C16 does not hold -/

theorem RHelper.apply_zero (n : ℕ) (m : Option ((ℕ → ℕ → K) × (ℕ → ℕ → K)))
    (hm : m = none → n = 0) (Gjn Gnj Gnn : ℕ → ℕ → K) :
    ∃ v, RHelper.apply ⟨n, 0, m⟩ n 0 Gjn Gnj Gnn = .ok v := by
  unfold RHelper.apply
  rw [if_neg (by simp)]
  cases m with
  | none => simp only [hm rfl, if_true]; exact ⟨_, rfl⟩
  | some p => exact ⟨_, rfl⟩

/-- **C16 (violated for other requests, 1).**  A request to replace two or more annihilation operators and
no creation operator is silently ignored: `try_update` looks at the number of creation operators only
(determinant_matrix.ipp:541-551), and `perform_update` leaves all operators as they were. -/
theorem C16_replacing_two_c_ignored [DecidableEq K] (G : Psi T → Psi T → K) (s : DM T K) (h : s.Inv G)
    (ch : HybChange T) (h1 : ch.cdRem = []) (h2 : ch.cdAdd = []) (h3 : ch.cRem.length = ch.cAdd.length)
    (h4 : 2 ≤ ch.cRem.length) :
    ∃ r s1, s.tryUpdate G ch = .ok (r, s1) ∧ ∃ s2, s1.perform = .ok s2 ∧ s2.c = s.c ∧ s2.cd = s.cd := by
  have e : s.tryUpdate G ch = ({ s with mode := some .remAdd } : DM T K).tryRemoveAdd G [] [] := by
    unfold DM.tryUpdate
    simp only [h1, h2, List.length_nil]
    rw [if_neg (by omega), if_neg (by omega), if_neg (by omega), if_neg (by omega), if_neg (by omega),
      if_neg (by omega)]
    simp [toPairs, Except.bind]
  rw [e]
  have hp : DM.removalInsertionPossible ({ s with mode := some .remAdd } : DM T K) [] [] = .ok true := by
    unfold DM.removalInsertionPossible
    have : hasDuplicate (pairTimes ([] : List (Psi T × Psi T))) = false := by
      rw [hasDuplicate_iff]; simp [pairTimes]
    rw [this]
    rfl
  unfold DM.tryRemoveAdd DM.check
  rw [if_pos h.state]
  simp only [Except.bind]
  rw [hp]
  simp only [if_true, List.length_nil, Nat.lt_irrefl, if_false]
  have hl : removeLast 0 s.cd s.c = .ok (s.cd, s.c, 0) := by
    unfold removeLast
    rw [if_neg (by omega)]
    rfl
  rw [hl]
  simp only [addOps]
  obtain ⟨v, hv⟩ := RHelper.apply_zero (s.n - 0) (if s.n - 0 = 0 ∨ (sumMat (s.n - 0) 0 s.inv).toBlocks₂₂.det = 0
      then none else some (ofMat (replaceMmat (sumMat (s.n - 0) 0 s.inv)),
        ofMat (replaceInvTSp (replaceMmat (sumMat (s.n - 0) 0 s.inv))
          (blk (fun i j => gEntry G s.c.ops s.cd.ops i (s.n - 0 + j)) 0 0 (s.n - 0) 0)
          (blk (fun i j => gEntry G s.c.ops s.cd.ops (s.n - 0 + i) j) 0 0 0 (s.n - 0))
          (blk (fun i j => gEntry G s.c.ops s.cd.ops (s.n - 0 + i) (s.n - 0 + j)) 0 0 0 0))))
    (by
      intro hx
      by_contra h0
      rw [if_neg (by rw [det_isEmpty, not_or]; exact ⟨h0, one_ne_zero⟩)] at hx
      cases hx) (fun i j => gEntry G s.c.ops s.cd.ops i (s.n - 0 + j))
    (fun i j => gEntry G s.c.ops s.cd.ops (s.n - 0 + i) j)
    (fun i j => gEntry G s.c.ops s.cd.ops (s.n - 0 + i) (s.n - 0 + j))
  refine ⟨_, _, rfl, ?_⟩
  simp only [DM.perform]
  unfold DM.performRemoveAdd
  simp only []
  rw [hv]
  simp only [Except.bind, DM.check, if_true, Bool.false_eq_true, if_false]
  exact ⟨_, rfl, rfl, rfl⟩

/-- **C16 (violated for other requests, 2).**  A request to replace two or more creation operators and no
annihilation operator makes `try_update` read behind the end of the empty lists of annihilation
operators (determinant_matrix.ipp:468-481, 541-551). -/
theorem C16_replacing_two_cdagg_undefined [DecidableEq K] (G : Psi T → Psi T → K) (s : DM T K)
    (ch : HybChange T) (h1 : ch.cRem = []) (h2 : ch.cAdd = []) (h3 : ch.cdRem.length = ch.cdAdd.length)
    (h4 : 2 ≤ ch.cdRem.length) : s.tryUpdate G ch = .error .undef := by
  unfold DM.tryUpdate
  simp only [h1, h2, List.length_nil]
  rw [if_neg (by omega), if_neg (by omega), if_neg (by omega), if_neg (by omega), if_neg (by omega),
    if_neg (by omega)]
  unfold toPairs
  rw [if_pos (by simp; omega)]
  rfl

/-! ### C17 -/

theorem DM.Inv.cdRel {G : Psi T → Psi T → K} {s : DM T K} (h : s.Inv G) :
    s.cd.pos.length = s.n := by
  rw [h.cd.pos.length_eq, List.length_zipIdx, List.length_map, h.cdLen]

theorem Side.truncate_zero (s : Side T) (n : ℕ) (h : s.ops.length = n) : s.truncate n 0 = .ok s := by
  unfold Side.truncate
  rw [if_neg (by omega)]
  simp [← h]

theorem insertion_impossible {G : Psi T → Psi T → K} {s : DM T K} (h : s.Inv G) (l : List (Psi T × Psi T))
    (hn : ¬ (((s.cd.ops ++ s.c.ops) ++ (l.map Prod.fst ++ l.map Prod.snd)).map Psi.time).Nodup) :
    s.insertionPossible l = false := by
  unfold DM.insertionPossible
  by_cases ha : (l.any fun p => s.exist p.1.time || s.exist p.2.time) = true
  · rw [if_pos ha]
  · rw [if_neg ha]
    by_contra hd
    rw [Bool.not_eq_false, Bool.not_eq_true', hasDuplicate_iff, (pairTimes_perm l).nodup_iff] at hd
    apply hn
    rw [List.map_append, List.nodup_append]
    refine ⟨h.nodup, hd, ?_⟩
    intro t ht t' ht' e
    subst e
    apply ha
    rw [List.any_eq_true]
    rw [← (pairTimes_perm l).mem_iff, mem_pairTimes] at ht'
    obtain ⟨p, hp, hpt⟩ := ht'
    refine ⟨p, hp, ?_⟩
    rcases hpt with hpt | hpt
    · rw [hpt, (h.exist_iff t).2 ht]; rfl
    · rw [hpt, (h.exist_iff t).2 ht, Bool.or_true]

/-- **C17 (impossible additions).**  If operators are to be added such that two times coincide, `try_update`
returns zero, and `reject_update` leaves the same operators, maps, sets, matrix and sign, whatever earlier
updates left in the work area. -/
theorem C17_impossible_add [DecidableEq K] (G : Psi T → Psi T → K) (s : DM T K) (h : s.Inv G)
    (ch : HybChange T) (h1 : ch.cdRem = []) (h2 : ch.cRem = []) (hl : ch.cdAdd.length = ch.cAdd.length)
    (hn : ¬ (((s.cd.ops ++ s.c.ops) ++ (ch.cdAdd ++ ch.cAdd)).map Psi.time).Nodup) :
    ∃ s1 s2, s.tryUpdate G ch = .ok (0, s1) ∧ s1.reject = .ok s2 ∧ s2.Inv G ∧ s2.cd = s.cd ∧ s2.c = s.c ∧
      s2.n = s.n ∧ s2.inv = s.inv ∧ s2.perm = s.perm := by
  have hpos : 0 < ch.cdAdd.length := by
    by_contra h0
    have e1 : ch.cdAdd = [] := List.length_eq_zero_iff.1 (by omega)
    have e2 : ch.cAdd = [] := List.length_eq_zero_iff.1 (by omega)
    rw [e1, e2] at hn
    exact hn (by simpa using h.nodup)
  have himp : DM.insertionPossible { s with mode := some .add } (ch.cdAdd.zip ch.cAdd) = false :=
    insertion_impossible (h.withMode .add) _ (by rw [zip_fst _ _ hl, zip_snd _ _ hl]; exact hn)
  unfold DM.tryUpdate
  simp only [h1, h2, List.length_nil]
  rw [if_neg (by omega), if_neg (by omega), if_neg (by omega), if_neg (by omega),
    if_pos ⟨hpos, trivial, by omega, trivial⟩, toPairs_ok _ _ hl]
  simp only [Except.bind]
  unfold DM.tryAdd DM.check
  rw [if_pos h.state]
  simp only [Except.bind]
  rw [himp]
  refine ⟨_, { s with mode := some .add }, rfl, ?_, h.withMode _, rfl, rfl, rfl, rfl, rfl⟩
  simp only [DM.reject]
  unfold DM.rejectAdd DM.check
  simp only [if_true, Except.bind, h.cdRel, Nat.lt_irrefl, if_false, Nat.sub_self]
  rw [Side.truncate_zero _ _ h.cLen]
  simp only []
  rw [Side.truncate_zero _ _ h.cdLen]
  simp only [← h.state]

theorem removal_impossible {G : Psi T → Psi T → K} {s : DM T K} (h : s.Inv G) (l : List (Psi T × Psi T))
    (he : ∀ p ∈ l, p.1.time ∈ (s.cd.ops ++ s.c.ops).map Psi.time ∧
      p.2.time ∈ (s.cd.ops ++ s.c.ops).map Psi.time)
    (hn : ¬ ((l.map Prod.fst ++ l.map Prod.snd).map Psi.time).Nodup) :
    s.removalPossible l = .ok false := by
  unfold DM.removalPossible
  rw [if_neg]
  · have : hasDuplicate (pairTimes l) = true := by
      by_contra hd
      rw [Bool.not_eq_true, hasDuplicate_iff, (pairTimes_perm l).nodup_iff] at hd
      exact hn hd
    rw [this]; rfl
  · rw [List.any_eq_true]
    rintro ⟨p, hp, hx⟩
    obtain ⟨a, b⟩ := he p hp
    rw [(h.exist_iff _).2 a, (h.exist_iff _).2 b] at hx
    simp at hx

/-- **C17 (impossible removals, `_partial`).**  If existing operators are to be removed, some of them
twice, `try_update` returns zero; `reject_update` leaves the same operators, maps, sets, matrix and sign
*provided that no earlier update has left removed operators in the work area*.  Without this condition the
claim is false: `C17_impossible_remove_violated`. -/
theorem C17_impossible_remove_partial [DecidableEq K] (G : Psi T → Psi T → K) (s : DM T K) (h : s.Inv G)
    (ch : HybChange T) (h1 : ch.cdAdd = []) (h2 : ch.cAdd = []) (hl : ch.cdRem.length = ch.cRem.length)
    (he : ∀ x, x ∈ ch.cdRem ∨ x ∈ ch.cRem → x.time ∈ (s.cd.ops ++ s.c.ops).map Psi.time)
    (hn : ¬ ((ch.cdRem ++ ch.cRem).map Psi.time).Nodup) (hw : s.removed = []) :
    ∃ s1 s2, s.tryUpdate G ch = .ok (0, s1) ∧ s1.reject = .ok s2 ∧ s2.Inv G ∧ s2.cd = s.cd ∧ s2.c = s.c ∧
      s2.n = s.n ∧ s2.inv = s.inv ∧ s2.perm = s.perm := by
  have hpos : 0 < ch.cdRem.length := by
    by_contra h0
    have e1 : ch.cdRem = [] := List.length_eq_zero_iff.1 (by omega)
    have e2 : ch.cRem = [] := List.length_eq_zero_iff.1 (by omega)
    rw [e1, e2] at hn
    exact hn (by simp)
  have himp : DM.removalPossible { s with mode := some .rem } (ch.cdRem.zip ch.cRem) = .ok false :=
    removal_impossible (h.withMode .rem) _
      (fun p hp => ⟨he _ (Or.inl (List.of_mem_zip hp).1), he _ (Or.inr (List.of_mem_zip hp).2)⟩)
      (by rw [zip_fst _ _ hl, zip_snd _ _ hl]; exact hn)
  unfold DM.tryUpdate
  simp only [h1, h2, List.length_nil]
  rw [if_neg (by omega), if_neg (by omega), if_neg (by omega), if_neg (by omega), if_neg (by omega),
    if_pos ⟨trivial, hpos, trivial, by omega⟩, toPairs_ok _ _ hl]
  simp only [Except.bind]
  unfold DM.tryRemove DM.check
  rw [if_pos h.state]
  simp only [Except.bind]
  rw [himp]
  refine ⟨_, { s with mode := some .rem }, rfl, ?_, h.withMode _, rfl, rfl, rfl, rfl, rfl⟩
  simp only [DM.reject]
  unfold DM.rejectRemove DM.check
  simp only [if_true, Except.bind, hw, List.reverse_nil, addOps, ← h.state]

/-- What `try_remove` leaves in the work area. -/
theorem tryRemove_removed {G : Psi T → Psi T → K} {s : DM T K} (h : s.Inv G) (a b : Psi T)
    (ha : a ∈ s.cd.ops) (hb : b ∈ s.c.ops) (r : K) (s1 : DM T K)
    (e : s.tryRemove [(a, b)] = .ok (r, s1)) : s1.removed = [(a, b)] ∧ s1.mode = s.mode := by
  have hp : s.removalPossible [(a, b)] = .ok true := by
    unfold DM.removalPossible
    rw [rem_exist h [(a, b)] (by simpa using ha) (by simpa using hb),
      rem_nodup h [(a, b)] (by simpa using ha) (by simpa using hb)]
    rfl
  obtain ⟨s0, A, B, C, D, e1, hc1, hn1, hm1, oA, oC, lB, lD, pB, pD, pcd, pc, hrem, sB, sD⟩ :=
    DM.moveToEnd_ok h [(a, b)] (by simpa using ha) (by simpa using hb)
  unfold DM.tryRemove DM.check at e
  rw [if_pos h.state] at e
  simp only [Except.bind] at e
  rw [hp] at e
  simp only [if_true] at e
  rw [e1] at e
  simp only [] at e
  cases hr : removeLast [(a, b)].length s0.cd s0.c with
  | error x => rw [hr] at e; simp at e
  | ok v =>
    rw [hr] at e
    simp only [Except.ok.injEq, Prod.mk.injEq] at e
    obtain ⟨-, rfl⟩ := e
    refine ⟨?_, hm1⟩
    rw [List.map_cons, List.map_nil, List.perm_singleton] at pB pD
    simp only [hrem, pB, pD]
    rfl

/-- **C17 (violated).**  Take any consistent object and any pair of its operators.  After the removal of
this pair has been tried and rejected, a request to remove the same pair twice returns zero, and rejecting
this request throws the exception "cdagg already exists" instead of leaving the object alone: `try_remove`
returns before `removed_op_pairs_` is reset (determinant_matrix_remove.ipp:24-26), and `reject_remove`
inserts what it finds there (line 93). -/
theorem C17_impossible_remove_violated [DecidableEq K] (G : Psi T → Psi T → K) (s : DM T K) (h : s.Inv G)
    (a b : Psi T) (ha : a ∈ s.cd.ops) (hb : b ∈ s.c.ops) :
    ∃ r s1 s2 s3, s.tryUpdate G ⟨[a], [b], [], []⟩ = .ok (r, s1) ∧ s1.reject = .ok s2 ∧ s2.Inv G ∧
      s2.cd.ops.Perm s.cd.ops ∧ s2.c.ops.Perm s.c.ops ∧
      s2.tryUpdate G ⟨[a, a], [b, b], [], []⟩ = .ok (0, s3) ∧ s3.reject = .error .throws := by
  have hadm : HybChange.Adm s.cd.ops s.c.ops ⟨[a], [b], [], []⟩ := by
    refine ⟨by simpa using ha, by simpa using hb, ?_⟩
    have hn := h.nodup
    rw [← Multiset.coe_nodup, ← Multiset.map_coe, ← Multiset.coe_add] at hn
    refine Multiset.nodup_of_le (Multiset.map_le_map ?_) hn
    simp only [Multiset.coe_nil, add_zero]
    exact add_le_add (Multiset.sub_le_self _ _) (Multiset.sub_le_self _ _)
  obtain ⟨r, s1, e1, -, ⟨s2, e2, i2, p1, p2, -⟩, -⟩ := C16_update G s h _ hadm (Or.inl ⟨rfl, rfl⟩)
  have e1' : ({ s with mode := some .rem } : DM T K).tryRemove [(a, b)] = .ok (r, s1) := by
    rw [← e1]
    unfold DM.tryUpdate
    simp [toPairs, Except.bind]
  obtain ⟨hrem, hmode⟩ := tryRemove_removed (h.withMode .rem) a b ha hb r s1 e1'
  have hrem2 : s2.removed = [(a, b)] := by
    unfold DM.reject at e2
    rw [hmode] at e2
    simp only [] at e2
    unfold DM.rejectRemove at e2
    cases hc : s1.check .tryRem with
    | error x => rw [hc] at e2; simp [Except.bind] at e2
    | ok u =>
      rw [hc] at e2
      simp only [Except.bind] at e2
      cases hd : addOps s1.removed.reverse s1.cd s1.c 0 with
      | error x => rw [hd] at e2; simp at e2
      | ok v =>
        rw [hd] at e2
        simp only [Except.ok.injEq] at e2
        rw [← e2]
        exact hrem
  have ha2 : a ∈ s2.cd.ops := p1.mem_iff.2 ha
  have hb2 : b ∈ s2.c.ops := p2.mem_iff.2 hb
  have himp : DM.removalPossible { s2 with mode := some .rem } [(a, b), (a, b)] = .ok false := by
    refine removal_impossible (i2.withMode .rem) _ ?_ (by simp)
    intro p hp
    simp only [List.mem_cons, List.not_mem_nil, or_false, or_self] at hp
    subst hp
    rw [List.map_append, List.mem_append, List.mem_append]
    exact ⟨Or.inl (List.mem_map_of_mem ha2), Or.inr (List.mem_map_of_mem hb2)⟩
  refine ⟨r, s1, s2, { s2 with mode := some .rem, state := .tryRem }, e1, e2, i2, p1, p2, ?_, ?_⟩
  · have : s2.tryUpdate G ⟨[a, a], [b, b], [], []⟩ =
        ({ s2 with mode := some .rem } : DM T K).tryRemove [(a, b), (a, b)] := by
      unfold DM.tryUpdate
      simp [toPairs, Except.bind]
    rw [this]
    unfold DM.tryRemove DM.check
    rw [if_pos i2.state]
    simp only [Except.bind]
    rw [himp]
    rfl
  · simp only [DM.reject]
    unfold DM.rejectRemove DM.check
    simp only [if_true, Except.bind, hrem2, List.reverse_cons, List.reverse_nil, List.nil_append]
    have : s2.cd.pos.has a.time = true := by
      rw [i2.cd.has, decide_eq_true_eq]
      exact List.mem_map_of_mem ha2
    simp [addOps, Side.push, this, Except.bind]

/-- **C17 (violated, silently).**  Take any consistent object and let a request replacing one pair `a`, `b`
by another one `x`, `y` be performed.  If then a request is made to replace `x`, `y` by two operators at
the same time, the answer is zero, and rejecting this request brings back `a`, `b` in the place of `x`,
`y` while matrix and sign stay those for `x`, `y`: `reject_remove_add` does not look at
`update_impossible_` and uses `nop_added_` and `removed_op_pairs_` of the last successful
`try_remove_add` (determinant_matrix_remove_add.ipp:28-34, 125-136). -/
theorem C17_impossible_remove_add_violated [DecidableEq K] (G : Psi T → Psi T → K) (s : DM T K)
    (h : s.Inv G) (a b x y z w : Psi T) (hadm : HybChange.Adm s.cd.ops s.c.ops ⟨[a], [b], [x], [y]⟩)
    (hzw : z.time = w.time) (r : K) (s1 : DM T K)
    (e1 : s.tryUpdate G ⟨[a], [b], [x], [y]⟩ = .ok (r, s1)) (hr : r ≠ 0) :
    ∃ s2 s3 s4, s1.perform = .ok s2 ∧ s2.Inv G ∧
      IsChanged s.cd.ops [a] [x] s2.cd.ops ∧ IsChanged s.c.ops [b] [y] s2.c.ops ∧
      s2.tryUpdate G ⟨[x], [y], [z], [w]⟩ = .ok (0, s3) ∧ s3.reject = .ok s4 ∧
      s4.cd.ops.Perm s.cd.ops ∧ s4.c.ops.Perm s.c.ops ∧
      s4.n = s2.n ∧ s4.inv = s2.inv ∧ s4.perm = s2.perm := by
  obtain ⟨r', s1', e1', -, ⟨s2r, e2r, i2r, p1, p2, -⟩, hper⟩ :=
    C16_update G s h _ hadm (Or.inl ⟨rfl, rfl⟩)
  rw [e1, Except.ok.injEq, Prod.mk.injEq] at e1'
  obtain ⟨rfl, rfl⟩ := e1'
  obtain ⟨s2, e2, i2, q1, q2, -⟩ := hper hr
  have hu : ∀ (t : DM T K) (a b x y : Psi T), t.tryUpdate G ⟨[a], [b], [x], [y]⟩ =
      ({ t with mode := some .remAdd } : DM T K).tryRemoveAdd G [(a, b)] [(x, y)] := by
    intro t a b x y
    unfold DM.tryUpdate
    simp [toPairs, Except.bind]
  -- the mode
  have hmode : s1.mode = some .remAdd := by
    rw [hu] at e1
    have ha : [a].Subperm s.cd.ops := hadm.cdRem
    have hb : [b].Subperm s.c.ops := hadm.cRem
    obtain ⟨s0, A, B, C, D, f1, -, -, hm1, -⟩ :=
      DM.moveToEnd_ok (h.withMode .remAdd) [(a, b)] (by simpa using ha) (by simpa using hb)
    unfold DM.tryRemoveAdd DM.check at e1
    rw [if_pos h.state] at e1
    simp only [Except.bind] at e1
    rw [remAdd_possible (h.withMode .remAdd) _ hadm [(a, b)] [(x, y)] rfl rfl rfl rfl] at e1
    simp only [if_true] at e1
    rw [if_pos (by simp), f1] at e1
    simp only [] at e1
    cases g1 : removeLast [(a, b)].length s0.cd s0.c with
    | error v => rw [g1] at e1; simp at e1
    | ok v =>
      rw [g1] at e1
      simp only [] at e1
      cases g2 : addOps [(x, y)] v.1 v.2.1 0 with
      | error u => rw [g2] at e1; simp at e1
      | ok u =>
        rw [g2] at e1
        simp only [Except.ok.injEq, Prod.mk.injEq] at e1
        rw [← e1.2]
        exact hm1
  -- what `perform_remove_add` leaves alone
  have hframe : s2.cd = s1.cd ∧ s2.c = s1.c ∧ s2.removed = s1.removed ∧ s2.nopAdded = s1.nopAdded := by
    unfold DM.perform at e2
    rw [hmode] at e2
    simp only [] at e2
    unfold DM.performRemoveAdd at e2
    cases g1 : s1.helper with
    | none => rw [g1] at e2; simp at e2
    | some hp =>
      rw [g1] at e2
      simp only [] at e2
      cases g2 : hp.apply s1.gN s1.gM s1.Gjn s1.Gnj s1.Gnn with
      | error v => rw [g2] at e2; simp [Except.bind] at e2
      | ok v =>
        rw [g2] at e2
        simp only [Except.bind] at e2
        cases g3 : s1.check .tryRemAdd with
        | error v => rw [g3] at e2; simp at e2
        | ok v =>
          rw [g3] at e2
          simp only [] at e2
          split_ifs at e2 <;>
            (simp only [Except.ok.injEq] at e2; rw [← e2]; exact ⟨rfl, rfl, rfl, rfl⟩)
  -- the impossible request
  have hx : x ∈ s2.cd.ops := by
    have : x ∈ (s2.cd.ops : Multiset (Psi T)) := by rw [q1]; simp
    simpa using this
  have hy : y ∈ s2.c.ops := by
    have : y ∈ (s2.c.ops : Multiset (Psi T)) := by rw [q2]; simp
    simpa using this
  have himp : DM.removalInsertionPossible { s2 with mode := some .remAdd } [(x, y)] [(z, w)] = .ok false := by
    unfold DM.removalInsertionPossible
    rw [rem_exist (i2.withMode .remAdd) [(x, y)] (by simpa using hx) (by simpa using hy)]
    simp only [Bool.false_eq_true, if_false]
    have hd : hasDuplicate (pairTimes [(z, w)]) = true := by
      by_contra hd
      rw [Bool.not_eq_true, hasDuplicate_iff, (pairTimes_perm _).nodup_iff] at hd
      simp [hzw] at hd
    rw [hd]
    split_ifs <;> rfl
  have e3 : s2.tryUpdate G ⟨[x], [y], [z], [w]⟩ =
      .ok (0, { s2 with mode := some .remAdd, state := .tryRemAdd, impossible := true }) := by
    rw [hu]
    unfold DM.tryRemoveAdd DM.check
    rw [if_pos i2.state]
    simp only [Except.bind]
    rw [himp]
    rfl
  -- rejecting runs the same steps as rejecting the first request
  unfold DM.reject at e2r
  rw [hmode] at e2r
  simp only [] at e2r
  unfold DM.rejectRemoveAdd at e2r
  cases g0 : s1.check .tryRemAdd with
  | error v => rw [g0] at e2r; simp [Except.bind] at e2r
  | ok v0 =>
    rw [g0] at e2r
    simp only [Except.bind] at e2r
    cases g1 : removeLast s1.nopAdded s1.cd s1.c with
    | error v => rw [g1] at e2r; simp at e2r
    | ok v =>
      rw [g1] at e2r
      simp only [] at e2r
      cases g2 : addOps s1.removed.reverse v.1 v.2.1 0 with
      | error u => rw [g2] at e2r; simp at e2r
      | ok u =>
        rw [g2] at e2r
        simp only [Except.ok.injEq] at e2r
        refine ⟨s2, _, { s2 with
          mode := some .remAdd
          state := .waiting
          impossible := true
          cd := u.1
          c := u.2.1 }, e2, i2, q1, q2, e3, ?_, ?_⟩
        · simp only [DM.reject]
          unfold DM.rejectRemoveAdd DM.check
          simp only [if_true, Except.bind, hframe.1, hframe.2.1, hframe.2.2.1, hframe.2.2.2]
          rw [g1]
          simp only []
          rw [g2]
        · rw [← e2r] at p1 p2
          exact ⟨p1, p2, rfl, rfl, rfl⟩

/-! ### Examples -/

/-- A creation operator (flavor 0) of the examples. -/
abbrev exCd (t : ℕ) : Psi ℕ := ⟨t, .creation, 0⟩

/-- An annihilation operator of the examples. -/
abbrev exC (t : ℕ) : Psi ℕ := ⟨t, .annihilation, 0⟩

/-- A hybridization function for the examples. -/
def exG (a b : Psi ℕ) : ℚ := if a.time < b.time then 1 else (a.time : ℚ) + 2

theorem exG_det1 (t u : ℕ) : timeDet exG [exC u] [exCd t] = exG (exC u) (exCd t) := by
  rw [timeDet_eq exG _ _ (by simp) (by simp)]
  rw [listDet_eq exG _ _ 1 rfl rfl, det_fin_one]
  simp [invs]

theorem exG_det2 : timeDet exG [exC 5, exC 1] [exCd 2, exCd 8] ≠ 0 := by
  rw [timeDet_eq exG _ _ (by simp) (by simp)]
  rw [listDet_eq exG _ _ 2 rfl rfl, det_fin_two]
  simp [invs, exG]
  norm_num

/-- A consistent object with two pairs, obtained by the constructor (C16_build); requests of all five
kinds satisfying the hypotheses of C16_update exist for it. -/
example : ∃ s : DM ℕ ℚ, s.Inv exG ∧ s.cd.ops.Perm [exCd 2, exCd 8] ∧ s.c.ops.Perm [exC 5, exC 1] ∧
    (∀ ch ∈ ([⟨[], [], [exCd 3, exCd 12], [exC 7, exC 0]⟩, ⟨[exCd 8], [exC 5], [], []⟩,
        ⟨[exCd 8], [exC 5], [exCd 8, exCd 9], [exC 4, exC 11]⟩, ⟨[exCd 2], [], [exCd 6], []⟩,
        ⟨[], [exC 1], [], [exC 10]⟩] : List (HybChange ℕ)), ch.Adm s.cd.ops s.c.ops ∧ ch.Shape) := by
  obtain ⟨-, s, -, h1, h2, h3, -⟩ := C16_build exG [(exCd 2, exC 5), (exCd 8, exC 1)] (by decide) exG_det2
  refine ⟨s, h1, h2, h3, ?_⟩
  have hs : ∀ l : List (Psi ℕ), l.Subperm [exCd 2, exCd 8] → l.Subperm s.cd.ops :=
    fun l hl => hl.trans h2.symm.subperm
  have hs' : ∀ l : List (Psi ℕ), l.Subperm [exC 5, exC 1] → l.Subperm s.c.ops :=
    fun l hl => hl.trans h3.symm.subperm
  intro ch hch
  simp only [List.mem_cons, List.not_mem_nil, or_false] at hch
  rcases hch with rfl | rfl | rfl | rfl | rfl
  · refine ⟨⟨hs _ (by decide), hs' _ (by decide), ?_⟩, Or.inl ⟨rfl, rfl⟩⟩
    rw [Multiset.coe_eq_coe.2 h2, Multiset.coe_eq_coe.2 h3]; decide
  · refine ⟨⟨hs _ (by decide), hs' _ (by decide), ?_⟩, Or.inl ⟨rfl, rfl⟩⟩
    rw [Multiset.coe_eq_coe.2 h2, Multiset.coe_eq_coe.2 h3]; decide
  · refine ⟨⟨hs _ (by decide), hs' _ (by decide), ?_⟩, Or.inl ⟨rfl, rfl⟩⟩
    rw [Multiset.coe_eq_coe.2 h2, Multiset.coe_eq_coe.2 h3]; decide
  · refine ⟨⟨hs _ (by decide), hs' _ (by decide), ?_⟩, Or.inr (Or.inl ⟨rfl, rfl, rfl, rfl⟩)⟩
    rw [Multiset.coe_eq_coe.2 h2, Multiset.coe_eq_coe.2 h3]; decide
  · refine ⟨⟨hs _ (by decide), hs' _ (by decide), ?_⟩, Or.inr (Or.inr (Or.inl ⟨rfl, rfl, rfl, rfl⟩))⟩
    rw [Multiset.coe_eq_coe.2 h2, Multiset.coe_eq_coe.2 h3]; decide

/-- A history satisfying the hypotheses of C16_history: starting without operators, a pair is added and
accepted (the ratio is `G(5, 2) = 7`), and the next addition is rejected; the determinant is 7. -/
example : (DM.empty : DM ℕ ℚ).Inv exG ∧
    (DM.empty : DM ℕ ℚ).Legal exG [(⟨[], [], [exCd 2], [exC 5]⟩, true), (⟨[], [], [exCd 3], [exC 4]⟩, false)] ∧
    ∃ done s', (DM.empty : DM ℕ ℚ).run exG
      [(⟨[], [], [exCd 2], [exC 5]⟩, true), (⟨[], [], [exCd 3], [exC 4]⟩, false)] = .ok (done, s') ∧
      done.length = 1 ∧ s'.cd.ops = [exCd 2] ∧ s'.c.ops = [exC 5] ∧ s'.determinant = 7 := by
  have a1 : HybChange.Adm (DM.empty : DM ℕ ℚ).cd.ops (DM.empty : DM ℕ ℚ).c.ops ⟨[], [], [exCd 2], [exC 5]⟩ :=
    ⟨by simp, by simp, by simp [DM.empty]⟩
  have sh : ∀ a b : List (Psi ℕ), a.length = b.length → HybChange.Shape ⟨[], [], a, b⟩ :=
    fun a b h => Or.inl ⟨rfl, h⟩
  have i0 := DM.empty_inv exG
  obtain ⟨r, s1, u1, u2, -, u4⟩ := C16_update exG DM.empty i0 _ a1 (sh [exCd 2] [exC 5] rfl)
  have hr := u2 (Or.inr (Or.inl rfl)) [exC 5] [exCd 2] (by simp [IsChanged, DM.empty])
    (by simp [IsChanged, DM.empty])
  have hr7 : r = 7 := by
    rw [exG_det1] at hr
    have e0 : timeDet exG (DM.empty : DM ℕ ℚ).c.ops (DM.empty : DM ℕ ℚ).cd.ops = 1 := by
      rw [timeDet_eq exG _ _ (by simp [DM.empty]) (by simp [DM.empty])]
      rw [listDet_eq exG _ _ 0 rfl rfl, det_isEmpty]
      simp [DM.empty, invs]
    rw [e0, mul_one] at hr
    rw [← hr, exG]
    norm_num
  obtain ⟨s2, v1, v2, v3, v4, v5⟩ := u4 (by rw [hr7]; norm_num)
  have st1 : (DM.empty : DM ℕ ℚ).step exG ⟨[], [], [exCd 2], [exC 5]⟩ true = .ok ((r, true), s2) := by
    unfold DM.step
    rw [u1]
    simp only [Except.bind]
    rw [if_pos (by rw [hr7]; norm_num), v1]
  have w1 : s2.cd.ops = [exCd 2] := by
    have : s2.cd.ops.Perm [exCd 2] := v3.perm (by simp [IsChanged, DM.empty])
    exact List.perm_singleton.1 this
  have w2 : s2.c.ops = [exC 5] := by
    have : s2.c.ops.Perm [exC 5] := v4.perm (by simp [IsChanged, DM.empty])
    exact List.perm_singleton.1 this
  have a2 : HybChange.Adm s2.cd.ops s2.c.ops ⟨[], [], [exCd 3], [exC 4]⟩ := by
    rw [w1, w2]
    exact ⟨by simp, by simp, by decide⟩
  have legal : (DM.empty : DM ℕ ℚ).Legal exG
      [(⟨[], [], [exCd 2], [exC 5]⟩, true), (⟨[], [], [exCd 3], [exC 4]⟩, false)] := by
    refine ⟨a1, sh _ _ rfl, ?_⟩
    intro x s' hx
    rw [st1, Except.ok.injEq, Prod.mk.injEq] at hx
    rw [← hx.2]
    exact ⟨a2, sh _ _ rfl, fun _ _ _ => trivial⟩
  refine ⟨i0, legal, ?_⟩
  obtain ⟨q, b, s3, st2, z1, z2, z3, z4⟩ := DM.step_ok exG s2 v2 _ false a2 (sh _ _ rfl)
  have hb : b = false := by
    cases b
    · rfl
    · exact absurd (z2 rfl).1 (by simp)
  subst hb
  refine ⟨[(r, ⟨[], [], [exCd 2], [exC 5]⟩)], s3, ?_, rfl, ?_, ?_, ?_⟩
  · rw [DM.run, st1]
    simp only [Except.bind]
    rw [DM.run, st2]
    simp [Except.bind, DM.run]
  · have := (z4 rfl).1; rw [w1] at this; exact List.perm_singleton.1 this
  · have := (z4 rfl).2.1; rw [w2] at this; exact List.perm_singleton.1 this
  · rw [(z4 rfl).2.2, v5, hr7]
    have e0 : (DM.empty : DM ℕ ℚ).determinant = 1 := by
      unfold DM.determinant
      have : (blk (DM.empty : DM ℕ ℚ).inv 0 0 (DM.empty : DM ℕ ℚ).n (DM.empty : DM ℕ ℚ).n).det = 1 :=
        det_fin_zero
      rw [this]
      simp [DM.empty]
    rw [e0, mul_one]

/-- The hypotheses of C16_replacing_two_c_ignored and C16_replacing_two_cdagg_undefined can be met with
admissible requests: two operators out of two are to be moved. -/
example : ∃ s : DM ℕ ℚ, s.Inv exG ∧
    HybChange.Adm s.cd.ops s.c.ops ⟨[], [exC 5, exC 1], [], [exC 4, exC 0]⟩ ∧
    HybChange.Adm s.cd.ops s.c.ops ⟨[exCd 2, exCd 8], [], [exCd 3, exCd 9], []⟩ := by
  obtain ⟨-, s, -, h1, h2, h3, -⟩ := C16_build exG [(exCd 2, exC 5), (exCd 8, exC 1)] (by decide) exG_det2
  refine ⟨s, h1, ⟨by simp, h3.symm.subperm, ?_⟩, ⟨h2.symm.subperm, by simp, ?_⟩⟩ <;>
  · rw [Multiset.coe_eq_coe.2 h2, Multiset.coe_eq_coe.2 h3]; decide

/-- The hypotheses of C17_impossible_add, C17_impossible_remove_partial (with an object which has just been
built) and C17_impossible_remove_violated. -/
example : ∃ s : DM ℕ ℚ, s.Inv exG ∧ exCd 2 ∈ s.cd.ops ∧ exC 5 ∈ s.c.ops ∧
    ¬ (((s.cd.ops ++ s.c.ops) ++ ([exCd 5] ++ [exC 7])).map Psi.time).Nodup ∧
    ¬ (([exCd 2, exCd 2] ++ [exC 5, exC 1]).map Psi.time).Nodup := by
  obtain ⟨-, s, -, h1, h2, h3, -⟩ := C16_build exG [(exCd 2, exC 5), (exCd 8, exC 1)] (by decide) exG_det2
  refine ⟨s, h1, h2.mem_iff.2 (by simp), h3.mem_iff.2 (by simp), ?_, by decide⟩
  rw [(((h2.append h3).append_right _).map Psi.time).nodup_iff]
  decide

/-- The hypotheses of C17_impossible_remove_add_violated: with one pair at times 2 and 5, replaced by a pair
at times 3 and 7, the ratio is 9/7. -/
example : ∃ (s : DM ℕ ℚ) (r : ℚ) (s1 : DM ℕ ℚ), s.Inv exG ∧
    HybChange.Adm s.cd.ops s.c.ops ⟨[exCd 2], [exC 5], [exCd 3], [exC 7]⟩ ∧
    s.tryUpdate exG ⟨[exCd 2], [exC 5], [exCd 3], [exC 7]⟩ = .ok (r, s1) ∧ r = 9 / 7 := by
  obtain ⟨-, s, hb, h1, h2, h3, -⟩ := C16_build exG [(exCd 2, exC 5)] (by decide)
    (by simp only [List.map_cons, List.map_nil]; rw [exG_det1]; norm_num [exG])
  have e2 : s.cd.ops = [exCd 2] := List.perm_singleton.1 h2
  have e3 : s.c.ops = [exC 5] := List.perm_singleton.1 h3
  have ha : HybChange.Adm s.cd.ops s.c.ops ⟨[exCd 2], [exC 5], [exCd 3], [exC 7]⟩ := by
    rw [e2, e3]
    exact ⟨by simp, by simp, by decide⟩
  obtain ⟨r, s1, u1, u2, -, -⟩ := C16_update exG s h1 _ ha (Or.inl ⟨rfl, rfl⟩)
  refine ⟨s, r, s1, h1, ha, u1, ?_⟩
  have e0 : timeDet exG [] [] = 1 := by
    rw [timeDet_eq exG _ _ (by simp) (by simp), listDet_eq exG _ _ 0 rfl rfl, det_isEmpty]
    simp [invs]
  have hr := u2 (Or.inr (Or.inr (Or.inr (Or.inr (Or.inr ⟨[], [], by rw [e3]; simp [IsChanged],
    by rw [e2]; simp [IsChanged], by rw [e0]; exact one_ne_zero⟩))))) [exC 7] [exCd 3]
    (by rw [e3]; simp [IsChanged]) (by rw [e2]; simp [IsChanged])
  rw [e2, e3, exG_det1, exG_det1] at hr
  norm_num [exG] at hr
  linarith

end CTHyb
