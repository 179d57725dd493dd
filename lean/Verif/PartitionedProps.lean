import Verif.PartitionedCorrect
import Verif.Hyb

/-!
C18 for `DeterminantMatrixPartitioned`: the determinant and the ratios computed sector by sector are those
of the full time-ordered matrix, and the protocol of updates keeps the object consistent.
-/

namespace CTHyb

open Matrix

variable {T K : Type} [LinearOrder T] [Field K]

/-! ### Sectors -/

/-- `connected_` of the hybridization function (src/mc_config.hpp:26-35) for the table `F` with `ntau + 1`
points. -/
def hybConnected {R V : Type} [LT R] [DecidableLT R] (abv : V → R) (eps : R) (ntau : ℕ) (F : HybTable V)
    (f f2 : ℕ) : Bool :=
  (List.range (ntau + 1)).any fun itau => decide (eps < abv (F f f2 itau))

theorem mem_initEdges (nf : ℕ) (conn : ℕ → ℕ → Bool) (e : ℕ × ℕ) :
    e ∈ initEdges nf conn ↔ e.1 < nf ∧ e.2 < e.1 ∧ conn e.1 e.2 = true := by
  unfold initEdges
  simp only [List.mem_flatMap, List.mem_range, List.mem_map, List.mem_filter]
  constructor
  · rintro ⟨f, hf, f2, ⟨h1, h2⟩, rfl⟩
    exact ⟨hf, h1, h2⟩
  · rintro ⟨h1, h2, h3⟩
    exact ⟨e.1, h1, e.2, ⟨h2, h3⟩, rfl⟩

/-- **C18 (sectors).**  `init` always ends normally.  Each flavor is in one of the sectors, no sector is
empty, two flavors are in the same sector exactly if they are linked by a chain of connections, and if
connections are symmetric, `G` between operators of different sectors vanishes as soon as it vanishes
between flavors which are not connected. -/
theorem C18_sectors (nf : ℕ) (conn : ℕ → ℕ → Bool) :
    ∃ E, PEnv.init nf conn = some E ∧ E.nf = nf ∧ (∀ f, f < nf → E.sector f < E.ns) ∧
      (∀ k, k < E.ns → ∃ f, f < nf ∧ E.sector f = k) ∧
      (∀ f, f < nf → ∀ f2, f2 < nf → (E.sector f = E.sector f2 ↔
        Relation.EqvGen (fun a b => b < a ∧ a < nf ∧ conn a b = true) f f2)) ∧
      ((∀ f f2, f < nf → f2 < nf → conn f f2 = conn f2 f) → ∀ (G : Psi T → Psi T → K),
        (∀ a b, a.flavor < nf → b.flavor < nf → conn a.flavor b.flavor = false → a.flavor ≠ b.flavor →
          G a b = 0) → E.BlockDiag G) := by
  obtain ⟨L, h1, h2, h3, h4, -, -⟩ := C19_clusters nf (initEdges nf conn)
  refine ⟨⟨nf, L.numClusters, L.label⟩, by rw [PEnv.init, h1]; rfl, rfl, h3, ?_, ?_, ?_⟩
  · intro k hk
    obtain ⟨i, hi, e⟩ := h4 k hk
    exact ⟨i, hi, e⟩
  · intro f hf f2 hf2
    rw [h2 f hf f2 hf2]
    unfold Connected
    have : (fun a b => (a, b) ∈ initEdges nf conn) = fun a b => b < a ∧ a < nf ∧ conn a b = true := by
      funext a b
      rw [eq_iff_iff, mem_initEdges]
      constructor
      · rintro ⟨x, y, z⟩; exact ⟨y, x, z⟩
      · rintro ⟨x, y, z⟩; exact ⟨y, x, z⟩
    rw [this]
  · intro hsym G hG a b ha hb hab
    have hne : a.flavor ≠ b.flavor := fun e => hab (by rw [e])
    apply hG a b ha hb _ hne
    by_contra hc
    apply hab
    rw [Bool.not_eq_false] at hc
    apply (h2 _ ha _ hb).2
    rcases lt_or_gt_of_ne hne with hlt | hlt
    · apply Relation.EqvGen.symm
      apply Relation.EqvGen.rel
      rw [mem_initEdges]
      exact ⟨hb, hlt, by rw [hsym _ _ hb ha]; exact hc⟩
    · apply Relation.EqvGen.rel
      rw [mem_initEdges]
      exact ⟨ha, hlt, hc⟩

/-- **C18 (hybridization function).**  For a table `F` whose elements vanish or exceed `eps` in absolute
value (the code uses `1e-10`), and which is zero at `(i, j)` whenever it is at `(j, i)`, the interpolated
hybridization function vanishes between operators whose flavors are in different sectors. -/
theorem C18_hybridization {R : Type} [Field R] [LinearOrder R] [IsStrictOrderedRing R] [FloorRing R]
    [Module R K] (abv : AbsoluteValue K R)
    (eps : R) (heps : 0 ≤ eps) (ntau nf : ℕ) (F : HybTable K)
    (hF : ∀ f f2 i, F f f2 i = 0 ∨ eps < abv (F f f2 i))
    (hsym : ∀ f f2, (∀ i, i < ntau + 1 → F f f2 i = 0) → ∀ i, i < ntau + 1 → F f2 f i = 0) (beta : R) :
    ∃ E, PEnv.init nf (hybConnected abv eps ntau F) = some E ∧
      ∀ f f2 tc tcd v, f < nf → f2 < nf → E.sector f ≠ E.sector f2 →
        hybEval beta ntau (F f f2) tc tcd = some v → v = 0 := by
  obtain ⟨E, h1, h2, -, -, h5, -⟩ := C18_sectors (T := ℕ) (K := K) nf (hybConnected abv eps ntau F)
  have hconn : ∀ f f2, hybConnected abv eps ntau F f f2 = false ↔ ∀ i, i < ntau + 1 → F f f2 i = 0 := by
    intro f f2
    unfold hybConnected
    rw [List.any_eq_false]
    simp only [List.mem_range, decide_eq_true_eq, not_lt]
    constructor
    · intro h i hi
      rcases hF f f2 i with h0 | h0
      · exact h0
      · exact absurd (h i hi) (not_le.2 h0)
    · intro h i hi
      rw [h i hi]
      simpa using heps
  refine ⟨E, h1, ?_⟩
  intro f f2 tc tcd v hf hf2 hs hv
  have hz : ∀ i, i < ntau + 1 → F f f2 i = 0 := by
    have hne : f ≠ f2 := fun e => hs (by rw [e])
    have hnot : ∀ a b, a < nf → b < nf → E.sector a ≠ E.sector b → b < a →
        hybConnected abv eps ntau F a b = false := by
      intro a b ha hb hab hlt
      by_contra hc
      rw [Bool.not_eq_false] at hc
      exact hab ((h5 a ha b hb).2 (Relation.EqvGen.rel _ _ ⟨hlt, ha, hc⟩))
    rcases lt_or_gt_of_ne hne with hlt | hlt
    · exact hsym _ _ ((hconn _ _).1 (hnot f2 f hf2 hf (fun e => hs e.symm) hlt))
    · exact (hconn _ _).1 (hnot f f2 hf hf2 hs hlt)
  unfold hybEval at hv
  have hread : ∀ (i : ℤ) (a : K), readAt (ntau + 1) (F f f2) i = some a → a = 0 := by
    intro i a ha
    unfold readAt at ha
    by_cases hi : 0 ≤ i ∧ i < ((ntau + 1 : ℕ) : ℤ)
    · rw [if_pos hi] at ha
      rw [← Option.some.inj ha]
      exact hz _ (by omega)
    · rw [if_neg hi] at ha
      exact absurd ha (by simp)
  simp only [Option.bind_eq_some_iff, Option.map_eq_some_iff] at hv
  obtain ⟨a, ha, b, hb, e⟩ := hv
  rw [hread _ _ ha, hread _ _ hb] at e
  rw [← e]
  simp

/-! ### The protocol -/

/-- One use of the object as in `LocalUpdater::update` (src/moves/moves.ipp:83-213). -/
noncomputable def PM.step [DecidableEq K] (E : PEnv) (G : Psi T → Psi T → K) (s : PM T K) (ch : HybChange T)
    (acc : Bool) : Except DErr ((K × Bool) × PM T K) :=
  (s.tryUpdate E G ch).bind fun x =>
  if acc = true ∧ x.1 ≠ 0 then (x.2.perform E).bind fun s2 => .ok ((x.1, true), s2)
  else (x.2.reject E).bind fun s2 => .ok ((x.1, false), s2)

/-- A history of requests; the answer contains the changes which were made, with their ratios. -/
noncomputable def PM.run [DecidableEq K] (E : PEnv) (G : Psi T → Psi T → K) :
    PM T K → List (HybChange T × Bool) → Except DErr (List (K × HybChange T) × PM T K)
  | s, [] => .ok ([], s)
  | s, (ch, acc) :: h =>
    (s.step E G ch acc).bind fun x =>
    (PM.run E G x.2 h).bind fun y => .ok ((if x.1.2 then [(x.1.1, ch)] else []) ++ y.1, y.2)

/-- Every request of the history can be made when it is made, and is of a kind the solver uses. -/
def PM.Legal [DecidableEq K] (E : PEnv) (G : Psi T → Psi T → K) : PM T K → List (HybChange T × Bool) → Prop
  | _, [] => True
  | s, (ch, acc) :: h => ch.Adm s.cd.act s.c.act ∧ ch.PShape E ∧
    ∀ x s', s.step E G ch acc = .ok (x, s') → PM.Legal E G s' h

theorem PM.empty_inv (E : PEnv) (G : Psi T → Psi T → K) : (PM.empty : PM T K).Inv E G := by
  have h0 : ∀ n : ℕ, (List.range n).flatMap (fun _ => ([] : List T)) = [] := by simp
  have hH : Holds ([] : OpSet T) (0 : Multiset (Psi T)) := ⟨by simp [OpSet.Sorted], rfl⟩
  have hOK : PSide.OK E (⟨[], fun _ => [], fun _ => [], fun _ => [], []⟩ : PSide T) 0 :=
    ⟨hH, fun k _ => by simpa [PEnv.inSector] using hH, by simp⟩
  refine ⟨fun k _ => DM.empty_inv G, fun k _ => by simp [PM.empty, DM.empty, PEnv.inSector],
    fun k _ => by simp [PM.empty, DM.empty, PEnv.inSector], by simp [PM.empty, DM.empty],
    by simp [PM.empty, DM.empty], hOK, hOK, by simp [PM.empty], ?_, fun k _ => rfl⟩
  simp [PM.empty, PSide.order, invs]

/-- **C18 (stored determinant).**  In a consistent object `compute_determinant`, a sign times the product of
the determinants of the sectors, is the determinant of the full time-ordered matrix; it is not zero. -/
theorem C18_determinant (E : PEnv) (G : Psi T → Psi T → K) (hG : E.BlockDiag G) (s : PM T K) (h : s.Inv E G) :
    s.determinant E = timeDet G s.c.act s.cd.act ∧ s.determinant E ≠ 0 := h.determinant hG

/-- **C18 (one update).**  For every consistent object and every request of the kinds used by the solver
which leaves all times different, `try_update` succeeds; the ratio it returns, the product of the ratios of
the sectors and of a sign, is the ratio of the determinants of the full time-ordered matrix (with the
exception described at `C16_update`); `reject_update` leaves a consistent object with the same operators and
determinant, and if the ratio is not zero, `perform_update` leaves a consistent object with the requested
operators, whose determinant is the old one times the ratio. -/
theorem C18_update [DecidableEq K] (E : PEnv) (G : Psi T → Psi T → K) (hG : E.BlockDiag G) (s : PM T K)
    (h : s.Inv E G) (ch : HybChange T) (ha : ch.Adm s.cd.act s.c.act) (hs : ch.PShape E) :
    ∃ r s1, s.tryUpdate E G ch = .ok (r, s1) ∧
      ((r ≠ 0 ∨ ch.cdRem = [] ∨ ch.cdAdd = [] ∨ ch.cRem = [] ∨ ch.cAdd = [] ∨
          ∃ cs cds, IsChanged s.c.act ch.cRem [] cs ∧ IsChanged s.cd.act ch.cdRem [] cds ∧
            timeDet G cs cds ≠ 0) →
        ∀ cs cds, IsChanged s.c.act ch.cRem ch.cAdd cs → IsChanged s.cd.act ch.cdRem ch.cdAdd cds →
          timeDet G cs cds = r * timeDet G s.c.act s.cd.act) ∧
      (∃ s2, s1.reject E = .ok s2 ∧ s2.Inv E G ∧ s2.cd.act.Perm s.cd.act ∧ s2.c.act.Perm s.c.act ∧
        s2.cd.set = s.cd.set ∧ s2.c.set = s.c.set ∧ s2.determinant E = s.determinant E) ∧
      (r ≠ 0 → ∃ s2, s1.perform E = .ok s2 ∧ s2.Inv E G ∧ IsChanged s.cd.act ch.cdRem ch.cdAdd s2.cd.act ∧
        IsChanged s.c.act ch.cRem ch.cAdd s2.c.act ∧ s2.determinant E = r * s.determinant E) := by
  obtain ⟨r, s1, h1, h2⟩ := PM.tryUpdate_ok hG h ch ha hs
  refine ⟨r, s1, h1, h2.ratio, ?_, ?_⟩
  · obtain ⟨s2, a1, a2, a3, a4⟩ := h2.reject
    refine ⟨s2, a1, a2, a3, a4, ?_, ?_, ?_⟩
    · apply OpSet.eq_of_mem_iff _ _ a2.cdOK.set.1 h.cdOK.set.1
      intro x
      rw [← Multiset.mem_coe, ← Multiset.mem_coe, a2.cdOK.set.2, h.cdOK.set.2, Multiset.coe_eq_coe.2 a3]
    · apply OpSet.eq_of_mem_iff _ _ a2.cOK.set.1 h.cOK.set.1
      intro x
      rw [← Multiset.mem_coe, ← Multiset.mem_coe, a2.cOK.set.2, h.cOK.set.2, Multiset.coe_eq_coe.2 a4]
    · rw [(a2.determinant hG).1, (h.determinant hG).1]
      exact timeDet_congr G a4 a3 a2.cNodup a2.cdNodup
  · intro hr
    obtain ⟨s2, a1, a2, a3, a4⟩ := h2.perform hr
    refine ⟨s2, a1, a2, a3, a4, ?_⟩
    rw [(a2.determinant hG).1, (h.determinant hG).1, h2.ratio (Or.inl hr) _ _ a4 a3]

theorem shape_nil : (⟨[], [], [], []⟩ : HybChange T).Shape := Or.inl ⟨rfl, rfl⟩

/-- **C18 (requests of the solver).**  A request which only adds operators, or only removes operators, or
has at most one operator of each of the four kinds, is of the kind for which `C18_update` holds, if the
flavors of the added operators exist.  All proposals of the solver are of this kind. -/
theorem C18_solver_requests (E : PEnv) (ch : HybChange T) (h1 : ∀ o ∈ ch.cdAdd, E.Valid o)
    (h2 : ∀ o ∈ ch.cAdd, E.Valid o)
    (h : (ch.cdRem = [] ∧ ch.cRem = []) ∨ (ch.cdAdd = [] ∧ ch.cAdd = []) ∨
      (ch.cdRem.length ≤ 1 ∧ ch.cRem.length ≤ 1 ∧ ch.cdAdd.length ≤ 1 ∧ ch.cAdd.length ≤ 1)) : ch.PShape E := by
  refine ⟨h1, h2, ?_⟩
  intro k _
  rcases h with ⟨e1, e2⟩ | ⟨e1, e2⟩ | ⟨l1, l2, l3, l4⟩
  · by_cases e : (ch.inSector E k).cdAdd.length = (ch.inSector E k).cAdd.length
    · exact Or.inl ⟨by simp [HybChange.inSector, e1, e2], e⟩
    · refine Or.inr (Or.inr (Or.inr ?_))
      simpa [HybChange.inSector, e1, e2] using e
  · by_cases e : (ch.inSector E k).cdRem.length = (ch.inSector E k).cRem.length
    · exact Or.inl ⟨e, by simp [HybChange.inSector, e1, e2]⟩
    · refine Or.inr (Or.inr (Or.inr ?_))
      simpa [HybChange.inSector, e1, e2] using fun h => e h.symm
  · have m1 : (ch.inSector E k).cdRem.length ≤ 1 := (List.length_filter_le _ _).trans l1
    have m2 : (ch.inSector E k).cRem.length ≤ 1 := (List.length_filter_le _ _).trans l2
    have m3 : (ch.inSector E k).cdAdd.length ≤ 1 := (List.length_filter_le _ _).trans l3
    have m4 : (ch.inSector E k).cAdd.length ≤ 1 := (List.length_filter_le _ _).trans l4
    unfold HybChange.Shape
    simp only [← List.length_eq_zero_iff]
    omega

/-- **C18 (constructor).**  For pairs with existing flavors and different times whose full time-ordered
determinant does not vanish, the constructor makes a consistent object with these operators and this
determinant. -/
theorem C18_build [DecidableEq K] (E : PEnv) (G : Psi T → Psi T → K) (hG : E.BlockDiag G)
    (l : List (Psi T × Psi T)) (hv : ∀ p ∈ l, E.Valid p.1 ∧ E.Valid p.2)
    (hn : ((l.map Prod.fst ++ l.map Prod.snd).map Psi.time).Nodup)
    (hd : timeDet G (l.map Prod.snd) (l.map Prod.fst) ≠ 0) :
    (PM.empty : PM T K).Inv E G ∧ ∃ s : PM T K, PM.build E G l = .ok s ∧ s.Inv E G ∧
      s.cd.act.Perm (l.map Prod.fst) ∧ s.c.act.Perm (l.map Prod.snd) ∧
      s.determinant E = timeDet G (l.map Prod.snd) (l.map Prod.fst) := by
  refine ⟨PM.empty_inv E G, ?_⟩
  let ch : HybChange T := ⟨[], [], l.map Prod.fst, l.map Prod.snd⟩
  have ha : ch.Adm (PM.empty : PM T K).cd.act (PM.empty : PM T K).c.act := by
    refine ⟨by simp [ch], by simp [ch], ?_⟩
    simpa [ch, PM.empty] using hn
  have hs : ch.PShape E := by
    refine C18_solver_requests E ch ?_ ?_ (Or.inl ⟨rfl, rfl⟩)
    · intro o ho
      obtain ⟨p, hp, rfl⟩ := List.mem_map.1 ho
      exact (hv p hp).1
    · intro o ho
      obtain ⟨p, hp, rfl⟩ := List.mem_map.1 ho
      exact (hv p hp).2
  obtain ⟨r, s1, h1, h2, -, h3⟩ := C18_update E G hG _ (PM.empty_inv E G) ch ha hs
  have i1 : IsChanged ([] : List (Psi T)) [] (l.map Prod.snd) (l.map Prod.snd) := by simp [IsChanged]
  have i2 : IsChanged ([] : List (Psi T)) [] (l.map Prod.fst) (l.map Prod.fst) := by simp [IsChanged]
  have hr := h2 (Or.inr (Or.inl rfl)) _ _ i1 i2
  have hr0 : r ≠ 0 := by
    intro h0
    rw [h0, zero_mul] at hr
    exact hd hr
  obtain ⟨s2, p1, p2, p3, p4, -⟩ := h3 hr0
  refine ⟨s2, ?_, p2, p3.perm i2, p4.perm i1, ?_⟩
  · unfold PM.build
    rw [h1]
    exact p1
  · rw [(p2.determinant hG).1]
    exact timeDet_congr G (p4.perm i1) (p3.perm i2) p2.cNodup p2.cdNodup

/-- One step: it succeeds, and its effect is the requested one if it was performed, and none otherwise. -/
theorem PM.step_ok [DecidableEq K] (E : PEnv) (G : Psi T → Psi T → K) (hG : E.BlockDiag G) (s : PM T K)
    (h : s.Inv E G) (ch : HybChange T)
    (acc : Bool) (ha : ch.Adm s.cd.act s.c.act) (hs : ch.PShape E) :
    ∃ r b s2, s.step E G ch acc = .ok ((r, b), s2) ∧ s2.Inv E G ∧ (b = true → acc = true ∧ r ≠ 0) ∧
      (b = true → IsChanged s.cd.act ch.cdRem ch.cdAdd s2.cd.act ∧
        IsChanged s.c.act ch.cRem ch.cAdd s2.c.act ∧ s2.determinant E = r * s.determinant E) ∧
      (b = false → s2.cd.act.Perm s.cd.act ∧ s2.c.act.Perm s.c.act ∧ s2.determinant E = s.determinant E) := by
  obtain ⟨r, s1, h1, -, ⟨s2, a1, a2, a3, a4, -, -, a5⟩, h3⟩ := C18_update E G hG s h ch ha hs
  unfold PM.step
  rw [h1]
  simp only [Except.bind]
  by_cases hc : acc = true ∧ r ≠ 0
  · rw [if_pos hc]
    obtain ⟨s3, b1, b2, b3, b4, b5⟩ := h3 hc.2
    rw [b1]
    exact ⟨r, true, s3, rfl, b2, fun _ => hc, fun _ => ⟨b3, b4, b5⟩, by simp⟩
  · rw [if_neg hc, a1]
    exact ⟨r, false, s2, rfl, a2, by simp, by simp, fun _ => ⟨a3, a4, a5⟩⟩

/-- **C18 (histories).**  After any history of requests, performed or rejected, nothing has failed, the
object is consistent, its operators are the initial ones with the performed changes applied, and its
determinant, which is the one of the full time-ordered matrix, is the initial one times the product of the
ratios of the performed changes. -/
theorem C18_history [DecidableEq K] (E : PEnv) (G : Psi T → Psi T → K) (hG : E.BlockDiag G)
    (hist : List (HybChange T × Bool)) :
    ∀ (s : PM T K), s.Inv E G → s.Legal E G hist →
    ∃ done s', s.run E G hist = .ok (done, s') ∧ s'.Inv E G ∧
      (done.map Prod.snd).Sublist (hist.map Prod.fst) ∧
      (s'.cd.act : Multiset (Psi T)) = done.foldl (fun m x => m - (x.2.cdRem : Multiset (Psi T)) + x.2.cdAdd)
        (s.cd.act : Multiset (Psi T)) ∧
      (s'.c.act : Multiset (Psi T)) = done.foldl (fun m x => m - (x.2.cRem : Multiset (Psi T)) + x.2.cAdd)
        (s.c.act : Multiset (Psi T)) ∧
      timeDet G s'.c.act s'.cd.act = (done.map Prod.fst).prod * timeDet G s.c.act s.cd.act := by
  induction hist with
  | nil => exact fun s h _ => ⟨[], s, rfl, h, List.Sublist.refl _, rfl, rfl, by simp⟩
  | cons x hist ih =>
    obtain ⟨ch, acc⟩ := x
    rintro s h ⟨ha, hs, hl⟩
    obtain ⟨r, b, s2, e1, e2, -, e3, e4⟩ := PM.step_ok E G hG s h ch acc ha hs
    obtain ⟨done, s', f1, f2, f3, f4, f5, f6⟩ := ih s2 e2 (hl _ _ e1)
    rw [(e2.determinant hG).1, (h.determinant hG).1] at e3 e4
    refine ⟨(if b then [(r, ch)] else []) ++ done, s', ?_, f2, ?_, ?_, ?_, ?_⟩
    · rw [PM.run, e1]
      simp only [Except.bind]
      rw [f1]
    · cases b
      · simpa using f3.cons _
      · simpa using f3
    · cases b
      · rw [f4, Multiset.coe_eq_coe.2 (e4 rfl).1]; rfl
      · rw [f4, (e3 rfl).1]; rfl
    · cases b
      · rw [f5, Multiset.coe_eq_coe.2 (e4 rfl).2.1]; rfl
      · rw [f5, (e3 rfl).2.1]; rfl
    · cases b
      · rw [f6, (e4 rfl).2.2]; rfl
      · rw [f6, (e3 rfl).2.2]
        simp only [if_true, List.cons_append, List.nil_append, List.map_cons, List.prod_cons]
        ring

/-- **C18 (rebuilding).**  Whatever the stored matrices of the sectors have become,
`rebuild_inverse_matrix` makes the object consistent again, with the same operators and determinant. -/
theorem C18_rebuild [DecidableEq K] (E : PEnv) (G : Psi T → Psi T → K) (s : PM T K) (h : s.Inv E G)
    (bad : ℕ → ℕ → ℕ → K) :
    ∃ s2, PM.rebuild E G { s with blocks := fun k => { s.blocks k with inv := bad k } } = .ok s2 ∧
      s2.Inv E G ∧ s2.cd = s.cd ∧ s2.c = s.c ∧ s2.determinant E = s.determinant E := by
  have hb : ∀ k, ∃ s2, k < E.ns → DM.rebuild G { s.blocks k with inv := bad k } = .ok s2 ∧ s2.Inv G ∧
      s2.cd = (s.blocks k).cd ∧ s2.c = (s.blocks k).c ∧ s2.determinant = (s.blocks k).determinant := by
    intro k
    by_cases hk : k < E.ns
    · obtain ⟨s2, a1, a2, a3, a4, a5, -⟩ := C16_rebuild G (s.blocks k) (h.block k hk) (bad k)
      exact ⟨s2, fun _ => ⟨a1, a2, a3, a4, a5⟩⟩
    · exact ⟨s.blocks k, fun hk' => absurd hk' hk⟩
  choose w hw using hb
  unfold PM.rebuild
  simp only []
  rw [loopN_ok E.ns _ _ w (fun k hk => (hw k hk).1)]
  refine ⟨_, rfl, ?_, rfl, rfl, ?_⟩
  · have e1 : ∀ k, k < E.ns → (w k).cd = (s.blocks k).cd := fun k hk => (hw k hk).2.2.1
    have e2 : ∀ k, k < E.ns → (w k).c = (s.blocks k).c := fun k hk => (hw k hk).2.2.2.1
    refine ⟨?_, ?_, ?_, ?_, ?_, h.cdOK, h.cOK, h.nodup, h.perm, h.work⟩
    · intro k hk; simp only [if_pos hk]; exact (hw k hk).2.1
    · intro k hk; simp only [if_pos hk, e1 k hk]; exact h.cdOps k hk
    · intro k hk; simp only [if_pos hk, e2 k hk]; exact h.cOps k hk
    · show s.cd.act = _
      rw [h.cdAct]
      apply List.flatMap_congr
      intro k hk
      rw [List.mem_range] at hk
      simp only [if_pos hk, e1 k hk]
    · show s.c.act = _
      rw [h.cAct]
      apply List.flatMap_congr
      intro k hk
      rw [List.mem_range] at hk
      simp only [if_pos hk, e2 k hk]
  · unfold PM.determinant
    congr 1
    apply Finset.prod_congr rfl
    intro k hk
    rw [Finset.mem_range] at hk
    simp only [if_pos hk]
    exact (hw k hk).2.2.2.2

/-! ### The object as the determinant machinery of the updates -/

/-- `DeterminantMatrixPartitioned` behind the interface used by the updates in `Verif.LocalUpdate`.  A
failure is kept and never goes away. -/
noncomputable def pmOps [DecidableEq K] (E : PEnv) (G : Psi T → Psi T → K) :
    DetOps T K (Except DErr (PM T K)) where
  tryUpdate x ch :=
    match x with
    | .error e => (0, .error e)
    | .ok s =>
      match s.tryUpdate E G ch with
      | .error e => (0, .error e)
      | .ok (r, s1) => (r, .ok s1)
  perform x := x.bind (PM.perform E)
  reject x := x.bind (PM.reject E)
  cdagg x := match x with
    | .ok s => s.cd.act
    | .error _ => []
  cs x := match x with
    | .ok s => s.c.act
    | .error _ => []

/-- The determinant of an object which has not failed. -/
noncomputable def pmDet (E : PEnv) (x : Except DErr (PM T K)) : K :=
  match x with
  | .ok s => s.determinant E
  | .error _ => 0

/-- **C18 (use in the updates).**  `DeterminantMatrixPartitioned`, the class used by the solver, satisfies
everything the theorems about local updates (C01, C02, C04) assume of the determinant machinery. -/
theorem C18_lawful [DecidableEq K] (E : PEnv) (G : Psi T → Psi T → K) (hG : E.BlockDiag G) :
    (pmOps E G).Lawful (HybChange.PShape E) (fun x => ∃ s : PM T K, x = .ok s ∧ s.Inv E G) (pmDet E) := by
  have key : ∀ (x : Except DErr (PM T K)) (ch : HybChange T), (∃ s : PM T K, x = .ok s ∧ s.Inv E G) →
      ch.Adm ((pmOps E G).cdagg x) ((pmOps E G).cs x) → ch.PShape E →
      ∃ s r s1, x = .ok s ∧ (pmOps E G).tryUpdate x ch = (r, .ok s1) ∧
      (∃ s2, s1.reject E = .ok s2 ∧ s2.Inv E G ∧ s2.cd.act.Perm s.cd.act ∧ s2.c.act.Perm s.c.act ∧
        s2.determinant E = s.determinant E) ∧
      (r ≠ 0 → ∃ s2, s1.perform E = .ok s2 ∧ s2.Inv E G ∧ IsChanged s.cd.act ch.cdRem ch.cdAdd s2.cd.act ∧
        IsChanged s.c.act ch.cRem ch.cAdd s2.c.act ∧ s2.determinant E = r * s.determinant E) := by
    rintro x ch ⟨s, rfl, h⟩ ha hs
    obtain ⟨r, s1, h1, -, ⟨s2, a1, a2, a3, a4, -, -, a5⟩, h3⟩ := C18_update E G hG s h ch ha hs
    refine ⟨s, r, s1, rfl, ?_, ⟨s2, a1, a2, a3, a4, a5⟩, h3⟩
    simp only [pmOps, h1]
  constructor
  · intro x ch hx ha hs
    obtain ⟨s, r, s1, rfl, e, ⟨s2, a1, a2, a3, a4, a5⟩, -⟩ := key x ch hx ha hs
    rw [e]; exact ⟨s2, a1, a2⟩
  · intro x ch hx ha hs
    obtain ⟨s, r, s1, rfl, e, ⟨s2, a1, a2, a3, a4, a5⟩, -⟩ := key x ch hx ha hs
    rw [e]; simp only [pmOps, Except.bind, a1]; exact a3
  · intro x ch hx ha hs
    obtain ⟨s, r, s1, rfl, e, ⟨s2, a1, a2, a3, a4, a5⟩, -⟩ := key x ch hx ha hs
    rw [e]; simp only [pmOps, Except.bind, a1]; exact a4
  · intro x ch hx ha hs
    obtain ⟨s, r, s1, rfl, e, ⟨s2, a1, a2, a3, a4, a5⟩, -⟩ := key x ch hx ha hs
    rw [e]; simp only [pmOps, Except.bind, a1]; exact a5
  · intro x ch hx ha hs hr
    obtain ⟨s, r, s1, rfl, e, -, hp⟩ := key x ch hx ha hs
    rw [e] at hr ⊢
    obtain ⟨s2, a1, a2, a3, a4, a5⟩ := hp hr
    exact ⟨s2, a1, a2⟩
  · intro x ch hx ha hs hr
    obtain ⟨s, r, s1, rfl, e, -, hp⟩ := key x ch hx ha hs
    rw [e] at hr ⊢
    obtain ⟨s2, a1, a2, a3, a4, a5⟩ := hp hr
    simp only [pmOps, Except.bind, a1]; exact a3
  · intro x ch hx ha hs hr
    obtain ⟨s, r, s1, rfl, e, -, hp⟩ := key x ch hx ha hs
    rw [e] at hr ⊢
    obtain ⟨s2, a1, a2, a3, a4, a5⟩ := hp hr
    simp only [pmOps, Except.bind, a1]; exact a4
  · intro x ch hx ha hs hr
    obtain ⟨s, r, s1, rfl, e, -, hp⟩ := key x ch hx ha hs
    rw [e] at hr ⊢
    obtain ⟨s2, a1, a2, a3, a4, a5⟩ := hp hr
    simp only [pmOps, Except.bind, a1]; exact a5

/-! ### The inverse matrix -/

/-- A product of leading blocks as sums. -/
theorem blk_mul_eq_one_iff (n : ℕ) (A B : ℕ → ℕ → K) :
    blk A 0 0 n n * blk B 0 0 n n = 1 ↔
      ∀ i, i < n → ∀ l, l < n → ∑ j ∈ Finset.range n, A i j * B j l = if i = l then 1 else 0 := by
  constructor
  · intro h i hi l hl
    have := congrFun (congrFun h ⟨i, hi⟩) ⟨l, hl⟩
    rw [Matrix.mul_apply, Matrix.one_apply] at this
    simp only [blk, Matrix.of_apply, Nat.zero_add, Fin.mk.injEq] at this
    rw [Finset.sum_range, this]
  · intro h
    ext i l
    rw [Matrix.mul_apply, Matrix.one_apply]
    simp only [blk, Matrix.of_apply, Nat.zero_add]
    have := h i i.2 l l.2
    rw [Finset.sum_range] at this
    rw [this]
    simp only [Fin.ext_iff]

theorem gEntry_left (G : Psi T → Psi T → K) (c c' cd cd' : List (Psi T)) (i j : ℕ) (hi : i < c.length)
    (hj : j < cd.length) : gEntry G (c ++ c') (cd ++ cd') i j = gEntry G c cd i j := by
  simp [gEntry, List.getElem?_append_left hi, List.getElem?_append_left hj]

theorem gEntry_right (G : Psi T → Psi T → K) (c c' cd cd' : List (Psi T)) (i j : ℕ) :
    gEntry G (c ++ c') (cd ++ cd') (c.length + i) (cd.length + j) = gEntry G c' cd' i j := by
  simp [gEntry, List.getElem?_append_right]

theorem gEntry_zero (G : Psi T → Psi T → K) (c cd : List (Psi T)) (i j : ℕ)
    (h : ∀ (hi : i < c.length) (hj : j < cd.length), G c[i] cd[j] = 0) : gEntry G c cd i j = 0 := by
  unfold gEntry
  by_cases hi : i < c.length
  · by_cases hj : j < cd.length
    · rw [List.getElem?_eq_getElem hi, List.getElem?_eq_getElem hj]
      exact h hi hj
    · rw [List.getElem?_eq_getElem hi, List.getElem?_eq_none (by omega)]
  · rw [List.getElem?_eq_none (by omega)]

theorem PM.Inv.inverseLoop {E : PEnv} {G : Psi T → Psi T → K} (hG : E.BlockDiag G) {s : PM T K}
    (h : s.Inv E G) (m : ℕ) (hm : m ≤ E.ns) :
    ((List.range m).flatMap fun k => (s.blocks k).c.ops).length = (s.inverseLoop m).2 ∧
    ((List.range m).flatMap fun k => (s.blocks k).cd.ops).length = (s.inverseLoop m).2 ∧
    (∀ i j, (s.inverseLoop m).2 ≤ i ∨ (s.inverseLoop m).2 ≤ j → (s.inverseLoop m).1 i j = 0) ∧
    ∀ i, i < (s.inverseLoop m).2 → ∀ l, l < (s.inverseLoop m).2 →
      ∑ j ∈ Finset.range (s.inverseLoop m).2, (s.inverseLoop m).1 i j *
        gEntry G ((List.range m).flatMap fun k => (s.blocks k).c.ops)
          ((List.range m).flatMap fun k => (s.blocks k).cd.ops) j l = if i = l then 1 else 0 := by
  induction m with
  | zero => simp [PM.inverseLoop]
  | succ m ih =>
    obtain ⟨i1, i2, i3, i4⟩ := ih (by omega)
    have hb := h.block m (by omega)
    set o := (s.inverseLoop m).2 with ho
    set A := (s.inverseLoop m).1 with hA
    set C := (List.range m).flatMap fun k => (s.blocks k).c.ops with hC
    set D := (List.range m).flatMap fun k => (s.blocks k).cd.ops with hD
    set c := (s.blocks m).c.ops with hc
    set d := (s.blocks m).cd.ops with hd
    set n := (s.blocks m).n with hn
    have e2 : (s.inverseLoop (m + 1)).2 = o + n := rfl
    have e1 : ∀ i j, (s.inverseLoop (m + 1)).1 i j = if o ≤ i ∧ i < o + n ∧ o ≤ j ∧ j < o + n then
        (s.blocks m).inv (i - o) (j - o) else A i j := fun _ _ => rfl
    rw [List.range_succ, List.flatMap_append, List.flatMap_append, List.flatMap_singleton,
      List.flatMap_singleton, ← hC, ← hD, ← hc, ← hd, e2]
    have cin : ∀ k, k < E.ns → ∀ x ∈ (s.blocks k).c.ops, E.sector x.flavor = k ∧ x.flavor < E.nf := by
      intro k hk x hx
      have : x ∈ E.inSector k (s.c.act : Multiset (Psi T)) := by rw [← h.cOps k hk]; exact hx
      obtain ⟨a1, a2⟩ := (mem_inSector E _ _ _).1 this
      exact ⟨a2, (h.cOK.valid x a1).1⟩
    have din : ∀ k, k < E.ns → ∀ x ∈ (s.blocks k).cd.ops, E.sector x.flavor = k ∧ x.flavor < E.nf := by
      intro k hk x hx
      have : x ∈ E.inSector k (s.cd.act : Multiset (Psi T)) := by rw [← h.cdOps k hk]; exact hx
      obtain ⟨a1, a2⟩ := (mem_inSector E _ _ _).1 this
      exact ⟨a2, (h.cdOK.valid x a1).1⟩
    have cold : ∀ x ∈ C, E.sector x.flavor < m ∧ x.flavor < E.nf := by
      intro x hx
      obtain ⟨k, hk, hx⟩ := List.mem_flatMap.1 hx
      rw [List.mem_range] at hk
      obtain ⟨a1, a2⟩ := cin k (by omega) x hx
      exact ⟨by omega, a2⟩
    have dold : ∀ x ∈ D, E.sector x.flavor < m ∧ x.flavor < E.nf := by
      intro x hx
      obtain ⟨k, hk, hx⟩ := List.mem_flatMap.1 hx
      rw [List.mem_range] at hk
      obtain ⟨a1, a2⟩ := din k (by omega) x hx
      exact ⟨by omega, a2⟩
    refine ⟨by rw [List.length_append, i1, hc, hb.cLen], by rw [List.length_append, i2, hd, hb.cdLen], ?_, ?_⟩
    · intro i j hij
      rw [e1, if_neg (by omega)]
      exact i3 i j (by omega)
    · intro i hi l hl
      simp only [e1]
      rw [Finset.sum_range_add]
      by_cases hio : i < o
      · -- an old row
        rw [Finset.sum_eq_zero (s := Finset.range n), add_zero]
        · by_cases hlo : l < o
          · rw [← i4 i hio l hlo]
            apply Finset.sum_congr rfl
            intro j hj
            rw [Finset.mem_range] at hj
            rw [if_neg (by omega), gEntry_left _ _ _ _ _ _ _ (by omega) (by omega)]
          · rw [if_neg (by omega)]
            apply Finset.sum_eq_zero
            intro j hj
            rw [Finset.mem_range] at hj
            rw [gEntry_zero, mul_zero]
            intro hj' hl'
            rw [List.getElem_append_left (by omega), List.getElem_append_right (by omega)]
            obtain ⟨a1, a2⟩ := cold _ (List.getElem_mem (by omega : j < C.length))
            obtain ⟨b1, b2⟩ := din m (by omega) _ (List.getElem_mem (l := d) (n := l - D.length)
              (by rw [hd, hb.cdLen]; omega))
            exact hG _ _ a2 b2 (by omega)
        · intro j hj
          rw [if_neg (by omega), i3 _ _ (Or.inr (by omega)), zero_mul]
      · rw [Finset.sum_eq_zero (s := Finset.range o), zero_add]
        · by_cases hlo : l < o
          · rw [if_neg (by omega)]
            apply Finset.sum_eq_zero
            intro j hj
            rw [Finset.mem_range] at hj
            rw [gEntry_zero, mul_zero]
            intro hj' hl'
            rw [List.getElem_append_right (by omega), List.getElem_append_left (by omega)]
            obtain ⟨a1, a2⟩ := dold _ (List.getElem_mem (by omega : l < D.length))
            obtain ⟨b1, b2⟩ := cin m (by omega) _ (List.getElem_mem (l := c) (n := o + j - C.length)
              (by rw [hc, hb.cLen]; omega))
            exact hG _ _ b2 a2 (by omega)
          · have := (blk_mul_eq_one_iff _ _ _).1 hb.inv (i - o) (by omega) (l - o) (by omega)
            have e3 : (if i = l then (1 : K) else 0) = if i - o = l - o then 1 else 0 := by
              by_cases e : i = l
              · rw [if_pos e, if_pos (by omega)]
              · rw [if_neg e, if_neg (by omega)]
            rw [e3, ← this]
            apply Finset.sum_congr rfl
            intro j hj
            rw [Finset.mem_range] at hj
            rw [if_pos (by omega)]
            congr 1
            · rw [Nat.add_sub_cancel_left]
            · have := gEntry_right G C c D d j (l - o)
              rw [i1, i2, Nat.add_sub_cancel' (by omega : o ≤ l)] at this
              exact this
        · intro j hj
          rw [Finset.mem_range] at hj
          rw [if_neg (by omega), i3 _ _ (Or.inl (by omega)), zero_mul]

/-- **C18 (inverse matrix).**  In a consistent object `compute_inverse_matrix`, which puts the matrices of
the sectors on the diagonal, is the inverse of the full matrix `G(c_i, c†_j)` with the operators in the order
of `get_c_ops` and `get_cdagg_ops`. -/
theorem C18_inverse (E : PEnv) (G : Psi T → Psi T → K) (hG : E.BlockDiag G) (s : PM T K) (h : s.Inv E G)
    (n : ℕ) (hn : n = s.cd.act.length) : s.c.act.length = n ∧
    blk (s.inverse E) 0 0 n n * blk (gEntry G s.c.act s.cd.act) 0 0 n n = 1 := by
  obtain ⟨h1, h2, -, h4⟩ := h.inverseLoop hG E.ns le_rfl
  rw [← h.cAct] at h1 h4
  rw [← h.cdAct] at h2 h4
  rw [← h2, ← hn] at h4
  refine ⟨by rw [h1, hn, h2], ?_⟩
  rw [blk_mul_eq_one_iff]
  exact h4

/-! ### Deviations -/

/-- The answers of the blocks when one pair of operators is added to an object whose work lists are empty. -/
theorem PM.part_add_one (E : PEnv) (s : PM T K) (hw : ∀ k, k < E.ns → s.part k = ⟨[], [], [], []⟩)
    (a b : Psi T) (ha : E.Valid a) (hb : E.Valid b) :
    ∃ s1 : PM T K, ∃ σ : ℤ, (∀ (G : Psi T → Psi T → K) [DecidableEq K],
      s.tryUpdate E G ⟨[], [], [a], [b]⟩ =
        (loopN E.ns (fun k => (s.blocks k).tryUpdate G (s1.part k)) (fun k => (1, s.blocks k))).bind fun v =>
          .ok ((∏ k ∈ Finset.range E.ns, (v k).1) * (σ : K), { s1 with blocks := fun k => (v k).2 })) ∧
      (∀ k, k < E.ns → s1.part k = ⟨[], [], if k = E.sector a.flavor then [a] else [],
        if k = E.sector b.flavor then [b] else []⟩) ∧ s1.cd.set = (s.cd.set.insert a).1 := by
  unfold PEnv.Valid at ha hb
  let ka := E.sector a.flavor
  let kb := E.sector b.flavor
  let s1 : PM T K := { s with
    cd := ⟨(s.cd.set.insert a).1, Function.update s.cd.sec ka ((s.cd.sec ka).insert a).1, s.cd.rem,
      Function.update s.cd.add ka (s.cd.add ka ++ [a]), s.cd.act⟩
    c := ⟨(s.c.set.insert b).1, Function.update s.c.sec kb ((s.c.sec kb).insert b).1, s.c.rem,
      Function.update s.c.add kb (s.c.add kb ++ [b]), s.c.act⟩
    newPerm := 1 * paritySign (s.cd.numOps E.ns a.time ka) * paritySign (s.c.numOps E.ns b.time kb) * s.perm }
  refine ⟨s1, 1 * paritySign (s.cd.numOps E.ns a.time ka) * paritySign (s.c.numOps E.ns b.time kb), ?_, ?_, rfl⟩
  · intro G _
    unfold PM.tryUpdate
    simp only [PSide.removeAll, PSide.addAll, PSide.add1, if_pos ha, if_pos hb, Except.bind]
    rfl
  · intro k hk
    have h0 := hw k hk
    simp only [PM.part, HybChange.mk.injEq] at h0 ⊢
    obtain ⟨h1, h2, h3, h4⟩ := h0
    refine ⟨h1, h2, ?_, ?_⟩
    · by_cases e : k = E.sector a.flavor
      · subst e; simp [s1, ka, h3]
      · simp [s1, ka, Function.update_of_ne e, h3, e]
    · by_cases e : k = E.sector b.flavor
      · subst e; simp [s1, kb, h4]
      · simp [s1, kb, Function.update_of_ne e, h4, e]

/-- **C18 (operators of different sectors).**  Whatever `G` is, adding a pair of operators of different
sectors gives the ratio zero. -/
theorem C18_off_block_ignored [DecidableEq K] (E : PEnv) (G : Psi T → Psi T → K) (s : PM T K)
    (h : s.Inv E G) (a b : Psi T) (ha : E.Valid a) (hb : E.Valid b)
    (hab : E.sector a.flavor ≠ E.sector b.flavor) :
    ∃ s1, s.tryUpdate E G ⟨[], [], [a], [b]⟩ = .ok (0, s1) := by
  obtain ⟨s1, σ, h1, h2, -⟩ := PM.part_add_one E s h.work a b ha hb
  let w : ℕ → K × DM T K := fun k =>
    if k = E.sector a.flavor ∨ k = E.sector b.flavor then
      (0, { s.blocks k with mode := some .invalid }) else (1, { s.blocks k with mode := some .nothing })
  have hl := loopN_ok E.ns (fun k => (s.blocks k).tryUpdate G (s1.part k)) (fun k => (1, s.blocks k)) w (by
    intro k hk
    simp only [h2 k hk, w]
    unfold DM.tryUpdate
    by_cases e1 : k = E.sector a.flavor
    · have e2 : ¬ k = E.sector b.flavor := fun e => hab (e1.symm.trans e)
      simp [e1, hab]
    · by_cases e2 : k = E.sector b.flavor
      · simp [e2, Ne.symm hab]
      · simp [e1, e2])
  rw [h1, hl]
  simp only [Except.bind]
  refine ⟨_, congrArg Except.ok (Prod.ext ?_ rfl)⟩
  have : (∏ k ∈ Finset.range E.ns, ((fun k => if k < E.ns then w k else (1, s.blocks k)) k).1) = 0 := by
    apply Finset.prod_eq_zero (Finset.mem_range.2 ha.2)
    simp only [if_pos ha.2, w]
    simp
  simp only [this, zero_mul]

/-- **C18 (violated for an asymmetric table).**  `init` looks at the elements below the diagonal only (the
symmetry is only asserted).  If the table is zero below the diagonal, all flavors are in different sectors:
then a pair with flavors `i` and `j` is given the ratio zero, although the determinant is the element `G`
between them. -/
theorem C18_asymmetric_violated [DecidableEq K] (nf : ℕ) (conn : ℕ → ℕ → Bool)
    (hc : ∀ i j, j < i → conn i j = false) (G : Psi T → Psi T → K) (a b : Psi T)
    (ha : a.flavor < nf) (hb : b.flavor < nf) (hab : a.flavor ≠ b.flavor) :
    ∃ E, PEnv.init nf conn = some E ∧
      (∃ s1, (PM.empty : PM T K).tryUpdate E G ⟨[], [], [a], [b]⟩ = .ok (0, s1)) ∧
      timeDet G [b] [a] = G b a := by
  obtain ⟨E, h1, h2, h3, -, h5, -⟩ := C18_sectors (T := T) (K := K) nf conn
  refine ⟨E, h1, ?_, ?_⟩
  · apply C18_off_block_ignored E G _ (PM.empty_inv E G) a b ⟨by omega, h3 _ ha⟩ ⟨by omega, h3 _ hb⟩
    intro e
    apply hab
    have hg : ∀ x y, Relation.EqvGen (fun a b => b < a ∧ a < nf ∧ conn a b = true) x y → x = y := by
      intro x y hxy
      induction hxy with
      | rel x y hxy => rw [hc x y hxy.1] at hxy; exact absurd hxy.2.2 (by simp)
      | refl x => rfl
      | symm x y _ ih => exact ih.symm
      | trans x y z _ _ ih1 ih2 => exact ih1.trans ih2
    exact hg _ _ ((h5 _ ha _ hb).1 e)
  · rw [timeDet_eq G _ _ (by simp) (by simp), listDet_eq G _ _ 1 rfl rfl, det_fin_one]
    simp [invs]

/-- **C18 (violated for small elements).**  Elements of the hybridization function which are not larger than
`eps` (`1e-10` in the code) at all times do not connect flavors, but they are not set to zero: with two
flavors and such an element between them, adding a pair with these two flavors is given the ratio zero,
although the determinant does not vanish. -/
theorem C18_small_elements_violated {R : Type} [Field R] [LinearOrder R] [IsStrictOrderedRing R]
    (eps : R) (heps : 0 < eps) (ntau : ℕ) :
    ∃ (F : HybTable R) (E : PEnv), PEnv.init 2 (hybConnected abs eps ntau F) = some E ∧
      (∀ f f2 i, F f f2 i = F f2 f i) ∧
      ∃ s1, (PM.empty : PM ℕ R).tryUpdate E (fun c cd => F c.flavor cd.flavor 0)
          ⟨[], [], [⟨1, .creation, 0⟩], [⟨2, .annihilation, 1⟩]⟩ = .ok (0, s1) ∧
        timeDet (fun c cd : Psi ℕ => F c.flavor cd.flavor 0) [⟨2, .annihilation, 1⟩] [⟨1, .creation, 0⟩] ≠ 0 := by
  obtain ⟨E, h1, ⟨s1, h2⟩, h3⟩ := C18_asymmetric_violated (T := ℕ) (K := R) 2
    (hybConnected abs eps ntau (fun _ _ _ => eps)) (by
      intro i j _
      unfold hybConnected
      rw [List.any_eq_false]
      intro x _
      rw [decide_eq_true_eq, abs_of_pos heps]
      exact lt_irrefl _) (fun _ _ => eps) ⟨1, .creation, 0⟩ ⟨2, .annihilation, 1⟩ (by decide) (by decide)
      (by decide)
  exact ⟨fun _ _ _ => eps, E, h1, fun _ _ _ => rfl, s1, h2, by rw [h3]; exact heps.ne'⟩

/-- **C18 (violated for times in use).**  A request to add a creation operator at the time of an existing
one is answered by zero, but `reject_update` then removes the existing operator from the time-ordered set,
though it stays in the matrix.  (The solver does not make such requests.) -/
theorem C18_time_in_use_violated [DecidableEq K] (E : PEnv) (G : Psi T → Psi T → K) (s : PM T K)
    (h : s.Inv E G) (a b x : Psi T) (ha : E.Valid a) (hb : E.Valid b)
    (hab : E.sector a.flavor = E.sector b.flavor) (hx : x ∈ s.cd.act) (hxa : x.time = a.time)
    (hxs : E.sector x.flavor = E.sector a.flavor) :
    ∃ s1 s2, s.tryUpdate E G ⟨[], [], [a], [b]⟩ = .ok (0, s1) ∧ s1.reject E = .ok s2 ∧
      x ∈ s2.cd.act ∧ (∀ y ∈ s2.cd.set, y.time ≠ a.time) ∧ ¬ s2.Inv E G := by
  obtain ⟨s1, σ, h1, h2, h3⟩ := PM.part_add_one E s h.work a b ha hb
  have hxk : x ∈ (s.blocks (E.sector a.flavor)).cd.ops := by
    have : x ∈ E.inSector (E.sector a.flavor) (s.cd.act : Multiset (Psi T)) :=
      (mem_inSector E _ _ _).2 ⟨hx, hxs⟩
    rw [← h.cdOps _ ha.2] at this
    exact this
  obtain ⟨t1, t2, u1, u2, -, u4, u5, -⟩ := C17_impossible_add G _ (h.block _ ha.2) ⟨[], [], [a], [b]⟩ rfl rfl rfl
    (by
      intro hn
      rw [List.map_append, List.nodup_append] at hn
      exact hn.2.2 x.time (List.mem_map_of_mem (List.mem_append_left _ hxk)) a.time (by simp) hxa)
  let w : ℕ → K × DM T K := fun k =>
    if k = E.sector a.flavor then (0, t1) else (1, { s.blocks k with mode := some .nothing })
  have hl := loopN_ok E.ns (fun k => (s.blocks k).tryUpdate G (s1.part k)) (fun k => (1, s.blocks k)) w (by
    intro k hk
    simp only [h2 k hk, w]
    by_cases e1 : k = E.sector a.flavor
    · rw [if_pos e1, if_pos (e1.trans hab), if_pos e1, e1]
      exact u1
    · rw [if_neg e1, if_neg (fun e => e1 (e.trans hab.symm)), if_neg e1]
      simp [DM.tryUpdate])
  rw [h1, hl]
  simp only [Except.bind]
  let w2 : ℕ → DM T K := fun k =>
    if k = E.sector a.flavor then t2 else { s.blocks k with mode := some .nothing }
  have hl2 := loopN_ok E.ns (fun k => ((fun k => if k < E.ns then w k else (1, s.blocks k)) k).2.reject)
    (fun k => ((fun k => if k < E.ns then w k else (1, s.blocks k)) k).2) w2 (by
    intro k hk
    simp only [if_pos hk, w, w2]
    by_cases e1 : k = E.sector a.flavor
    · rw [if_pos e1, if_pos e1]; exact u2
    · rw [if_neg e1, if_neg e1]; rfl)
  have hset : ∀ y ∈ (s1.cd.revert E.ns).set, y.time ≠ a.time := by
    have e1 : (List.range E.ns).flatMap s1.cd.add = [a] := by
      have : (List.range E.ns).flatMap s1.cd.add =
          (List.range E.ns).flatMap fun k => if k = E.sector a.flavor then [a] else [] := by
        apply List.flatMap_congr
        intro k hk
        have := h2 k (List.mem_range.1 hk)
        simp only [PM.part, HybChange.mk.injEq] at this
        exact this.2.2.1
      rw [this, range_split _ _ ha.2, List.flatMap_append, List.flatMap_cons, if_pos rfl]
      rw [List.flatMap_eq_nil_iff.2, List.flatMap_eq_nil_iff.2]
      · rfl
      · intro k hk
        rw [List.mem_range'_1] at hk
        rw [if_neg (by omega)]
      · intro k hk
        rw [List.mem_range] at hk
        rw [if_neg (by omega)]
    have e2 : (List.range E.ns).flatMap s1.cd.rem = [] := by
      rw [List.flatMap_eq_nil_iff]
      intro k hk
      have := h2 k (List.mem_range.1 hk)
      simp only [PM.part, HybChange.mk.injEq] at this
      exact this.1
    unfold PSide.revert
    simp only [e1, e2, List.foldl_nil, List.foldl_cons, h3]
    intro y hy
    rw [OpSet.mem_erase _ _ _ (OpSet.insert_sorted _ _ h.cdOK.set.1)] at hy
    exact hy.2
  have hact : x ∈ (List.range E.ns).flatMap fun k => ((fun k => if k < E.ns then w2 k else
      ((fun k => if k < E.ns then w k else (1, s.blocks k)) k).2) k).cd.ops := by
    rw [List.mem_flatMap]
    refine ⟨E.sector a.flavor, List.mem_range.2 ha.2, ?_⟩
    simp only [if_pos ha.2, w2, if_true]
    rw [u4]
    exact hxk
  have hp : (∏ k ∈ Finset.range E.ns, ((fun k => if k < E.ns then w k else (1, s.blocks k)) k).1) = 0 := by
    apply Finset.prod_eq_zero (Finset.mem_range.2 ha.2)
    simp only [if_pos ha.2, w]
    simp
  have hr : ∀ z : PM T K, z.blocks = (fun k => ((fun k => if k < E.ns then w k else (1, s.blocks k)) k).2) →
      z.cd = s1.cd → ∃ s2, z.reject E = .ok s2 ∧ s2.cd.act = ((List.range E.ns).flatMap fun k =>
        ((fun k => if k < E.ns then w2 k else
          ((fun k => if k < E.ns then w k else (1, s.blocks k)) k).2) k).cd.ops) ∧
        s2.cd.set = (s1.cd.revert E.ns).set := by
    intro z hz1 hz2
    unfold PM.reject
    rw [hz1, hl2, hz2]
    exact ⟨_, rfl, rfl, rfl⟩
  obtain ⟨s2, r1, r2, r3⟩ := hr { s1 with
    blocks := fun k => ((fun k => if k < E.ns then w k else (1, s.blocks k)) k).2 } rfl rfl
  refine ⟨_, s2, congrArg Except.ok (Prod.ext ?_ rfl), r1, by rw [r2]; exact hact, by rw [r3]; exact hset, ?_⟩
  · simp only [hp, zero_mul]
  · intro hi
    have := hi.cdOK.set.2
    have hx2 : x ∈ (s1.cd.revert E.ns).set := by
      have hm : x ∈ ((s1.cd.revert E.ns).set : Multiset (Psi T)) := by
        rw [← r3, this, r2]
        exact hact
      exact hm
    exact hset x hx2 hxa

/-! ### Examples -/

/-- Connections between three flavors: 0 and 2 are connected. -/
def exConn (a b : ℕ) : Bool := (a == 0 && b == 2) || (a == 2 && b == 0)

/-- The sectors computed for `exConn`. -/
example : ((PEnv.init 3 exConn).map fun E => (E.nf, E.ns, E.sector 0, E.sector 1, E.sector 2)) =
    some (3, 2, 0, 1, 0) := by decide

/-- The same sectors. -/
def exE : PEnv := ⟨3, 2, fun f => if f = 1 then 1 else 0⟩

/-- A hybridization function which vanishes between the sectors. -/
def exPG (a b : Psi ℕ) : ℚ :=
  if exE.sector a.flavor = exE.sector b.flavor then (if a.time < b.time then 1 else (a.time : ℚ) + 2) else 0

theorem exPG_diag : exE.BlockDiag exPG := fun a b _ _ h => if_neg h

/-- Three pairs of operators in two sectors, such that the order by sectors is not the order in time. -/
def exPairs : List (Psi ℕ × Psi ℕ) :=
  [(⟨2, .creation, 0⟩, ⟨5, .annihilation, 2⟩), (⟨8, .creation, 1⟩, ⟨1, .annihilation, 1⟩),
    (⟨9, .creation, 2⟩, ⟨10, .annihilation, 0⟩)]

theorem exPairs_det : timeDet exPG (exPairs.map Prod.snd) (exPairs.map Prod.fst) = -72 := by
  rw [timeDet_eq exPG _ _ (by decide) (by decide), listDet_eq exPG _ _ 3 rfl rfl, det_fin_three]
  simp [invs, exPG, exPairs, exE]
  norm_num

/-- A consistent object with three pairs, and requests of all kinds which satisfy the hypotheses of
C18_update, C18_determinant and C18_inverse. -/
example : ∃ s : PM ℕ ℚ, s.Inv exE exPG ∧ s.determinant exE = -72 ∧
    (∀ ch ∈ ([⟨[], [], [⟨3, .creation, 0⟩, ⟨12, .creation, 1⟩], [⟨7, .annihilation, 1⟩, ⟨0, .annihilation, 2⟩]⟩,
        ⟨[⟨2, .creation, 0⟩, ⟨8, .creation, 1⟩], [⟨10, .annihilation, 0⟩, ⟨1, .annihilation, 1⟩], [], []⟩,
        ⟨[⟨2, .creation, 0⟩], [⟨1, .annihilation, 1⟩], [⟨3, .creation, 1⟩], [⟨0, .annihilation, 2⟩]⟩,
        ⟨[⟨8, .creation, 1⟩], [], [⟨6, .creation, 1⟩], []⟩,
        ⟨[], [⟨5, .annihilation, 2⟩], [], [⟨6, .annihilation, 0⟩]⟩] : List (HybChange ℕ)),
      ch.Adm s.cd.act s.c.act ∧ ch.PShape exE) := by
  obtain ⟨-, s, -, h1, h2, h3, h4⟩ := C18_build exE exPG exPG_diag exPairs (by
      intro p hp
      simp only [exPairs, List.mem_cons, List.not_mem_nil, or_false] at hp
      rcases hp with rfl | rfl | rfl <;> simp [PEnv.Valid, exE]) (by decide) (by rw [exPairs_det]; norm_num)
  refine ⟨s, h1, by rw [h4, exPairs_det], ?_⟩
  have hs : ∀ l : List (Psi ℕ), l.Subperm (exPairs.map Prod.fst) → l.Subperm s.cd.act :=
    fun l hl => hl.trans h2.symm.subperm
  have hs' : ∀ l : List (Psi ℕ), l.Subperm (exPairs.map Prod.snd) → l.Subperm s.c.act :=
    fun l hl => hl.trans h3.symm.subperm
  intro ch hch
  simp only [List.mem_cons, List.not_mem_nil, or_false] at hch
  rcases hch with rfl | rfl | rfl | rfl | rfl <;>
  · refine ⟨⟨hs _ (by decide), hs' _ (by decide), ?_⟩, C18_solver_requests _ _ ?_ ?_ (by decide)⟩
    · rw [Multiset.coe_eq_coe.2 h2, Multiset.coe_eq_coe.2 h3]; decide
    · simp [PEnv.Valid, exE]
    · simp [PEnv.Valid, exE]

/-- A history satisfying the hypotheses of C18_history. -/
example : (PM.empty : PM ℕ ℚ).Inv exE exPG ∧ (PM.empty : PM ℕ ℚ).Legal exE exPG
    [(⟨[], [], [⟨8, .creation, 1⟩], [⟨1, .annihilation, 1⟩]⟩, true),
      (⟨[], [], [⟨2, .creation, 0⟩], [⟨5, .annihilation, 2⟩]⟩, true)] := by
  have i0 := PM.empty_inv exE exPG
  have sh : ∀ (a b : Psi ℕ), exE.Valid a → exE.Valid b → HybChange.PShape exE ⟨[], [], [a], [b]⟩ :=
    fun a b ha hb => C18_solver_requests _ _ (by simpa using ha) (by simpa using hb) (Or.inl ⟨rfl, rfl⟩)
  have a1 : HybChange.Adm (PM.empty : PM ℕ ℚ).cd.act (PM.empty : PM ℕ ℚ).c.act
      ⟨[], [], [⟨8, .creation, 1⟩], [⟨1, .annihilation, 1⟩]⟩ := ⟨by simp, by simp, by simp [PM.empty]⟩
  refine ⟨i0, a1, sh _ _ (by simp [PEnv.Valid, exE]) (by simp [PEnv.Valid, exE]), ?_⟩
  intro x s' hx
  obtain ⟨r, b, s2, h1, h2, -, h4, h5⟩ := PM.step_ok exE exPG exPG_diag _ i0 _ true a1
    (sh _ _ (by simp [PEnv.Valid, exE]) (by simp [PEnv.Valid, exE]))
  rw [h1, Except.ok.injEq, Prod.mk.injEq] at hx
  rw [← hx.2]
  refine ⟨⟨by simp, by simp, ?_⟩, sh _ _ (by simp [PEnv.Valid, exE]) (by simp [PEnv.Valid, exE]), fun _ _ _ => trivial⟩
  cases b
  · rw [Multiset.coe_eq_coe.2 (h5 rfl).1, Multiset.coe_eq_coe.2 (h5 rfl).2.1]
    simp [PM.empty]
  · rw [(h4 rfl).1, (h4 rfl).2.1]
    simp [PM.empty]

/-- A table satisfying the hypotheses of C18_hybridization with two sectors. -/
example : ∀ f f2 i, (fun f f2 _ => if f = f2 then (1 : ℚ) else 0 : HybTable ℚ) f f2 i = 0 ∨
    (1 / 10 ^ 10 : ℚ) < AbsoluteValue.abs ((fun f f2 _ => if f = f2 then (1 : ℚ) else 0 : HybTable ℚ) f f2 i) := by
  intro f f2 i
  by_cases h : f = f2
  · right; simp [h]; norm_num
  · left; simp [h]

end CTHyb
