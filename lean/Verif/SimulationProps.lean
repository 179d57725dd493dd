import Verif.Simulation
import Verif.GlobalUpdateProps
import Verif.PartitionedProps
import Verif.PermSignProps
import Verif.TraceBoundProps

/-!
Property C60: what holds of the configuration, of the window and of the determinant matrix after
any number of sweeps and global updates.
-/

namespace CTHyb

open Equiv

variable {T R K S Ket Bra ι : Type}

section
variable [Field K] [DecidableEq K] [Field R] [LinearOrder R] [IsStrictOrderedRing R] [Fintype ι]

/-! ### Specification -/

/-- What holds between any two updates of the simulation: the operators of the trace are, in time
order, those of the determinant matrix and of the worm; sign and permutation sign are those of
determinant and trace, which do not vanish; the stored trace is the trace of the time-ordered
product; the caches of the window belong to the operators, and the window is two intervals wide. -/
structure SimInv (E : SimEnv R K S Ket Bra ι) (Inv : S → Prop) (det : S → K)
    (s : GState R K S Ket Bra ι) : Prop where
  cons : Consistent E.D s.cfg
  inv : Inv s.cfg.M
  sign : SignOK E.D E.permFn E.sgn det s.cfg
  trace : s.cfg.trace = fullTrace E.V s.cfg.ops
  win : SWInv E.V (s.sw, s.cfg.ops)
  two : s.sw.posL = s.sw.posR + 2

/-- What is assumed of the parts: the laws of the determinant machinery, of the global updates, and
of the evaluation of the trace in a window with valid caches. -/
structure SimEnv.Lawful (E : SimEnv R K S Ket Bra ι) (Sh : HybChange (OpTime R) → Prop)
    (Inv : S → Prop) (det : S → K) : Prop where
  glob : E.toGEnv.Lawful det
  dets : E.D.Lawful Sh Inv det
  len : ∀ M, Inv M → (E.D.cs M).length = (E.D.cdagg M).length
  blocks : ∀ M, Inv M → ∀ o ∈ E.D.cdagg M ++ E.D.cs M, E.blockOf o.flavor < E.nb
  det_eq : ∀ M, Inv M → det M = timeDet E.G (E.D.cs M) (E.D.cdagg M)
  factors : ∀ M, Inv M → (E.factors M).prod = det M
  build_inv : ∀ cds cs : List (TPsi R), cs.length = cds.length → ((cds ++ cs).map Psi.time).Nodup →
    (∀ o ∈ cds ++ cs, E.blockOf o.flavor < E.nb) → timeDet E.G cs cds ≠ 0 → Inv (E.build cds cs)
  sgn_ne : ∀ a : K, a ≠ 0 → E.sgn a ≠ 0
  perm_congr : ∀ a a' b b' c, List.Perm a a' → List.Perm b b' → E.permFn a b c = E.permFn a' b' c
  tr_pos : ∀ w, (E.tr w).Lawful E.abv
  tr_value : ∀ w ops, SWInv E.V (w, ops) → ∀ cut, ((E.tr w).lazyEval ops cut).1 = true →
    ((E.tr w).lazyEval ops cut).2 = fullTrace E.V ops
  M0 : Inv E.M0 ∧ E.D.cdagg E.M0 = [] ∧ E.D.cs E.M0 = [] ∧ E.permFn [] [] [] = 1

/-- What is demanded of a call of a local updater in a state: the random number is not negative, the
proposal removes operators that are there and is of a kind the determinant machinery can handle, its
factor is positive, and the operators which leave or enter the trace lie inside the window. -/
def LocalCall.OK (E : SimEnv R K S Ket Bra ι) (Sh : HybChange (OpTime R) → Prop)
    (u : LocalCall R K S Ket Bra ι) (s : GState R K S Ket Bra ι) : Prop :=
  0 ≤ u.r ∧ ∀ p, u.propose s.cfg s.sw = some p →
    ValidProp E.D Sh s.cfg p ∧ E.sgn (E.emb p.corr) = 1 ∧ E.emb p.corr ≠ 0 ∧
    ∀ o, o ∈ (opChange s.cfg p).1 ∨ o ∈ (opChange s.cfg p).2 →
      opT (tauEdge E.V.beta s.sw.n s.sw.posR) ≤ o.time ∧ o.time ≤ opT (tauEdge E.V.beta s.sw.n s.sw.posL)

/-- What is demanded of a global update in a state: the transformed operators have different times in
`[0, β]` and known flavors, and no factor of the new determinant is negligible. -/
def GlobalCall.OK (E : SimEnv R K S Ket Bra ι) (g : GlobalCall R) (s : GState R K S Ket Bra ι) : Prop :=
  0 ≤ g.r ∧
  (((E.D.cdagg s.cfg.M).map g.f ++ (E.D.cs s.cfg.M).map g.f ++
    wormOps (s.cfg.worm.map g.fw)).map Psi.time).Nodup ∧
  (∀ o ∈ (E.D.cdagg s.cfg.M).map g.f ++ (E.D.cs s.cfg.M).map g.f ++
    wormOps (s.cfg.worm.map g.fw), opT 0 ≤ o.time ∧ o.time ≤ opT E.V.beta) ∧
  (∀ o ∈ (E.D.cdagg s.cfg.M).map g.f ++ (E.D.cs s.cfg.M).map g.f, E.blockOf o.flavor < E.nb) ∧
  NoSmallFactor E.abv E.eps (newFactors E.G E.lu E.blockOf E.nb
    ((E.D.cdagg s.cfg.M).map g.f) ((E.D.cs s.cfg.M).map g.f))

/-- Each local update of a list meets its demands in the state in which it is called. -/
def localsOK (E : SimEnv R K S Ket Bra ι) (Sh : HybChange (OpTime R) → Prop) :
    List (LocalCall R K S Ket Bra ι) → GState R K S Ket Bra ι → Prop
  | [], _ => True
  | u :: us, s => u.OK E Sh s ∧ ∀ s', localCallStep E u s = some s' → localsOK E Sh us s'

/-- The same for the local updates at the positions of a sweep. -/
def movesOK (E : SimEnv R K S Ket Bra ι) (Sh : HybChange (OpTime R) → Prop) :
    List (List (LocalCall R K S Ket Bra ι)) → GState R K S Ket Bra ι → Prop
  | [], _ => True
  | us :: rest, s => localsOK E Sh us s ∧ ∀ s1 w, runLocal E us s = some s1 →
      moveNext E.V s1.cfg.ops s1.sw = some w → movesOK E Sh rest { s1 with sw := w }

/-- The same for a sweep. -/
def sweepOK (E : SimEnv R K S Ket Bra ι) (Sh : HybChange (OpTime R) → Prop) (a : SweepArgs R K S Ket Bra ι)
    (s : GState R K S Ket Bra ι) : Prop :=
  let n := sweepWindows a.nStd a.rank
  let moves := (List.range (max (2 * n - 2) 1)).map a.calls
  (n ≠ s.sw.n → ∀ w, setWindowSize E.V n s.cfg.ops 0 true s.sw = some w → movesOK E Sh moves { s with sw := w }) ∧
  (n = s.sw.n → movesOK E Sh moves s)

/-- The same for a list of global updates. -/
def globalsOK (E : SimEnv R K S Ket Bra ι) (nwin : ℕ) : List (GlobalCall R) → GState R K S Ket Bra ι → Prop
  | [], _ => True
  | g :: gs, s => g.OK E s ∧ ∀ p, globalUpdate E.toGEnv g.f g.fw g.r nwin s = some p → globalsOK E nwin gs p.1

/-- The same for `global_updates`. -/
def globalUpdatesOK (E : SimEnv R K S Ket Bra ι) (Sh : HybChange (OpTime R) → Prop)
    (a : SweepArgs R K S Ket Bra ι) (s : GState R K S Ket Bra ι) : Prop :=
  ∀ w, setWindowSize E.V 1 s.cfg.ops 0 true s.sw = some w → localsOK E Sh a.trans { s with sw := w } ∧
    ∀ s2, runLocal E a.trans { s with sw := w } = some s2 →
      globalsOK E (max a.nStd 10) a.globals { s2 with detVec := E.factors s2.cfg.M }

/-- The same for a simulation. -/
def simOK (E : SimEnv R K S Ket Bra ι) (Sh : HybChange (OpTime R) → Prop) (nGlobal : ℕ) :
    ℕ → List (SweepArgs R K S Ket Bra ι) → GState R K S Ket Bra ι → Prop
  | _, [], _ => True
  | k, a :: rest, s => sweepOK E Sh a s ∧ ∀ s1, doOneSweep E a.nStd a.rank a.calls s = some s1 →
      ((k + 1) % nGlobal = 0 → globalUpdatesOK E Sh a s1 ∧
        ∀ s2, globalUpdates E a.nStd a.trans a.globals s1 = some s2 → simOK E Sh nGlobal (k + 1) rest s2) ∧
      ((k + 1) % nGlobal ≠ 0 → simOK E Sh nGlobal (k + 1) rest s1)

/-! ### Local updates -/

variable {E : SimEnv R K S Ket Bra ι} {Sh : HybChange (OpTime R) → Prop} {Inv : S → Prop} {det : S → K}

omit [Fintype ι] in
/-- What becomes of operators and trace. -/
theorem localUpdate_ops (D : DetOps (OpTime R) K S) (Tr : TraceOps (OpTime R) K R)
    (permFn : List (TPsi R) → List (TPsi R) → List (TPsi R) → Int)
    (abv : AbsoluteValue K R) (sgn : K → K) (emb : R →+* K) (inWin : TPsi R → Bool)
    (cfg : Cfg (OpTime R) K S) (cnt : Counters) (prop : Option (Proposal (OpTime R) R)) (r : R)
    (h : (localUpdate D Tr permFn abv sgn emb inWin cfg cnt prop r).2.2 = .accepted) :
    ∃ p ops' rec, prop = some p ∧
      updateOperators cfg.ops (opChange cfg p).1 (opChange cfg p).2 = .success ops' rec ∧
      (localUpdate D Tr permFn abv sgn emb inWin cfg cnt prop r).1.ops = ops' ∧
      ((ops' = cfg.ops ∧
          (localUpdate D Tr permFn abv sgn emb inWin cfg cnt prop r).1.trace = cfg.trace) ∨
        ∃ cut, (Tr.lazyEval ops' cut).1 = true ∧
          (localUpdate D Tr permFn abv sgn emb inWin cfg cnt prop r).1.trace = (Tr.lazyEval ops' cut).2) := by
  cases prop with
  | none => simp [localUpdate] at h
  | some p =>
    unfold localUpdate at h ⊢
    simp only at h ⊢
    by_cases hrg : (rangeCheck inWin (opChange cfg p).1 && rangeCheck inWin (opChange cfg p).2) = true
    · rw [if_pos hrg] at h ⊢
      cases hu : updateOperators cfg.ops (opChange cfg p).1 (opChange cfg p).2 with
      | fatal o => rw [hu] at h; simp at h
      | duplicate o => rw [hu] at h; simp at h
      | success o rec =>
        simp only [hu] at h ⊢
        refine ⟨p, o, rec, rfl, hu, ?_⟩
        split_ifs at h ⊢ with he hacc hb hne hlz
        · have hops : o = cfg.ops := by
            simp only [Bool.and_eq_true, List.isEmpty_iff] at he
            rw [he.1, he.2] at hu
            simp [updateOperators, safeEraseWithRecord, safeInsertWithRecord] at hu
            exact hu.1.symm
          exact ⟨rfl, Or.inl ⟨hops, rfl⟩⟩
        · exact ⟨rfl, Or.inr ⟨_, hlz, rfl⟩⟩
    · rw [if_neg hrg] at h; simp at h

omit [Fintype ι] in
theorem localUpdate_range (D : DetOps (OpTime R) K S) (Tr : TraceOps (OpTime R) K R)
    (permFn : List (TPsi R) → List (TPsi R) → List (TPsi R) → Int)
    (abv : AbsoluteValue K R) (sgn : K → K) (emb : R →+* K) (inWin : TPsi R → Bool)
    (cfg : Cfg (OpTime R) K S) (cnt : Counters) (prop : Option (Proposal (OpTime R) R)) (r : R)
    (h : ∀ p, prop = some p →
      (rangeCheck inWin (opChange cfg p).1 && rangeCheck inWin (opChange cfg p).2) = true) :
    (localUpdate D Tr permFn abv sgn emb inWin cfg cnt prop r).2.2 ≠ .thrownRange := by
  cases prop with
  | none => simp [localUpdate]
  | some p =>
    unfold localUpdate
    simp only
    rw [if_pos (h p rfl)]
    cases hu : updateOperators cfg.ops (opChange cfg p).1 (opChange cfg p).2 with
    | fatal o => simp
    | duplicate o => simp
    | success o rec =>
      simp only
      split_ifs <;> simp

theorem opT_le_time {t : R} {x : OpTime R} (h : opT t ≤ x) : t ≤ x.time := by
  rw [OpTime.le_def] at h
  rcases h with h | h
  · exact h.le
  · exact h.1.le

theorem time_le_opT {t : R} {x : OpTime R} (h : x ≤ opT t) : x.time ≤ t := by
  rw [OpTime.le_def] at h
  rcases h with h | h
  · exact h.le
  · exact h.1.le

omit [Field K] [DecidableEq K] [Fintype ι] in
/-- A change of operators inside the window keeps its caches valid. -/
theorem window_change {V : SWEnv R Ket Bra K ι} (hb : 0 ≤ V.beta) {w : SWState Ket Bra ι}
    {ops ops' : OpSet (OpTime R)} {rem add : List (TPsi R)} (h : SWInv V (w, ops)) (k1 : ops'.Sorted)
    (k2 : ∀ y, y ∈ ops' ↔ (y ∈ ops ∧ y ∉ rem) ∨ y ∈ add)
    (hin : ∀ o, o ∈ rem ∨ o ∈ add → opT (tauEdge V.beta w.n w.posR) ≤ o.time ∧
      o.time ≤ opT (tauEdge V.beta w.n w.posL)) : SWInv V (w, ops') := by
  have b1 : 0 ≤ tauEdge V.beta w.n w.posR := by
    rw [← tauEdge_zero V.beta w.n]; exact tauEdge_mono hb _ (Nat.zero_le _)
  have b2 : tauEdge V.beta w.n w.posL ≤ V.beta := by
    have := tauEdge_mono hb w.n h.caches.posL
    rwa [tauEdge_top V.beta w.n h.n_pos] at this
  have hok : OpsOK V.beta ops' := by
    refine ⟨k1, fun o ho => ?_⟩
    rcases (k2 o).1 ho with h' | h'
    · exact h.ops.2 o h'.1
    · have := hin o (Or.inr h')
      exact ⟨(opT_le.2 b1).trans this.1, this.2.trans (opT_le.2 b2)⟩
  have hsame : SameOutside V.beta w ops ops' := by
    intro o ho
    have hnot : ¬ (o ∈ rem ∨ o ∈ add) := by
      intro hol
      have := hin o hol
      rcases ho with h' | h'
      · exact absurd this.1 (not_le.2 h')
      · exact absurd this.2 (not_le.2 h')
    rw [k2 o]
    constructor
    · exact fun h' => Or.inl ⟨h', fun hr => hnot (Or.inl hr)⟩
    · rintro (h' | h')
      · exact h'.1
      · exact absurd (Or.inr h') hnot
  exact ⟨hok, h.caches.change hb h.ops hok hsame, h.n_pos, h.le⟩

theorem localCallStep_ok (hE : E.Lawful Sh Inv det) (u : LocalCall R K S Ket Bra ι)
    (s : GState R K S Ket Bra ι) (hs : SimInv E Inv det s) (hu : u.OK E Sh s) :
    ∃ s', localCallStep E u s = some s' ∧ SimInv E Inv det s' ∧ s'.sw = s.sw := by
  obtain ⟨hr, hp⟩ := hu
  have hrange : ∀ p, u.propose s.cfg s.sw = some p →
      (rangeCheck (inWin E.V.beta s.sw) (opChange s.cfg p).1 &&
        rangeCheck (inWin E.V.beta s.sw) (opChange s.cfg p).2) = true := by
    intro p h
    have h4 := (hp p h).2.2.2
    rw [Bool.and_eq_true]
    have : ∀ o, o ∈ (opChange s.cfg p).1 ∨ o ∈ (opChange s.cfg p).2 → inWin E.V.beta s.sw o = true := by
      intro o ho
      have := h4 o ho
      unfold inWin
      rw [Bool.and_eq_true, decide_eq_true_eq, decide_eq_true_eq]
      exact ⟨opT_le_time this.1, time_le_opT this.2⟩
    exact ⟨List.all_eq_true.2 fun o ho => this o (Or.inl ho), List.all_eq_true.2 fun o ho => this o (Or.inr ho)⟩
  have n1 := localUpdate_range E.D (E.tr s.sw) E.permFn E.abv E.sgn E.emb (inWin E.V.beta s.sw) s.cfg
    ⟨0, 0, 0⟩ (u.propose s.cfg s.sw) u.r hrange
  have hstep := update_step E.D (E.tr s.sw) E.permFn E.abv E.sgn E.emb (inWin E.V.beta s.sw) Sh Inv det
    (by convert hE.dets) (hE.tr_pos _) s.cfg ⟨0, 0, 0⟩ (u.propose s.cfg s.sw) u.r hr hs.inv hs.cons
    (fun p h => (hp p h).1)
  have h01 := C01_not_accepted_unchanged E.D (E.tr s.sw) E.permFn E.abv E.sgn E.emb (inWin E.V.beta s.sw)
    Sh Inv det (by convert hE.dets) s.cfg ⟨0, 0, 0⟩ (u.propose s.cfg s.sw) u.r hs.inv hs.cons (fun p h => (hp p h).1)
  have hacc := localUpdate_ops E.D (E.tr s.sw) E.permFn E.abv E.sgn E.emb (inWin E.V.beta s.sw) s.cfg
    ⟨0, 0, 0⟩ (u.propose s.cfg s.sw) u.r
  unfold localCallStep
  simp only at hstep ⊢
  generalize localUpdate E.D (E.tr s.sw) E.permFn E.abv E.sgn E.emb (inWin E.V.beta s.sw) s.cfg
    ⟨0, 0, 0⟩ (u.propose s.cfg s.sw) u.r = o at *
  obtain ⟨c', cnt', ex⟩ := o
  simp only at n1 hstep h01 hacc ⊢
  obtain ⟨i1, i2, i3⟩ := hstep
  have i4 := i3 hE.glob.sgn_mul hE.sgn_ne hE.glob.perm hE.perm_congr
    (fun p h => ⟨(hp p h).2.1, (hp p h).2.2.1⟩) hs.sign
  have main : SimInv E Inv det { s with cfg := c' } := by
    by_cases ha : ex = .accepted
    · obtain ⟨p, ops', rec, e1, e2, e3, e4⟩ := hacc ha
      obtain ⟨hv, -, -, hin⟩ := hp p e1
      obtain ⟨hm, hn⟩ := opChange_rem_mem E.D Sh s.cfg p hs.cons hv
      have key := C03_update_operators s.cfg.ops (opChange s.cfg p).1 (opChange s.cfg p).2 hs.cons.1 hm hn
      rw [e2] at key
      obtain ⟨-, k1, k2, -⟩ := key
      have hw : SWInv E.V (s.sw, ops') := window_change hE.glob.beta hs.win k1 k2 hin
      refine ⟨i2, i1, i4, ?_, ?_, hs.two⟩
      · change c'.trace = fullTrace E.V c'.ops
        rw [e3]
        rcases e4 with ⟨e5, e6⟩ | ⟨cut, e5, e6⟩
        · rw [e6, e5]; exact hs.trace
        · rw [e6]; exact hE.tr_value _ _ hw _ e5
      · change SWInv E.V (s.sw, c'.ops)
        rw [e3]; exact hw
    · obtain ⟨⟨h1, h2, -⟩, -⟩ := h01 ha
      refine ⟨i2, i1, i4, ?_, ?_, hs.two⟩
      · change c'.trace = fullTrace E.V c'.ops
        rw [h1, h2]; exact hs.trace
      · change SWInv E.V (s.sw, c'.ops)
        rw [h1]; exact hs.win
  have n2 : ex ≠ .thrownFatal := by
    by_cases ha : ex = .accepted
    · rw [ha]; simp
    · exact (h01 ha).2
  refine ⟨{ s with cfg := c' }, ?_, main, rfl⟩
  cases ex <;> first | rfl | exact absurd rfl n1 | exact absurd rfl n2

theorem runLocal_ok (hE : E.Lawful Sh Inv det) (us : List (LocalCall R K S Ket Bra ι))
    (s : GState R K S Ket Bra ι) (hs : SimInv E Inv det s) (hu : localsOK E Sh us s) :
    ∃ s', runLocal E us s = some s' ∧ SimInv E Inv det s' ∧ s'.sw = s.sw := by
  induction us generalizing s with
  | nil => exact ⟨s, rfl, hs, rfl⟩
  | cons u us ih =>
    obtain ⟨s1, e1, h1, w1⟩ := localCallStep_ok hE u s hs hu.1
    obtain ⟨s2, e2, h2, w2⟩ := ih s1 h1 (hu.2 s1 e1)
    exact ⟨s2, by rw [runLocal, e1, Option.bind_some, e2], h2, w2.trans w1⟩

/-! ### Moving and resizing the window -/

theorem next_ok {s : GState R K S Ket Bra ι} (hs : SimInv E Inv det s) :
    ∃ w, moveNext E.V s.cfg.ops s.sw = some w ∧ SimInv E Inv det { s with sw := w } ∧ w.n = s.sw.n := by
  obtain ⟨w, e, k, n1, -, t⟩ := moveNext_ok hs.win.caches hs.win.n_pos hs.two
  have hn : 1 ≤ s.sw.n := hs.win.n_pos
  have n1 : w.n = s.sw.n := n1
  refine ⟨w, e, ⟨hs.cons, hs.inv, hs.sign, hs.trace, ⟨hs.win.ops, k, ?_, ?_⟩, t⟩, n1⟩
  · change 1 ≤ w.n; omega
  · change w.posR ≤ w.posL
    have : w.posL = w.posR + 2 := t
    omega

theorem resize_ok {s : GState R K S Ket Bra ι} (hs : SimInv E Inv det s) {n : ℕ} (hn : 1 ≤ n) :
    ∃ w, setWindowSize E.V n s.cfg.ops 0 true s.sw = some w ∧ SimInv E Inv det { s with sw := w } ∧
      w.n = n ∧ w.posR = 0 ∧ w.posL = 2 := by
  obtain ⟨w, e, k, n1, x, y⟩ := setWindowSize_ok hs.win.caches s.cfg.ops n 0 true
  have hpos : w.posR = 0 ∧ w.posL = 2 := by
    by_cases h2 : 2 ≤ n
    · have := x h2; omega
    · have := y (by omega); omega
  refine ⟨w, e, ⟨hs.cons, hs.inv, hs.sign, hs.trace, ⟨hs.win.ops, k, ?_, ?_⟩, ?_⟩, n1, hpos⟩
  · change 1 ≤ w.n; omega
  · change w.posR ≤ w.posL; omega
  · change w.posL = w.posR + 2; omega

/-! ### Global updates -/

theorem SimInv.toGInv (hE : E.Lawful Sh Inv det) {s : GState R K S Ket Bra ι} (hs : SimInv E Inv det s)
    (hd : s.detVec.prod = det s.cfg.M) (hn : s.sw.n = 1) (hr : s.sw.posR = 0) :
    GInv E.toGEnv det s where
  cons := hs.cons
  len := hE.len _ hs.inv
  blocks := hE.blocks _ hs.inv
  detM := hE.det_eq _ hs.inv
  detVec := hd.trans (hE.det_eq _ hs.inv)
  sign := hs.sign
  trace := hs.trace
  opsOK := hs.win.ops
  sw := ⟨hs.win.caches, hn, hr, by have := hs.two; omega⟩

/-- The determinant matrix after a global update: unchanged or built anew. -/
theorem globalUpdate_M {G : GEnv R K S Ket Bra ι} {f : TPsi R → TPsi R}
    {fw : List (TPsi R) → List (TPsi R)} {r : R} {nwin : ℕ} {s s' : GState R K S Ket Bra ι} {acc : Bool}
    (h : globalUpdate G f fw r nwin s = some (s', acc)) :
    s'.cfg.M = s.cfg.M ∨ (G.D.cdagg s.cfg.M ≠ [] ∧ acc = true ∧
      s'.cfg.M = G.build ((G.D.cdagg s.cfg.M).map f) ((G.D.cs s.cfg.M).map f)) := by
  unfold globalUpdate at h
  split_ifs at h with h0
  · simp only [Option.some.injEq, Prod.mk.injEq] at h
    exact Or.inl (by rw [h.1])
  · simp only at h
    simp only [Option.bind_eq_some_iff] at h
    obtain ⟨w1, -, w2, -, tr, -, w3, -, h⟩ := h
    split_ifs at h
    · simp only [Option.some.injEq, Prod.mk.injEq] at h
      exact Or.inl (by rw [← h.1])
    · simp only [Option.some.injEq, Prod.mk.injEq] at h
      refine Or.inr ⟨fun hc => h0 (by rw [hc]; rfl), h.2.symm, by rw [← h.1]⟩
    · simp only [Option.some.injEq, Prod.mk.injEq] at h
      exact Or.inl (by rw [← h.1])

theorem globalStep_ok (hE : E.Lawful Sh Inv det) (g : GlobalCall R) {nwin : ℕ} (hw : 1 ≤ nwin)
    (s : GState R K S Ket Bra ι) (hs : SimInv E Inv det s) (hd : s.detVec.prod = det s.cfg.M)
    (hn : s.sw.n = 1) (hr : s.sw.posR = 0) (hg : g.OK E s) :
    ∃ s' acc, globalUpdate E.toGEnv g.f g.fw g.r nwin s = some (s', acc) ∧ SimInv E Inv det s' ∧
      s'.detVec.prod = det s'.cfg.M ∧ s'.sw.n = 1 ∧ s'.sw.posR = 0 := by
  obtain ⟨g1, g2, g3, g4, g5⟩ := hg
  have hGI := hs.toGInv hE hd hn hr
  obtain ⟨s', acc, e, hG', -, hacc⟩ := C54_global_update E.toGEnv det hE.glob g.f g.fw g.r g1 nwin hw s hGI
    g2 g3 g4 g5
  have hinv : Inv s'.cfg.M := by
    rcases globalUpdate_M e with h | ⟨h1, h2, h3⟩
    · rw [h]; exact hs.inv
    · obtain ⟨p1, p2, -⟩ := (hacc h1).2.1 h2
      have nd1 : (((E.D.cdagg s.cfg.M).map g.f ++ (E.D.cs s.cfg.M).map g.f).map Psi.time).Nodup := by
        rw [List.map_append] at g2
        exact (List.nodup_append.1 g2).1
      have nd2 := nd1
      rw [List.map_append] at nd2
      have ncd := (List.nodup_append.1 nd2).1
      have nc := (List.nodup_append.1 nd2).2.1
      have etd := timeDet_congr E.G p2 p1 ((p2.map Psi.time).nodup_iff.2 nc) ((p1.map Psi.time).nodup_iff.2 ncd)
      rw [h3]
      refine hE.build_inv _ _ (by simp [hGI.len]) nd1 g4 ?_
      rw [← etd, ← hG'.detM]
      exact hG'.sign.2.1
  refine ⟨s', acc, e, ⟨hG'.cons, hinv, hG'.sign, hG'.trace, ⟨hG'.opsOK, hG'.sw.1, ?_, ?_⟩, ?_⟩,
    hG'.detVec.trans hG'.detM.symm, hG'.sw.2.1, hG'.sw.2.2.1⟩
  · change 1 ≤ s'.sw.n
    rw [hG'.sw.2.1]
  · change s'.sw.posR ≤ s'.sw.posL
    rw [hG'.sw.2.2.1]; exact Nat.zero_le _
  · rw [hG'.sw.2.2.1, hG'.sw.2.2.2]

theorem runGlobal_ok (hE : E.Lawful Sh Inv det) (gs : List (GlobalCall R)) {nwin : ℕ} (hw : 1 ≤ nwin)
    (s : GState R K S Ket Bra ι) (hs : SimInv E Inv det s) (hd : s.detVec.prod = det s.cfg.M)
    (hn : s.sw.n = 1) (hr : s.sw.posR = 0) (hg : globalsOK E nwin gs s) :
    ∃ s', runGlobal E nwin gs s = some s' ∧ SimInv E Inv det s' := by
  induction gs generalizing s with
  | nil => exact ⟨s, rfl, hs⟩
  | cons g gs ih =>
    obtain ⟨s1, acc, e1, h1, d1, n1, r1⟩ := globalStep_ok hE g hw s hs hd hn hr hg.1
    obtain ⟨s2, e2, h2⟩ := ih s1 h1 d1 n1 r1 (hg.2 _ e1)
    exact ⟨s2, by rw [runGlobal, e1, Option.bind_some]; exact e2, h2⟩

/-! ### Sweeps -/

theorem sweepMoves_ok (hE : E.Lawful Sh Inv det) (ms : List (List (LocalCall R K S Ket Bra ι)))
    (s : GState R K S Ket Bra ι) (hs : SimInv E Inv det s) (hm : movesOK E Sh ms s) :
    ∃ s', sweepMoves E ms s = some s' ∧ SimInv E Inv det s' ∧ s'.sw.n = s.sw.n := by
  induction ms generalizing s with
  | nil => exact ⟨s, rfl, hs, rfl⟩
  | cons us rest ih =>
    obtain ⟨s1, e1, h1, w1⟩ := runLocal_ok hE us s hs hm.1
    obtain ⟨w, e2, h2, n2⟩ := next_ok h1
    obtain ⟨s3, e3, h3, n3⟩ := ih _ h2 (hm.2 s1 w e1 e2)
    refine ⟨s3, ?_, h3, n3.trans (n2.trans (by rw [w1]))⟩
    rw [sweepMoves, e1, Option.bind_some, e2, Option.bind_some]; exact e3

/-- **C60, one sweep.**  From any state satisfying the invariant, a sweep does not throw and keeps
the invariant; it leaves the number of windows it works with. -/
theorem C60_sweep (hE : E.Lawful Sh Inv det) (a : SweepArgs R K S Ket Bra ι)
    (s : GState R K S Ket Bra ι) (hs : SimInv E Inv det s) (ha : sweepOK E Sh a s) :
    ∃ s', doOneSweep E a.nStd a.rank a.calls s = some s' ∧ SimInv E Inv det s' ∧
      s'.sw.n = max (a.nStd / a.rank) 1 := by
  unfold doOneSweep
  simp only
  unfold sweepOK at ha
  simp only at ha
  by_cases hn : sweepWindows a.nStd a.rank = s.sw.n
  · rw [if_neg (not_not.2 hn)]
    obtain ⟨s', e, h, n1⟩ := sweepMoves_ok hE _ s hs (ha.2 hn)
    exact ⟨s', e, h, n1.trans hn.symm⟩
  · rw [if_pos hn]
    obtain ⟨w, e1, h1, n1, -⟩ := resize_ok hs (n := sweepWindows a.nStd a.rank) (le_max_right _ _)
    obtain ⟨s', e, h, n2⟩ := sweepMoves_ok hE _ _ h1 (ha.1 hn w e1)
    refine ⟨s', ?_, h, n2.trans n1⟩
    rw [e1, Option.bind_some]; exact e

/-! ### The positions of the window during a sweep -/

theorem stepPos_up (n : ℕ) (hn : 2 ≤ n) (d : Bool) (j : ℕ) (hj : j ≤ 2 * n - 2) :
    ∃ d', (stepPos n)^[j] (0, 2, d) = (j, j + 2, d') ∧ (1 ≤ j → d' = true) := by
  induction j with
  | zero => exact ⟨d, rfl, by omega⟩
  | succ j ih =>
    obtain ⟨d', e, h⟩ := ih (by omega)
    rw [Function.iterate_succ_apply', e]
    refine ⟨true, ?_, fun _ => rfl⟩
    unfold stepPos
    rw [if_neg (by omega)]
    by_cases h0 : j = 0
    · subst h0
      cases d'
      · simp
      · simp only [if_true, if_neg (show ¬ 0 + 2 = 2 * n by omega)]
    · simp only [h (by omega), if_true, if_neg (show ¬ j + 2 = 2 * n by omega)]

theorem stepPos_down (n : ℕ) (hn : 2 ≤ n) (d : Bool) (j : ℕ) (hj : j ≤ 2 * n - 2) :
    ∃ d', (stepPos n)^[j] (2 * n - 2, 2 * n, d) = (2 * n - 2 - j, 2 * n - j, d') ∧ (1 ≤ j → d' = false) := by
  induction j with
  | zero => exact ⟨d, rfl, by omega⟩
  | succ j ih =>
    obtain ⟨d', e, h⟩ := ih (by omega)
    rw [Function.iterate_succ_apply', e]
    refine ⟨false, ?_, fun _ => rfl⟩
    unfold stepPos
    rw [if_neg (by omega)]
    by_cases h0 : j = 0
    · subst h0
      cases d'
      · simp only [if_neg (show ¬ 2 * n - 2 - 0 = 0 by omega), Bool.false_eq_true, if_false]
        refine Prod.ext (by simp only; omega) (Prod.ext (by simp only; omega) rfl)
      · simp only [if_true, Nat.sub_zero]
    · rw [h (by omega)]
      simp only [if_neg (show ¬ 2 * n - 2 - j = 0 by omega), Bool.false_eq_true, if_false]
      refine Prod.ext (by simp only; omega) (Prod.ext (by simp only; omega) rfl)

theorem sweepMoves_pos (hE : E.Lawful Sh Inv det) (ms : List (List (LocalCall R K S Ket Bra ι)))
    (s : GState R K S Ket Bra ι) (hs : SimInv E Inv det s) (hm : movesOK E Sh ms s) (j : ℕ) (hj : j ≤ ms.length) :
    ∃ sj, sweepMoves E (ms.take j) s = some sj ∧ sweepMoves E (ms.drop j) sj = sweepMoves E ms s ∧
      (sj.sw.posR, sj.sw.posL, sj.sw.dirLeft) = (stepPos s.sw.n)^[j] (s.sw.posR, s.sw.posL, s.sw.dirLeft) := by
  induction j generalizing ms s with
  | zero => exact ⟨s, rfl, rfl, rfl⟩
  | succ j ih =>
    cases ms with
    | nil => simp at hj
    | cons us ms =>
      obtain ⟨s1, e1, h1, w1⟩ := runLocal_ok hE us s hs hm.1
      obtain ⟨w, e2, -, -, p2, -⟩ := moveNext_ok h1.win.caches h1.win.n_pos h1.two
      obtain ⟨w', e2', h2, n2⟩ := next_ok h1
      have hww : w = w' := by
        change moveNext E.V s1.cfg.ops s1.sw = some w at e2
        rw [e2] at e2'
        exact Option.some.inj e2'
      subst hww
      obtain ⟨sj, a, b, c⟩ := ih ms _ h2 (hm.2 s1 w e1 e2') (by simpa using hj)
      refine ⟨sj, ?_, ?_, ?_⟩
      · rw [List.take_succ_cons, sweepMoves, e1, Option.bind_some, e2', Option.bind_some]; exact a
      · rw [List.drop_succ_cons, b]
        conv_rhs => rw [sweepMoves, e1, Option.bind_some, e2', Option.bind_some]
      · have e3 : (w.posR, w.posL, w.dirLeft) = stepPos s.sw.n (s.sw.posR, s.sw.posL, s.sw.dirLeft) := by
          rw [p2]
          change stepPos s1.sw.n (s1.sw.posR, s1.sw.posL, s1.sw.dirLeft) = _
          rw [w1]
        rw [c, Function.iterate_succ_apply]
        change (stepPos w.n)^[j] (w.posR, w.posL, w.dirLeft) = _
        rw [e3, n2, w1]

/-- The window is at one of the two ends. -/
def AtEnd (w : SWState Ket Bra ι) : Prop := w.posR = 0 ∨ w.posR = 2 * w.n - 2

/-- **C60, positions during a sweep.**  If the window is at one of the ends before a sweep, then during
the sweep the local updates `calls j` take place with the window at the j-th position counted from that end
(or from 0 if the number of windows is changed), so that each position except the opposite end is visited
exactly once, and the sweep ends at the opposite end.  This is the assertion which is commented out at the
end of `do_one_sweep`; the one at its beginning (right edge at 0) does not hold in general. -/
theorem C60_positions (hE : E.Lawful Sh Inv det) (a : SweepArgs R K S Ket Bra ι)
    (s : GState R K S Ket Bra ι) (hs : SimInv E Inv det s) (ha : sweepOK E Sh a s) (hend : AtEnd s.sw) :
    let n := max (a.nStd / a.rank) 1
    let moves := (List.range (max (2 * n - 2) 1)).map a.calls
    let up := n ≠ s.sw.n ∨ s.sw.posR = 0
    ∃ s1 s', doOneSweep E a.nStd a.rank a.calls s = some s' ∧ sweepMoves E moves s1 = some s' ∧
      s1.cfg = s.cfg ∧ s1.sw.n = n ∧
      (∀ j < max (2 * n - 2) 1, ∃ sj, sweepMoves E (moves.take j) s1 = some sj ∧
        sweepMoves E (moves.drop j) sj = some s' ∧ sj.sw.posL = sj.sw.posR + 2 ∧
        (up → sj.sw.posR = j) ∧ (¬ up → sj.sw.posR = 2 * n - 2 - j)) ∧
      (up → s'.sw.posR = 2 * n - 2) ∧ (¬ up → s'.sw.posR = 0) := by
  intro n moves up
  have hn1 : 1 ≤ n := le_max_right _ _
  -- the state from which the window moves
  obtain ⟨s1, hs1, hc1, hm1, hn, hd, hup, hdn⟩ : ∃ s1, SimInv E Inv det s1 ∧ s1.cfg = s.cfg ∧
      movesOK E Sh moves s1 ∧ s1.sw.n = n ∧ doOneSweep E a.nStd a.rank a.calls s = sweepMoves E moves s1 ∧
      (up → s1.sw.posR = 0) ∧ (¬ up → s1.sw.posR = 2 * n - 2) := by
    by_cases hn : n = s.sw.n
    · refine ⟨s, hs, rfl, ha.2 hn, hn.symm, ?_, fun h => ?_, fun h => ?_⟩
      · unfold doOneSweep
        exact if_neg (not_not.2 hn)
      · exact h.resolve_left (not_not.2 hn)
      · have h0 : ¬ s.sw.posR = 0 := fun hc => h (Or.inr hc)
        have h2 := hend.resolve_left h0
        rw [hn]; exact h2
    · obtain ⟨w, e1, h1, n1, r1, -⟩ := resize_ok hs (n := n) hn1
      refine ⟨_, h1, rfl, ha.1 hn w e1, n1, ?_, fun _ => r1, fun h => absurd (Or.inl hn) h⟩
      unfold doOneSweep
      refine (if_pos hn).trans ?_
      change (setWindowSize E.V n s.cfg.ops 0 true s.sw).bind _ = _
      rw [e1]; rfl
  obtain ⟨s', e', -⟩ := C60_sweep hE a s hs ha
  have hlen : moves.length = max (2 * n - 2) 1 := by simp [moves]
  have htwo := hs1.two
  -- positions
  have hpos : ∀ j, j ≤ max (2 * n - 2) 1 → ∃ sj, sweepMoves E (moves.take j) s1 = some sj ∧
      sweepMoves E (moves.drop j) sj = some s' ∧ sj.sw.posL = sj.sw.posR + 2 ∧
      (up → sj.sw.posR = min j (2 * n - 2)) ∧ (¬ up → sj.sw.posR = 2 * n - 2 - j) := by
    intro j hj
    obtain ⟨sj, b1, b2, b3⟩ := sweepMoves_pos hE moves s1 hs1 hm1 j (by omega)
    rw [← hd, e'] at b2
    refine ⟨sj, b1, b2, ?_⟩
    rw [hn] at b3
    by_cases h2 : n = 1
    · have hid : stepPos n = id := by
        funext p
        unfold stepPos
        rw [if_pos h2]; rfl
      rw [hid, Function.iterate_id, id] at b3
      have q1 := congrArg Prod.fst b3
      have q2 := congrArg (fun x => x.2.1) b3
      simp only at q1 q2
      refine ⟨by omega, fun h => ?_, fun h => ?_⟩
      · have := hup h; omega
      · have := hdn h; omega
    · by_cases hu : up
      · have r0 := hup hu
        rw [htwo, r0] at b3
        obtain ⟨d', ed, -⟩ := stepPos_up n (by omega) s1.sw.dirLeft j (by omega)
        rw [ed] at b3
        have q1 := congrArg Prod.fst b3
        have q2 := congrArg (fun x => x.2.1) b3
        simp only at q1 q2
        exact ⟨by omega, fun _ => by omega, fun h => absurd hu h⟩
      · have r0 := hdn hu
        rw [htwo, r0, show 2 * n - 2 + 2 = 2 * n by omega] at b3
        obtain ⟨d', ed, -⟩ := stepPos_down n (by omega) s1.sw.dirLeft j (by omega)
        rw [ed] at b3
        have q1 := congrArg Prod.fst b3
        have q2 := congrArg (fun x => x.2.1) b3
        simp only at q1 q2
        exact ⟨by omega, fun h => absurd h hu, fun _ => by omega⟩
  refine ⟨s1, s', e', ?_, hc1, hn, fun j hj => ?_, ?_⟩
  · rw [← hd, e']
  · obtain ⟨sj, b1, b2, b3, b4, b5⟩ := hpos j hj.le
    exact ⟨sj, b1, b2, b3, fun h => by have := b4 h; omega, b5⟩
  · obtain ⟨sj, b1, b2, b3, b4, b5⟩ := hpos (max (2 * n - 2) 1) le_rfl
    rw [List.drop_of_length_le (by omega)] at b2
    obtain rfl := Option.some.inj b2
    exact ⟨fun h => by have := b4 h; omega, fun h => by have := b5 h; omega⟩

/-- **C60, global updates.**  `global_updates` does not throw, keeps the invariant and restores the
number of windows. -/
theorem C60_global (hE : E.Lawful Sh Inv det) (a : SweepArgs R K S Ket Bra ι)
    (s : GState R K S Ket Bra ι) (hs : SimInv E Inv det s) (ha : globalUpdatesOK E Sh a s) :
    ∃ s', globalUpdates E a.nStd a.trans a.globals s = some s' ∧ SimInv E Inv det s' ∧
      s'.sw.n = s.sw.n ∧ s'.sw.posR = 0 := by
  unfold globalUpdates
  simp only
  obtain ⟨w1, e1, h1, n1, r1, -⟩ := resize_ok hs (n := 1) le_rfl
  obtain ⟨b1, b2⟩ := ha w1 e1
  obtain ⟨s2, e2, h2, w2⟩ := runLocal_ok hE a.trans _ h1 b1
  have h2' : SimInv E Inv det { s2 with detVec := E.factors s2.cfg.M } :=
    ⟨h2.cons, h2.inv, h2.sign, h2.trace, h2.win, h2.two⟩
  obtain ⟨s3, e3, h3⟩ := runGlobal_ok hE a.globals (nwin := max a.nStd 10) (by omega) _ h2'
    (hE.factors _ h2.inv) (by change s2.sw.n = 1; rw [w2]; exact n1)
    (by change s2.sw.posR = 0; rw [w2]; exact r1) (b2 s2 e2)
  obtain ⟨w4, e4, h4, n4, r4, -⟩ := resize_ok h3 (n := s.sw.n) hs.win.n_pos
  refine ⟨_, ?_, h4, n4, r4⟩
  rw [e1, Option.bind_some, e2, Option.bind_some, e3, Option.bind_some, e4]
  rfl

/-- **C60, whole simulation.**  Any number of sweeps and global updates runs without exception and
keeps the invariant; between them the window is at one of its ends if it was so at the start. -/
theorem C60_run (hE : E.Lawful Sh Inv det) (nGlobal k : ℕ) (as : List (SweepArgs R K S Ket Bra ι))
    (s : GState R K S Ket Bra ι) (hs : SimInv E Inv det s) (ha : simOK E Sh nGlobal k as s) :
    ∃ s', runSim E nGlobal k as s = some s' ∧ SimInv E Inv det s' ∧ (AtEnd s.sw → AtEnd s'.sw) := by
  induction as generalizing k s with
  | nil => exact ⟨s, rfl, hs, id⟩
  | cons a rest ih =>
    obtain ⟨s1, e1, h1, n1⟩ := C60_sweep hE a s hs ha.1
    have hend : AtEnd s.sw → AtEnd s1.sw := by
      intro h
      obtain ⟨-, s1', e1', -, -, -, -, x, y⟩ := C60_positions hE a s hs ha.1 h
      rw [e1] at e1'
      obtain rfl := Option.some.inj e1'
      by_cases hu : max (a.nStd / a.rank) 1 ≠ s.sw.n ∨ s.sw.posR = 0
      · exact Or.inr (by rw [x hu, n1])
      · exact Or.inl (y hu)
    obtain ⟨b1, b2⟩ := ha.2 s1 e1
    by_cases hk : (k + 1) % nGlobal = 0
    · obtain ⟨c1, c2⟩ := b1 hk
      obtain ⟨s2, e2, h2, -, r2⟩ := C60_global hE a s1 h1 c1
      obtain ⟨s3, e3, h3, x3⟩ := ih (k + 1) s2 h2 (c2 s2 e2)
      refine ⟨s3, ?_, h3, fun _ => x3 (Or.inl r2)⟩
      rw [runSim, e1, Option.bind_some, if_pos hk, e2, Option.bind_some, e3]
    · obtain ⟨s3, e3, h3, x3⟩ := ih (k + 1) s1 h1 (b2 hk)
      refine ⟨s3, ?_, h3, fun h => x3 (hend h)⟩
      rw [runSim, e1, Option.bind_some, if_neg hk, Option.bind_some, e3]

/-- **C60, initial state.**  The constructor succeeds for at least one window, and the state it
leaves satisfies the invariant, provided the trace without operators has sign 1. -/
theorem C60_init (hE : E.Lawful Sh Inv det) (hz : fullTrace E.V [] ≠ 0) (hz1 : E.sgn (fullTrace E.V []) = 1)
    {nMin : ℕ} (hn : 1 ≤ nMin) (pl pr nn : ℕ) (d : Bool) :
    ∃ s, simInit E nMin pl pr nn d = some s ∧ SimInv E Inv det s ∧ s.cfg.ops = [] ∧ s.sw.posR = 0 ∧ s.sw.n = nMin := by
  have h0 : OpsOK E.V.beta ([] : OpSet (OpTime R)) := ⟨List.Pairwise.nil, by simp⟩
  obtain ⟨w, e, hi, n1, r1, l1⟩ := init_inv (V := E.V) nMin hn [] h0 pl pr nn d
  have ht := computeTrace_ok hE.glob.evol hE.glob.beta hi.ops hi.caches hi.n_pos hi.le
  obtain ⟨m1, m2, m3, m4⟩ := hE.M0
  have hdet : det E.M0 = 1 := by
    rw [hE.det_eq _ m1, m2, m3, timeDet_eq _ _ _ (by simp) (by simp), listDet_eq E.G [] [] 0 rfl rfl]
    simp [invs]
  have hs1 : E.sgn 1 = 1 := by
    have h1 := hE.glob.sgn_mul 1 1 one_ne_zero one_ne_zero
    have h2 := hE.sgn_ne 1 one_ne_zero
    rw [mul_one] at h1
    exact (mul_eq_left₀ h2).1 h1.symm
  refine ⟨_, by rw [simInit, e, Option.bind_some, ht]; rfl, ⟨⟨?_, ?_⟩, m1, ⟨?_, ?_, hz, ?_⟩, rfl, hi, ?_⟩, rfl, r1, n1⟩
  · exact List.Pairwise.nil
  · change (([] : List (TPsi R)) : Multiset (TPsi R)) = (E.D.cdagg E.M0 : Multiset (TPsi R)) + (E.D.cs E.M0 : Multiset (TPsi R)) + (([] : List (TPsi R)) : Multiset (TPsi R))
    rw [m2, m3]; rfl
  · change (1 : ℤ) = E.permFn (E.D.cdagg E.M0) (E.D.cs E.M0) []
    rw [m2, m3, m4]
  · change det E.M0 ≠ 0
    rw [hdet]; exact one_ne_zero
  · change (1 : K) = E.sgn (det E.M0) * E.sgn (fullTrace E.V []) * ((1 : ℤ) : K)
    rw [hdet, hs1, hz1]; simp
  · change w.posL = w.posR + 2
    omega

/-! ### Calls which always meet their demands -/

/-- Every call meets its demands in every state satisfying the invariant (global updates: with the
factors of the determinant computed and one window). -/
def SweepArgs.Always (E : SimEnv R K S Ket Bra ι) (Sh : HybChange (OpTime R) → Prop) (Inv : S → Prop)
    (det : S → K) (a : SweepArgs R K S Ket Bra ι) : Prop :=
  (∀ n, ∀ u ∈ a.calls n, ∀ s, SimInv E Inv det s → u.OK E Sh s) ∧
  (∀ u ∈ a.trans, ∀ s, SimInv E Inv det s → u.OK E Sh s) ∧
  ∀ g ∈ a.globals, ∀ s, SimInv E Inv det s → g.OK E s

theorem localsOK_of (hE : E.Lawful Sh Inv det) (us : List (LocalCall R K S Ket Bra ι))
    (h : ∀ u ∈ us, ∀ s, SimInv E Inv det s → u.OK E Sh s) (s : GState R K S Ket Bra ι)
    (hs : SimInv E Inv det s) : localsOK E Sh us s := by
  induction us generalizing s with
  | nil => trivial
  | cons u us ih =>
    refine ⟨h u (by simp) s hs, fun s' e => ih (fun v hv => h v (by simp [hv])) s' ?_⟩
    obtain ⟨s1, e1, h1, -⟩ := localCallStep_ok hE u s hs (h u (by simp) s hs)
    rw [e] at e1
    obtain rfl := Option.some.inj e1
    exact h1

theorem movesOK_of (hE : E.Lawful Sh Inv det) (ms : List (List (LocalCall R K S Ket Bra ι)))
    (h : ∀ us ∈ ms, ∀ u ∈ us, ∀ s, SimInv E Inv det s → u.OK E Sh s) (s : GState R K S Ket Bra ι)
    (hs : SimInv E Inv det s) : movesOK E Sh ms s := by
  induction ms generalizing s with
  | nil => trivial
  | cons us ms ih =>
    have hl := localsOK_of hE us (h us (by simp)) s hs
    refine ⟨hl, fun s' w e ew => ih (fun v hv => h v (by simp [hv])) _ ?_⟩
    obtain ⟨s1, e1, h1, -⟩ := runLocal_ok hE us s hs hl
    rw [e] at e1
    obtain rfl := Option.some.inj e1
    obtain ⟨w1, e2, h2, -⟩ := next_ok h1
    rw [ew] at e2
    obtain rfl := Option.some.inj e2
    exact h2

theorem globalsOK_of (hE : E.Lawful Sh Inv det) (gs : List (GlobalCall R)) {nwin : ℕ} (hw : 1 ≤ nwin)
    (h : ∀ g ∈ gs, ∀ s, SimInv E Inv det s → g.OK E s) (s : GState R K S Ket Bra ι)
    (hs : SimInv E Inv det s) (hd : s.detVec.prod = det s.cfg.M) (hn : s.sw.n = 1) (hr : s.sw.posR = 0) :
    globalsOK E nwin gs s := by
  induction gs generalizing s with
  | nil => trivial
  | cons g gs ih =>
    refine ⟨h g (by simp) s hs, fun q e => ?_⟩
    obtain ⟨s1, acc, e1, h1, d1, n1, r1⟩ := globalStep_ok hE g hw s hs hd hn hr (h g (by simp) s hs)
    rw [e] at e1
    obtain rfl := Option.some.inj e1
    exact ih (fun v hv => h v (by simp [hv])) _ h1 d1 n1 r1

/-- Calls which meet their demands in every state satisfying the invariant meet them along the
simulation. -/
theorem simOK_of (hE : E.Lawful Sh Inv det) (nGlobal k : ℕ) (as : List (SweepArgs R K S Ket Bra ι))
    (h : ∀ a ∈ as, a.Always E Sh Inv det) (s : GState R K S Ket Bra ι) (hs : SimInv E Inv det s) :
    simOK E Sh nGlobal k as s := by
  induction as generalizing k s with
  | nil => trivial
  | cons a as ih =>
    obtain ⟨c1, c2, c3⟩ := h a (by simp)
    have hm : ∀ us ∈ (List.range (max (2 * sweepWindows a.nStd a.rank - 2) 1)).map a.calls, ∀ u ∈ us, ∀ s,
        SimInv E Inv det s → u.OK E Sh s := by
      intro us hus u hu
      obtain ⟨n, -, rfl⟩ := List.mem_map.1 hus
      exact c1 n u hu
    have hsw : sweepOK E Sh a s := by
      refine ⟨fun _ w e => movesOK_of hE _ hm _ ?_, fun _ => movesOK_of hE _ hm s hs⟩
      obtain ⟨w1, e1, h1, -⟩ := resize_ok hs (n := sweepWindows a.nStd a.rank) (le_max_right _ _)
      rw [e] at e1
      obtain rfl := Option.some.inj e1
      exact h1
    refine ⟨hsw, fun s1 e1 => ?_⟩
    obtain ⟨s1', e1', h1, -⟩ := C60_sweep hE a s hs hsw
    rw [e1] at e1'
    obtain rfl := Option.some.inj e1'
    refine ⟨fun _ => ?_, fun _ => ih (k + 1) (fun v hv => h v (by simp [hv])) s1 h1⟩
    have hg : globalUpdatesOK E Sh a s1 := by
      intro w ew
      obtain ⟨w1, e2, h2, n2, r2, -⟩ := resize_ok h1 (n := 1) le_rfl
      rw [ew] at e2
      obtain rfl := Option.some.inj e2
      have hl := localsOK_of hE a.trans c2 _ h2
      refine ⟨hl, fun s2 e3 => ?_⟩
      obtain ⟨s3, e4, h4, w4⟩ := runLocal_ok hE a.trans _ h2 hl
      rw [e3] at e4
      obtain rfl := Option.some.inj e4
      exact globalsOK_of hE a.globals (by omega) c3 _
        ⟨h4.cons, h4.inv, h4.sign, h4.trace, h4.win, h4.two⟩ (hE.factors _ h4.inv)
        (by change s2.sw.n = 1; rw [w4]; exact n2) (by change s2.sw.posR = 0; rw [w4]; exact r2)
    refine ⟨hg, fun s2 e2 => ih (k + 1) (fun v hv => h v (by simp [hv])) s2 ?_⟩
    obtain ⟨s3, e3, h3, -⟩ := C60_global hE a s1 h1 hg
    rw [e2] at e3
    obtain rfl := Option.some.inj e3
    exact h3

end
end CTHyb
