import Verif.NNCorr
import Verif.ModelInputProps
import Verif.StaticMeasProps
import Verif.ZMeasMeanExamples

/-!
Property C71: density-density correlation functions.

Specification: the format of the file with the definitions (`corrFormat`), and the terms of the expansion with the operators
`n_f(τ_i) n_g(τ_0)` in the trace (`corrW`).
-/

set_option linter.unusedSectionVars false

namespace CTHyb

open Matrix Rand

/-! ### The definitions -/

section reader
variable {n : ℕ}

/-- The records from line `i` on: line number, flavor of the later density, flavor of the earlier density. -/
def corrRecords : ℕ → List (Fin n × Fin n) → List Tok
  | _, [] => []
  | i, d :: ds => .int i :: .int d.1.val :: .int d.2.val :: corrRecords (i + 1) ds

/-- The documented format: number of definitions, then one record for each. -/
def corrFormat (ds : List (Fin n × Fin n)) : List Tok := .int ds.length :: corrRecords 0 ds

theorem useInt_int {β : Type} (z : ℤ) (ts : List Tok) (k : ℤ → List Tok → InRes β) : useInt (.int z :: ts) k = k z ts := rfl

theorem useInt_ok {β : Type} {ts : List Tok} {k : ℤ → List Tok → InRes β} {b : β} (h : useInt ts k = .ok b) :
    ∃ z ts', ts = .int z :: ts' ∧ k z ts' = .ok b := by
  unfold useInt at h
  split at h
  · simp at h
  · rename_i x ts' hx
    obtain ⟨z, hz, h'⟩ := need_ok h
    subst hz
    exact ⟨z, ts', getInt_some hx, h'⟩

theorem useFlavor_fin {β : Type} (f : Fin n) (ts : List Tok) (k : ℕ → List Tok → InRes β) :
    useFlavor n (.int f.val :: ts) k = k f.val ts := by
  have := f.isLt
  unfold useFlavor
  rw [useInt_int, if_neg (by omega), Int.toNat_natCast]

theorem useFlavor_ok {β : Type} {ts : List Tok} {k : ℕ → List Tok → InRes β} {b : β} (h : useFlavor n ts k = .ok b) :
    ∃ (f : Fin n) (ts' : List Tok), ts = .int f.val :: ts' ∧ k f.val ts' = .ok b := by
  obtain ⟨z, ts', hts, h'⟩ := useInt_ok h
  by_cases hz : z < 0 ∨ z ≥ n
  · rw [if_pos hz] at h'; simp at h'
  · rw [if_neg hz] at h'
    have e : ((z.toNat : ℕ) : ℤ) = z := Int.toNat_of_nonneg (by omega)
    exact ⟨⟨z.toNat, by omega⟩, ts', by rw [hts, e], h'⟩

theorem readCorrLoop_records (ds : List (Fin n × Fin n)) (i : ℕ) (rest : List Tok) :
    readCorrLoop n i ds.length (corrRecords i ds ++ rest) =
      .ok (ds.map fun d => ((⟨d.1, d.1⟩, ⟨d.2, d.2⟩) : CdagC × CdagC)) := by
  induction ds generalizing i with
  | nil => rfl
  | cons d ds ih =>
    rw [corrRecords, List.length_cons, readCorrLoop, List.cons_append, List.cons_append, List.cons_append, useInt_int]
    simp only [ne_eq, not_true_eq_false, if_false, useFlavor_fin]
    rw [ih (i + 1)]
    rfl

theorem readCorrLoop_ok (k i : ℕ) (ts : List Tok) (cs : List (CdagC × CdagC)) (h : readCorrLoop n i k ts = .ok cs) :
    ∃ (ds : List (Fin n × Fin n)) (rest : List Tok), ds.length = k ∧ ts = corrRecords i ds ++ rest ∧
      cs = ds.map fun d => ((⟨d.1, d.1⟩, ⟨d.2, d.2⟩) : CdagC × CdagC) := by
  induction k generalizing i ts cs with
  | zero =>
    simp only [readCorrLoop, InRes.ok.injEq] at h
    exact ⟨[], ts, rfl, rfl, h.symm⟩
  | succ k ih =>
    rw [readCorrLoop] at h
    obtain ⟨l, t1, rfl, h1⟩ := useInt_ok h
    by_cases hl : l ≠ i
    · rw [if_pos hl] at h1; simp at h1
    rw [if_neg hl] at h1
    obtain ⟨f, t2, rfl, h2⟩ := useFlavor_ok h1
    obtain ⟨g, t3, rfl, h3⟩ := useFlavor_ok h2
    obtain ⟨cs', h4, rfl⟩ := map_ok h3
    obtain ⟨ds, rest, e1, rfl, rfl⟩ := ih _ _ _ h4
    refine ⟨(f, g) :: ds, rest, by simp [e1], ?_, rfl⟩
    rw [not_not.1 hl]
    rfl

theorem readCorrLoop_truncated (ds : List (Fin n × Fin n)) (i : ℕ) (p : List Tok) (hp : p <+: corrRecords i ds)
    (hne : p ≠ corrRecords i ds) : readCorrLoop n i ds.length p = .ub := by
  induction ds generalizing i p with
  | nil => exact absurd (List.prefix_nil.1 hp) hne
  | cons d ds ih =>
    rw [corrRecords] at hp hne
    rw [List.length_cons, readCorrLoop]
    rcases List.prefix_cons_iff.1 hp with rfl | ⟨p1, rfl, hp1⟩
    · rfl
    rw [useInt_int]
    simp only [ne_eq, not_true_eq_false, if_false]
    rcases List.prefix_cons_iff.1 hp1 with rfl | ⟨p2, rfl, hp2⟩
    · rfl
    rw [useFlavor_fin]
    rcases List.prefix_cons_iff.1 hp2 with rfl | ⟨p3, rfl, hp3⟩
    · rfl
    rw [useFlavor_fin, ih (i + 1) p3 hp3 fun e => hne (by rw [e])]
    rfl

/-- **C71, definitions.**  The file is accepted exactly if it has the documented format with as many definitions as the parameter
says and the number of points is not one; each definition becomes a pair of density operators. -/
theorem C71_reader (nTau nDef : ℤ) (ts : List Tok) (cs : List (CdagC × CdagC)) :
    readCorr n nTau nDef ts = .ok cs ↔ nTau ≠ 1 ∧ ∃ (ds : List (Fin n × Fin n)) (rest : List Tok),
      nDef = ds.length ∧ ts = corrFormat ds ++ rest ∧
      cs = ds.map fun d => ((⟨d.1, d.1⟩, ⟨d.2, d.2⟩) : CdagC × CdagC) := by
  unfold readCorr
  constructor
  · intro h
    split at h
    · simp at h
    rename_i ht
    refine ⟨ht, ?_⟩
    obtain ⟨m, ts', rfl, h1⟩ := useInt_ok h
    by_cases hm : m < 0
    · rw [if_pos hm] at h1; simp at h1
    rw [if_neg hm] at h1
    by_cases hd : m ≠ nDef
    · rw [if_pos hd] at h1; simp at h1
    rw [if_neg hd] at h1
    obtain ⟨ds, rest, e1, rfl, e3⟩ := readCorrLoop_ok _ _ _ _ h1
    have em : m = (ds.length : ℤ) := by omega
    exact ⟨ds, rest, by rw [← em]; exact (not_not.1 hd).symm, by rw [em]; rfl, e3⟩
  · rintro ⟨ht, ds, rest, rfl, rfl, rfl⟩
    rw [if_neg ht, corrFormat, List.cons_append, useInt_int, if_neg (by omega), if_neg (by simp), Int.toNat_natCast,
      readCorrLoop_records]

/-- **C71, violation.**  A file which breaks off too early is not reported. -/
theorem C71_truncated_violated (nTau : ℤ) (ht : nTau ≠ 1) (ds : List (Fin n × Fin n)) (p : List Tok) (hp : p <+: corrFormat ds)
    (hne : p ≠ corrFormat ds) : readCorr n nTau ds.length p = .ub := by
  unfold readCorr
  rw [if_neg ht]
  unfold corrFormat at hp hne
  rcases List.prefix_cons_iff.1 hp with rfl | ⟨q, rfl, hq⟩
  · rfl
  rw [useInt_int, if_neg (by omega), if_neg (by simp), Int.toNat_natCast]
  exact readCorrLoop_truncated ds 0 q hq fun e => hne (by rw [e])

/-- Two definitions for two flavors. -/
example : readCorr 2 3 2 [.int 2, .int 0, .int 0, .int 1, .int 1, .int 1, .int 1] =
    .ok [(⟨0, 0⟩, ⟨1, 1⟩), (⟨1, 1⟩, ⟨1, 1⟩)] :=
  (C71_reader _ _ _ _).2 ⟨by norm_num, [(0, 1), (1, 1)], [], rfl, rfl, rfl⟩

/-- Another number of definitions than the parameter says, a flavor which does not exist, one point. -/
example : readCorr 2 3 1 [.int 2, .int 0, .int 0, .int 1, .int 1, .int 1, .int 1] = .throws := rfl
example : readCorr 2 3 1 [.int 1, .int 0, .int 0, .int 2] = .throws := rfl
example : readCorr 2 1 1 [.int 1, .int 0, .int 0, .int 1] = .throws := rfl

end reader

/-! ### The value in one configuration -/

section window
variable {R Ket Bra K ι : Type} [Field R] [LinearOrder R] [IsStrictOrderedRing R] {V : SWEnv R Ket Bra K ι}

/-- Specification: the operators `ol` at time `t` and `or` at time `t0`, in the order in which they act. -/
def corrOps (t0 t : R) (ol or : CdagC) : List (TPsi R) :=
  [⟨⟨t0, 0⟩, .annihilation, or.f1⟩, ⟨⟨t0, 1⟩, .creation, or.f0⟩, ⟨⟨t, 2⟩, .annihilation, ol.f1⟩, ⟨⟨t, 3⟩, .creation, ol.f0⟩]

theorem opT_lt_iff {t : R} {q : TPsi R} (h : q.time.time ≠ t) : (q.time < opT t ↔ q.time.time < t) ∧
    (opT t ≤ q.time ↔ t < q.time.time) := by
  have h1 : q.time < opT t ↔ q.time.time < t := by
    rw [OpTime.lt_def]
    simp only [opT]
    exact ⟨fun h' => h'.elim id fun h' => absurd h'.1 h, Or.inl⟩
  refine ⟨h1, ?_⟩
  rw [← not_lt, h1, not_lt]
  exact ⟨fun h' => lt_of_le_of_ne h' (Ne.symm h), le_of_lt⟩

theorem split_corr {t0 t : R} (h0t : t0 ≤ t) {ops ops' : OpSet (OpTime R)} (hs : ops.Sorted) (hs' : ops'.Sorted)
    (ol or : CdagC) (hp : ops'.Perm (corrOps t0 t ol or ++ ops)) (hn0 : ∀ q ∈ ops, q.time.time ≠ t0)
    (hn : ∀ q ∈ ops, q.time.time ≠ t) :
    ops' = ops.filter (fun q => decide (q.time < opT t0)) ++ ((corrOps t0 t ol or).take 2 ++
      (ops.filter (fun q => decide (opT t0 ≤ q.time ∧ q.time < opT t)) ++ ((corrOps t0 t ol or).drop 2 ++
        ops.filter (fun q => decide (opT t ≤ q.time))))) := by
  have m1 : ∀ q ∈ ops.filter (fun q => decide (q.time < opT t0)), q.time.time < t0 := by
    intro q hq
    rw [List.mem_filter, decide_eq_true_eq] at hq
    exact (opT_lt_iff (hn0 q hq.1)).1.1 hq.2
  have m2 : ∀ q ∈ ops.filter (fun q => decide (opT t0 ≤ q.time ∧ q.time < opT t)), t0 < q.time.time ∧ q.time.time < t := by
    intro q hq
    rw [List.mem_filter, decide_eq_true_eq] at hq
    exact ⟨(opT_lt_iff (hn0 q hq.1)).2.1 hq.2.1, (opT_lt_iff (hn q hq.1)).1.1 hq.2.2⟩
  have m3 : ∀ q ∈ ops.filter (fun q => decide (opT t ≤ q.time)), t < q.time.time := by
    intro q hq
    rw [List.mem_filter, decide_eq_true_eq] at hq
    exact (opT_lt_iff (hn q hq.1)).2.1 hq.2
  have p1 : ∀ q ∈ (corrOps t0 t ol or).take 2, q.time.time = t0 ∧ q.time.small ≤ 1 := by
    intro q hq
    simp only [corrOps, List.take, List.mem_cons, List.not_mem_nil, or_false] at hq
    rcases hq with rfl | rfl <;> simp
  have p2 : ∀ q ∈ (corrOps t0 t ol or).drop 2, q.time.time = t ∧ 2 ≤ q.time.small := by
    intro q hq
    simp only [corrOps, List.drop, List.mem_cons, List.not_mem_nil, or_false] at hq
    rcases hq with rfl | rfl <;> simp
  have lt_of : ∀ {a b : TPsi R}, a.time.time < b.time.time → a.time < b.time := by
    intro a b h; rw [OpTime.lt_def]; exact Or.inl h
  refine List.Perm.eq_of_pairwise (le := fun (a b : TPsi R) => a.time < b.time) ?_ hs' ?_ ?_
  · intro a b _ _ h1 h2
    exact absurd (lt_trans h1 h2) (lt_irrefl _)
  · refine List.pairwise_append.2 ⟨List.Pairwise.filter _ hs, List.pairwise_append.2 ⟨?_, List.pairwise_append.2
      ⟨List.Pairwise.filter _ hs, List.pairwise_append.2 ⟨?_, List.Pairwise.filter _ hs, ?_⟩, ?_⟩, ?_⟩, ?_⟩
    · simp only [corrOps, List.take, List.pairwise_cons, List.mem_singleton, forall_eq, List.not_mem_nil,
        IsEmpty.forall_iff, implies_true, List.Pairwise.nil, and_true]
      rw [OpTime.lt_def]
      exact Or.inr ⟨rfl, by norm_num⟩
    · simp only [corrOps, List.drop, List.pairwise_cons, List.mem_singleton, forall_eq, List.not_mem_nil,
        IsEmpty.forall_iff, implies_true, List.Pairwise.nil, and_true]
      rw [OpTime.lt_def]
      exact Or.inr ⟨rfl, by norm_num⟩
    · intro a ha b hb
      exact lt_of ((p2 a ha).1 ▸ m3 b hb)
    · intro a ha b hb
      rcases List.mem_append.1 hb with hb | hb
      · exact lt_of ((p2 b hb).1.symm ▸ (m2 a ha).2)
      · exact lt_of ((m2 a ha).2.trans (m3 b hb))
    · intro a ha b hb
      have ea := (p1 a ha).1
      rcases List.mem_append.1 hb with hb | hb
      · exact lt_of (ea.symm ▸ (m2 b hb).1)
      rcases List.mem_append.1 hb with hb | hb
      · have eb := (p2 b hb).1
        rcases lt_or_eq_of_le h0t with h | h
        · exact lt_of (by rw [ea, eb]; exact h)
        · rw [OpTime.lt_def]
          have := (p1 a ha).2
          have := (p2 b hb).2
          exact Or.inr ⟨by rw [ea, eb]; exact h, by omega⟩
      · exact lt_of (ea.symm ▸ lt_of_le_of_lt h0t (m3 b hb))
    · intro a ha b hb
      have ea := m1 a ha
      rcases List.mem_append.1 hb with hb | hb
      · exact lt_of ((p1 b hb).1.symm ▸ ea)
      rcases List.mem_append.1 hb with hb | hb
      · exact lt_of (ea.trans (m2 b hb).1)
      rcases List.mem_append.1 hb with hb | hb
      · exact lt_of ((p2 b hb).1.symm ▸ lt_of_lt_of_le ea h0t)
      · exact lt_of (ea.trans (lt_of_le_of_lt h0t (m3 b hb)))
  · refine hp.trans ?_
    have e1 : ops.filter (fun q => decide (q.time < opT t0)) ++
        (ops.filter (fun q => decide (opT t0 ≤ q.time ∧ q.time < opT t)) ++ ops.filter (fun q => decide (opT t ≤ q.time))) = ops := by
      conv_rhs => rw [← split_lt hs (opT t0)]
      congr 1
      have hs2 : OpSet.Sorted (ops.filter fun q => decide (opT t0 ≤ q.time)) := List.Pairwise.filter _ hs
      rw [← split_lt hs2 (opT t), List.filter_filter, List.filter_filter]
      congr 1
      · apply List.filter_congr
        intro o _
        simp only [← Bool.decide_and]
        congr 1
        exact propext ⟨fun h => ⟨h.2, h.1⟩, fun h => ⟨h.2, h.1⟩⟩
      · apply List.filter_congr
        intro o _
        simp only [← Bool.decide_and]
        congr 1
        exact propext ⟨fun h => ⟨h, le_trans (opT_le.2 h0t) h⟩, fun h => h.1⟩
    have e2 : corrOps t0 t ol or = (corrOps t0 t ol or).take 2 ++ (corrOps t0 t ol or).drop 2 := (List.take_append_drop 2 _).symm
    conv_lhs => rw [← e1, e2]
    generalize (corrOps t0 t ol or).take 2 = P
    generalize (corrOps t0 t ol or).drop 2 = Q
    generalize ops.filter (fun q => decide (q.time < opT t0)) = A
    generalize ops.filter (fun q => decide (opT t0 ≤ q.time ∧ q.time < opT t)) = B
    generalize ops.filter (fun q => decide (opT t ≤ q.time)) = C
    refine Multiset.coe_eq_coe.1 ?_
    simp only [← Multiset.coe_add]
    ac_rfl

/-- The correlator of `C26_correlation_partial` is the trace with the four operators added. -/
theorem corrSpec_eq [Fintype ι] [AddCommMonoid K] (hE : V.E.Lawful) (hb : 0 ≤ V.beta) {N i : ℕ} (hN : 2 ≤ N)
    {ops ops' : OpSet (OpTime R)} (hs : ops.Sorted) (hs' : ops'.Sorted) (ol or : CdagC)
    (hp : ops'.Perm (corrOps (corrTau V.beta N 0) (corrTau V.beta N i) ol or ++ ops))
    (hn0 : ∀ q ∈ ops, q.time.time ≠ corrTau V.beta N 0) (hn : ∀ q ∈ ops, q.time.time ≠ corrTau V.beta N i) :
    corrSpec V ops N i ol or = fullTrace V ops' := by
  have h0t : corrTau V.beta N 0 ≤ corrTau V.beta N i := by
    unfold corrTau
    have : (0 : R) < (N : R) - 1 := by
      have : (2 : R) ≤ N := by exact_mod_cast hN
      linarith
    have h2 : (0 : R) ≤ (i : R) / ((N : R) - 1) := div_nonneg (Nat.cast_nonneg i) this.le
    have h3 : (0 : R) ≤ V.beta / 2 * ((i : R) / ((N : R) - 1)) := mul_nonneg (by linarith) h2
    simp only [Nat.cast_zero, zero_div, mul_zero, add_zero]
    linarith
  unfold corrSpec fullTrace
  refine Finset.sum_congr rfl fun b _ => ?_
  rw [split_corr h0t hs hs' ol or hp hn0 hn, timeOrdered_append hE (corrTau V.beta N 0),
    timeOrdered_append hE (corrTau V.beta N 0), timeOrdered_append hE (corrTau V.beta N i),
    timeOrdered_append hE (corrTau V.beta N i)]
  congr 2
  simp only [corrOps, List.take, List.drop, timeOrdered, sub_self, hE.prop_zero]
  rfl

end window

section code
variable {𝕜 : Type} [RCLike 𝕜] [DecidableEq 𝕜] {N : ℕ}

/-- **C71, one configuration.**  In every state of the simulation without an operator exactly at a mesh point, the measurement does
not throw and leaves the state as it was.  Element `(ic, it)`, times the probability (up to normalisation) of the configuration, is the
contribution of the configuration to `⟨n_f(τ_it) n_g(τ_0)⟩`, `τ_it = β/4 + it β/(2 (nTau - 1))`, if `(f, g)` is the definition number `ic`.
The condition on the operators is needed: `C26_coincidence_wrong`. -/
theorem C71_value_partial (A : CodeArgs 𝕜 N) (h : A.OK)
    {s : GState ℝ 𝕜 (CodeDet 𝕜) (BK 𝕜) (BK 𝕜) (Fin (ebBrakets A.B A.p).length)}
    (hs : SimInv A.env A.Inv (pmDet A.P) s) (ds : List (ℕ × ℕ)) {nTau : ℕ} (hN : 2 ≤ nTau)
    (hno : ∀ i < nTau, ∀ q ∈ s.cfg.ops, q.time.time ≠ corrTau A.beta nTau i) :
    ∃ (s' : GState ℝ 𝕜 (CodeDet 𝕜) (BK 𝕜) (BK 𝕜) (Fin (ebBrakets A.B A.p).length)) (res : ℕ → ℕ → Option 𝕜),
      measureCorr A (ds.map fun d => (⟨d.1, d.1⟩, ⟨d.2, d.2⟩)) nTau s = some (s', res) ∧ SimInv A.env A.Inv (pmDet A.P) s' ∧
      s'.cfg = s.cfg ∧ s'.sw.n = s.sw.n ∧ s'.sw.posR = s.sw.posR ∧
      ∀ ic f g, ds[ic]? = some (f, g) → ∀ it < nTau, ∀ ops' : OpSet (OpTime ℝ), ops'.Sorted →
        ops'.Perm (corrOps (A.beta / 4) (A.beta / 4 + A.beta / 2 * (it / ((nTau : ℝ) - 1))) ⟨f, f⟩ ⟨g, g⟩ ++ s.cfg.ops) →
        ∃ v, res ic it = some v ∧
          ((‖A.weight (A.env.D.cdagg s.cfg.M) (A.env.D.cs s.cfg.M) s.cfg.ops‖ : ℝ) : 𝕜) * v =
            (s.cfg.permSign : 𝕜) * A.weight (A.env.D.cdagg s.cfg.M) (A.env.D.cs s.cfg.M) ops' := by
  have hE := C60_lawful A h
  have h1 : 2 ≤ s.sw.n ∨ s.sw.posR = 0 := by
    have a := hs.two
    have b : s.sw.posL ≤ 2 * s.sw.n := hs.win.caches.posL
    omega
  have hV := C57_lawful (p := A.p) h.base
  obtain ⟨w, res, e, hw, hn, hl, hr, hv⟩ := corrMeas_ok (V := A.env.V) hV h.beta hs.win h1
    (ds.map fun d => (⟨d.1, d.1⟩, ⟨d.2, d.2⟩)) (by
      intro p hp
      obtain ⟨d, -, rfl⟩ := List.mem_map.1 hp
      exact ⟨rfl, rfl⟩) nTau hN
  have hdet := hE.det_eq _ hs.inv
  obtain ⟨hp, hd, ht, hsg⟩ := hs.sign
  have htr := hs.trace
  have hsg' : s.cfg.sign = pmDet A.P s.cfg.M / ((‖pmDet A.P s.cfg.M‖ : ℝ) : 𝕜) *
    (s.cfg.trace / ((‖s.cfg.trace‖ : ℝ) : 𝕜)) * (s.cfg.permSign : 𝕜) := hsg
  have hW : ∀ ops, A.weight (A.env.D.cdagg s.cfg.M) (A.env.D.cs s.cfg.M) ops =
      pmDet A.P s.cfg.M * fullTrace A.env.V ops := by
    intro ops; rw [hdet]; rfl
  have nd : ((‖pmDet A.P s.cfg.M‖ : ℝ) : 𝕜) ≠ 0 := by
    rw [RCLike.ofReal_ne_zero]; exact norm_ne_zero_iff.2 hd
  have nt : ((‖s.cfg.trace‖ : ℝ) : 𝕜) ≠ 0 := by
    rw [RCLike.ofReal_ne_zero]; exact norm_ne_zero_iff.2 ht
  refine ⟨{ s with sw := w }, _, by simp only [measureCorr, e, Option.map_some]; rfl,
    ⟨hs.cons, hs.inv, hs.sign, hs.trace, hw, ?_⟩, rfl, hn, hr, ?_⟩
  · show w.posL = w.posR + 2
    rw [hl, hr]; exact hs.two
  · intro ic f g hic it hit ops' hs' hp'
    have hb : A.env.V.beta = A.beta := rfl
    have e0 : corrTau A.beta nTau 0 = A.beta / 4 := by simp [corrTau]
    have hne : ∀ i < nTau, ∀ o ∈ s.cfg.ops, o.time ≠ opT (corrTau A.env.V.beta nTau i) := by
      intro i hi o ho e
      exact hno i hi o ho (by rw [e]; rfl)
    have hval := hv it hit (fun j _ hj => hne j (by omega)) (fun _ => hne it hit) ic ⟨f, f⟩ ⟨g, g⟩ (by
      rw [List.getElem?_map, hic]; rfl)
    have hcs := corrSpec_eq (V := A.env.V) hV h.beta hN (i := it) hs.cons.1 hs' ⟨f, f⟩ ⟨g, g⟩
      (by rw [hb, e0]; exact hp') (hno 0 (by omega)) (hno it hit)
    refine ⟨_, by rw [hval]; rfl, ?_⟩
    rw [hcs, hW, hW, hsg', ← htr, norm_mul, RCLike.ofReal_mul]
    field_simp

/-- The value for a correlator is recorded by `recordCorr`. -/
theorem recordCorr_eq {A : CodeArgs 𝕜 N} {corr : List (CdagC × CdagC)} {nTau ic it : ℕ}
    {s s' : GState ℝ 𝕜 (CodeDet 𝕜) (BK 𝕜) (BK 𝕜) (Fin (ebBrakets A.B A.p).length)} {res : ℕ → ℕ → Option 𝕜} {v : 𝕜}
    (h : measureCorr A corr nTau s = some (s', res)) (hv : res ic it = some v) : recordCorr A corr nTau ic it s = v := by
  unfold recordCorr
  rw [h]
  simp [hv]

end code

/-! ### The mean in equilibrium -/

section mean
variable {𝕜 : Type} [RCLike 𝕜] [DecidableEq 𝕜] {N : ℕ}

/-- Term of a configuration with the operators `n_f(τ) n_g(β/4)` in the trace. -/
noncomputable def corrW (A : CodeArgs 𝕜 N) (tau : ℤ → ℝ) (t : ℝ) (f g : ℕ) (x : WCfg ℤ) : 𝕜 :=
  ((permSignImpl (x.cd.map (mkOp tau .creation)) (x.c.map (mkOp tau .annihilation)) (wormOps (codeWops tau x.worm)) : ℤ) : 𝕜) *
    A.weight (x.cd.map (mkOp tau .creation)) (x.c.map (mkOp tau .annihilation))
      (timeSort (corrOps (A.beta / 4) t ⟨f, f⟩ ⟨g, g⟩ ++ x.ops tau (codeWops tau)))

/-- On a grid with a multiple of `4 (nTau - 1)` points no operator lies at a mesh point. -/
theorem gridTau_ne_corrTau {beta : ℝ} (hb : 0 < beta) {M nTau : ℕ} (hM : 0 < M) (hN : 2 ≤ nTau) (hd : 4 * (nTau - 1) ∣ M) (t : ℤ)
    (i : ℕ) : gridTau beta M t ≠ corrTau beta nTau i := by
  obtain ⟨K, rfl⟩ : ∃ K, nTau = K + 1 := ⟨nTau - 1, by omega⟩
  obtain ⟨q, rfl⟩ := hd
  simp only [Nat.add_sub_cancel] at hM ⊢
  have hK : (0 : ℝ) < K := by
    have : 0 < K := by omega
    exact_mod_cast this
  have hq : (0 : ℝ) < q := by
    have : 0 < q := Nat.pos_of_ne_zero fun h => by simp [h] at hM
    exact_mod_cast this
  intro e
  unfold gridTau corrTau at e
  push_cast at e
  rw [show (K : ℝ) + 1 - 1 = K by ring] at e
  field_simp at e
  have e' : ((2 * t + 1 : ℤ) : ℝ) = ((2 * (q * (K + 2 * i)) : ℤ) : ℝ) := by
    push_cast
    linarith
  have e2 : 2 * t + 1 = 2 * ((q : ℤ) * (K + 2 * i)) := by exact_mod_cast e'
  omega

variable {X : Type} [Fintype X] [DecidableEq X]
variable {A : CodeArgs 𝕜 N} {a : MoveArgs} {M : ℕ} {c : X → WCfg ℤ} {rd : CodeState A (Option (Worm ℤ)) → WCfg ℤ}
  {nStd : ℕ} {sh : Bool} {movers : List WormKind} {plan : Rand ℝ (List (ℕ × List (List ℕ)))} {st : SavedState}
  {s : X → CodeState A (Option (Worm ℤ))}

/-- **C71, mean.**  In equilibrium the mean of `Two_time_correlation_functions`, divided by the mean of the sign as in the
postprocessing, is the sum over all configurations without worm with `n_f(τ_it) n_g(τ_0)` in the trace, divided by the sum over all
configurations without worm; for the real and the imaginary part (`φ`).  Missing for the full statement: as in `C61_loop_partial`; the grid
of times avoids the mesh points. -/
theorem C71_mean_partial (L : LoopSetup A a M c rd nStd sh movers plan st s) (nGlobal : ℕ) (fl : Bool) (k : ℕ)
    (ds : List (ℕ × ℕ)) {nTau ic it f g : ℕ} (hN : 2 ≤ nTau) (hd : 4 * (nTau - 1) ∣ M) (hic : ds[ic]? = some (f, g))
    (hit : it < nTau) (φ : 𝕜 →ₗ[ℝ] ℝ) :
    let E := loopMean A a M rd nStd nGlobal fl sh movers k plan c s
    E (fun s => inZ s * φ (recordCorr A (ds.map fun d => (⟨d.1, d.1⟩, ⟨d.2, d.2⟩)) nTau ic it s.1)) / E inZ /
        (E (fun s => inZ s * RCLike.re s.1.cfg.sign) / E inZ) =
      zSumOf (A.beta / M) c (fun j => φ (corrW A a.tau (A.beta / 4 + A.beta / 2 * (it / ((nTau : ℝ) - 1))) f g (c j))) /
        zSum A a.tau (A.beta / M) c := by
  have key : ∀ s, SimInv A.env A.Inv (pmDet A.P) s.1 → ∀ j, Reps A a.tau (codeWops a.tau) (c j) s → (c j).worm = none →
      cfgW A a.tau (codeWops a.tau) (c j) * φ (recordCorr A (ds.map fun d => (⟨d.1, d.1⟩, ⟨d.2, d.2⟩)) nTau ic it s.1) =
        φ (corrW A a.tau (A.beta / 4 + A.beta / 2 * (it / ((nTau : ℝ) - 1))) f g (c j)) := ?_
  · exact loopMean_Z L nGlobal fl k _ _ key
  intro s hs j hj hw
  have hA := L.code
  have ha := L.moves
  have hlin : ∀ (b : ℝ) (z : 𝕜), b * φ z = φ ((b : 𝕜) * z) := by
    intro b z
    rw [← smul_eq_mul, ← map_smul, RCLike.real_smul_eq_coe_mul]
  have hops := ops_of_reps hs hj
  have hno : ∀ i < nTau, ∀ q ∈ s.1.cfg.ops, q.time.time ≠ corrTau A.beta nTau i := by
    intro i _ q hq
    rw [← hops] at hq
    obtain ⟨t, -, ht⟩ := (L.reprs.mem j).1.time q ((PCfg.sorted_perm _).subset hq)
    rw [ht, ha.tau]
    exact gridTau_ne_corrTau ha.beta ha.grid hN hd t i
  obtain ⟨s', res, e, -, -, -, -, hv⟩ := C71_value_partial A hA hs ds hN hno
  have hn := hj.nodup hs
  set t := A.beta / 4 + A.beta / 2 * (it / ((nTau : ℝ) - 1)) with ht
  set l := corrOps (A.beta / 4) t ⟨f, f⟩ ⟨g, g⟩ ++ (c j).ops a.tau (codeWops a.tau) with hl
  have hp : (timeSort l).Perm (corrOps (A.beta / 4) t ⟨f, f⟩ ⟨g, g⟩ ++ s.1.cfg.ops) :=
    (timeSort_perm _).trans (((hj.ops_perm hs).append_left _))
  have hno' : ∀ q ∈ (c j).ops a.tau (codeWops a.tau), q.time.time ≠ A.beta / 4 ∧ q.time.time ≠ t := by
    intro q hq
    have h1 := hno 0 (by omega) q ((hj.ops_perm hs).subset hq)
    have h2 := hno it hit q ((hj.ops_perm hs).subset hq)
    simp only [corrTau, Nat.cast_zero, zero_div, mul_zero, add_zero] at h1
    exact ⟨h1, h2⟩
  have hsort : OpSet.Sorted (timeSort l) := by
    have hnd : (l.map Psi.time).Nodup := by
      rw [hl, List.map_append, List.nodup_append]
      refine ⟨by simp [corrOps], hn, ?_⟩
      intro x hx y hy hxy
      subst hxy
      obtain ⟨q, hq, e⟩ := List.mem_map.1 hy
      obtain ⟨h1, h2⟩ := hno' q hq
      simp only [corrOps, List.map_cons, List.map_nil, List.mem_cons, List.not_mem_nil, or_false] at hx
      rcases hx with rfl | rfl | rfl | rfl
      · exact h1 (by rw [e])
      · exact h1 (by rw [e])
      · exact h2 (by rw [e])
      · exact h2 (by rw [e])
    have h1 := timeSort_sorted l
    have h2 := ((timeSort_perm l).map Psi.time).nodup_iff.2 hnd
    rw [List.Nodup, List.pairwise_map] at h2
    exact (h1.and h2).imp fun h => lt_of_le_of_ne h.1 h.2
  obtain ⟨v, hv1, hv2⟩ := hv ic f g hic it hit _ hsort hp
  rw [recordCorr_eq e hv1, cfgW_of_reps hs hj, hlin, hv2]
  congr 1
  exact term_of_reps hA hs hj A.G _

/-- `C71_mean_partial` for two spins, both pairs of spins, three points; the grid has eight points. -/
example : ∃ (X : Type) (_ : Fintype X) (_ : DecidableEq X) (c : X → WCfg ℤ) (s : X → CodeState freeCode (Option (Worm ℤ)))
    (rd : CodeState freeCode (Option (Worm ℤ)) → WCfg ℤ), (∃ i, (c i).Same freePair) ∧
    let E := loopMean freeCode freeMoves 8 rd 4 1 true true [.equalTime 1] 0 (Rand.ret [(1, [[1, 0]]), (2, [])]) c s
    E (fun s => inZ s * (LinearMap.id : ℝ →ₗ[ℝ] ℝ) (recordCorr freeCode ([(0, 1), (1, 1)].map fun d => (⟨d.1, d.1⟩, ⟨d.2, d.2⟩)) 3 0 1 s.1)) /
        E inZ / (E (fun s => inZ s * RCLike.re s.1.cfg.sign) / E inZ) =
      zSumOf (4 / (8 : ℕ)) c (fun j => (LinearMap.id : ℝ →ₗ[ℝ] ℝ)
          (corrW freeCode (gridTau 4 8) (4 / 4 + 4 / 2 * ((1 : ℕ) / (((3 : ℕ) : ℝ) - 1))) 0 1 (c j))) /
        zSum freeCode (gridTau 4 8) (4 / (8 : ℕ)) c := by
  obtain ⟨X, h1, h2, c, s, rd, hp, L⟩ := free_setup
  exact ⟨X, h1, h2, c, s, rd, hp, C71_mean_partial L 1 true 0 [(0, 1), (1, 1)] (nTau := 3) (ic := 0) (it := 1) (f := 0) (g := 1)
    (by norm_num) (by norm_num) rfl (by norm_num) LinearMap.id⟩

end mean

end CTHyb
