import Verif.Hyb
import Mathlib.Data.List.Nodup
import Mathlib.Data.List.Range
import Mathlib.Algebra.Order.Ring.Nat
import Mathlib.Data.Rat.Floor
import Mathlib.Tactic.FieldSimp
import Mathlib.Tactic.Linarith
import Mathlib.Tactic.Module
import Mathlib.Tactic.NormNum

/-!
C32: reading of the hybridization function.  C33: its evaluation.
-/

namespace CTHyb

/-! ### C32 -/

theorem flatMap_range_range {α : Type} (g : ℕ → ℕ → α) (a b : ℕ) :
    ((List.range a).flatMap fun x => (List.range b).map fun y => g x y) =
      (List.range (a * b)).map fun p => g (p / b) (p % b) := by
  induction a with
  | zero => simp
  | succ a ih =>
    rw [List.range_succ, List.flatMap_append, ih, Nat.succ_mul, List.range_add, List.map_append]
    congr 1
    simp only [List.flatMap_cons, List.flatMap_nil, List.append_nil, List.map_map]
    refine List.map_congr_left fun y hy => ?_
    have hy := List.mem_range.1 hy
    simp only [Function.comp]
    rw [Nat.mul_comm a b, Nat.mul_add_div (by omega), Nat.mul_add_mod, Nat.div_eq_of_lt hy,
      Nat.mod_eq_of_lt hy, Nat.add_zero]

/-- Position `p` in the sequence of the nested loops. -/
def decIdx (nf p : ℕ) : ℕ × ℕ × ℕ := (p / (nf * nf), p % (nf * nf) / nf, p % (nf * nf) % nf)

theorem deltaIndices_eq (np1 nf : ℕ) :
    deltaIndices np1 nf = (List.range (np1 * (nf * nf))).map (decIdx nf) := by
  unfold deltaIndices
  simp only [flatMap_range_range]
  rfl

theorem decIdx_enc (nf p : ℕ) :
    (decIdx nf p).1 * (nf * nf) + ((decIdx nf p).2.1 * nf + (decIdx nf p).2.2) = p := by
  unfold decIdx
  simp only []
  rw [Nat.div_add_mod', Nat.div_add_mod']

theorem decIdx_of {np1 nf t i j : ℕ} (hi : i < nf) (hj : j < nf) (ht : t < np1) :
    decIdx nf (t * (nf * nf) + (j * nf + i)) = (t, j, i) ∧
      t * (nf * nf) + (j * nf + i) < np1 * (nf * nf) := by
  have h1 : j * nf + i < nf * nf := by
    calc j * nf + i < j * nf + nf := by omega
      _ = (j + 1) * nf := by rw [Nat.succ_mul]
      _ ≤ nf * nf := Nat.mul_le_mul_right _ hj
  constructor
  · unfold decIdx
    have hpos : 0 < nf * nf := by omega
    have hnf : 0 < nf := by omega
    rw [Nat.mul_comm t, Nat.mul_add_div hpos, Nat.mul_add_mod, Nat.div_eq_of_lt h1,
      Nat.mod_eq_of_lt h1, Nat.mul_comm j, Nat.mul_add_div hnf, Nat.mul_add_mod, Nat.div_eq_of_lt hi,
      Nat.mod_eq_of_lt hi]
    simp
  · calc t * (nf * nf) + (j * nf + i) < t * (nf * nf) + nf * nf := by omega
      _ = (t + 1) * (nf * nf) := by rw [Nat.succ_mul]
      _ ≤ np1 * (nf * nf) := Nat.mul_le_mul_right _ ht

/-- All assignments of a list of (index triple, value). -/
def setAll {V : Type} [AddGroup V] (np1 : ℕ) (ps : List ((ℕ × ℕ × ℕ) × V)) (F : HybTable V) :
    HybTable V :=
  ps.foldl (fun F p => HybTable.set F p.1.2.2 p.1.2.1 (np1 - p.1.1 - 1) (-p.2)) F

theorem setAll_get {V : Type} [AddGroup V] (np1 : ℕ) (ps : List ((ℕ × ℕ × ℕ) × V)) (F : HybTable V)
    (hnd : (ps.map Prod.fst).Nodup) (hb : ∀ p ∈ ps, p.1.1 < np1) {t : ℕ × ℕ × ℕ} {x : V}
    (h : (t, x) ∈ ps) : setAll np1 ps F t.2.2 t.2.1 (np1 - t.1 - 1) = -x := by
  have keep : ∀ (ps : List ((ℕ × ℕ × ℕ) × V)) (F : HybTable V), t ∉ ps.map Prod.fst →
      (∀ p ∈ ps, p.1.1 < np1) → t.1 < np1 →
      setAll np1 ps F t.2.2 t.2.1 (np1 - t.1 - 1) = F t.2.2 t.2.1 (np1 - t.1 - 1) := by
    intro ps
    induction ps with
    | nil => intro F _ _ _; rfl
    | cons p ps ih =>
      intro F hn hb ht
      simp only [List.map_cons, List.mem_cons, not_or] at hn
      show setAll np1 ps (HybTable.set F p.1.2.2 p.1.2.1 (np1 - p.1.1 - 1) (-p.2)) _ _ _ = _
      rw [ih _ hn.2 (fun q hq => hb q (by simp [hq])) ht]
      unfold HybTable.set
      rw [if_neg]
      rintro ⟨h1, h2, h3⟩
      apply hn.1
      have hp := hb p (by simp)
      refine Prod.ext (by omega) (Prod.ext h2 h1)
  induction ps generalizing F with
  | nil => simp at h
  | cons p ps ih =>
    simp only [List.map_cons, List.nodup_cons] at hnd
    rcases List.mem_cons.1 h with rfl | h
    · show setAll np1 ps (HybTable.set F t.2.2 t.2.1 (np1 - t.1 - 1) (-x)) _ _ _ = _
      rw [keep ps _ hnd.1 (fun q hq => hb q (by simp [hq])) (hb (t, x) (by simp))]
      unfold HybTable.set
      rw [if_pos ⟨rfl, rfl, rfl⟩]
    · exact ih _ hnd.2 (fun q hq => hb q (by simp [hq])) h

theorem deltaIndices_nodup (np1 nf : ℕ) : (deltaIndices np1 nf).Nodup := by
  rw [deltaIndices_eq]
  refine List.Nodup.map_on ?_ List.nodup_range
  intro a _ b _ h
  rw [← decIdx_enc nf a, ← decIdx_enc nf b, h]

theorem mem_deltaIndices {np1 nf : ℕ} {t : ℕ × ℕ × ℕ} :
    t ∈ deltaIndices np1 nf ↔ t.1 < np1 ∧ t.2.1 < nf ∧ t.2.2 < nf := by
  obtain ⟨a, b, c⟩ := t
  simp only [deltaIndices, List.mem_flatMap, List.mem_map, List.mem_range, Prod.mk.injEq]
  constructor
  · rintro ⟨x, hx, y, hy, z, hz, rfl, rfl, rfl⟩; exact ⟨hx, hy, hz⟩
  · rintro ⟨h1, h2, h3⟩; exact ⟨a, h1, b, h2, c, h3, rfl, rfl, rfl⟩

theorem counter_fold {V : Type} [AddGroup V] (np1 : ℕ) (delta : ℕ → V) (L : List (ℕ × ℕ × ℕ)) :
    ∀ (F : HybTable V) (c : ℕ), (L.foldl
      (fun st t => (HybTable.set st.1 t.2.2 t.2.1 (np1 - t.1 - 1) (-delta st.2), st.2 + 1)) (F, c)).1 =
      setAll np1 ((L.zipIdx c).map fun p => (p.1, delta p.2)) F := by
  induction L with
  | nil => intro F c; rfl
  | cons t ts ih =>
    intro F c
    rw [List.foldl_cons, ih]
    rfl

/-- **C32, command-line mode.**  Vectors of wrong length are refused; otherwise
`F_ij(τ_k) = -Δ_ji(β - τ_k)` where `Δ_ab` at mesh point `t` is the input element
`(t*nf + a)*nf + b`. -/
theorem C32_command_line {V : Type} [AddGroup V] (np1 nf sizeRe sizeIm : ℕ) (delta : ℕ → V) :
    (sizeRe ≠ nf * nf * np1 ∨ sizeIm ≠ nf * nf * np1 →
      readCommandLine np1 nf sizeRe sizeIm delta = .throws) ∧
    (sizeRe = nf * nf * np1 → sizeIm = nf * nf * np1 →
      ∃ F, readCommandLine np1 nf sizeRe sizeIm delta = .ok F ∧
        ∀ i < nf, ∀ j < nf, ∀ k < np1,
          F i j k = -delta (((np1 - 1 - k) * nf + j) * nf + i)) := by
  constructor
  · intro h
    unfold readCommandLine
    rw [if_pos h]
  · intro h1 h2
    unfold readCommandLine
    rw [if_neg (by rintro (h | h) <;> contradiction)]
    refine ⟨_, rfl, ?_⟩
    intro i hi j hj k hk
    rw [counter_fold]
    have hd := decIdx_of (np1 := np1) (t := np1 - 1 - k) hi hj (by omega)
    have he : ((np1 - 1 - k) * nf + j) * nf + i = (np1 - 1 - k) * (nf * nf) + (j * nf + i) := by
      rw [Nat.add_mul, Nat.mul_assoc, Nat.add_assoc]
    rw [he]
    have hk' : np1 - (np1 - 1 - k) - 1 = k := by omega
    have := setAll_get np1 (((deltaIndices np1 nf).zipIdx 0).map fun p => (p.1, delta p.2))
      (fun _ _ _ => 0) (t := (np1 - 1 - k, j, i))
      (x := delta ((np1 - 1 - k) * (nf * nf) + (j * nf + i))) ?_ ?_ ?_
    · simpa only [hk'] using this
    · rw [List.map_map]
      have : ((Prod.fst ∘ fun p : (ℕ × ℕ × ℕ) × ℕ => (p.1, delta p.2)) :
          (ℕ × ℕ × ℕ) × ℕ → ℕ × ℕ × ℕ) = Prod.fst := rfl
      rw [this, List.zipIdx_map_fst]
      exact deltaIndices_nodup np1 nf
    · intro p hp
      rw [List.mem_map] at hp
      obtain ⟨q, hq, rfl⟩ := hp
      have : q.1 ∈ deltaIndices np1 nf := by
        have := List.mem_map_of_mem (f := Prod.fst) hq
        rwa [List.zipIdx_map_fst] at this
      exact (mem_deltaIndices.1 this).1
    · rw [List.mem_map]
      refine ⟨((np1 - 1 - k, j, i), (np1 - 1 - k) * (nf * nf) + (j * nf + i)), ?_, rfl⟩
      rw [List.mem_zipIdx_iff_getElem?]
      simp only [deltaIndices_eq, List.getElem?_map]
      rw [List.getElem?_range hd.2]
      simp [hd.1]

/-- A correct record. -/
def goodRec {V : Type} (p : (ℕ × ℕ × ℕ) × V) : ℤ × ℤ × ℤ × V := (p.1.1, p.1.2.1, p.1.2.2, p.2)

/-- The variables after a correct record. -/
def goodVars {V : Type} (p : (ℕ × ℕ × ℕ) × V) : DeltaVars V :=
  ⟨some (p.1.1 : ℤ), some (p.1.2.1 : ℤ), some (p.1.2.2 : ℤ), some p.2⟩

theorem readLoop_prefix {V : Type} [AddGroup V] (np1 : ℕ) (ps : List ((ℕ × ℕ × ℕ) × V)) :
    ∀ (L : List (ℕ × ℕ × ℕ)) (more : List (ℤ × ℤ × ℤ × V)) (rest : List ℤ) (v : DeltaVars V)
      (F : HybTable V),
      readLoop np1 (ps.map Prod.fst ++ L) ⟨ps.map goodRec ++ more, rest⟩ v F =
        readLoop np1 L ⟨more, rest⟩ ((ps.getLast?.map goodVars).getD v) (setAll np1 ps F) := by
  induction ps with
  | nil => intro L more rest v F; rfl
  | cons p ps ih =>
    intro L more rest v F
    simp only [List.map_cons, List.cons_append, readLoop, readRecord, goodRec, ne_eq,
      not_true_eq_false, if_false]
    rw [ih]
    cases h : ps.getLast? with
    | none =>
      rw [List.getLast?_eq_none_iff] at h
      subst h
      rfl
    | some q =>
      rw [List.getLast?_cons, h]
      rfl

/-- **C32, file mode, correct input.**  A file whose first records carry the expected indices is read
into `F_ij(τ_k) = -Δ_ji(β - τ_k)`; what follows is ignored. -/
theorem C32_file_ok {V : Type} [AddGroup V] (np1 nf : ℕ) (delta : ℕ → ℕ → ℕ → V)
    (more : List (ℤ × ℤ × ℤ × V)) (rest : List ℤ) :
    ∃ F, readFile np1 nf ⟨(deltaIndices np1 nf).map
        (fun t => ((t.1 : ℤ), (t.2.1 : ℤ), (t.2.2 : ℤ), delta t.2.1 t.2.2 t.1)) ++ more, rest⟩ = .ok F ∧
      ∀ i < nf, ∀ j < nf, ∀ k < np1, F i j k = -delta j i (np1 - 1 - k) := by
  have h := readLoop_prefix np1 ((deltaIndices np1 nf).map fun t => (t, delta t.2.1 t.2.2 t.1)) []
    more rest ⟨none, none, none, none⟩ (fun _ _ _ => 0)
  rw [List.map_map, List.map_map, List.append_nil] at h
  have e1 : List.map (Prod.fst ∘ fun t : ℕ × ℕ × ℕ => (t, delta t.2.1 t.2.2 t.1)) (deltaIndices np1 nf) =
      deltaIndices np1 nf := by
    conv_rhs => rw [← List.map_id (deltaIndices np1 nf)]
    rfl
  rw [e1] at h
  refine ⟨setAll np1 ((deltaIndices np1 nf).map fun t => (t, delta t.2.1 t.2.2 t.1))
    (fun _ _ _ => 0), ?_, ?_⟩
  · unfold readFile
    exact h
  · intro i hi j hj k hk
    have := setAll_get np1 ((deltaIndices np1 nf).map fun t => (t, delta t.2.1 t.2.2 t.1))
      (fun _ _ _ => 0) (t := (np1 - 1 - k, j, i)) (x := delta j i (np1 - 1 - k)) ?_ ?_ ?_
    · have hk' : np1 - (np1 - 1 - k) - 1 = k := by omega
      simpa only [hk'] using this
    · rw [List.map_map, e1]; exact deltaIndices_nodup _ _
    · intro p hp
      rw [List.mem_map] at hp
      obtain ⟨t, ht, rfl⟩ := hp
      exact (mem_deltaIndices.1 ht).1
    · exact List.mem_map.2 ⟨(np1 - 1 - k, j, i), mem_deltaIndices.2 ⟨by omega, hj, hi⟩, rfl⟩

/-- **C32, file mode, wrong index.**  If the records before position `ps.length` are correct and the
next one has a wrong index, reading throws. -/
theorem C32_file_wrong_index {V : Type} [AddGroup V] (np1 nf : ℕ) (ps : List ((ℕ × ℕ × ℕ) × V))
    (t : ℕ × ℕ × ℕ) (L : List (ℕ × ℕ × ℕ)) (hL : deltaIndices np1 nf = ps.map Prod.fst ++ t :: L)
    (bad : ℤ × ℤ × ℤ × V) (hbad : ¬ (bad.1 = t.1 ∧ bad.2.1 = t.2.1 ∧ bad.2.2.1 = t.2.2))
    (more : List (ℤ × ℤ × ℤ × V)) (rest : List ℤ) :
    readFile np1 nf ⟨ps.map goodRec ++ bad :: more, rest⟩ = .throws := by
  unfold readFile
  rw [hL, readLoop_prefix]
  obtain ⟨a, b, c, x⟩ := bad
  simp only [readLoop, readRecord]
  by_cases h1 : a = t.1
  · by_cases h2 : b = t.2.1
    · have h3 : c ≠ t.2.2 := fun h3 => hbad ⟨h1, h2, h3⟩
      simp [h1, h2, h3]
    · simp [h1, h2]
  · simp [h1]

/-- **C32, file mode, short file.**  A file which ends after a positive number of complete correct
records, with records missing, is refused: the variables keep the indices of the last record. -/
theorem C32_file_short {V : Type} [AddGroup V] (np1 nf : ℕ) (ps : List ((ℕ × ℕ × ℕ) × V))
    (q : (ℕ × ℕ × ℕ) × V) (t : ℕ × ℕ × ℕ) (L : List (ℕ × ℕ × ℕ))
    (hL : deltaIndices np1 nf = (ps ++ [q]).map Prod.fst ++ t :: L) :
    readFile np1 nf ⟨(ps ++ [q]).map goodRec, []⟩ = .throws := by
  have hne : t ≠ q.1 := by
    have := deltaIndices_nodup np1 nf
    rw [hL, List.map_append, List.append_assoc, List.nodup_append] at this
    have h2 := this.2.1
    simp only [List.map_cons, List.map_nil, List.cons_append, List.nil_append, List.nodup_cons,
      List.mem_cons, not_or] at h2
    exact fun e => h2.1.1 e.symm
  unfold readFile
  have h := readLoop_prefix np1 (ps ++ [q]) (t :: L) [] [] ⟨none, none, none, none⟩ (fun _ _ _ => 0)
  rw [List.append_nil] at h
  rw [hL, h]
  simp only [List.getLast?_append, List.getLast?_singleton, Option.some_or, Option.map_some,
    Option.getD_some, readLoop, readRecord, goodVars]
  by_cases h1 : q.1.1 = t.1
  · by_cases h2 : q.1.2.1 = t.2.1
    · have h3 : q.1.2.2 ≠ t.2.2 := fun h3 => hne (Prod.ext h1.symm (Prod.ext h2.symm h3.symm))
      simp [h1, h2, h3]
    · simp [h1, h2]
  · simp [h1]

/-- **C32, defects of the file mode.**  An empty file makes the code compare uninitialised variables;
a last record whose two values are missing is accepted and the previous values are used again. -/
theorem C32_file_defects :
    readFile (V := ℤ) 2 1 ⟨[], []⟩ = .ub ∧
    ∃ F, readFile (V := ℤ) 2 1 ⟨[(0, 0, 0, 7)], [1, 0, 0]⟩ = .ok F ∧ F 0 0 0 = -7 ∧ F 0 0 1 = -7 :=
  ⟨rfl, _, rfl, by decide +kernel, by decide +kernel⟩

/-- Concrete case: two flavours, two mesh points, command line. -/
example : ∃ F, readCommandLine (V := ℤ) 2 2 8 8 (fun p => p) = .ok F ∧ F 0 1 0 = -6 ∧ F 1 0 1 = -1 :=
  ⟨_, rfl, by decide +kernel, by decide +kernel⟩

/-- Concrete case: the second record has its flavours exchanged. -/
example : readFile (V := ℤ) 1 2 ⟨[(0, 0, 0, 1), (0, 1, 0, 2), (0, 0, 1, 3), (0, 1, 1, 4)], []⟩ = .throws := rfl

/-! ### C33 -/

section Eval

variable {R V : Type} [Field R] [LinearOrder R] [IsStrictOrderedRing R] [FloorRing R]
  [AddCommGroup V] [Module R V]

/-- Specification: `y` is the value at `x` of the piecewise linear function through the mesh values,
`x` in units of the mesh. -/
def IsInterp (ntau : ℕ) (F : ℕ → V) (x : R) (y : V) : Prop :=
  ∃ k < ntau, (k : R) ≤ x ∧ x < k + 1 ∧ y = ((k : R) + 1 - x) • F k + (x - k) • F (k + 1)

theorem IsInterp.unique {ntau : ℕ} {F : ℕ → V} {x : R} {y z : V} (hy : IsInterp ntau F x y)
    (hz : IsInterp ntau F x z) : y = z := by
  obtain ⟨k, -, h1, h2, rfl⟩ := hy
  obtain ⟨l, -, h3, h4, rfl⟩ := hz
  have hkl : k = l := by
    have a : (k : R) < (l : R) + 1 := lt_of_le_of_lt h1 h4
    have b : (l : R) < (k : R) + 1 := lt_of_le_of_lt h3 h2
    have a' : k < l + 1 := by exact_mod_cast a
    have b' : l < k + 1 := by exact_mod_cast b
    omega
  subst hkl
  rfl

theorem eval_interp (ntau : ℕ) (F : ℕ → V) (s n : R) (h0 : 0 ≤ n) (h1 : n < ntau) :
    ∃ y, IsInterp ntau F n y ∧
      ((readAt (ntau + 1) F (truncInt n)).bind fun a => (readAt (ntau + 1) F (truncInt n + 1)).map
        fun b => s • (a + (n - (truncInt n : R)) • (b - a))) = some (s • y) := by
  have hf0 : 0 ≤ ⌊n⌋ := Int.floor_nonneg.2 h0
  obtain ⟨k, hk⟩ := Int.eq_ofNat_of_zero_le hf0
  have hle : ((⌊n⌋ : ℤ) : R) ≤ n := Int.floor_le n
  have hlt : n < ((⌊n⌋ : ℤ) : R) + 1 := Int.lt_floor_add_one n
  rw [hk] at hle hlt
  simp only [Int.cast_natCast] at hle hlt
  have hkn : k < ntau := by
    have : (k : R) < (ntau : R) := lt_of_le_of_lt hle h1
    exact_mod_cast this
  refine ⟨_, ⟨k, hkn, hle, hlt, rfl⟩, ?_⟩
  have ht : truncInt n = (k : ℤ) := by unfold truncInt; rw [if_pos h0, hk]
  rw [ht]
  have r1 : readAt (ntau + 1) F (k : ℤ) = some (F k) := by
    unfold readAt; rw [if_pos ⟨by omega, by push_cast; omega⟩]; simp
  have r2 : readAt (ntau + 1) F ((k : ℤ) + 1) = some (F (k + 1)) := by
    unfold readAt; rw [if_pos ⟨by omega, by push_cast; omega⟩]
    congr 1
  rw [r1, r2]
  simp only [Option.bind_some, Option.map_some, Int.cast_natCast]
  congr 2
  module

/-- **C33.** For two operator times whose difference is at least `-β` and below `β` no access is outside
the table and the value is the linear interpolation at `t = tc - tcd`, or minus that at `t + β` if
`t` is negative.  All times in `(0, β]`, the range kept by the updates (`C34_shift_range`,
`C34_open_random`), meet the condition. -/
theorem C33_interpolation {beta : R} (hb : 0 < beta) (ntau : ℕ) (hn : 0 < ntau) (F : ℕ → V)
    {tc tcd : R} (h1 : -beta ≤ tc - tcd) (h2 : tc - tcd < beta) :
    (tcd ≤ tc → ∃ y, IsInterp ntau F ((tc - tcd) / beta * ntau) y ∧
      hybEval beta ntau F tc tcd = some y) ∧
    (tc < tcd → ∃ y, IsInterp ntau F ((tc - tcd + beta) / beta * ntau) y ∧
      hybEval beta ntau F tc tcd = some (-y)) := by
  have hN : (0 : R) < ntau := by exact_mod_cast hn
  have range : ∀ t : R, 0 ≤ t → t < beta → 0 ≤ t / beta * ntau ∧ t / beta * ntau < ntau := by
    intro t ht0 ht1
    refine ⟨mul_nonneg (div_nonneg ht0 hb.le) hN.le, ?_⟩
    have : t / beta < 1 := (div_lt_one hb).2 ht1
    calc t / beta * ntau < 1 * ntau := mul_lt_mul_of_pos_right this hN
      _ = ntau := one_mul _
  constructor
  · intro h
    have hneg : ¬ tc - tcd < 0 := by linarith
    obtain ⟨r1, r2⟩ := range (tc - tcd) (by linarith) (by linarith)
    obtain ⟨y, hy, e⟩ := eval_interp ntau F (1 : R) _ r1 r2
    refine ⟨y, hy, ?_⟩
    unfold hybEval
    simp only [if_neg hneg]
    rw [e, one_smul]
  · intro h
    have hneg : tc - tcd < 0 := by linarith
    obtain ⟨r1, r2⟩ := range (tc - tcd + beta) (by linarith) (by linarith)
    obtain ⟨y, hy, e⟩ := eval_interp ntau F (-1 : R) _ r1 r2
    refine ⟨y, hy, ?_⟩
    unfold hybEval
    simp only [if_pos hneg]
    rw [e, neg_one_smul]

/-- **C33.** Mesh values are reproduced exactly. -/
theorem C33_mesh {beta : R} (hb : 0 < beta) (ntau : ℕ) (hn : 0 < ntau) (F : ℕ → V)
    {tc tcd : R} (h1 : -beta ≤ tc - tcd) (h2 : tc - tcd < beta) {k : ℕ}
    (hk : k < ntau) :
    (tc - tcd = k * beta / ntau → hybEval beta ntau F tc tcd = some (F k)) ∧
    (tc < tcd → tc - tcd + beta = k * beta / ntau → hybEval beta ntau F tc tcd = some (-F k)) := by
  have hN : (ntau : R) ≠ 0 := by exact_mod_cast (Nat.pos_iff_ne_zero.1 hn)
  have hbeta : beta ≠ 0 := hb.ne'
  have hx : ∀ t : R, t = k * beta / ntau → t / beta * ntau = k := by
    intro t ht; rw [ht]; field_simp
  have hI : ∀ x : R, x = k → IsInterp ntau F x (F k) := by
    intro x hxk
    exact ⟨k, hk, le_of_eq hxk.symm, by rw [hxk]; linarith, by rw [hxk]; module⟩
  have main := C33_interpolation hb ntau hn F h1 h2
  constructor
  · intro h
    have hge : tcd ≤ tc := by
      have : (0 : R) ≤ k * beta / ntau :=
        div_nonneg (mul_nonneg (Nat.cast_nonneg _) hb.le) (Nat.cast_nonneg _)
      linarith
    obtain ⟨y, hy, e⟩ := main.1 hge
    rw [e, hy.unique (hI _ (hx _ h))]
  · intro hlt h
    obtain ⟨y, hy, e⟩ := main.2 hlt
    rw [e, hy.unique (hI _ (hx _ h))]

/-- **C33.** The value is antiperiodic: two pairs of times whose differences differ by `β` give
opposite values. -/
theorem C33_antiperiodic {beta : R} (hb : 0 < beta) (ntau : ℕ) (hn : 0 < ntau) (F : ℕ → V)
    {tc tcd tc' tcd' : R} (h1 : -beta ≤ tc - tcd) (h2 : tc - tcd < beta)
    (h1' : -beta ≤ tc' - tcd') (h2' : tc' - tcd' < beta)
    (hd : tc' - tcd' = tc - tcd + beta) :
    ∃ y, hybEval beta ntau F tc tcd = some y ∧ hybEval beta ntau F tc' tcd' = some (-y) := by
  have hlt : tc < tcd := by linarith
  have hge : tcd' ≤ tc' := by linarith
  obtain ⟨y, hy, e⟩ := (C33_interpolation hb ntau hn F h1 h2).2 hlt
  obtain ⟨z, hz, e'⟩ := (C33_interpolation hb ntau hn F h1' h2').1 hge
  rw [hd] at hz
  refine ⟨-y, e, ?_⟩
  rw [e', neg_neg, hz.unique hy]

/-- **C33.** For times in the closed interval `[0, β]` every access is inside the table unless the
annihilation operator sits exactly at `β` and the creation operator exactly at 0. -/
theorem C33_closed_interval {beta : R} (hb : 0 < beta) (ntau : ℕ) (hn : 0 < ntau) (F : ℕ → V)
    {tc tcd : R} (h1 : 0 ≤ tc) (h2 : tc ≤ beta) (h3 : 0 ≤ tcd) (h4 : tcd ≤ beta)
    (hne : ¬ (tc = beta ∧ tcd = 0)) : (hybEval beta ntau F tc tcd).isSome := by
  have hlt : tc - tcd < beta := by
    by_contra h
    exact hne ⟨by linarith, by linarith⟩
  rcases le_or_gt tcd tc with h | h
  · obtain ⟨y, -, e⟩ := (C33_interpolation hb ntau hn F (by linarith) hlt).1 h
    rw [e]; rfl
  · obtain ⟨y, -, e⟩ := (C33_interpolation hb ntau hn F (by linarith) hlt).2 h
    rw [e]; rfl

/-- **C33, end of the interval.**  At a difference of exactly `β` the code reads one element past the
table; so the property fails for the closed interval `[0, β]`. -/
theorem C33_beta_out_of_range {beta : R} (hb : 0 < beta) (ntau : ℕ) (F : ℕ → V) :
    hybEval beta ntau F beta 0 = none := by
  unfold hybEval
  have hneg : ¬ beta < 0 := by linarith
  simp only [sub_zero, if_neg hneg, div_self hb.ne', one_mul]
  have : truncInt (ntau : R) = ntau := by
    unfold truncInt
    rw [if_pos (Nat.cast_nonneg _)]; simp
  rw [this]
  have r2 : readAt (ntau + 1) F ((ntau : ℤ) + 1) = none := by
    unfold readAt; rw [if_neg]; push_cast; omega
  rw [r2]
  cases readAt (ntau + 1) F (ntau : ℤ) <;> rfl

end Eval

/-- Concrete case: four mesh intervals on `[0, 2)`, values `k²`. -/
example : hybEval (V := ℚ) (2 : ℚ) 4 (fun k => (k : ℚ) ^ 2) (7 / 4) 1 = some (5 / 2) := by
  decide +kernel
example : hybEval (V := ℚ) (2 : ℚ) 4 (fun k => (k : ℚ) ^ 2) (1 / 2) 1 = some (-9) := by
  decide +kernel

end CTHyb
