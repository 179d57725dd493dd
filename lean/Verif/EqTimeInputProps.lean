import Verif.EqTimeInput
import Verif.NNCorrProps

/-!
Property C89: the definitions of equal-time two-particle Green's functions.

Specification: the format of the file (`eqTimeFormat`).
-/

namespace CTHyb

section reader
variable {n : ℕ}

/-- The records from line `i` on: line number, four flavors. -/
def eqTimeRecords : ℕ → List (Fin 4 → Fin n) → List Tok
  | _, [] => []
  | i, d :: ds =>
    .int i :: .int (d 0).val :: .int (d 1).val :: .int (d 2).val :: .int (d 3).val :: eqTimeRecords (i + 1) ds

/-- The format: number of elements, then one record for each. -/
def eqTimeFormat (ds : List (Fin 4 → Fin n)) : List Tok := .int ds.length :: eqTimeRecords 0 ds

/-- The operators of a definition. -/
def eqTimeOp (d : Fin 4 → Fin n) : EqTime2 := ⟨d 0, d 1, d 2, d 3⟩

theorem readEqTimeLoop_records (ds : List (Fin 4 → Fin n)) (i : ℕ) (rest : List Tok) :
    readEqTimeLoop n i ds.length (eqTimeRecords i ds ++ rest) = .ok (ds.map eqTimeOp) := by
  induction ds generalizing i with
  | nil => rfl
  | cons d ds ih =>
    rw [eqTimeRecords, List.length_cons, readEqTimeLoop]
    simp only [List.cons_append, useInt_int, ne_eq, not_true_eq_false, if_false, useFlavor_fin]
    rw [ih (i + 1)]
    rfl

theorem readEqTimeLoop_ok (k i : ℕ) (ts : List Tok) (cs : List EqTime2) (h : readEqTimeLoop n i k ts = .ok cs) :
    ∃ (ds : List (Fin 4 → Fin n)) (rest : List Tok), ds.length = k ∧ ts = eqTimeRecords i ds ++ rest ∧
      cs = ds.map eqTimeOp := by
  induction k generalizing i ts cs with
  | zero =>
    simp only [readEqTimeLoop, InRes.ok.injEq] at h
    exact ⟨[], ts, rfl, rfl, h.symm⟩
  | succ k ih =>
    rw [readEqTimeLoop] at h
    obtain ⟨l, t1, rfl, h1⟩ := useInt_ok h
    by_cases hl : l ≠ i
    · rw [if_pos hl] at h1; simp at h1
    rw [if_neg hl] at h1
    obtain ⟨a, t2, rfl, h2⟩ := useFlavor_ok h1
    obtain ⟨b, t3, rfl, h3⟩ := useFlavor_ok h2
    obtain ⟨c, t4, rfl, h4⟩ := useFlavor_ok h3
    obtain ⟨d, t5, rfl, h5⟩ := useFlavor_ok h4
    obtain ⟨cs', h6, rfl⟩ := map_ok h5
    obtain ⟨ds, rest, e1, rfl, rfl⟩ := ih _ _ _ h6
    refine ⟨![a, b, c, d] :: ds, rest, by simp [e1], ?_, rfl⟩
    rw [not_not.1 hl]
    rfl

theorem readEqTimeLoop_truncated (ds : List (Fin 4 → Fin n)) (i : ℕ) (p : List Tok) (hp : p <+: eqTimeRecords i ds)
    (hne : p ≠ eqTimeRecords i ds) : readEqTimeLoop n i ds.length p = .ub := by
  induction ds generalizing i p with
  | nil => exact absurd (List.prefix_nil.1 hp) hne
  | cons d ds ih =>
    rw [eqTimeRecords] at hp hne
    rw [List.length_cons, readEqTimeLoop]
    rcases List.prefix_cons_iff.1 hp with rfl | ⟨p1, rfl, hp1⟩
    · rfl
    rw [useInt_int]
    simp only [ne_eq, not_true_eq_false, if_false]
    rcases List.prefix_cons_iff.1 hp1 with rfl | ⟨p2, rfl, hp2⟩
    · rfl
    rw [useFlavor_fin]
    rcases List.prefix_cons_iff.1 hp2 with rfl | ⟨p3, rfl, hp3⟩
    · rfl
    rw [useFlavor_fin]
    rcases List.prefix_cons_iff.1 hp3 with rfl | ⟨p4, rfl, hp4⟩
    · rfl
    rw [useFlavor_fin]
    rcases List.prefix_cons_iff.1 hp4 with rfl | ⟨p5, rfl, hp5⟩
    · rfl
    rw [useFlavor_fin, ih (i + 1) p5 hp5 fun e => hne (by rw [e])]
    rfl

/-- **C89.**  A file is accepted exactly if it has the format; each record becomes an operator with its four flavors, in the
order of the columns. -/
theorem C89_reader (ts : List Tok) (cs : List EqTime2) :
    readEqTime n (some ts) = .ok cs ↔ ∃ (ds : List (Fin 4 → Fin n)) (rest : List Tok),
      ts = eqTimeFormat ds ++ rest ∧ cs = ds.map eqTimeOp := by
  unfold readEqTime
  constructor
  · intro h
    obtain ⟨m, ts', rfl, h1⟩ := useInt_ok h
    by_cases hm : m < 0
    · rw [if_pos hm] at h1; simp at h1
    rw [if_neg hm] at h1
    obtain ⟨ds, rest, e1, rfl, e3⟩ := readEqTimeLoop_ok _ _ _ _ h1
    have em : m = (ds.length : ℤ) := by omega
    exact ⟨ds, rest, by rw [em]; rfl, e3⟩
  · rintro ⟨ds, rest, rfl, rfl⟩
    simp only [eqTimeFormat, List.cons_append, useInt_int]
    rw [if_neg (by omega), Int.toNat_natCast, readEqTimeLoop_records]

/-- **C89.**  A negative number, or the first record which is wrong after records which are right — its line number is wrong, or
one of its flavors does not exist — ends the simulation with an exception. -/
theorem C89_errors (ds : List (Fin 4 → Fin n)) (m z : ℤ) (rest : List Tok) (hm : (ds.length : ℤ) < m) :
    (∀ k : ℤ, k < 0 → readEqTime n (some (.int k :: rest)) = .throws) ∧
    (z ≠ ds.length → readEqTime n (some (.int m :: (eqTimeRecords 0 ds ++ .int z :: rest))) = .throws) ∧
    ((z < 0 ∨ z ≥ n) → ∀ fs : List (Fin n), fs.length < 4 →
      readEqTime n (some (.int m :: (eqTimeRecords 0 ds ++ .int ds.length :: (fs.map (fun f => Tok.int f.val) ++
        .int z :: rest)))) = .throws) := by
  have step : ∀ (es : List (Fin 4 → Fin n)) (i k : ℕ) (tail : List Tok), es.length < k →
      readEqTimeLoop n (i + es.length) (k - es.length) tail = .throws →
      readEqTimeLoop n i k (eqTimeRecords i es ++ tail) = .throws := by
    intro es
    induction es with
    | nil => intro i k tail _ h; exact h
    | cons d es ih =>
      intro i k tail hk h
      obtain ⟨k, rfl⟩ : ∃ k', k = k' + 1 := ⟨k - 1, by simp at hk; omega⟩
      rw [eqTimeRecords, readEqTimeLoop]
      simp only [List.cons_append, useInt_int, ne_eq, not_true_eq_false, if_false, useFlavor_fin]
      rw [List.length_cons] at hk h
      rw [ih (i + 1) k tail (by omega) (by
        rw [show i + 1 + es.length = i + (es.length + 1) by omega, show k - es.length = k + 1 - (es.length + 1) by omega]
        exact h)]
      rfl
  have bad : ∀ {β : Type} (k : ℕ → List Tok → InRes β), (z < 0 ∨ z ≥ n) → useFlavor n (.int z :: rest) k = .throws := by
    intro β k hz
    unfold useFlavor
    rw [useInt_int, if_pos hz]
  obtain ⟨q, hq⟩ : ∃ q, m.toNat - ds.length = q + 1 := ⟨m.toNat - ds.length - 1, by omega⟩
  refine ⟨fun k hk => ?_, fun hz => ?_, fun hz fs hfs => ?_⟩
  · unfold readEqTime; simp only [useInt_int]; rw [if_pos hk]
  · unfold readEqTime; simp only [useInt_int]; rw [if_neg (by omega)]
    refine step ds 0 _ _ (by omega) ?_
    rw [hq, readEqTimeLoop, useInt_int, if_pos (by simpa using hz)]
  · unfold readEqTime; simp only [useInt_int]; rw [if_neg (by omega)]
    refine step ds 0 _ _ (by omega) ?_
    rw [hq, readEqTimeLoop, useInt_int, if_neg (by simp)]
    rcases fs with _ | ⟨a, _ | ⟨b, _ | ⟨c, _ | ⟨d, fs⟩⟩⟩⟩
    · simp only [List.map_nil, List.nil_append]; rw [bad _ hz]
    · simp only [List.map_cons, List.map_nil, List.cons_append, List.nil_append, useFlavor_fin]; rw [bad _ hz]
    · simp only [List.map_cons, List.map_nil, List.cons_append, List.nil_append, useFlavor_fin]; rw [bad _ hz]
    · simp only [List.map_cons, List.map_nil, List.cons_append, List.nil_append, useFlavor_fin]; rw [bad _ hz]
    · simp at hfs; omega

/-- **C89, violation.**  A file which breaks off too early is not reported. -/
theorem C89_truncated_violated (ds : List (Fin 4 → Fin n)) (p : List Tok) (hp : p <+: eqTimeFormat ds)
    (hne : p ≠ eqTimeFormat ds) : readEqTime n (some p) = .ub := by
  unfold readEqTime
  unfold eqTimeFormat at hp hne
  rcases List.prefix_cons_iff.1 hp with rfl | ⟨q, rfl, hq⟩
  · rfl
  simp only [useInt_int]
  rw [if_neg (by omega), Int.toNat_natCast]
  exact readEqTimeLoop_truncated ds 0 q hq fun e => hne (by rw [e])

/-- Two elements for two flavors. -/
example : readEqTime 2 (some [.int 2, .int 0, .int 0, .int 1, .int 1, .int 0, .int 1, .int 1, .int 1, .int 0, .int 0]) =
    .ok [⟨0, 1, 1, 0⟩, ⟨1, 1, 0, 0⟩] :=
  (C89_reader _ _).2 ⟨[![0, 1, 1, 0], ![1, 1, 0, 0]], [], rfl, rfl⟩

/-- A negative number; a wrong line number in the second record; a flavor which does not exist in the third column. -/
example : readEqTime 2 (some [.int (-1)]) = .throws := (C89_errors (n := 2) [] 1 0 [] (by norm_num)).1 (-1) (by norm_num)
example : readEqTime 2 (some [.int 2, .int 0, .int 0, .int 1, .int 1, .int 0, .int 5]) = .throws :=
  (C89_errors (n := 2) [![0, 1, 1, 0]] 2 5 [] (by norm_num)).2.1 (by norm_num)
example : readEqTime 2 (some [.int 1, .int 0, .int 0, .int 1, .int 2]) = .throws :=
  (C89_errors (n := 2) [] 1 2 [] (by norm_num)).2.2 (by norm_num) [0, 1] (by norm_num)

/-- A file without the last flavor. -/
example : readEqTime 2 (some [.int 1, .int 0, .int 0, .int 1, .int 1]) = .ub :=
  C89_truncated_violated [![0, 1, 1, 0]] _ ⟨[.int 0], rfl⟩ fun e => absurd (congrArg List.length e) (by decide)

end reader

end CTHyb
