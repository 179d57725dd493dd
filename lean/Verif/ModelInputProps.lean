import Verif.ModelInput
import Mathlib.LinearAlgebra.Matrix.Hermitian
import Verif.RotationProps

/-! C70: input of the local Hamiltonian. -/

namespace CTHyb

open Finset Matrix

variable {𝕜 : Type} [RCLike 𝕜] {n : ℕ}

/-! ### Specification -/

/-- One element of a Coulomb tensor file: the four flavors and the two tokens of the value. -/
structure UEntry (n : ℕ) where
  a : Fin n
  b : Fin n
  c : Fin n
  d : Fin n
  re : Tok
  im : Tok

/-- The complex number `re + i im` as a number of the solver (with `i = 0` in the real solver). -/
noncomputable def UEntry.val (e : UEntry n) : 𝕜 := (e.re.val : 𝕜) + (e.im.val : 𝕜) * RCLike.I

/-- The record of an element in line `i`. -/
def uRecord (i : ℕ) (e : UEntry n) : List Tok :=
  [.int i, .int e.a.val, .int e.b.val, .int e.c.val, .int e.d.val, e.re, e.im]

/-- The records from line `i` on. -/
def uRecords : ℕ → List (UEntry n) → List Tok
  | _, [] => []
  | i, e :: es => uRecord i e ++ uRecords (i + 1) es

/-- The documented format: the number of elements, then one record for each element. -/
def uFormat (es : List (UEntry n)) : List Tok := .int es.length :: uRecords 0 es

/-- The records of a matrix. -/
def mRecords (l : List ((Fin n × Fin n) × Tok × Tok)) : List Tok :=
  l.flatMap fun e => [.int e.1.1.val, .int e.1.2.val, e.2.1, e.2.2]

/-- The tensor a list of elements stands for. -/
def tensorOf (us : List (UElem n 𝕜)) (a b c d : Fin n) : 𝕜 :=
  ((us.filter fun e => decide (e.a = a ∧ e.b = b ∧ e.ap = c ∧ e.bp = d)).map fun e => e.val).sum

/-- The local Hamiltonian `1/2 ∑ U_abcd c†_a c†_b c_c c_d + ∑ t_ij c†_i c_j`. -/
noncomputable def localH (U : T4 n 𝕜) (t : Matrix (Fin n) (Fin n) 𝕜) : Matrix (Fin (2 ^ n)) (Fin (2 ^ n)) 𝕜 :=
  (∑ a, ∑ b, ∑ c, ∑ d, (1 / 2 * U a b c d) •
    ((cdagOp n a).map (Int.cast : ℤ → 𝕜) * (cdagOp n b).map (Int.cast : ℤ → 𝕜) *
      (cOp n c).map (Int.cast : ℤ → 𝕜) * (cOp n d).map (Int.cast : ℤ → 𝕜))) +
  ∑ i, ∑ j, t i j • ((cdagOp n i).map (Int.cast : ℤ → 𝕜) * (cOp n j).map (Int.cast : ℤ → 𝕜))

/-! ### Lemmas -/

theorem getInt_nil : getInt [] = some (none, []) := rfl
theorem getInt_int (z : ℤ) (ts : List Tok) : getInt (.int z :: ts) = some (some z, ts) := rfl
theorem getNum_cons (t : Tok) (ts : List Tok) : getNum (t :: ts) = (some t.val, ts) := rfl
theorem getNum_nil : getNum [] = (none, []) := rfl

theorem getInt_some {ts ts' : List Tok} {z : ℤ} (h : getInt ts = some (some z, ts')) : ts = .int z :: ts' := by
  unfold getInt at h
  split at h
  · simp at h
  · simp only [Option.some.injEq, Prod.mk.injEq] at h
    rw [h.1, h.2]
  · simp at h

theorem getNum_some {ts : List Tok} {x : ℝ} (h : (getNum ts).1 = some x) :
    ∃ t, t.val = x ∧ ts = t :: (getNum ts).2 := by
  unfold getNum at h ⊢
  split at h
  · simp at h
  · simp only [Option.some.injEq] at h
    exact ⟨_, h, rfl⟩

theorem need_ok {α β : Type} {x : Option α} {k : α → InRes β} {b : β} (h : need x k = .ok b) :
    ∃ a, x = some a ∧ k a = .ok b := by
  cases x with
  | none => simp [need] at h
  | some a => exact ⟨a, rfl, h⟩

theorem needFlavor_ok {β : Type} {x : Option ℤ} {k : Fin n → InRes β} {b : β}
    (h : needFlavor n x k = .ok b) : ∃ f : Fin n, x = some (f.val : ℤ) ∧ k f = .ok b := by
  obtain ⟨z, hx, h'⟩ := need_ok h
  by_cases hz : 0 ≤ z ∧ z < n
  · rw [dif_pos hz] at h'
    exact ⟨⟨z.toNat, by omega⟩, by simp [hx, hz.1], h'⟩
  · rw [dif_neg hz] at h'
    simp at h'

theorem needFlavor_fin {β : Type} (f : Fin n) (k : Fin n → InRes β) :
    needFlavor n (some (f.val : ℤ)) k = k f := by
  have h : (0 : ℤ) ≤ f.val ∧ (f.val : ℤ) < n := ⟨by omega, by have := f.isLt; omega⟩
  simp only [needFlavor, need, dif_pos h]
  congr 1

theorem map_ok {α β : Type} {f : α → β} {x : InRes α} {b : β} (h : x.map f = .ok b) :
    ∃ a, x = .ok a ∧ f a = b := by
  cases x <;> simp_all [InRes.map]

theorem readURec_record (i : ℕ) (e : UEntry n) (ts : List Tok) :
    readURec (uRecord i e ++ ts) =
      some (⟨some i, some e.a.val, some e.b.val, some e.c.val, some e.d.val, some e.re.val, some e.im.val⟩, ts) :=
  rfl

theorem readULoop_records (es : List (UEntry n)) (i : ℕ) (rest : List Tok) :
    readULoop n i es.length (uRecords i es ++ rest) =
      .ok (es.map fun e => (⟨e.a, e.b, e.c, e.d, 1 / 2 * e.val⟩ : UElem n 𝕜)) := by
  induction es generalizing i with
  | nil => rfl
  | cons e es ih =>
    rw [uRecords, List.append_assoc, List.length_cons, readULoop, readURec_record]
    simp only [need, needFlavor_fin, ne_eq, not_true_eq_false, if_false]
    rw [ih (i + 1)]
    rfl

theorem readULoop_ok (k i : ℕ) (ts : List Tok) (us : List (UElem n 𝕜)) (h : readULoop n i k ts = .ok us) :
    ∃ (es : List (UEntry n)) (rest : List Tok), es.length = k ∧ ts = uRecords i es ++ rest ∧
      us = es.map fun e => (⟨e.a, e.b, e.c, e.d, 1 / 2 * e.val⟩ : UElem n 𝕜) := by
  induction k generalizing i ts us with
  | zero =>
    simp only [readULoop, InRes.ok.injEq] at h
    exact ⟨[], ts, rfl, rfl, h.symm⟩
  | succ k ih =>
    rw [readULoop] at h
    split at h
    · simp at h
    · rename_i r ts' hr
      obtain ⟨l, hl, h⟩ := need_ok h
      by_cases hli : l = i
      swap
      · rw [if_pos hli] at h; simp at h
      rw [if_neg (by simpa using hli)] at h
      obtain ⟨a, ha, h⟩ := needFlavor_ok h
      obtain ⟨b, hb, h⟩ := needFlavor_ok h
      obtain ⟨c, hc, h⟩ := needFlavor_ok h
      obtain ⟨d, hd, h⟩ := needFlavor_ok h
      obtain ⟨re, hre, h⟩ := need_ok h
      obtain ⟨im, him, h⟩ := need_ok h
      obtain ⟨us', hus, rfl⟩ := map_ok h
      obtain ⟨es, rest, hlen, hts, hes⟩ := ih (i + 1) ts' us' hus
      unfold readURec at hr
      simp only [Option.bind_eq_bind, Option.bind_eq_some_iff, Prod.exists, Option.some.injEq, Prod.mk.injEq] at hr
      obtain ⟨l', t1, e1, a', t2, e2, b', t3, e3, c', t4, e4, d', t5, e5, rfl, rfl⟩ := hr
      simp only at hl ha hb hc hd hre him
      subst hl ha hb hc hd
      obtain ⟨tr, htr, q1⟩ := getNum_some hre
      obtain ⟨ti, hti, q2⟩ := getNum_some him
      refine ⟨⟨a, b, c, d, tr, ti⟩ :: es, rest, by simp [hlen], ?_, ?_⟩
      · rw [getInt_some e1, getInt_some e2, getInt_some e3, getInt_some e4, getInt_some e5, q1, q2, hts, hli]
        rfl
      · rw [hes, List.map_cons]
        simp only [UEntry.val, htr, hti]
        rfl

theorem readULoop_truncated (es : List (UEntry n)) (i : ℕ) (p : List Tok) (hp : p <+: uRecords i es)
    (hne : p ≠ uRecords i es) : (readULoop n i es.length p : InRes (List (UElem n 𝕜))) = .ub := by
  induction es generalizing i p with
  | nil => exact absurd (List.prefix_nil.1 hp) hne
  | cons e es ih =>
    rw [List.prefix_iff_eq_take] at hp
    rw [uRecords] at hp hne
    rw [List.length_cons, readULoop]
    by_cases hm : 7 ≤ p.length
    · have hr : (uRecord i e).length = 7 := rfl
      rw [List.take_append, List.take_of_length_le (by omega)] at hp
      rw [hp, readURec_record]
      simp only [need, needFlavor_fin, ne_eq, not_true_eq_false, if_false]
      rw [ih (i + 1)]
      · rfl
      · exact List.take_prefix _ _
      · intro h
        rw [h] at hp
        exact hne hp
    · rw [List.take_append_of_le_length (by change _ ≤ 7; omega)] at hp
      have hcase : p.length = 0 ∨ p.length = 1 ∨ p.length = 2 ∨ p.length = 3 ∨ p.length = 4 ∨ p.length = 5 ∨
        p.length = 6 := by omega
      rcases hcase with h | h | h | h | h | h | h <;>
        · rw [h] at hp
          rw [hp]
          simp only [uRecord, List.take_zero, List.take_succ_cons, readURec, getInt_int, getInt_nil, getNum_nil,
            getNum_cons, Option.bind_eq_bind, Option.bind_some, need, needFlavor_fin, ne_eq, not_true_eq_false,
            if_false]
          try simp only [needFlavor, need]

theorem readMRec_record (q : (Fin n × Fin n) × Tok × Tok) (ts : List Tok) :
    readMRec ([.int q.1.1.val, .int q.1.2.val, q.2.1, q.2.2] ++ ts) =
      some ((some (q.1.1.val : ℤ), some (q.1.2.val : ℤ), some q.2.1.val, some q.2.2.val), ts) := rfl

theorem readMLoop_records (ps : List (Fin n × Fin n)) (M : Fin n × Fin n → Tok × Tok) (rest : List Tok) :
    readMLoop ps (mRecords (ps.map fun p => (p, M p)) ++ rest) =
      .ok (ps.map fun p => (p.1, p.2, (M p).1.val, (M p).2.val)) := by
  induction ps with
  | nil => rfl
  | cons p ps ih =>
    rw [mRecords, List.map_cons, List.flatMap_cons, List.append_assoc, readMLoop, readMRec_record]
    simp only [need, ne_eq, not_true_eq_false, if_false]
    rw [mRecords] at ih
    rw [ih]
    rfl

theorem readMLoop_ok (ps : List (Fin n × Fin n)) (hps : ps.Nodup) (ts : List Tok)
    (l : List (Fin n × Fin n × ℝ × ℝ)) (h : readMLoop ps ts = .ok l) :
    ∃ (M : Fin n × Fin n → Tok × Tok) (rest : List Tok), ts = mRecords (ps.map fun p => (p, M p)) ++ rest ∧
      l = ps.map fun p => (p.1, p.2, (M p).1.val, (M p).2.val) := by
  induction ps generalizing ts l with
  | nil =>
    simp only [readMLoop, InRes.ok.injEq] at h
    exact ⟨fun _ => (.int 0, .int 0), ts, rfl, h.symm⟩
  | cons p ps ih =>
    rw [readMLoop] at h
    split at h
    · simp at h
    · rename_i r ts' hr
      obtain ⟨i, hi, h⟩ := need_ok h
      by_cases hpi : (p.1.val : ℤ) = i
      swap
      · rw [if_pos hpi] at h; simp at h
      rw [if_neg (by simpa using hpi)] at h
      obtain ⟨j, hj, h⟩ := need_ok h
      by_cases hpj : (p.2.val : ℤ) = j
      swap
      · rw [if_pos hpj] at h; simp at h
      rw [if_neg (by simpa using hpj)] at h
      obtain ⟨re, hre, h⟩ := need_ok h
      obtain ⟨im, him, h⟩ := need_ok h
      obtain ⟨l', hl, rfl⟩ := map_ok h
      obtain ⟨hnot, hnd⟩ := List.nodup_cons.1 hps
      obtain ⟨M, rest, hts, hes⟩ := ih hnd ts' l' hl
      unfold readMRec at hr
      simp only [Option.bind_eq_bind, Option.bind_eq_some_iff, Prod.exists, Option.some.injEq, Prod.mk.injEq] at hr
      obtain ⟨i', t1, e1, j', t2, e2, rfl, rfl⟩ := hr
      simp only at hi hj hre him
      subst hi hj
      obtain ⟨tr, htr, q1⟩ := getNum_some hre
      obtain ⟨ti, hti, q2⟩ := getNum_some him
      have hc : ∀ q ∈ ps, Function.update M p (tr, ti) q = M q := by
        intro q hq
        refine Function.update_of_ne (fun e => ?_) _ _
        subst e
        exact hnot hq
      refine ⟨Function.update M p (tr, ti), rest, ?_, ?_⟩
      · have e : (p :: ps).map (fun q => (q, Function.update M p (tr, ti) q)) =
            (p, tr, ti) :: ps.map fun q => (q, M q) := by
          rw [List.map_cons, Function.update_self]
          exact congrArg _ (List.map_congr_left fun q hq => by rw [hc q hq])
        rw [e, getInt_some e1, getInt_some e2, q1, q2, hts, ← hpi, ← hpj]
        rfl
      · rw [hes, List.map_cons, Function.update_self, htr, hti]
        exact congrArg _ (List.map_congr_left fun q hq => by rw [hc q hq])

theorem readMLoop_truncated (ps : List (Fin n × Fin n)) (M : Fin n × Fin n → Tok × Tok) (p : List Tok)
    (hp : p <+: mRecords (ps.map fun p => (p, M p))) (hne : p ≠ mRecords (ps.map fun p => (p, M p))) :
    readMLoop ps p = .ub := by
  induction ps generalizing p with
  | nil => exact absurd (List.prefix_nil.1 hp) hne
  | cons q ps ih =>
    rw [List.prefix_iff_eq_take] at hp
    rw [mRecords, List.map_cons, List.flatMap_cons] at hp hne
    rw [mRecords] at ih
    rw [readMLoop]
    by_cases hm : 4 ≤ p.length
    · rw [List.take_append, List.take_of_length_le (by simpa using hm)] at hp
      rw [hp, readMRec_record]
      simp only [need, ne_eq, not_true_eq_false, if_false]
      rw [ih]
      · rfl
      · exact List.take_prefix _ _
      · intro h
        rw [h] at hp
        exact hne hp
    · rw [List.take_append_of_le_length (by simp only [List.length_cons, List.length_nil]; omega)] at hp
      have hcase : p.length = 0 ∨ p.length = 1 ∨ p.length = 2 ∨ p.length = 3 := by omega
      rcases hcase with h | h | h | h <;>
        · rw [h] at hp
          rw [hp]
          simp only [List.take_zero, List.take_succ_cons, readMRec, getInt_int, getInt_nil, getNum_nil,
            getNum_cons, Option.bind_eq_bind, Option.bind_some, need, ne_eq, not_true_eq_false, if_false]

theorem mIndices_nodup (n : ℕ) : (mIndices n).Nodup :=
  List.Nodup.product (List.nodup_finRange n) (List.nodup_finRange n)

theorem mem_mIndices (p : Fin n × Fin n) : p ∈ mIndices n := by
  obtain ⟨a, b⟩ := p
  simp [mIndices]

theorem zipIdx_blocks {α β : Type} (f : α → List β) (m k : ℕ) (l : List α) (hf : ∀ a ∈ l, (f a).length = m) (j : ℕ) :
    (l.flatMap f).zipIdx (k + j * m) = (l.zipIdx j).flatMap fun p => (f p.1).zipIdx (k + p.2 * m) := by
  induction l generalizing j with
  | nil => rfl
  | cons a l ih =>
    rw [List.flatMap_cons, List.zipIdx_append, List.zipIdx_cons, List.flatMap_cons, hf a (by simp),
      ← ih (fun b hb => hf b (by simp [hb])) (j + 1)]
    congr 2
    ring

theorem zipIdx_finRange (n k : ℕ) : (List.finRange n).zipIdx k = (List.finRange n).map fun i => (i, k + i.val) := by
  apply List.ext_getElem <;> simp

theorem zipIdx_blocks_fin {β : Type} (f : Fin n → List β) (m k : ℕ) (hf : ∀ a, (f a).length = m) :
    ((List.finRange n).flatMap f).zipIdx k = (List.finRange n).flatMap fun i => (f i).zipIdx (k + i.val * m) := by
  have := zipIdx_blocks f m k (List.finRange n) (fun a _ => hf a) 0
  rw [Nat.zero_mul, Nat.add_zero] at this
  rw [this, zipIdx_finRange, List.flatMap_map]
  simp

theorem mIndices_zipIdx (n : ℕ) :
    (mIndices n).zipIdx = (mIndices n).map fun p => (p, p.1.val * n + p.2.val) := by
  unfold mIndices
  rw [zipIdx_blocks_fin _ n 0 (by simp), List.map_flatMap]
  refine List.flatMap_congr fun a _ => ?_
  rw [List.zipIdx_map, zipIdx_finRange, List.map_map, List.map_map]
  refine List.map_congr_left fun b _ => ?_
  simp [Prod.map]

theorem uIndices_zipIdx (n : ℕ) : (uIndices n).zipIdx =
    (uIndices n).map fun p => (p, ((p.1.val * n + p.2.1.val) * n + p.2.2.1.val) * n + p.2.2.2.val) := by
  have l1 : ∀ a b c : Fin n, ((List.finRange n).map fun d => (a, b, c, d)).length = n := by simp
  have l2 : ∀ a b : Fin n, ((List.finRange n).flatMap fun c => (List.finRange n).map fun d => (a, b, c, d)).length =
      n * n := by
    intro a b
    simp [List.length_flatMap]
  have l3 : ∀ a : Fin n, ((List.finRange n).flatMap fun b => (List.finRange n).flatMap fun c =>
      (List.finRange n).map fun d => (a, b, c, d)).length = n * (n * n) := by
    intro a
    rw [List.length_flatMap]
    simp [l2]
  unfold uIndices
  rw [zipIdx_blocks_fin _ _ 0 l3, List.map_flatMap]
  refine List.flatMap_congr fun a _ => ?_
  rw [zipIdx_blocks_fin _ _ _ (l2 a), List.map_flatMap]
  refine List.flatMap_congr fun b _ => ?_
  rw [zipIdx_blocks_fin _ _ _ (l1 a b), List.map_flatMap]
  refine List.flatMap_congr fun c _ => ?_
  rw [List.zipIdx_map, zipIdx_finRange, List.map_map, List.map_map]
  refine List.map_congr_left fun d _ => ?_
  simp only [Function.comp, Prod.map, id, Prod.mk.injEq, true_and]
  ring

theorem sum_flatMap_fin {α A : Type} [AddCommMonoid A] (l : List α) (f : α → List A) :
    (l.flatMap f).sum = (l.map fun a => (f a).sum).sum := by
  induction l with
  | nil => rfl
  | cons a l ih => rw [List.flatMap_cons, List.sum_append, ih, List.map_cons, List.sum_cons]

theorem mIndices_sum {A : Type} [AddCommMonoid A] (f : Fin n × Fin n → A) :
    ((mIndices n).map f).sum = ∑ a, ∑ b, f (a, b) := by
  simp only [mIndices, List.map_flatMap, List.map_map, sum_flatMap_fin, Fin.sum_univ_def, Function.comp_def]

theorem uIndices_sum {A : Type} [AddCommMonoid A] (f : Fin n × Fin n × Fin n × Fin n → A) :
    ((uIndices n).map f).sum = ∑ a, ∑ b, ∑ c, ∑ d, f (a, b, c, d) := by
  simp only [uIndices, List.map_flatMap, List.map_map, sum_flatMap_fin, Fin.sum_univ_def, Function.comp_def]

theorem sum_filterMap {α β A : Type} [AddCommMonoid A] (l : List α) (g : α → Option β) (f : β → A) :
    ((l.filterMap g).map f).sum = (l.map fun a => ((g a).map f).getD 0).sum := by
  induction l with
  | nil => rfl
  | cons a l ih =>
    rw [List.filterMap_cons]
    cases h : g a with
    | none => simp [h, ih]
    | some b => simp [h, ih]

theorem tensorOf_eq (us : List (UElem n 𝕜)) (a b c d : Fin n) :
    tensorOf us a b c d =
      (us.map fun e => if e.a = a ∧ e.b = b ∧ e.ap = c ∧ e.bp = d then e.val else 0).sum := by
  unfold tensorOf
  induction us with
  | nil => rfl
  | cons e us ih =>
    by_cases h : e.a = a ∧ e.b = b ∧ e.ap = c ∧ e.bp = d
    · rw [List.filter_cons_of_pos (by simpa using h), List.map_cons, List.sum_cons, ih, List.map_cons, List.sum_cons,
        if_pos h]
    · rw [List.filter_cons_of_neg (by simpa using h), ih, List.map_cons, List.sum_cons, if_neg h, zero_add]

/-- A sum over the elements is a sum over the indices. -/
theorem sum_tensorOf {A : Type} [AddCommGroup A] [Module 𝕜 A] (us : List (UElem n 𝕜))
    (g : Fin n → Fin n → Fin n → Fin n → A) :
    (us.map fun e => e.val • g e.a e.b e.ap e.bp).sum = ∑ a, ∑ b, ∑ c, ∑ d, tensorOf us a b c d • g a b c d := by
  induction us with
  | nil => simp [tensorOf]
  | cons e us ih =>
    have h : ∀ a b c d, tensorOf (e :: us) a b c d • g a b c d =
        (if a = e.a then if b = e.b then if c = e.ap then if d = e.bp then e.val • g a b c d else 0 else 0 else 0 else 0) +
          tensorOf us a b c d • g a b c d := by
      intro a b c d
      rw [tensorOf_eq, tensorOf_eq, List.map_cons, List.sum_cons, add_smul]
      congr 1
      by_cases h1 : a = e.a
      · by_cases h2 : b = e.b
        · by_cases h3 : c = e.ap
          · by_cases h4 : d = e.bp
            · simp [h1, h2, h3, h4]
            · have h4' : ¬ e.bp = d := fun q => h4 q.symm
              simp [h4, h4']
          · have h3' : ¬ e.ap = c := fun q => h3 q.symm
            simp [h3, h3']
        · have h2' : ¬ e.b = b := fun q => h2 q.symm
          simp [h2, h2']
      · have h1' : ¬ e.a = a := fun q => h1 q.symm
        simp [h1, h1']
    simp only [h, sum_add_distrib]
    rw [← ih, List.map_cons, List.sum_cons]
    congr 1
    simp [Finset.sum_ite_eq', Finset.sum_ite_irrel]

theorem uTensorRot_one (us : List (UElem n 𝕜)) : uTensorRot 1 us = tensorOf us := by
  funext f0 f1 f2 f3
  rw [uTensorRot_cons, tensorOf_eq]
  refine congrArg _ (List.map_congr_left fun e _ => ?_)
  simp only [Matrix.one_apply]
  by_cases h1 : f0 = e.a
  · by_cases h2 : f1 = e.b
    · by_cases h3 : f2 = e.ap
      · by_cases h4 : f3 = e.bp
        · simp [h1, h2, h3, h4]
        · have h4' : ¬ e.bp = f3 := fun q => h4 q.symm
          simp [h4']
      · have h3' : ¬ e.ap = f2 := fun q => h3 q.symm
        simp [h3']
    · have h2' : ¬ e.b = f1 := fun q => h2 q.symm
      simp [h2']
  · have h1' : ¬ e.a = f0 := fun q => h1 q.symm
    simp [h1']

/-- The Hamiltonian from the elements read, without rotation. -/
theorem hamOf_localH (big : 𝕜 → Bool) (us : List (UElem n 𝕜)) (ts : List (Fin n × Fin n × 𝕜)) (U : T4 n 𝕜)
    (t : Matrix (Fin n) (Fin n) 𝕜) (hus : ∀ a b c d, tensorOf us a b c d = 1 / 2 * U a b c d)
    (hts : hoppingOrg ts = t) (hU : ∀ a b c d, big (1 / 2 * U a b c d) = false → U a b c d = 0)
    (ht : ∀ i j, big (t i j) = false → t i j = 0) :
    hamOf big 1 us ts = localH U t := by
  have hr : hoppingRot 1 (hoppingOrg ts) = t := by rw [hts]; simp [hoppingRot]
  rw [C44_ham_matrix big 1 us ts]
  · rw [sum_tensorOf us (fun a b c d => orgCd 1 a * orgCd 1 b * orgC 1 c * orgC 1 d), hts]
    simp only [hus, orgC_one, orgCd_one]
    rfl
  · intro a b c d h
    rw [uTensorRot_one, hus] at h ⊢
    rw [hU _ _ _ _ h, mul_zero]
  · intro a b h
    rw [hr] at h ⊢
    exact ht a b h

theorem mycast_half (re im : ℝ) : (mycast (1 / 2 * re) (1 / 2 * im) : 𝕜) = 1 / 2 * mycast re im := by
  unfold mycast
  push_cast
  ring

theorem hoppingOrg_keep (M : Fin n × Fin n → ℝ × ℝ) :
    hoppingOrg (keepHopping (𝕜 := 𝕜) ((mIndices n).map fun p => (p.1, p.2, (M p).1, (M p).2))) =
      fun i j => mycast (M (i, j)).1 (M (i, j)).2 := by
  classical
  set ts : List (Fin n × Fin n × 𝕜) := keepHopping ((mIndices n).map fun p => (p.1, p.2, (M p).1, (M p).2)) with hts
  have hk : ts = (mIndices n).filterMap fun p => if (mycast (M p).1 (M p).2 : 𝕜) = 0 then none
      else some (p.1, p.2, mycast (M p).1 (M p).2) := by
    rw [hts]
    unfold keepHopping
    rw [List.filterMap_map]
    rfl
  have hnd : (ts.map fun e => (e.1, e.2.1)).Nodup := by
    rw [hk, List.map_filterMap]
    refine List.Nodup.filterMap ?_ (mIndices_nodup n)
    intro p q r hp hq
    simp only [Option.mem_def, Option.map_eq_some_iff] at hp hq
    obtain ⟨x, hx, rfl⟩ := hp
    obtain ⟨y, hy, e⟩ := hq
    split at hx
    · simp at hx
    · split at hy
      · simp at hy
      · simp only [Option.some.injEq] at hx hy
        subst hx hy
        simp only [Prod.mk.injEq] at e
        exact Prod.ext e.1.symm e.2.symm
  funext i j
  have h := hoppingOrg_sum (A := 𝕜) ts hnd (fun i' j' => if i' = i ∧ j' = j then 1 else 0)
  have hl : ∑ i', ∑ j', hoppingOrg ts i' j' • (if i' = i ∧ j' = j then (1 : 𝕜) else 0) = hoppingOrg ts i j := by
    rw [Finset.sum_eq_single i, Finset.sum_eq_single j]
    · simp
    · intro b _ hb; simp [hb]
    · simp
    · intro b _ hb; simp [hb]
    · simp
  rw [hl] at h
  rw [h, hk, sum_filterMap]
  have hs : ((mIndices n).map fun p : Fin n × Fin n => (((if (mycast (M p).1 (M p).2 : 𝕜) = 0 then none
      else some (p.1, p.2, mycast (M p).1 (M p).2)).map
      fun e : Fin n × Fin n × 𝕜 => e.2.2 • (if e.1 = i ∧ e.2.1 = j then (1 : 𝕜) else 0)).getD 0)) =
      (mIndices n).map fun p => if p = (i, j) then (mycast (M p).1 (M p).2 : 𝕜) else 0 := by
    refine List.map_congr_left fun p _ => ?_
    by_cases h0 : (mycast (M p).1 (M p).2 : 𝕜) = 0
    · simp [h0]
    · obtain ⟨a, b⟩ := p
      simp [h0]
  rw [hs, mIndices_sum, Finset.sum_eq_single i, Finset.sum_eq_single j]
  · simp
  · intro b _ hb; simp [hb]
  · simp
  · intro b _ hb; simp [hb]
  · simp

/-! ### Coulomb tensor -/

/-- **C70.** A tensor file is accepted exactly if it begins with the documented format; the elements are
those of the file, multiplied by 1/2. -/
theorem C70_u_file (ts : List Tok) (us : List (UElem n 𝕜)) :
    readUFile n ts = .ok us ↔ ∃ (es : List (UEntry n)) (rest : List Tok), ts = uFormat es ++ rest ∧
      us = es.map fun e => (⟨e.a, e.b, e.c, e.d, 1 / 2 * e.val⟩ : UElem n 𝕜) := by
  constructor
  · intro h
    unfold readUFile at h
    split at h
    · simp at h
    · rename_i m ts' hm
      obtain ⟨k, hk, h'⟩ := need_ok h
      subst hk
      by_cases hk0 : k < 0
      · rw [if_pos hk0] at h'; simp at h'
      rw [if_neg hk0] at h'
      obtain ⟨es, rest, hl, hts, hus⟩ := readULoop_ok _ _ _ _ h'
      refine ⟨es, rest, ?_, hus⟩
      have : k = (es.length : ℤ) := by omega
      rw [getInt_some hm, hts, this]
      rfl
  · rintro ⟨es, rest, rfl, rfl⟩
    unfold readUFile uFormat
    rw [List.cons_append, getInt_int]
    simp only [need]
    rw [if_neg (by omega), Int.toNat_natCast, readULoop_records]

/-- **C70.** A tensor file which breaks off too early is never reported: a variable without a value is
used. -/
theorem C70_u_truncated_violated (es : List (UEntry n)) (p : List Tok) (hp : p <+: uFormat es)
    (hne : p ≠ uFormat es) : (readUFile n p : InRes (List (UElem n 𝕜))) = .ub := by
  unfold uFormat at hp hne
  rcases List.prefix_cons_iff.1 hp with rfl | ⟨q, rfl, hq⟩
  · rfl
  · unfold readUFile
    rw [getInt_int]
    simp only [need]
    rw [if_neg (by omega), Int.toNat_natCast]
    exact readULoop_truncated es 0 q hq fun e => hne (by rw [e])

/-- **C70.** The tensor given by the parameters: the element `(a, b, c, d)` is stored at position
`((a n + b) n + c) n + d`. -/
theorem C70_u_cmd (re im : List ℝ) (us : List (UElem n 𝕜)) (h : readUCmd n re im = .ok us) (a b c d : Fin n) :
    re.length = n * n * n * n ∧ im.length = n * n * n * n ∧
    tensorOf us a b c d = 1 / 2 * mycast (re.getD (((a.val * n + b.val) * n + c.val) * n + d.val) 0)
      (im.getD (((a.val * n + b.val) * n + c.val) * n + d.val) 0) := by
  classical
  unfold readUCmd at h
  split at h
  · simp at h
  · rename_i hl
    obtain ⟨h1, h2⟩ := not_or.1 hl
    refine ⟨not_not.1 h1, not_not.1 h2, ?_⟩
    simp only [InRes.ok.injEq] at h
    subst h
    rw [tensorOf_eq, uIndices_zipIdx, List.filterMap_map, sum_filterMap, uIndices_sum]
    rw [Finset.sum_eq_single a, Finset.sum_eq_single b, Finset.sum_eq_single c, Finset.sum_eq_single d]
    · simp only [Function.comp]
      split
      · rename_i h0
        rw [h0.1, h0.2]
        simp [mycast]
      · simp only [Option.map_some, Option.getD_some, and_self, if_true]
        rw [mycast_half]
    all_goals
      first
        | (intro x _ hx
           try refine Finset.sum_eq_zero fun y _ => ?_
           try refine Finset.sum_eq_zero fun z _ => ?_
           try refine Finset.sum_eq_zero fun w _ => ?_
           simp only [Function.comp]
           split <;> simp [hx])
        | simp

/-- **C70.** Vectors of a wrong length are rejected, those of the right length are accepted. -/
theorem C70_u_cmd_accepts (re im : List ℝ) :
    (∃ us : List (UElem n 𝕜), readUCmd n re im = .ok us) ↔
      re.length = n * n * n * n ∧ im.length = n * n * n * n := by
  unfold readUCmd
  constructor
  · rintro ⟨us, h⟩
    split at h
    · simp at h
    · rename_i hl
      obtain ⟨h1, h2⟩ := not_or.1 hl
      exact ⟨not_not.1 h1, not_not.1 h2⟩
  · rintro ⟨h1, h2⟩
    exact ⟨_, if_neg (by simp [h1, h2])⟩

/-- The tensor of a file with different indices. -/
theorem tensorOf_file (es : List (UEntry n)) (U : T4 n 𝕜)
    (hnd : (es.map fun e => (e.a, e.b, e.c, e.d)).Nodup) (hval : ∀ e ∈ es, e.val = U e.a e.b e.c e.d)
    (hall : ∀ a b c d, U a b c d ≠ 0 → (a, b, c, d) ∈ es.map fun e => (e.a, e.b, e.c, e.d)) (a b c d : Fin n) :
    tensorOf (es.map fun e => (⟨e.a, e.b, e.c, e.d, 1 / 2 * e.val⟩ : UElem n 𝕜)) a b c d = 1 / 2 * U a b c d := by
  rw [tensorOf_eq, List.map_map]
  have key : ∀ l : List (UEntry n), (l.map fun e => (e.a, e.b, e.c, e.d)).Nodup →
      (∀ e ∈ l, e.val = U e.a e.b e.c e.d) →
      (l.map ((fun e : UElem n 𝕜 => if e.a = a ∧ e.b = b ∧ e.ap = c ∧ e.bp = d then e.val else 0) ∘
        fun e => ⟨e.a, e.b, e.c, e.d, 1 / 2 * e.val⟩)).sum =
      if (a, b, c, d) ∈ l.map fun e => (e.a, e.b, e.c, e.d) then 1 / 2 * U a b c d else 0 := by
    intro l
    induction l with
    | nil => simp
    | cons e l ih =>
      intro hn hv
      rw [List.map_cons, List.nodup_cons] at hn
      rw [List.map_cons, List.sum_cons, ih hn.2 fun x hx => hv x (by simp [hx])]
      simp only [Function.comp, List.map_cons, List.mem_cons]
      by_cases h : e.a = a ∧ e.b = b ∧ e.c = c ∧ e.d = d
      · obtain ⟨rfl, rfl, rfl, rfl⟩ := h
        rw [if_neg hn.1, hv e (by simp)]
        simp
      · have h' : ¬ (a, b, c, d) = (e.a, e.b, e.c, e.d) := by
          intro q
          simp only [Prod.mk.injEq] at q
          exact h ⟨q.1.symm, q.2.1.symm, q.2.2.1.symm, q.2.2.2.symm⟩
        rw [if_neg h, zero_add]
        simp only [h', false_or]
  rw [key es hnd hval]
  split
  · rfl
  · rename_i h
    have : U a b c d = 0 := by
      by_contra h0
      exact h (hall a b c d h0)
    rw [this, mul_zero]

/-! ### Hopping and rotation matrix -/

/-- **C70.** A hopping file is accepted exactly if it begins with one record for every pair of flavors in
lexicographic order; the hopping matrix is that of the file. -/
theorem C70_hop_file (ts : List Tok) (hs : List (Fin n × Fin n × 𝕜)) (h : readHopFile n ts = .ok hs) :
    ∃ (M : Fin n × Fin n → Tok × Tok) (rest : List Tok),
      ts = mRecords ((mIndices n).map fun p => (p, M p)) ++ rest ∧
      hoppingOrg hs = fun i j => mycast (M (i, j)).1.val (M (i, j)).2.val := by
  obtain ⟨l, hl, rfl⟩ := map_ok h
  obtain ⟨M, rest, hts, rfl⟩ := readMLoop_ok _ (mIndices_nodup n) ts l hl
  exact ⟨M, rest, hts, hoppingOrg_keep (𝕜 := 𝕜) fun p => ((M p).1.val, (M p).2.val)⟩

theorem C70_hop_file_accepts (M : Fin n × Fin n → Tok × Tok) (rest : List Tok) :
    ∃ hs : List (Fin n × Fin n × 𝕜),
      readHopFile n (mRecords ((mIndices n).map fun p => (p, M p)) ++ rest) = .ok hs ∧
      hoppingOrg hs = fun i j => mycast (M (i, j)).1.val (M (i, j)).2.val := by
  unfold readHopFile
  rw [readMLoop_records]
  exact ⟨_, rfl, hoppingOrg_keep (𝕜 := 𝕜) fun p => ((M p).1.val, (M p).2.val)⟩

/-- **C70.** A hopping file which breaks off too early is never reported. -/
theorem C70_hop_truncated_violated (M : Fin n × Fin n → Tok × Tok) (p : List Tok)
    (hp : p <+: mRecords ((mIndices n).map fun p => (p, M p)))
    (hne : p ≠ mRecords ((mIndices n).map fun p => (p, M p))) :
    (readHopFile n p : InRes (List (Fin n × Fin n × 𝕜))) = .ub := by
  unfold readHopFile
  rw [readMLoop_truncated _ M p hp hne]
  rfl

/-- **C70.** The hopping matrix given by the parameters: the element `(i, j)` is stored at `i n + j`. -/
theorem C70_hop_cmd (re im : List ℝ) (hs : List (Fin n × Fin n × 𝕜)) (h : readHopCmd n re im = .ok hs) :
    re.length = n * n ∧ im.length = n * n ∧
    hoppingOrg hs = fun i j => mycast (re.getD (i.val * n + j.val) 0) (im.getD (i.val * n + j.val) 0) := by
  unfold readHopCmd at h
  split at h
  · simp at h
  · rename_i hl
    obtain ⟨h1, h2⟩ := not_or.1 hl
    refine ⟨not_not.1 h1, not_not.1 h2, ?_⟩
    simp only [InRes.ok.injEq] at h
    subst h
    rw [mIndices_zipIdx, List.map_map]
    exact hoppingOrg_keep (𝕜 := 𝕜) fun p =>
      (re.getD (p.1.val * n + p.2.val) 0, im.getD (p.1.val * n + p.2.val) 0)

/-- **C70.** The rotation matrix is that of the file, for every file which is accepted. -/
theorem C70_rot_file (ts : List Tok) (R : Matrix (Fin n) (Fin n) (ℝ × ℝ)) (h : readRotFile n ts = .ok R) :
    ∃ (M : Fin n × Fin n → Tok × Tok) (rest : List Tok),
      ts = mRecords ((mIndices n).map fun p => (p, M p)) ++ rest ∧
      ∀ i j, R i j = ((M (i, j)).1.val, (M (i, j)).2.val) := by
  obtain ⟨l, hl, rfl⟩ := map_ok h
  obtain ⟨M, rest, hts, rfl⟩ := readMLoop_ok _ (mIndices_nodup n) ts l hl
  refine ⟨M, rest, hts, fun i j => ?_⟩
  have gen : ∀ (ps : List (Fin n × Fin n)) (t : Fin n → Fin n → ℝ × ℝ),
      ((i, j) ∈ ps ∨ t i j = ((M (i, j)).1.val, (M (i, j)).2.val)) →
      (ps.map fun p => (p.1, p.2, (M p).1.val, (M p).2.val)).foldl
        (fun t e => fun i j => if i = e.1 ∧ j = e.2.1 then e.2.2 else t i j) t i j =
        ((M (i, j)).1.val, (M (i, j)).2.val) := by
    intro ps
    induction ps with
    | nil => intro t ht; simpa using ht
    | cons p ps ih =>
      intro t ht
      rw [List.map_cons, List.foldl_cons]
      refine ih _ ?_
      by_cases hp : (i, j) = p
      · right
        subst hp
        simp
      · have : ¬ (i = p.1 ∧ j = p.2) := fun q => hp (Prod.ext q.1 q.2)
        rcases ht with ht | ht
        · left
          rcases List.mem_cons.1 ht with h1 | h1
          · exact absurd h1 hp
          · exact h1
        · right
          simpa [this] using ht
  exact gen _ _ (Or.inl (mem_mIndices _))

/-! ### The Hamiltonian -/

/-- **C70.** The parameters give the Hamiltonian `1/2 ∑ U_abcd c†_a c†_b c_c c_d + ∑ t_ij c†_i c_j`, if the
numerical cut-off drops no element which is not zero. -/
theorem C70_hamiltonian_cmd (big : 𝕜 → Bool) (ure uim tre tim : List ℝ) (us : List (UElem n 𝕜))
    (ts : List (Fin n × Fin n × 𝕜)) (hu : readUCmd n ure uim = .ok us) (ht : readHopCmd n tre tim = .ok ts)
    (U : T4 n 𝕜) (t : Matrix (Fin n) (Fin n) 𝕜)
    (hU : ∀ a b c d, U a b c d = mycast (ure.getD (((a.val * n + b.val) * n + c.val) * n + d.val) 0)
      (uim.getD (((a.val * n + b.val) * n + c.val) * n + d.val) 0))
    (hT : ∀ i j, t i j = mycast (tre.getD (i.val * n + j.val) 0) (tim.getD (i.val * n + j.val) 0))
    (hbu : ∀ a b c d, big (1 / 2 * U a b c d) = false → U a b c d = 0)
    (hbt : ∀ i j, big (t i j) = false → t i j = 0) :
    hamOf big 1 us ts = localH U t := by
  refine hamOf_localH big us ts U t (fun a b c d => ?_) ?_ hbu hbt
  · rw [hU]
    exact (C70_u_cmd ure uim us hu a b c d).2.2
  · rw [(C70_hop_cmd tre tim ts ht).2.2]
    funext i j
    exact (hT i j).symm

/-- **C70.** The files give the same Hamiltonian, if the tensor file lists every element which is not zero
exactly once, in any order. -/
theorem C70_hamiltonian_file (big : 𝕜 → Bool) (es : List (UEntry n)) (r1 r2 : List Tok)
    (M : Fin n × Fin n → Tok × Tok) (us : List (UElem n 𝕜))
    (ts : List (Fin n × Fin n × 𝕜)) (hu : readUFile n (uFormat es ++ r1) = .ok us)
    (ht : readHopFile n (mRecords ((mIndices n).map fun p => (p, M p)) ++ r2) = .ok ts)
    (U : T4 n 𝕜) (t : Matrix (Fin n) (Fin n) 𝕜)
    (hnd : (es.map fun e => (e.a, e.b, e.c, e.d)).Nodup) (hval : ∀ e ∈ es, e.val = U e.a e.b e.c e.d)
    (hall : ∀ a b c d, U a b c d ≠ 0 → (a, b, c, d) ∈ es.map fun e => (e.a, e.b, e.c, e.d))
    (hT : ∀ i j, t i j = mycast (M (i, j)).1.val (M (i, j)).2.val)
    (hbu : ∀ a b c d, big (1 / 2 * U a b c d) = false → U a b c d = 0)
    (hbt : ∀ i j, big (t i j) = false → t i j = 0) :
    hamOf big 1 us ts = localH U t := by
  have hu' := (C70_u_file (𝕜 := 𝕜) (uFormat es ++ r1) _).2 ⟨es, r1, rfl, rfl⟩
  rw [hu'] at hu
  simp only [InRes.ok.injEq] at hu
  obtain ⟨hs, h1, h2⟩ := C70_hop_file_accepts (𝕜 := 𝕜) M r2
  rw [h1] at ht
  simp only [InRes.ok.injEq] at ht
  subst hu ht
  refine hamOf_localH big _ hs U t (tensorOf_file es U hnd hval hall) ?_ hbu hbt
  rw [h2]
  funext i j
  exact (hT i j).symm

/-- **C70.** A Hermitian tensor and a hopping matrix which passes the test without tolerance give a
Hermitian Hamiltonian. -/
theorem C70_hermitian_partial (U : T4 n 𝕜) (t : Matrix (Fin n) (Fin n) 𝕜)
    (hU : ∀ a b c d, U a b c d = star (U d c b a)) (ht : HopAccepted 0 t) : (localH U t).IsHermitian := by
  have ht' : ∀ i j, t i j = star (t j i) := by
    intro i j
    have := not_lt.1 (ht i j)
    exact sub_eq_zero.1 (norm_le_zero_iff.1 this)
  have hc : ∀ i : Fin n, ((cOp n i).map (Int.cast : ℤ → 𝕜))ᴴ = (cdagOp n i).map (Int.cast : ℤ → 𝕜) := by
    intro i
    ext r c
    simp [cdagOp, Matrix.conjTranspose_apply]
  have hd : ∀ i : Fin n, ((cdagOp n i).map (Int.cast : ℤ → 𝕜))ᴴ = (cOp n i).map (Int.cast : ℤ → 𝕜) := by
    intro i
    rw [← hc, Matrix.conjTranspose_conjTranspose]
  unfold Matrix.IsHermitian localH
  simp only [Matrix.conjTranspose_add, Matrix.conjTranspose_sum, Matrix.conjTranspose_smul,
    Matrix.conjTranspose_mul, hc, hd]
  congr 1
  · rw [sum4_rev]
    refine sum_congr rfl fun a _ => sum_congr rfl fun b _ => sum_congr rfl fun c _ => sum_congr rfl fun d _ => ?_
    rw [hU a b c d]
    simp [mul_assoc]
  · rw [sum_comm]
    refine sum_congr rfl fun i _ => sum_congr rfl fun j _ => ?_
    rw [ht' i j]

/-- The entry of `V n_0 n_1` in the state with both flavors occupied. -/
theorem hubbard_one_entry (V : 𝕜) : hubbard 1 V 0 0 = V := by
  have hn : ∀ f : Fin (1 * 2), numOp 𝕜 f = Matrix.diagonal
      fun s => ((if s.val.testBit f then (0 : ℤ) else 1 : ℤ) : 𝕜) := by
    intro f
    unfold numOp
    have := (Matrix.map_mul (f := Int.castRingHom 𝕜) (L := cdagOp (1 * 2) f) (M := cOp (1 * 2) f)).symm
    refine this.trans ?_
    rw [C30_number]
    exact Matrix.diagonal_map (Int.cast_zero)
  unfold hubbard
  rw [Matrix.sum_apply, Fin.sum_univ_one, hn, hn, Matrix.diagonal_mul_diagonal, Matrix.smul_apply,
    Matrix.diagonal_apply_eq]
  simp

/-- A tensor file with the single element `U_0110 = i`. -/
def imagFile : List Tok := uFormat (n := 2) [⟨0, 1, 1, 0, .int 0, .int 1⟩]

/-- **C70.** Only the hopping matrix is tested: the tensor file with the single element `U_0110 = i` is
accepted by the complex solver, and the Hamiltonian is not Hermitian. -/
theorem C70_hermitian_violated (big : ℂ → Bool) (hbig : ∀ x, big x = false → x = 0) (tol : ℝ) (htol : 0 ≤ tol) :
    ∃ us : List (UElem 2 ℂ), readUFile 2 imagFile = .ok us ∧ HopAccepted tol (hoppingOrg ([] : List (Fin 2 × Fin 2 × ℂ))) ∧
      ¬ (hamOf big 1 us []).IsHermitian := by
  refine ⟨_, (C70_u_file (𝕜 := ℂ) imagFile _).2 ⟨[⟨0, 1, 1, 0, .int 0, .int 1⟩], [], (List.append_nil _).symm, rfl⟩, ?_, ?_⟩
  · intro i j
    have h0 : hoppingOrg ([] : List (Fin 2 × Fin 2 × ℂ)) = fun _ _ => 0 := rfl
    simp [h0, htol]
  · intro h
    have e : ([⟨0, 1, 1, 0, .int 0, .int 1⟩] : List (UEntry 2)).map
        (fun e => (⟨e.a, e.b, e.c, e.d, 1 / 2 * e.val⟩ : UElem 2 ℂ)) = onsiteU 1 (1 / 2) Complex.I := by
      simp [onsiteU, UEntry.val, Tok.val, List.finRange_succ]
    have hh : (hamOf big 1 (onsiteU 1 (1 / 2) Complex.I) ([] : List (Fin (1 * 2) × Fin (1 * 2) × ℂ))).IsHermitian := by
      rw [← e]
      exact h
    rw [C55_onsite_partial big 1 (1 / 2) Complex.I fun _ _ _ _ => hbig _] at hh
    have h0 := congrFun (congrFun hh 0) 0
    rw [Matrix.conjTranspose_apply, hubbard_one_entry] at h0
    have := congrArg Complex.im h0
    simp at this
    norm_num at this

/-- **C70.** The real solver drops imaginary parts without a message: files which differ only in the
imaginary parts give the same tensor. -/
theorem C70_real_violated (es : List (UEntry n)) (im : UEntry n → Tok) (rest : List Tok) :
    (readUFile n (uFormat (es.map fun e => { e with im := im e }) ++ rest) : InRes (List (UElem n ℝ))) =
      readUFile n (uFormat es ++ rest) := by
  have h1 := (C70_u_file (𝕜 := ℝ) (uFormat es ++ rest) _).2 ⟨es, rest, rfl, rfl⟩
  have h2 := (C70_u_file (𝕜 := ℝ) (uFormat (es.map fun e => { e with im := im e }) ++ rest) _).2
    ⟨es.map fun e => { e with im := im e }, rest, rfl, rfl⟩
  rw [h1, h2, List.map_map]
  refine congrArg _ (List.map_congr_left fun e _ => ?_)
  simp [UEntry.val]

/-! ### Examples -/

/-- A tensor file with two elements; text after the last record is ignored. -/
example : readUFile (𝕜 := ℝ) 2 [.int 2, .int 0, .int 0, .int 1, .int 1, .int 0, .num 4, .int 0,
      .int 1, .int 1, .int 0, .int 0, .int 1, .num 4, .int 0, .int 77] =
    .ok [⟨0, 1, 1, 0, 2⟩, ⟨1, 0, 0, 1, 2⟩] := by
  refine (C70_u_file _ _).2 ⟨[⟨0, 1, 1, 0, .num 4, .int 0⟩, ⟨1, 0, 0, 1, .num 4, .int 0⟩], [.int 77], rfl, ?_⟩
  simp [UEntry.val, Tok.val]
  norm_num

/-- A flavor which does not exist is reported. -/
example : readUFile (𝕜 := ℝ) 2 [.int 1, .int 0, .int 0, .int 2, .int 1, .int 0, .num 4, .int 0] = .throws := rfl

/-- A wrong line number is reported. -/
example : readUFile (𝕜 := ℝ) 2 [.int 1, .int 1, .int 0, .int 1, .int 1, .int 0, .num 4, .int 0] = .throws := rfl

/-- A negative number of elements is reported (by `reserve`). -/
example : readUFile (𝕜 := ℝ) 2 [.int (-1)] = .throws := rfl

/-- A missing last number is not reported. -/
example : readUFile (𝕜 := ℝ) 2 [.int 1, .int 0, .int 0, .int 1, .int 1, .int 0, .num 4] = .ub := rfl

/-- A hopping file in the wrong order. -/
example : readHopFile (𝕜 := ℝ) 2 [.int 0, .int 1, .int 0, .int 0] = .throws := rfl

/-- The real solver accepts the hopping matrix `[[0, i], [i, 0]]` and uses zero. -/
example : ∃ hs : List (Fin 2 × Fin 2 × ℝ), readHopFile 2 (mRecords ((mIndices 2).map fun p =>
      (p, ((.int 0, .int (if p.1 = p.2 then 0 else 1)) : Tok × Tok))) ++ []) = .ok hs ∧ hoppingOrg hs = 0 := by
  obtain ⟨hs, h1, h2⟩ := C70_hop_file_accepts (𝕜 := ℝ) (n := 2)
    (fun p => (.int 0, .int (if p.1 = p.2 then 0 else 1))) []
  refine ⟨hs, h1, ?_⟩
  rw [h2]
  funext i j
  simp [mycast, Tok.val]

end CTHyb
