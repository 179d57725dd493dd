import Verif.GlobalUpdate
import Verif.LocalUpdateProps
import Verif.SlidingWindowProps
import Mathlib.Tactic.FieldSimp
import Mathlib.Tactic.Ring
import Mathlib.Tactic.NormNum

/-!
Property C54 (weight ratio and bookkeeping of the global updates) and the part of C50 about
rejected global updates.
-/

namespace CTHyb

open Equiv

variable {R K S Ket Bra ι : Type}

/-! ### The ratio of two vectors of factors -/

section
variable [Field K] [Field R] [LinearOrder R] [IsStrictOrderedRing R]

theorem detRatVec_eq (abv : AbsoluteValue K R) (eps : R) (new old : List K) :
    detRatVec abv eps new old =
      (new.filter (fun x => eps < abv x / maxAbs abv new)).prod / old.prod := by
  unfold detRatVec
  generalize maxAbs abv new = m
  have key : ∀ k, (List.range k).foldl (detRatStep abv eps m new old) 1 =
      ((new.take k).filter (fun x => eps < abv x / m)).prod / (old.take k).prod := by
    intro k
    induction k with
    | zero => simp
    | succ k ih =>
      rw [List.range_succ, List.foldl_append, ih, List.foldl_cons, List.foldl_nil,
        List.take_add_one, List.take_add_one, List.filter_append, List.prod_append,
        List.prod_append]
      unfold detRatStep
      cases hn : new[k]? with
      | none => cases ho : old[k]? <;> simp [div_div]
      | some x =>
        by_cases hx : eps < abv x / m
        · cases ho : old[k]? with
          | none => simp [hx]; ring
          | some y => simp [hx, div_div]; ring
        · cases ho : old[k]? <;> simp [hx, div_div]
  rw [key, List.take_of_length_le (le_max_left _ _), List.take_of_length_le (le_max_right _ _)]

theorem sortAbs_perm (abv : AbsoluteValue K R) (l : List K) : (sortAbs abv l).Perm l :=
  List.mergeSort_perm _ _

theorem maxAbs_perm (abv : AbsoluteValue K R) {l l' : List K} (h : l.Perm l') :
    maxAbs abv l = maxAbs abv l' := by
  unfold maxAbs
  refine h.foldl_eq' ?_ 0
  intro x _ y _ z
  rw [max_assoc, max_assoc, max_comm (abv x)]

theorem mulHead_prod (s : K) (l : List K) (h : l ≠ []) : (mulHead s l).prod = s * l.prod := by
  cases l with
  | nil => exact absurd rfl h
  | cons x l => simp [mulHead, mul_assoc]

end

/-! ### Blocks -/

section
variable [Field R] [LinearOrder R] [IsStrictOrderedRing R] [Field K]

theorem card_filter_get {α : Type} (l : List α) (p : α → Bool) (n : ℕ) (h : l.length = n) :
    (Finset.univ.filter (fun i : Fin n => p (l.get (i.cast h.symm)) = true)).card =
      (l.filter p).length := by
  subst h
  have e : (Finset.univ.filter (fun i : Fin l.length => p (l.get i) = true)).card =
      Multiset.countP (fun i => p (l.get i) = true) (Finset.univ : Finset (Fin l.length)).val := by
    rw [Multiset.countP_eq_card_filter]; rfl
  have e2 : Multiset.countP (fun i => p (l.get i) = true) (Finset.univ : Finset (Fin l.length)).val
      = Multiset.countP (fun x => p x = true)
        ((Finset.univ : Finset (Fin l.length)).val.map l.get) := by
    rw [Multiset.countP_map, Multiset.countP_eq_card_filter]
  refine Eq.trans e ?_
  rw [e2, Fin.univ_val_map, List.ofFn_get,
    Multiset.coe_countP, List.countP_eq_length_filter]
  simp

/-- A matrix without elements between different blocks is singular if a block is not square. -/
theorem listDet_block_mismatch {α β : Type} (G : α → β → K) (rows : List α) (cols : List β)
    (p : α → Bool) (q : β → Bool) (hG : ∀ a ∈ rows, ∀ b ∈ cols, p a ≠ q b → G a b = 0)
    (h : (cols.filter q).length ≠ (rows.filter p).length) : listDet G rows cols = 0 := by
  by_cases hl : cols.length = rows.length
  · rw [listDet_eq G rows cols rows.length rfl hl, Matrix.det_apply]
    refine Finset.sum_eq_zero (fun σ _ => ?_)
    rw [show ∏ i, (Matrix.of fun i j : Fin rows.length =>
      G (rows.get (i.cast rfl)) (cols.get (j.cast hl.symm))) (σ i) i = 0 from ?_, smul_zero]
    by_contra hne
    have hpq : ∀ i : Fin rows.length, p (rows.get (σ i)) = q (cols.get (i.cast hl.symm)) := by
      intro i
      by_contra hc
      exact hne (Finset.prod_eq_zero (Finset.mem_univ i) (hG _ (List.get_mem _ _) _ (List.get_mem _ _) hc))
    apply h
    rw [← card_filter_get cols q rows.length hl, ← card_filter_get rows p rows.length rfl]
    refine Finset.card_bij (fun i _ => σ i) ?_ ?_ ?_
    · intro i hi
      simp only [Finset.mem_filter, Finset.mem_univ, true_and] at hi ⊢
      exact (hpq i).trans hi
    · intro i _ j _ hij
      exact σ.injective hij
    · intro j hj
      simp only [Finset.mem_filter, Finset.mem_univ, true_and] at hj
      refine ⟨σ.symm j, ?_, by simp⟩
      simp only [Finset.mem_filter, Finset.mem_univ, true_and]
      rw [← hpq]
      simpa using hj
  · unfold listDet
    rw [dif_neg hl]

theorem blockLoop_some (G : TPsi R → TPsi R → K)
    (lu : (n : ℕ) → Matrix (Fin n) (Fin n) K → List K) (hlu : ∀ n A, (lu n A).prod = A.det)
    (hlen : ∀ n A, (lu n A).length = n)
    (blockOf : ℕ → ℕ) (cds cs : List (TPsi R))
    (hG : ∀ a ∈ cs, ∀ b ∈ cds, blockOf a.flavor ≠ blockOf b.flavor → G a b = 0) (bs : List ℕ) (hbs : bs.Nodup) (new : List K) (d c : List (TPsi R))
    (h : blockLoop G lu blockOf cds cs bs = some (new, d, c)) :
    d = bs.flatMap (fun b => inBlock blockOf b cds) ∧
    c = bs.flatMap (fun b => inBlock blockOf b cs) ∧
    d.length = c.length ∧ new.length = c.length ∧ new.prod = listDet G c d := by
  induction bs generalizing new d c with
  | nil =>
    simp only [blockLoop, Option.some.injEq, Prod.mk.injEq] at h
    obtain ⟨rfl, rfl, rfl⟩ := h
    refine ⟨rfl, rfl, rfl, rfl, ?_⟩
    rw [listDet_eq G [] [] 0 rfl rfl]
    simp
  | cons b bs ih =>
    unfold blockLoop at h
    simp only at h
    split_ifs at h with hl
    rw [Option.map_eq_some_iff] at h
    obtain ⟨⟨new', d', c'⟩, h1, h2⟩ := h
    simp only [Prod.mk.injEq] at h2
    obtain ⟨rfl, rfl, rfl⟩ := h2
    obtain ⟨e1, e2, e3, e4, e5⟩ := ih (List.nodup_cons.1 hbs).2 _ _ _ h1
    refine ⟨by rw [List.flatMap_cons, ← e1], by rw [List.flatMap_cons, ← e2],
      by simp [hl, e3], by simp [hlen, e4], ?_⟩
    rw [List.prod_append, hlu, e5, listDet_append G _ _ _ _ hl]
    · congr 1
      rw [listDet_eq G _ _ _ rfl hl]
      rfl
    · intro x hx y hy
      rw [inBlock, List.mem_filter] at hx
      rw [e1, List.mem_flatMap] at hy
      obtain ⟨b', hb', hy⟩ := hy
      rw [inBlock, List.mem_filter] at hy
      apply hG x hx.1 y hy.1
      have h1 : blockOf x.flavor = b := by simpa using hx.2
      have h2 : blockOf y.flavor = b' := by simpa using hy.2
      rw [h1, h2]
      rintro rfl
      exact (List.nodup_cons.1 hbs).1 hb'

theorem blockLoop_none (G : TPsi R → TPsi R → K)
    (lu : (n : ℕ) → Matrix (Fin n) (Fin n) K → List K) (blockOf : ℕ → ℕ)
    (cds cs : List (TPsi R)) (bs : List ℕ) (h : blockLoop G lu blockOf cds cs bs = none) :
    ∃ b ∈ bs, (inBlock blockOf b cds).length ≠ (inBlock blockOf b cs).length := by
  induction bs with
  | nil => simp [blockLoop] at h
  | cons b bs ih =>
    unfold blockLoop at h
    simp only at h
    split_ifs at h with hl
    · rw [Option.map_eq_none_iff] at h
      obtain ⟨b', hb', hne⟩ := ih h
      exact ⟨b', by simp [hb'], hne⟩
    · exact ⟨b, by simp, hl⟩

theorem flatMap_inBlock_perm (blockOf : ℕ → ℕ) (nb : ℕ) (l : List (TPsi R))
    (h : ∀ o ∈ l, blockOf o.flavor < nb) :
    ((List.range nb).flatMap (fun b => inBlock blockOf b l)).Perm l := by
  have hmem : ∀ o ∈ l, blockOf o.flavor ∈ List.range nb := fun o ho => List.mem_range.2 (h o ho)
  clear h
  have hnd : (List.range nb).Nodup := List.nodup_range
  generalize List.range nb = bs at hmem hnd
  induction bs generalizing l with
  | nil =>
    cases l with
    | nil => simp
    | cons o l => exact absurd (hmem o (by simp)) (by simp)
  | cons b bs ih =>
    rw [List.flatMap_cons]
    have hb := (List.nodup_cons.1 hnd).1
    have e : bs.flatMap (fun b => inBlock blockOf b l) =
        bs.flatMap (fun b' => inBlock blockOf b' (l.filter (fun o => ¬ blockOf o.flavor = b))) := by
      refine List.flatMap_congr (fun b' hb' => ?_)
      unfold inBlock
      rw [List.filter_filter]
      refine List.filter_congr (fun o _ => ?_)
      by_cases h1 : blockOf o.flavor = b'
      · have : ¬ b' = b := by rintro rfl; exact hb hb'
        simp [h1, this]
      · simp [h1]
    rw [e]
    have := ih (l.filter (fun o => ¬ blockOf o.flavor = b)) (by
      intro o ho
      rw [List.mem_filter] at ho
      have h1 := hmem o ho.1
      have h2 : ¬ blockOf o.flavor = b := by simpa using ho.2
      rcases List.mem_cons.1 h1 with h | h
      · exact absurd h h2
      · exact h) (List.nodup_cons.1 hnd).2
    refine (List.Perm.append_left _ this).trans ?_
    have h3 := List.filter_append_perm (fun o : TPsi R => decide (blockOf o.flavor = b)) l
    simpa [inBlock] using h3

theorem combSortAsc_eq (l : List (OpTime R)) (hl : l.Nodup) :
    combSortAsc l = (-1) ^ invs l := by
  obtain ⟨w, s, hf, σ, hw, hs, hsort⟩ := C20_comb_sort (fun a b : OpTime R => a < b) shrink13 rfl
    shrink13_lt l.get
  unfold combSortAsc
  rw [hf (combFuel l.length) le_rfl]
  simp only
  rw [hs]
  refine sign_of_sorting_asc l hl σ ?_
  intro i j hij
  have := hsort i j hij
  rw [hw] at this
  exact this

/-- All LU factors of the new matrix, `none` if a block is not square. -/
def newFactors (G : TPsi R → TPsi R → K) (lu : (n : ℕ) → Matrix (Fin n) (Fin n) K → List K)
    (blockOf : ℕ → ℕ) (nb : ℕ) (cds cs : List (TPsi R)) : Option (List K) :=
  (blockLoop G lu blockOf cds cs (List.range nb)).map Prod.fst

/-- No factor is negligible compared with the largest one. -/
def NoSmallFactor (abv : AbsoluteValue K R) (eps : R) (l : Option (List K)) : Prop :=
  ∀ l', l = some l' → ∀ x ∈ l', eps < abv x / maxAbs abv l'

/-- **C54.**  The ratio computed by a global update is the ratio of the time-ordered
determinants, provided that no LU factor is dropped as negligible; the new vector of factors
has the new determinant as product. -/
theorem C54_det_ratio (abv : AbsoluteValue K R) (eps : R) (G : TPsi R → TPsi R → K)
    (lu : (n : ℕ) → Matrix (Fin n) (Fin n) K → List K) (hlu : ∀ n A, (lu n A).prod = A.det)
    (hlen : ∀ n A, (lu n A).length = n) (blockOf : ℕ → ℕ) (nb : ℕ)
    (hG : ∀ a b : TPsi R, blockOf a.flavor < nb → blockOf b.flavor < nb →
      blockOf a.flavor ≠ blockOf b.flavor → G a b = 0)
    (cds cs : List (TPsi R)) (old : List K)
    (hb : ∀ o ∈ cds ++ cs, blockOf o.flavor < nb) (hne : cs ≠ [])
    (h1 : (cs.map Psi.time).Nodup) (h2 : (cds.map Psi.time).Nodup)
    (hsmall : NoSmallFactor abv eps (newFactors G lu blockOf nb cds cs)) :
    (computeDetRat abv eps G lu blockOf nb cds cs old).1 = timeDet G cs cds / old.prod ∧
    (computeDetRat abv eps G lu blockOf nb cds cs old).2.1.prod = old.prod ∧
    (timeDet G cs cds ≠ 0 →
      (computeDetRat abv eps G lu blockOf nb cds cs old).2.2.prod = timeDet G cs cds) := by
  unfold computeDetRat
  have hG' : ∀ a ∈ cs, ∀ b ∈ cds, blockOf a.flavor ≠ blockOf b.flavor → G a b = 0 := fun a ha b hb' =>
    hG a b (hb a (by simp [ha])) (hb b (by simp [hb']))
  cases hl : blockLoop G lu blockOf cds cs (List.range nb) with
  | none =>
    obtain ⟨b, -, hmis⟩ := blockLoop_none G lu blockOf cds cs _ hl
    have hz : timeDet G cs cds = 0 := by
      refine listDet_block_mismatch G _ _ (fun o => decide (blockOf o.flavor = b))
        (fun o => decide (blockOf o.flavor = b)) ?_ ?_
      · intro x hx y hy hxy
        apply hG' x ((timeSort_perm cs).mem_iff.1 hx) y ((timeSort_perm cds).mem_iff.1 hy)
        intro he
        exact hxy (by simp [he])
      · rw [((timeSort_perm cds).filter _).length_eq, ((timeSort_perm cs).filter _).length_eq]
        exact hmis
    simp [hz]
  | some p =>
    obtain ⟨new, d, c⟩ := p
    obtain ⟨ed, ec, el, en, ep⟩ := blockLoop_some G lu hlu hlen blockOf cds cs hG' _
      List.nodup_range new d c hl
    have pd : d.Perm cds := ed ▸ flatMap_inBlock_perm blockOf nb cds (fun o ho => hb o (by simp [ho]))
    have pc : c.Perm cs := ec ▸ flatMap_inBlock_perm blockOf nb cs (fun o ho => hb o (by simp [ho]))
    have hnew : new ≠ [] := by
      intro h
      rw [h] at en
      have : c.length = cs.length := pc.length_eq
      have : cs.length = 0 := by rw [← this, ← en]; rfl
      exact hne (List.length_eq_zero_iff.1 this)
    have nc : (c.map Psi.time).Nodup := (pc.map Psi.time).nodup_iff.2 h1
    have nd : (d.map Psi.time).Nodup := (pd.map Psi.time).nodup_iff.2 h2
    have ht : timeDet G cs cds = ((-1 : K) ^ invs (d.map Psi.time) *
        (-1) ^ invs (c.map Psi.time)) * new.prod := by
      rw [← timeDet_congr G pc pd nc nd, timeDet_eq G c d nc nd, ep, pow_add]
      ring
    simp only
    rw [if_neg (by simpa using hnew)]
    have hperm := sortAbs_perm abv new
    have hfil : (sortAbs abv new).filter
        (fun x => eps < abv x / maxAbs abv (sortAbs abv new)) = sortAbs abv new := by
      rw [List.filter_eq_self]
      intro x hx
      rw [maxAbs_perm abv hperm]
      have := hsmall new (by rw [newFactors, hl]; rfl) x (hperm.mem_iff.1 hx)
      simpa using this
    have hs : sortAbs abv new ≠ [] := by
      intro h
      rw [h] at hperm
      exact hnew hperm.nil_eq.symm
    simp only
    rw [detRatVec_eq, hfil, hperm.prod_eq, (sortAbs_perm abv old).prod_eq,
      combSortAsc_eq _ nd, combSortAsc_eq _ nc, mulHead_prod _ _ hs, hperm.prod_eq, ht]
    push_cast
    exact ⟨by rw [mul_div_assoc], rfl, fun _ => rfl⟩

/-- **C54 fails when a factor is dropped.**  Two creation and two annihilation operators with a
constant hybridization function: the new matrix has all elements equal to one and is singular,
its LU factors are `1, 0`; the zero is dropped, and the ratio is `1/old` instead of zero. -/
theorem C54_singular_accepted (lu : (n : ℕ) → Matrix (Fin n) (Fin n) ℚ → List ℚ)
    (hlu : lu 2 (Matrix.of fun _ _ => 1) = [1, 0]) :
    let G : TPsi ℚ → TPsi ℚ → ℚ := fun _ _ => 1
    let cds : List (TPsi ℚ) := [⟨⟨1, 0⟩, .creation, 0⟩, ⟨⟨2, 0⟩, .creation, 0⟩]
    let cs : List (TPsi ℚ) := [⟨⟨3, 0⟩, .annihilation, 0⟩, ⟨⟨4, 0⟩, .annihilation, 0⟩]
    timeDet G cs cds = 0 ∧
    (computeDetRat AbsoluteValue.abs (1 / 10 ^ 30) G lu (fun _ => 0) 1 cds cs [2, 3]).1 = 1 / 6 := by
  intro G cds cs
  have h1 : (cs.map Psi.time).Nodup := by decide
  have h2 : (cds.map Psi.time).Nodup := by decide
  constructor
  · rw [timeDet_eq G cs cds h1 h2, listDet_eq G cs cds 2 rfl rfl, Matrix.det_fin_two]
    simp [G]
  · have e : blockLoop G lu (fun _ => 0) cds cs (List.range 1) = some ([1, 0], cds, cs) := by
      have : blockMat G cs cds rfl = Matrix.of fun _ _ => 1 := rfl
      simp only [List.range_succ, List.range_zero, List.nil_append, blockLoop]
      rw [dif_pos (by rfl)]
      have e2 : inBlock (fun _ => 0) 0 cs = cs := by simp [inBlock]
      have e3 : inBlock (fun _ => 0) 0 cds = cds := by simp [inBlock]
      simp only [e2, e3, this, Option.map_some, List.append_nil]
      exact congrArg (fun l => some (l, cds, cs)) hlu
    unfold computeDetRat
    rw [e]
    simp only
    rw [if_neg (by simp), combSortAsc_eq _ h1, combSortAsc_eq _ h2, detRatVec_eq]
    have hi1 : invs (cds.map Psi.time) = 0 := by decide +kernel
    have hi2 : invs (cs.map Psi.time) = 0 := by decide +kernel
    have hx : maxAbs (AbsoluteValue.abs : AbsoluteValue ℚ ℚ) [1, 0] = 1 := by decide +kernel
    rw [maxAbs_perm _ (sortAbs_perm _ [1, 0]), hx, ((sortAbs_perm _ [1, 0]).filter _).prod_eq,
      (sortAbs_perm _ [2, 3]).prod_eq, hi1, hi2]
    have : List.filter (fun x : ℚ => decide (1 / 10 ^ 30 < (AbsoluteValue.abs : AbsoluteValue ℚ ℚ) x / 1))
        [1, 0] = [1] := by decide +kernel
    rw [this]
    norm_num

/-! ### The whole update -/

variable [DecidableEq K] [Fintype ι]

/-- Weight of a set of operators: time-ordered determinant times trace of the time-ordered
product. -/
def weightOf (V : SWEnv R Ket Bra K ι) (G : TPsi R → TPsi R → K) (cds cs worm : List (TPsi R)) : K :=
  timeDet G cs cds * fullTrace V (timeSort (cds ++ cs ++ worm))

/-- What holds between updates. -/
structure GInv (E : GEnv R K S Ket Bra ι) (det : S → K) (s : GState R K S Ket Bra ι) : Prop where
  cons : Consistent E.D s.cfg
  len : (E.D.cs s.cfg.M).length = (E.D.cdagg s.cfg.M).length
  blocks : ∀ o ∈ E.D.cdagg s.cfg.M ++ E.D.cs s.cfg.M, E.blockOf o.flavor < E.nb
  detM : det s.cfg.M = timeDet E.G (E.D.cs s.cfg.M) (E.D.cdagg s.cfg.M)
  detVec : s.detVec.prod = timeDet E.G (E.D.cs s.cfg.M) (E.D.cdagg s.cfg.M)
  sign : SignOK E.D E.permFn E.sgn det s.cfg
  trace : s.cfg.trace = fullTrace E.V s.cfg.ops
  opsOK : OpsOK E.V.beta s.cfg.ops
  sw : StacksOK E.V s.cfg.ops s.sw ∧ s.sw.n = 1 ∧ s.sw.posR = 0 ∧ s.sw.posL = 2

/-- What is assumed of the ingredients: laws of the evolution, of the LU factors, of the
hybridization function (no elements between blocks), of the sign, and of the constructor of the
determinant matrix. -/
structure GEnv.Lawful (E : GEnv R K S Ket Bra ι) (det : S → K) : Prop where
  evol : E.V.E.Lawful
  beta : 0 ≤ E.V.beta
  lu_prod : ∀ n A, (E.lu n A).prod = A.det
  lu_len : ∀ n A, (E.lu n A).length = n
  blocks : ∀ a b : TPsi R, E.blockOf a.flavor < E.nb → E.blockOf b.flavor < E.nb →
    E.blockOf a.flavor ≠ E.blockOf b.flavor → E.G a b = 0
  sgn_mul : ∀ a b : K, a ≠ 0 → b ≠ 0 → E.sgn (a * b) = E.sgn a * E.sgn b
  perm : ∀ a b c, E.permFn a b c = 1 ∨ E.permFn a b c = -1
  build : ∀ cds cs : List (TPsi R), cs.length = cds.length → ((cds ++ cs).map Psi.time).Nodup → (∀ o ∈ cds ++ cs, E.blockOf o.flavor < E.nb) →
    timeDet E.G cs cds ≠ 0 →
    (E.D.cdagg (E.build cds cs)).Perm cds ∧ (E.D.cs (E.build cds cs)).Perm cs ∧
      det (E.build cds cs) = timeDet E.G cs cds

omit [Field K] [DecidableEq K] [Fintype ι] in
theorem insertAll_spec (s : OpSet (OpTime R)) (l : List (TPsi R)) (hs : s.Sorted)
    (h : ((s ++ l).map Psi.time).Nodup) :
    (insertAll s l).Sorted ∧ (insertAll s l).Perm (s ++ l) := by
  induction l generalizing s with
  | nil => exact ⟨hs, by simp [insertAll]⟩
  | cons o l ih =>
    have hfresh : ∀ x ∈ s, x.time ≠ o.time := by
      intro x hx he
      rw [List.map_append, List.nodup_append] at h
      exact h.2.2 x.time (List.mem_map_of_mem hx) o.time (by simp) he
    have hins := (OpSet.insert_snd_iff s o hs).2 hfresh
    have hso := OpSet.insert_sorted s o hs
    have hp : (s.insert o).1.Perm (o :: s) := by
      rw [List.perm_ext_iff_of_nodup]
      · intro x
        rw [OpSet.mem_insert _ _ _ hins, List.mem_cons]
      · exact sorted_nodup _ hso
      · rw [List.nodup_cons]
        exact ⟨fun hm => hfresh o hm rfl, sorted_nodup _ hs⟩
    have hp2 : ((s.insert o).1 ++ l).Perm (s ++ o :: l) :=
      (hp.append_right l).trans (List.perm_middle.symm)
    obtain ⟨i1, i2⟩ := ih (s.insert o).1 hso ((hp2.map Psi.time).nodup_iff.2 h)
    exact ⟨i1, i2.trans hp2⟩

omit [Field K] [DecidableEq K] [Fintype ι] in
theorem sorted_eq_timeSort (s l : List (TPsi R)) (hs : OpSet.Sorted s) (hp : s.Perm l) :
    s = timeSort l := by
  have hn : (s.map Psi.time).Nodup := by
    rw [List.nodup_map_iff_inj_on (sorted_nodup _ hs)]
    intro x hx y hy hxy
    exact OpSet.time_inj s hs hx hy hxy
  exact time_sorted_unique (hp.trans (timeSort_perm l).symm) hn (hs.imp (fun h => h.le))
    (timeSort_sorted l)

/-- **C54, C50.**  A global update never throws, and it keeps the invariant.  With at least one
pair of operators it is accepted exactly if the random number is smaller than the absolute ratio
of the weights of the transformed and of the present operators; then the operators are the
transformed ones.  A rejected update leaves the configuration as it was. -/
theorem C54_global_update (E : GEnv R K S Ket Bra ι) (det : S → K) (hE : E.Lawful det)
    (f : TPsi R → TPsi R) (fw : List (TPsi R) → List (TPsi R)) (r : R) (hr : 0 ≤ r) (nwin : ℕ)
    (hnw : 1 ≤ nwin) (s : GState R K S Ket Bra ι) (hs : GInv E det s)
    (hnd : (((E.D.cdagg s.cfg.M).map f ++ (E.D.cs s.cfg.M).map f ++
      wormOps (s.cfg.worm.map fw)).map Psi.time).Nodup)
    (hrange : ∀ o ∈ (E.D.cdagg s.cfg.M).map f ++ (E.D.cs s.cfg.M).map f ++
      wormOps (s.cfg.worm.map fw), opT 0 ≤ o.time ∧ o.time ≤ opT E.V.beta)
    (hbl : ∀ o ∈ (E.D.cdagg s.cfg.M).map f ++ (E.D.cs s.cfg.M).map f, E.blockOf o.flavor < E.nb)
    (hsmall : NoSmallFactor E.abv E.eps (newFactors E.G E.lu E.blockOf E.nb
      ((E.D.cdagg s.cfg.M).map f) ((E.D.cs s.cfg.M).map f))) :
    ∃ s' acc, globalUpdate E f fw r nwin s = some (s', acc) ∧ GInv E det s' ∧
      (E.D.cdagg s.cfg.M = [] → s' = s ∧ acc = true) ∧
      (E.D.cdagg s.cfg.M ≠ [] →
        (acc = true ↔ r < E.abv
          (weightOf E.V E.G ((E.D.cdagg s.cfg.M).map f) ((E.D.cs s.cfg.M).map f)
              (wormOps (s.cfg.worm.map fw)) /
            weightOf E.V E.G (E.D.cdagg s.cfg.M) (E.D.cs s.cfg.M) (wormOps s.cfg.worm))) ∧
        (acc = true → (E.D.cdagg s'.cfg.M).Perm ((E.D.cdagg s.cfg.M).map f) ∧
          (E.D.cs s'.cfg.M).Perm ((E.D.cs s.cfg.M).map f) ∧ s'.cfg.worm = s.cfg.worm.map fw) ∧
        (acc = false → s'.cfg = s.cfg)) := by
  unfold globalUpdate
  by_cases h0 : (E.D.cdagg s.cfg.M).length = 0
  · rw [if_pos h0]
    have h0' := List.length_eq_zero_iff.1 h0
    exact ⟨s, true, rfl, hs, fun _ => ⟨rfl, rfl⟩, fun h => absurd h0' h⟩
  rw [if_neg h0]
  simp only
  have hne : E.D.cdagg s.cfg.M ≠ [] := fun h => h0 (by rw [h]; rfl)
  set cds := (E.D.cdagg s.cfg.M).map f with hcds
  set cs := (E.D.cs s.cfg.M).map f with hcs
  set wn := s.cfg.worm.map fw with hwn
  set ops := insertAll (insertAll (insertAll [] cds) cs) (wormOps wn) with hops
  -- the new container
  have hnd' := hnd
  rw [List.map_append, List.map_append] at hnd'
  have hnd1 : (cds.map Psi.time ++ cs.map Psi.time).Nodup := (List.nodup_append.1 hnd').1
  have hncd : (cds.map Psi.time).Nodup := (List.nodup_append.1 hnd1).1
  have hnc : (cs.map Psi.time).Nodup := (List.nodup_append.1 hnd1).2.1
  obtain ⟨a1, a2⟩ := insertAll_spec [] cds List.Pairwise.nil (by simpa using hncd)
  rw [List.nil_append] at a2
  obtain ⟨b1, b2⟩ := insertAll_spec (insertAll [] cds) cs a1 (by
    refine (((a2.append_right cs)).map Psi.time).nodup_iff.2 ?_
    rw [List.map_append]; exact hnd1)
  have b3 := b2.trans (a2.append_right cs)
  obtain ⟨c1, c2⟩ := insertAll_spec _ (wormOps wn) b1 (by
    refine (((b3.append_right (wormOps wn))).map Psi.time).nodup_iff.2 ?_
    exact hnd)
  have c3 := c2.trans (b3.append_right (wormOps wn))
  rw [← hops] at c1 c3
  have eops : ops = timeSort (cds ++ cs ++ wormOps wn) := sorted_eq_timeSort _ _ c1 c3
  have oops : OpsOK E.V.beta ops := ⟨c1, fun o ho => hrange o (c3.mem_iff.1 ho)⟩
  -- the old container
  have eold : s.cfg.ops = timeSort (E.D.cdagg s.cfg.M ++ E.D.cs s.cfg.M ++ wormOps s.cfg.worm) := by
    refine sorted_eq_timeSort _ _ hs.cons.1 ?_
    have := hs.cons.2
    rw [Multiset.coe_add, Multiset.coe_add, Multiset.coe_eq_coe] at this
    exact this
  -- the window
  obtain ⟨w1, e1, k1, n1, x1, y1⟩ := setWindowSize_ok hs.sw.1 s.cfg.ops 1 0 true
  obtain ⟨w2, e2, k2, n2, x2, y2⟩ := setWindowSize_ok k1 ops nwin 0 true
  obtain ⟨w3, e3, k3, n3, x3, y3⟩ := setWindowSize_ok k2 s.cfg.ops 1 0 true
  obtain ⟨w3', e3', k3', n3', x3', y3'⟩ := setWindowSize_ok k2 ops 1 0 true
  have ht : computeTrace E.V ops w2 = some (fullTrace E.V ops) := by
    refine computeTrace_ok hE.evol hE.beta oops k2 (by omega) ?_
    by_cases h2 : 2 ≤ nwin
    · have := x2 h2; omega
    · have := y2 (by omega); omega
  have k3n : StacksOK E.V ops w3 := by
    have hy := y3 (by norm_num)
    refine ⟨k3.posL, ?_, ?_⟩
    · rw [k3.right, hy.1]; rfl
    · rw [k3.left, n3, hy.2.1]; rfl
  have sw3 : w3.n = 1 ∧ w3.posR = 0 ∧ w3.posL = 2 := by
    have hy := y3 (by norm_num)
    exact ⟨n3, hy.1, hy.2.1⟩
  rw [e1, Option.bind_some, e2, Option.bind_some, ht, Option.bind_some, e3, Option.bind_some]
  -- weights
  have hcsne : cs ≠ [] := by
    intro h
    have : (E.D.cs s.cfg.M).length = 0 := by
      have := congrArg List.length h
      simpa [hcs] using this
    rw [hs.len] at this
    exact h0 this
  obtain ⟨d1, d2, d3⟩ := C54_det_ratio E.abv E.eps E.G E.lu hE.lu_prod hE.lu_len E.blockOf E.nb
    hE.blocks cds cs s.detVec hbl hcsne hnc hncd hsmall
  have hW : weightOf E.V E.G cds cs (wormOps wn) = timeDet E.G cs cds * fullTrace E.V ops := by
    rw [weightOf, ← eops]
  have hW0 : weightOf E.V E.G (E.D.cdagg s.cfg.M) (E.D.cs s.cfg.M) (wormOps s.cfg.worm) =
      s.detVec.prod * s.cfg.trace := by
    rw [weightOf, ← eold, hs.detVec, hs.trace]
  rw [hW, hW0]
  obtain ⟨s1, s2, s3, s4⟩ := hs.sign
  have hold : s.detVec.prod ≠ 0 := by rw [hs.detVec, ← hs.detM]; exact s2
  have hcfgsame : ∀ dv : List K, dv.prod = s.detVec.prod →
      GInv E det { s with detVec := dv, sw := w3 } := by
    intro dv hdv
    exact ⟨hs.cons, hs.len, hs.blocks, hs.detM, by rw [← hs.detVec]; exact hdv, hs.sign, hs.trace,
      hs.opsOK, k3, sw3⟩
  by_cases htr : fullTrace E.V ops = 0
  · rw [if_pos htr]
    refine ⟨_, false, rfl, hcfgsame s.detVec rfl, fun h => absurd h hne, fun _ => ⟨?_, by simp, fun _ => rfl⟩⟩
    rw [htr, mul_zero, zero_div, map_zero]
    simp [hr]
  rw [if_neg htr]
  set dr := computeDetRat E.abv E.eps E.G E.lu E.blockOf E.nb cds cs s.detVec with hdr
  have hprob : dr.1 * (fullTrace E.V ops / s.cfg.trace) =
      timeDet E.G cs cds * fullTrace E.V ops / (s.detVec.prod * s.cfg.trace) := by
    rw [d1]; field_simp
  by_cases hacc : r < E.abv (dr.1 * (fullTrace E.V ops / s.cfg.trace))
  · rw [if_pos hacc]
    have hp0 : dr.1 * (fullTrace E.V ops / s.cfg.trace) ≠ 0 := by
      intro h; rw [h, map_zero] at hacc; exact absurd hacc (not_lt.2 hr)
    have hdn : timeDet E.G cs cds ≠ 0 := by
      intro h
      rw [d1, h, zero_div, zero_mul] at hp0
      exact hp0 rfl
    have hlen : cs.length = cds.length := by simp [hcs, hcds, hs.len]
    obtain ⟨u1, u2, u3⟩ := hE.build cds cs hlen (by rw [List.map_append]; exact hnd1) hbl hdn
    have ncd' : ((E.D.cdagg (E.build cds cs)).map Psi.time).Nodup :=
      (u1.map Psi.time).nodup_iff.2 hncd
    have nc' : ((E.D.cs (E.build cds cs)).map Psi.time).Nodup := (u2.map Psi.time).nodup_iff.2 hnc
    have etd := timeDet_congr E.G u2 u1 nc' ncd'
    refine ⟨_, true, rfl, ?_, fun h => absurd h hne, fun _ => ⟨?_, fun _ => ⟨u1, u2, rfl⟩, by simp⟩⟩
    · refine ⟨⟨c1, ?_⟩, ?_, ?_, ?_, ?_, ⟨rfl, ?_, htr, ?_⟩, rfl, oops, k3n, sw3⟩
      · change (ops : Multiset (TPsi R)) = (E.D.cdagg (E.build cds cs) : Multiset (TPsi R)) +
          (E.D.cs (E.build cds cs) : Multiset (TPsi R)) + (wormOps wn : Multiset (TPsi R))
        rw [Multiset.coe_eq_coe.2 u1, Multiset.coe_eq_coe.2 u2, Multiset.coe_add,
          Multiset.coe_add, Multiset.coe_eq_coe]
        exact c3
      · exact (u2.length_eq.trans hlen).trans u1.length_eq.symm
      · intro o ho
        refine hbl o ?_
        rw [List.mem_append] at ho ⊢
        rcases ho with h | h
        · exact Or.inl (u1.mem_iff.1 h)
        · exact Or.inr (u2.mem_iff.1 h)
      · exact u3.trans etd.symm
      · exact (d3 hdn).trans etd.symm
      · change det (E.build cds cs) ≠ 0
        rw [u3]; exact hdn
      · change s.cfg.sign * _ = E.sgn (det (E.build cds cs)) * E.sgn (fullTrace E.V ops) * _
        have hpm : (s.cfg.permSign : K) ≠ 0 := by
          rw [s1]
          rcases hE.perm (E.D.cdagg s.cfg.M) (E.D.cs s.cfg.M) (wormOps s.cfg.worm) with h | h <;>
            rw [h] <;> simp
        have hdo : det s.cfg.M ≠ 0 := s2
        have e : E.sgn (timeDet E.G cs cds) * E.sgn (fullTrace E.V ops) =
            E.sgn (dr.1 * (fullTrace E.V ops / s.cfg.trace)) * (E.sgn (det s.cfg.M) *
              E.sgn s.cfg.trace) := by
          rw [← hE.sgn_mul _ _ hdn htr, ← hE.sgn_mul _ _ hdo s3, ← hE.sgn_mul _ _ hp0
            (mul_ne_zero hdo s3), hprob, hs.detM, ← hs.detVec]
          congr 1
          field_simp
        rw [u3, e, s4]
        field_simp
    · rw [← hprob]; simp only [true_iff]; exact hacc
  · rw [if_neg hacc]
    refine ⟨_, false, rfl, hcfgsame _ d2, fun h => absurd h hne,
      fun _ => ⟨?_, by simp, fun _ => rfl⟩⟩
    rw [← hprob]; simp only [Bool.false_eq_true, false_iff]; exact hacc

end

/-! ### A concrete case: two flavors exchanged, two windows -/

/-- Factors of a determinant (here trivial: the determinant itself and ones). -/
def toyLu (n : ℕ) (A : Matrix (Fin n) (Fin n) ℚ) : List ℚ :=
  if n = 0 then [] else A.det :: List.replicate (n - 1) 1

/-- Hybridization function diagonal in flavor. -/
def toyG (a b : TPsi ℚ) : ℚ := if a.flavor = b.flavor then a.flavor + 2 else 0

/-- Determinant matrix: just the lists of operators. -/
def toyGEnv : GEnv ℚ ℚ (List (TPsi ℚ) × List (TPsi ℚ)) (ℚ × ℚ) (ℚ × ℚ) (Fin 2) where
  V := toyEnv
  D := { tryUpdate := fun s _ => (0, s), perform := id, reject := id, cdagg := Prod.fst,
         cs := Prod.snd }
  G := toyG
  lu := toyLu
  blockOf := id
  nb := 2
  build := Prod.mk
  permFn _ _ _ := 1
  sgn x := x
  abv := AbsoluteValue.abs
  eps := 1 / 10 ^ 30

theorem toyGEnv_lawful : toyGEnv.Lawful (fun s => timeDet toyG s.2 s.1) where
  evol := toyEvol_lawful
  beta := by simp [toyGEnv, toyEnv]
  lu_prod n A := by
    rcases n with _ | n
    · simp [toyGEnv, toyLu]
    · simp [toyGEnv, toyLu]
  lu_len n A := by
    rcases n with _ | n
    · simp [toyGEnv, toyLu]
    · simp [toyGEnv, toyLu]
  blocks a b _ _ h := by
    simp only [toyGEnv, id] at h
    simp [toyGEnv, toyG, h]
  sgn_mul a b _ _ := rfl
  perm _ _ _ := Or.inl rfl
  build cds cs _ _ _ _ := ⟨List.Perm.refl _, List.Perm.refl _, rfl⟩

/-- Creation operators at 0 (flavor 0) and 1/3 (flavor 1). -/
def toyCd : List (TPsi ℚ) := [⟨⟨0, 0⟩, .creation, 0⟩, ⟨⟨1/3, 0⟩, .creation, 1⟩]

/-- Annihilation operators at 1/4 (flavor 0) and 1 (flavor 1). -/
def toyC : List (TPsi ℚ) := [⟨⟨1/4, 0⟩, .annihilation, 0⟩, ⟨⟨1, 0⟩, .annihilation, 1⟩]

theorem toy_timeDet : timeDet toyG toyC toyCd = 6 := by
  have h1 : (toyC.map Psi.time).Nodup := by decide +kernel
  have h2 : (toyCd.map Psi.time).Nodup := by decide +kernel
  have hi1 : invs (toyC.map Psi.time) = 0 := by decide +kernel
  have hi2 : invs (toyCd.map Psi.time) = 0 := by decide +kernel
  rw [timeDet_eq _ _ _ h1 h2, listDet_eq toyG toyC toyCd 2 rfl rfl, Matrix.det_fin_two, hi1, hi2]
  simp [toyC, toyCd, toyG]
  norm_num

/-- Exchange of the two flavors. -/
def toySwap (o : TPsi ℚ) : TPsi ℚ := { o with flavor := 1 - o.flavor }

/-- All hypotheses of `C54_global_update` hold in this case. -/
example : ∃ s : GState ℚ ℚ (List (TPsi ℚ) × List (TPsi ℚ)) (ℚ × ℚ) (ℚ × ℚ) (Fin 2),
    GInv toyGEnv (fun s => timeDet toyG s.2 s.1) s ∧ s.cfg.M = (toyCd, toyC) ∧
    ∃ s' acc, globalUpdate toyGEnv toySwap id (1 / 2) 2 s =
      some (s', acc) ∧ GInv toyGEnv (fun s => timeDet toyG s.2 s.1) s' := by
  obtain ⟨w, e0, hi, hn0, hr0, hl0⟩ :=
    init_inv (V := toyEnv) 1 (by norm_num) toyOps toyOps_ok 0 0 0 false
  have hft : fullTrace toyEnv toyOps = 1333 / 24 := by decide +kernel
  let s : GState ℚ ℚ (List (TPsi ℚ) × List (TPsi ℚ)) (ℚ × ℚ) (ℚ × ℚ) (Fin 2) :=
    ⟨⟨toyOps, (toyCd, toyC), 1333 / 24, 6 * (1333 / 24) * 1, 1, none⟩, [2, 3], w⟩
  have hs : GInv toyGEnv (fun s => timeDet toyG s.2 s.1) s := by
    refine ⟨⟨toyOps_ok.1, ?_⟩, rfl,
      (by decide +kernel : ∀ o ∈ toyCd ++ toyC, o.flavor < 2), rfl, ?_, ⟨rfl, ?_, ?_, ?_⟩, hft.symm, toyOps_ok,
      hi.caches, hn0, hr0, hl0⟩
    · exact (by decide +kernel : (toyOps : Multiset (TPsi ℚ)) =
        (toyCd : Multiset (TPsi ℚ)) + (toyC : Multiset (TPsi ℚ)) + (([] : List (TPsi ℚ)) : Multiset (TPsi ℚ)))
    · refine Eq.trans ?_ toy_timeDet.symm
      norm_num [s]
    · change timeDet toyG toyC toyCd ≠ 0
      rw [toy_timeDet]; norm_num
    · norm_num [s]
    · change (6 * (1333 / 24) * 1 : ℚ) = timeDet toyG toyC toyCd * (1333 / 24) * ((1 : ℤ) : ℚ)
      rw [toy_timeDet]; norm_num
  refine ⟨s, hs, rfl, ?_⟩
  obtain ⟨s', acc, h1, h2, -⟩ := C54_global_update toyGEnv _ toyGEnv_lawful
    toySwap id (1 / 2) (by norm_num) 2 (by norm_num) s hs
    (by decide +kernel : ((toyCd.map toySwap ++ toyC.map toySwap ++ []).map Psi.time).Nodup)
    (by decide +kernel : ∀ o ∈ toyCd.map toySwap ++ toyC.map toySwap ++ [],
      opT 0 ≤ o.time ∧ o.time ≤ opT 1)
    (by decide +kernel : ∀ o ∈ toyCd.map toySwap ++ toyC.map toySwap, o.flavor < 2) (by
      intro l' hl
      have : newFactors toyGEnv.G toyGEnv.lu toyGEnv.blockOf toyGEnv.nb
          (toyCd.map toySwap)
          (toyC.map toySwap) = some [2, 3] := by
        decide +kernel
      have h2 : l' = [2, 3] := by
        have := hl.symm.trans this
        exact Option.some.inj this
      subst h2
      decide +kernel)
  exact ⟨s', acc, h1, h2⟩

end CTHyb
