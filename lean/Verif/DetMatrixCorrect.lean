import Verif.DetMatrixLemmas

/-!
Correctness of the operations of `DeterminantMatrix` in the sense of `Verif.DetMatrixSpec`.  The theorems
about whole updates are in `Verif.DetMatrixProps`.
-/

namespace CTHyb

open Matrix

variable {T K : Type} [LinearOrder T] [Field K]

/-! ### Auxiliary statements -/

theorem neg_one_pow_eq (a b c : ℕ) (h : (a + b) % 2 = c % 2) :
    (-1 : ℤ) ^ c = (-1) ^ a * (-1) ^ b := by
  rw [← pow_add, ← paritySign_eq, ← paritySign_eq, paritySign, paritySign, h]

theorem Adm.nodup_new {cd c : List (Psi T)} {ch : HybChange T} (h : ch.Adm cd c) {cd' c' : List (Psi T)}
    (h1 : IsChanged cd ch.cdRem ch.cdAdd cd') (h2 : IsChanged c ch.cRem ch.cAdd c') :
    ((cd' ++ c').map Psi.time).Nodup := by
  have := h.nodup
  rw [← h1, ← h2] at this
  simpa using this

theorem nodup_left {a b : List (Psi T)} (h : ((a ++ b).map Psi.time).Nodup) : (a.map Psi.time).Nodup := by
  rw [List.map_append, List.nodup_append] at h
  exact h.1

theorem nodup_right {a b : List (Psi T)} (h : ((a ++ b).map Psi.time).Nodup) : (b.map Psi.time).Nodup := by
  rw [List.map_append, List.nodup_append] at h
  exact h.2.1

theorem IsChanged.perm {old rem add l l' : List (Psi T)} (h : IsChanged old rem add l)
    (h' : IsChanged old rem add l') : l.Perm l' := Multiset.coe_eq_coe.1 (h.trans h'.symm)

theorem isChanged_of_perm {old rem add A B old' : List (Psi T)} (h1 : old'.Perm old)
    (h2 : old' = A ++ B) (h3 : B.Perm rem) : IsChanged old rem add (A ++ add) := by
  unfold IsChanged
  rw [← Multiset.coe_eq_coe.2 h1, ← Multiset.coe_eq_coe.2 h3, h2, ← Multiset.coe_add, ← Multiset.coe_add,
    add_tsub_cancel_right]

/-- The ratio of time-ordered determinants from the one in storage order. -/
theorem ratio_of (G : Psi T → Psi T → K) {c cd c0 cd0 nc ncd c' cd' : List (Psi T)} (ρ : K) (k : ℕ)
    (p1 : c0.Perm c) (p2 : cd0.Perm cd) (hn : ((cd ++ c).map Psi.time).Nodup)
    (p3 : nc.Perm c') (p4 : ncd.Perm cd') (hn' : ((ncd ++ nc).map Psi.time).Nodup)
    (hk : (k + (opInvs cd0 + opInvs c0)) % 2 = (opInvs ncd + opInvs nc) % 2)
    (hρ : listDet G nc ncd = ρ * listDet G c0 cd0) :
    timeDet G c' cd' = ((-1 : ℤ) ^ k : ℤ) * ρ * timeDet G c cd := by
  have n1 : (c0.map Psi.time).Nodup := (p1.map Psi.time).nodup_iff.2 (nodup_right hn)
  have n2 : (cd0.map Psi.time).Nodup := (p2.map Psi.time).nodup_iff.2 (nodup_left hn)
  have n3 := nodup_right hn'
  have n4 := nodup_left hn'
  rw [← timeDet_congr G p3 p4 n3 n4, ← timeDet_congr G p1 p2 n1 n2, timeDet_eq G _ _ n3 n4,
    timeDet_eq G _ _ n1 n2, hρ]
  have h : (-1 : ℤ) ^ (opInvs nc + opInvs ncd) = (-1) ^ k * (-1) ^ (opInvs c0 + opInvs cd0) :=
    neg_one_pow_eq k (opInvs c0 + opInvs cd0) (opInvs nc + opInvs ncd) (by omega)
  have h' := congrArg (fun z : ℤ => (z : K)) h
  push_cast at h' ⊢
  rw [h']
  ring

theorem DM.Inv.exist_iff {G : Psi T → Psi T → K} {s : DM T K} (h : s.Inv G) (t : T) :
    s.exist t = true ↔ t ∈ (s.cd.ops ++ s.c.ops).map Psi.time := by
  unfold DM.exist
  rw [h.c.has, h.cd.has, List.map_append, List.mem_append, Bool.or_eq_true, decide_eq_true_eq,
    decide_eq_true_eq, or_comm]

theorem DM.Inv.withMode {G : Psi T → Psi T → K} {s : DM T K} (h : s.Inv G) (m : DMode) :
    DM.Inv G { s with mode := some m } :=
  ⟨⟨h.cd, h.c, h.cdLen, h.cLen, h.perm, h.inv⟩, h.state, h.cdOK, h.cOK, h.nodup⟩

/-! ### Exchanging rows and columns -/

theorem gEntry_swap_cd (G : Psi T → Psi T → K) (c cd : List (Psi T)) (i j a b : ℕ) (hi : i < cd.length)
    (hj : j < cd.length) :
    gEntry G c (swapAt cd i j) a b = gEntry G c cd a (Equiv.swap i j b) := by
  unfold gEntry
  rw [swapAt_getElem? _ _ _ _ hi hj]

theorem gEntry_swap_c (G : Psi T → Psi T → K) (c cd : List (Psi T)) (i j a b : ℕ) (hi : i < c.length)
    (hj : j < c.length) :
    gEntry G (swapAt c i j) cd a b = gEntry G c cd (Equiv.swap i j a) b := by
  unfold gEntry
  rw [swapAt_getElem? _ _ _ _ hi hj]

theorem blk_swap_row (f : ℕ → ℕ → K) (n i j : ℕ) (hi : i < n) (hj : j < n) :
    blk (fun a b => f (Equiv.swap i j a) b) 0 0 n n =
      (blk f 0 0 n n).submatrix (Equiv.swap ⟨i, hi⟩ ⟨j, hj⟩) (Equiv.refl _) := by
  ext a b
  have := (Function.Injective.swap_apply Fin.val_injective (⟨i, hi⟩ : Fin n) ⟨j, hj⟩ a)
  simp [blk, ← this]

theorem blk_swap_col (f : ℕ → ℕ → K) (n i j : ℕ) (hi : i < n) (hj : j < n) :
    blk (fun a b => f a (Equiv.swap i j b)) 0 0 n n =
      (blk f 0 0 n n).submatrix (Equiv.refl _) (Equiv.swap ⟨i, hi⟩ ⟨j, hj⟩) := by
  ext a b
  have := (Function.Injective.swap_apply Fin.val_injective (⟨i, hi⟩ : Fin n) ⟨j, hj⟩ b)
  simp [blk, ← this]

/-- What the exchange of operators leaves alone. -/
structure Moved (s s' : DM T K) : Prop where
  n : s'.n = s.n
  mode : s'.mode = s.mode
  state : s'.state = s.state
  cdSet : s'.cd.set = s.cd.set
  cSet : s'.c.set = s.c.set

theorem DM.swapCd_ok {G : Psi T → Psi T → K} {s : DM T K} (h : s.Core G) (i j : ℕ) (hi : i < s.n)
    (hj : j < s.n) :
    ∃ s', s.swapCd i j = .ok s' ∧ s'.Core G ∧ Moved s s' ∧ s'.cd.ops = swapAt s.cd.ops i j ∧ s'.c = s.c := by
  unfold DM.swapCd
  by_cases hij : i = j
  · subst hij
    rw [if_pos rfl]
    exact ⟨s, rfl, h, ⟨rfl, rfl, rfl, rfl, rfl⟩, (swapAt_self _ _).symm, rfl⟩
  · rw [if_neg hij]
    obtain ⟨cd', e, o, k, t⟩ := Side.swap_ok h.cd i j hij (by rw [h.cdLen]; exact hi)
      (by rw [h.cdLen]; exact hj)
    rw [e]
    refine ⟨_, rfl, ⟨k, h.c, ?_, h.cLen, ?_, ?_⟩, ⟨rfl, rfl, rfl, t, rfl⟩, o, rfl⟩
    · show cd'.ops.length = s.n
      rw [o, swapAt_length, h.cdLen]
    · show -s.perm = _
      simp only [o, opInvs]
      rw [pow_add, sign_swapAt _ h.cd.nodup i j hij (by rw [h.cdLen]; exact hi)
        (by rw [h.cdLen]; exact hj), h.perm, pow_add]
      ring
    · have hg : gEntry G s.c.ops cd'.ops = fun a b => gEntry G s.c.ops s.cd.ops a (Equiv.swap i j b) := by
        funext a b
        rw [o, gEntry_swap_cd _ _ _ _ _ _ _ (by rw [h.cdLen]; exact hi) (by rw [h.cdLen]; exact hj)]
      simp only [hg]
      rw [blk_swap_row _ _ _ _ hi hj, blk_swap_col _ _ _ _ hi hj, submatrix_mul_equiv, h.inv,
        submatrix_one_equiv]

theorem DM.swapC_ok {G : Psi T → Psi T → K} {s : DM T K} (h : s.Core G) (i j : ℕ) (hi : i < s.n)
    (hj : j < s.n) :
    ∃ s', s.swapC i j = .ok s' ∧ s'.Core G ∧ Moved s s' ∧ s'.c.ops = swapAt s.c.ops i j ∧ s'.cd = s.cd := by
  unfold DM.swapC
  by_cases hij : i = j
  · subst hij
    rw [if_pos rfl]
    exact ⟨s, rfl, h, ⟨rfl, rfl, rfl, rfl, rfl⟩, (swapAt_self _ _).symm, rfl⟩
  · rw [if_neg hij]
    obtain ⟨c', e, o, k, t⟩ := Side.swap_ok h.c i j hij (by rw [h.cLen]; exact hi)
      (by rw [h.cLen]; exact hj)
    rw [e]
    refine ⟨_, rfl, ⟨h.cd, k, h.cdLen, ?_, ?_, ?_⟩, ⟨rfl, rfl, rfl, rfl, t⟩, o, rfl⟩
    · show c'.ops.length = s.n
      rw [o, swapAt_length, h.cLen]
    · show -s.perm = _
      simp only [o, opInvs]
      rw [pow_add, sign_swapAt _ h.c.nodup i j hij (by rw [h.cLen]; exact hi)
        (by rw [h.cLen]; exact hj), h.perm, pow_add]
      ring
    · have hg : gEntry G c'.ops s.cd.ops = fun a b => gEntry G s.c.ops s.cd.ops (Equiv.swap i j a) b := by
        funext a b
        rw [o, gEntry_swap_c _ _ _ _ _ _ _ (by rw [h.cLen]; exact hi) (by rw [h.cLen]; exact hj)]
      simp only [hg]
      rw [blk_swap_col _ _ _ _ hi hj, blk_swap_row _ _ _ _ hi hj]
      have hm := submatrix_mul_equiv (blk s.inv 0 0 s.n s.n)
        (blk (gEntry G s.c.ops s.cd.ops) 0 0 s.n s.n) (Equiv.refl _)
        (Equiv.swap (⟨i, hi⟩ : Fin s.n) ⟨j, hj⟩) (Equiv.refl _)
      rw [hm, h.inv]
      exact submatrix_one_equiv _

theorem moveLoop_ok {G : Psi T → Psi T → K} (qs : List ℕ) : ∀ (rs : List ℕ) (e : ℕ) (s : DM T K),
    s.Core G → qs.length = rs.length → e ≤ s.n → qs.Pairwise (· > ·) → rs.Pairwise (· > ·) →
    (∀ q ∈ qs, q < e) → (∀ q ∈ rs, q < e) →
    ∃ s', moveLoop qs rs e s = .ok s' ∧ s'.Core G ∧ Moved s s' ∧
      s'.cd.ops = moveList qs e s.cd.ops ∧ s'.c.ops = moveList rs e s.c.ops := by
  induction qs with
  | nil =>
    intro rs e s h hl he _ _ _ _
    cases rs with
    | cons r rs => simp at hl
    | nil =>
      refine ⟨s, ?_, h, ⟨rfl, rfl, rfl, rfl, rfl⟩, ?_, ?_⟩
      · cases e <;> rfl
      · cases e <;> rfl
      · cases e <;> rfl
  | cons q qs ih =>
    intro rs e s h hl he hq hr bq br
    cases rs with
    | nil => simp at hl
    | cons r rs =>
      cases e with
      | zero => exact absurd (bq q (by simp)) (Nat.not_lt_zero _)
      | succ e =>
        rw [List.pairwise_cons] at hq hr
        have hqe := bq q (by simp)
        have hre := br r (by simp)
        obtain ⟨s1, e1, h1, m1, o1, c1⟩ := DM.swapCd_ok h q e (by omega) (by omega)
        obtain ⟨s2, e2, h2, m2, o2, c2⟩ := DM.swapC_ok h1 r e (by rw [m1.n]; omega) (by rw [m1.n]; omega)
        obtain ⟨s3, e3, h3, m3, o3, o4⟩ := ih rs e s2 h2 (by simpa using hl)
          (by rw [m2.n, m1.n]; omega) hq.2 hr.2
          (fun x hx => by have := hq.1 x hx; omega) (fun x hx => by have := hr.1 x hx; omega)
        refine ⟨s3, ?_, h3, ⟨by rw [m3.n, m2.n, m1.n], by rw [m3.mode, m2.mode, m1.mode],
          by rw [m3.state, m2.state, m1.state],
          by rw [m3.cdSet, m2.cdSet, m1.cdSet], by rw [m3.cSet, m2.cSet, m1.cSet]⟩, ?_, ?_⟩
        · rw [moveLoop, e1]
          simp only [Except.bind]
          rw [e2]
          exact e3
        · rw [o3, c2, o1]; rfl
        · rw [o4, o2, c1]; rfl

/-- After `moveToEnd` the operators to be removed are the last ones. -/
theorem DM.moveToEnd_ok {G : Psi T → Psi T → K} {s : DM T K} (h : s.Inv G) (l : List (Psi T × Psi T))
    (h1 : (l.map Prod.fst).Subperm s.cd.ops) (h2 : (l.map Prod.snd).Subperm s.c.ops) :
    ∃ s1 A B C D, s.moveToEnd l = .ok s1 ∧ s1.Core G ∧ s1.n = s.n ∧ s1.mode = s.mode ∧
      s1.cd.ops = A ++ B ∧ s1.c.ops = C ++ D ∧ B.length = l.length ∧ D.length = l.length ∧
      B.Perm (l.map Prod.fst) ∧ D.Perm (l.map Prod.snd) ∧
      s1.cd.ops.Perm s.cd.ops ∧ s1.c.ops.Perm s.c.ops ∧
      s1.removed = (B.zip D).reverse ∧ SetMinus s.cd.set s1.cd.set B ∧ SetMinus s.c.set s1.c.set D := by
  obtain ⟨qs, q1, q2, q3, q4, q5⟩ := findSorted_ok h.cd (l.map Prod.fst) h1
  obtain ⟨rs, r1, r2, r3, r4, r5⟩ := findSorted_ok h.c (l.map Prod.snd) h2
  rw [List.length_map] at q2 r2
  obtain ⟨s', e, k, m, o1, o2⟩ := moveLoop_ok qs rs s.n s h.toCore (by rw [q2, r2]) (le_refl _) q3 r3
    (fun q hq => h.cdLen ▸ q4 q hq) (fun q hq => h.cLen ▸ r4 q hq)
  obtain ⟨a1, -, a3⟩ := moveList_spec qs s.n s.cd.ops (by rw [h.cdLen]) q3 (fun q hq => h.cdLen ▸ q4 q hq)
  obtain ⟨b1, -, b3⟩ := moveList_spec rs s.n s.c.ops (by rw [h.cLen]) r3 (fun q hq => h.cLen ▸ r4 q hq)
  rw [← o1, q2] at a3
  rw [← o2, r2] at b3
  have l1 : s'.cd.ops.length = s.n := by rw [k.cdLen, m.n]
  have l2 : s'.c.ops.length = s.n := by rw [k.cLen, m.n]
  have t1 : s'.cd.ops.take s.n = s'.cd.ops := List.take_of_length_le (by omega)
  have t2 : s'.c.ops.take s.n = s'.c.ops := List.take_of_length_le (by omega)
  rw [q2] at a1
  rw [t1] at a3
  rw [t2] at b3
  have pcd : s'.cd.ops.Perm s.cd.ops := by rw [o1]; exact moveList_perm _ _ _
  have pc : s'.c.ops.Perm s.c.ops := by rw [o2]; exact moveList_perm _ _ _
  have f1 := foldl_erase (s'.cd.ops.drop (s.n - l.length)).reverse s.cd.set h.cdOK.sorted
  have f2 := foldl_erase (s'.c.ops.drop (s.n - l.length)).reverse s.c.set h.cOK.sorted
  have g1 : SetMinus s.cd.set ((s'.cd.ops.drop (s.n - l.length)).reverse.foldl
      (fun m o => (OpSet.erase m o).1) s.cd.set) (s'.cd.ops.drop (s.n - l.length)) := by
    refine ⟨f1.1, fun x => ?_⟩
    rw [f1.2, List.map_reverse, List.mem_reverse]
  have g2 : SetMinus s.c.set ((s'.c.ops.drop (s.n - l.length)).reverse.foldl
      (fun m o => (OpSet.erase m o).1) s.c.set) (s'.c.ops.drop (s.n - l.length)) := by
    refine ⟨f2.1, fun x => ?_⟩
    rw [f2.2, List.map_reverse, List.mem_reverse]
  refine ⟨{ s' with
      removed := ((s'.cd.ops.drop (s.n - l.length)).zip (s'.c.ops.drop (s.n - l.length))).reverse
      cd := ⟨s'.cd.ops, s'.cd.pos, (s'.cd.ops.drop (s.n - l.length)).reverse.foldl
        (fun m o => (OpSet.erase m o).1) s'.cd.set⟩
      c := ⟨s'.c.ops, s'.c.pos, (s'.c.ops.drop (s.n - l.length)).reverse.foldl
        (fun m o => (OpSet.erase m o).1) s'.c.set⟩ },
    s'.cd.ops.take (s.n - l.length), s'.cd.ops.drop (s.n - l.length),
    s'.c.ops.take (s.n - l.length), s'.c.ops.drop (s.n - l.length), ?_,
    ⟨⟨k.cd.nodup, k.cd.pos⟩, ⟨k.c.nodup, k.c.pos⟩, k.cdLen, k.cLen, k.perm, k.inv⟩, m.n, m.mode,
    (List.take_append_drop _ _).symm, (List.take_append_drop _ _).symm, ?_, ?_, a3.trans q5, b3.trans r5,
    pcd, pc, rfl, ?_, ?_⟩
  · unfold DM.moveToEnd
    rw [q1]
    simp only [Except.bind]
    rw [r1]
    simp only []
    rw [e]
    simp only []
    rw [if_neg (by omega), t1, t2]
  · rw [List.length_drop]; omega
  · rw [List.length_drop]; omega
  · simp only [m.cdSet]; exact g1
  · simp only [m.cSet]; exact g2

/-! ### Additions -/

theorem isChanged_add (old add : List (Psi T)) : IsChanged old [] add (old ++ add) := by
  unfold IsChanged; simp [← Multiset.coe_add]

/-- The blocks used by `try_add` and `try_remove_add` belong to the matrix of the operators after the
addition. -/
theorem newBlocks_det (G : Psi T → Psi T → K) (c cd : List (Psi T)) (N M : ℕ) (h1 : c.length = N + M)
    (h2 : cd.length = N + M) :
    (fromBlocks (blk (gEntry G c cd) 0 0 N N) (blk (fun i j => gEntry G c cd i (N + j)) 0 0 N M)
      (blk (fun i j => gEntry G c cd (N + i) j) 0 0 M N)
      (blk (fun i j => gEntry G c cd (N + i) (N + j)) 0 0 M M)) = sumMat N M (gEntry G c cd) := by
  unfold sumMat
  congr 1 <;> ext i j <;> simp [blk]

theorem ofSumMat_inv (N M : ℕ) (A : Matrix (Fin N ⊕ Fin M) (Fin N ⊕ Fin M) K) (g : ℕ → ℕ → K)
    (h : A * sumMat N M g = 1) :
    blk (ofSumMat N M A) 0 0 (N + M) (N + M) * blk g 0 0 (N + M) (N + M) = 1 := by
  rw [blk_ofSumMat, blk_eq_submatrix N M g, submatrix_mul_equiv, h, submatrix_one_equiv]

theorem DM.insertion_ok {G : Psi T → Psi T → K} {s : DM T K} (h : s.Inv G) (l : List (Psi T × Psi T))
    (hn : (((s.cd.ops ++ l.map Prod.fst) ++ (s.c.ops ++ l.map Prod.snd)).map Psi.time).Nodup) :
    s.insertionPossible l = true := by
  have hn2 : (((s.cd.ops ++ s.c.ops) ++ (l.map Prod.fst ++ l.map Prod.snd)).map Psi.time).Nodup := by
    refine (List.Perm.map Psi.time ?_).nodup_iff.1 hn
    rw [← Multiset.coe_eq_coe]
    simp only [← Multiset.coe_add]
    abel
  rw [List.map_append, List.nodup_append] at hn2
  unfold DM.insertionPossible
  rw [if_neg, Bool.not_eq_true', hasDuplicate_iff, (pairTimes_perm l).nodup_iff]
  · exact hn2.2.1
  · intro hany
    rw [List.any_eq_true] at hany
    obtain ⟨p, hp, hex⟩ := hany
    rw [Bool.or_eq_true, h.exist_iff, h.exist_iff] at hex
    rcases hex with hex | hex
    · exact hn2.2.2 _ hex _ (List.mem_map_of_mem
        (List.mem_append_left _ (List.mem_map_of_mem (f := Prod.fst) hp))) rfl
    · exact hn2.2.2 _ hex _ (List.mem_map_of_mem
        (List.mem_append_right _ (List.mem_map_of_mem (f := Prod.snd) hp))) rfl

theorem DM.tryAdd_ok {G : Psi T → Psi T → K} {s : DM T K} (h : s.Inv G) (hm : s.mode = some .add)
    (ch : HybChange T) (ha : ch.Adm s.cd.ops s.c.ops) (l : List (Psi T × Psi T))
    (hr1 : ch.cdRem = []) (hr2 : ch.cRem = []) (ha1 : ch.cdAdd = l.map Prod.fst)
    (ha2 : ch.cAdd = l.map Prod.snd) :
    ∃ r s1, s.tryAdd G l = .ok (r, s1) ∧ DM.TryOK G s ch r s1 := by
  have hcd : IsChanged s.cd.ops ch.cdRem ch.cdAdd (s.cd.ops ++ l.map Prod.fst) := by
    rw [hr1, ha1]; exact isChanged_add _ _
  have hc : IsChanged s.c.ops ch.cRem ch.cAdd (s.c.ops ++ l.map Prod.snd) := by
    rw [hr2, ha2]; exact isChanged_add _ _
  have hn := Adm.nodup_new ha hcd hc
  have hlen : s.cd.ops.length = s.c.ops.length := by rw [h.cdLen, h.cLen]
  obtain ⟨cd', c', k, e1, o1, o2, k1, k2, hk⟩ := addOps_ok l s.cd s.c 0 h.cdOK h.cOK hlen
    (nodup_left hn) (nodup_right hn)
  have lcd : cd'.ops.length = s.n + l.length := by rw [o1, List.length_append, List.length_map, h.cdLen]
  have lc : c'.ops.length = s.n + l.length := by rw [o2, List.length_append, List.length_map, h.cLen]
  rw [Nat.zero_add] at e1
  unfold DM.tryAdd DM.check
  rw [if_pos h.state]
  simp only [Except.bind]
  rw [if_pos (DM.insertion_ok h l hn), e1]
  refine ⟨_, _, rfl, ?_⟩
  have hA : blk (gEntry G c'.ops cd'.ops) 0 0 s.n s.n = blk (gEntry G s.c.ops s.cd.ops) 0 0 s.n s.n := by
    rw [o1, o2, blk_gEntry_append _ _ _ _ _ _ h.cLen h.cdLen]
  have hdet := C13_det_ratio_up (blk (gEntry G s.c.ops s.cd.ops) 0 0 s.n s.n)
    (blk (fun i j => gEntry G c'.ops cd'.ops i (s.n + j)) 0 0 s.n l.length)
    (blk (fun i j => gEntry G c'.ops cd'.ops (s.n + i) j) 0 0 l.length s.n)
    (blk (fun i j => gEntry G c'.ops cd'.ops (s.n + i) (s.n + j)) 0 0 l.length l.length)
    (blk s.inv 0 0 s.n s.n) h.inv
  have hinv := C13_inverse_up (blk (gEntry G s.c.ops s.cd.ops) 0 0 s.n s.n)
    (blk (fun i j => gEntry G c'.ops cd'.ops i (s.n + j)) 0 0 s.n l.length)
    (blk (fun i j => gEntry G c'.ops cd'.ops (s.n + i) j) 0 0 l.length s.n)
    (blk (fun i j => gEntry G c'.ops cd'.ops (s.n + i) (s.n + j)) 0 0 l.length l.length)
    (blk s.inv 0 0 s.n s.n) h.inv
  rw [← hA, newBlocks_det G c'.ops cd'.ops s.n l.length lc lcd] at hdet hinv
  refine ⟨?_, ?_, ?_⟩
  · -- reject
    obtain ⟨cd2, f1, f2, f3⟩ := Side.truncate_ok k1 s.cd.ops (l.map Prod.fst) o1
    obtain ⟨c2, g1, g2, g3⟩ := Side.truncate_ok k2 s.c.ops (l.map Prod.snd) o2
    rw [h.cdLen, List.length_map] at f1
    rw [h.cLen, List.length_map] at g1
    have hpl : cd'.pos.length = s.n + l.length := by
      rw [k1.pos.length_eq, List.length_zipIdx, List.length_map, lcd]
    simp only [DM.reject, hm]
    unfold DM.rejectAdd DM.check
    simp only [if_true, Except.bind, hpl]
    rw [if_neg (by omega), Nat.add_sub_cancel_left, g1]
    simp only []
    rw [f1]
    refine ⟨_, rfl, ⟨⟨f3.toCore, g3.toCore, ?_, ?_, ?_, ?_⟩, rfl, f3, g3, ?_⟩, ?_, ?_⟩
    · show cd2.ops.length = s.n
      rw [f2, h.cdLen]
    · show c2.ops.length = s.n
      rw [g2, h.cLen]
    · simp only [f2, g2]; exact h.perm
    · simp only [f2, g2]; exact h.inv
    · simp only [f2, g2]; exact h.nodup
    · rw [f2]
    · rw [g2]
  · -- perform
    intro hr
    have hne := right_ne_zero_of_mul hr
    simp only [DM.perform, hm]
    unfold DM.performAdd DM.check
    simp only [if_true, Except.bind]
    refine ⟨_, rfl, ⟨⟨k1.toCore, k2.toCore, lcd, lc, ?_, ?_⟩, rfl, k1, k2, ?_⟩, ?_, ?_⟩
    · simp only [h.perm, paritySign_eq]
      rw [mul_comm]
      exact (neg_one_pow_eq k _ _ (by omega)).symm
    · exact ofSumMat_inv _ _ _ _ (hinv hne)
    · simp only [o1, o2]; exact hn
    · simp only [o1]; exact hcd
    · simp only [o2]; exact hc
  · -- ratio
    intro _ cs cds h1 h2
    have := ratio_of G (c := s.c.ops) (cd := s.cd.ops) (c0 := s.c.ops) (cd0 := s.cd.ops) (nc := c'.ops)
      (ncd := cd'.ops) (c' := cs) (cd' := cds)
      (detRatioUp (blk (fun i j => gEntry G c'.ops cd'.ops i (s.n + j)) 0 0 s.n l.length)
        (blk (fun i j => gEntry G c'.ops cd'.ops (s.n + i) j) 0 0 l.length s.n)
        (blk (fun i j => gEntry G c'.ops cd'.ops (s.n + i) (s.n + j)) 0 0 l.length l.length)
        (blk s.inv 0 0 s.n s.n)) k
      (List.Perm.refl _) (List.Perm.refl _) h.nodup (by rw [o2]; exact hc.perm h1)
      (by rw [o1]; exact hcd.perm h2) (by rw [o1, o2]; exact hn) (by omega)
      (by rw [listDet_blk G _ _ _ lc lcd, listDet_blk G _ _ _ h.cLen h.cdLen, ← sumMat_det, hdet, hA])
    rw [this, paritySign_eq]

/-! ### Removals -/

theorem subperm_mem_time {l ops : List (Psi T)} (h : l.Subperm ops) {t : T} (ht : t ∈ l.map Psi.time) :
    t ∈ ops.map Psi.time := by
  obtain ⟨x, hx, rfl⟩ := List.mem_map.1 ht
  exact List.mem_map_of_mem (h.subset hx)

theorem rem_exist {G : Psi T → Psi T → K} {s : DM T K} (h : s.Inv G) (l : List (Psi T × Psi T))
    (h1 : (l.map Prod.fst).Subperm s.cd.ops) (h2 : (l.map Prod.snd).Subperm s.c.ops) :
    (l.any fun p => !(s.exist p.1.time && s.exist p.2.time)) = false := by
  rw [List.any_eq_false]
  intro p hp
  have e1 : s.exist p.1.time = true := by
    rw [h.exist_iff, List.map_append, List.mem_append]
    exact Or.inl (subperm_mem_time h1 (List.mem_map_of_mem (List.mem_map_of_mem (f := Prod.fst) hp)))
  have e2 : s.exist p.2.time = true := by
    rw [h.exist_iff, List.map_append, List.mem_append]
    exact Or.inr (subperm_mem_time h2 (List.mem_map_of_mem (List.mem_map_of_mem (f := Prod.snd) hp)))
  simp [e1, e2]

theorem rem_nodup {G : Psi T → Psi T → K} {s : DM T K} (h : s.Inv G) (l : List (Psi T × Psi T))
    (h1 : (l.map Prod.fst).Subperm s.cd.ops) (h2 : (l.map Prod.snd).Subperm s.c.ops) :
    hasDuplicate (pairTimes l) = false := by
  rw [hasDuplicate_iff, (pairTimes_perm l).nodup_iff]
  obtain ⟨l', hp, hs⟩ := h1.append h2
  exact (hp.map Psi.time).nodup_iff.1 ((hs.map Psi.time).nodup h.nodup)

/-- The sets after the removal of the last operators. -/
theorem sideOK_of_minus {s s' : Side T} {old : Side T} {A B : List (Psi T)} (hs : old.OK)
    (hp : (A ++ B).Perm old.ops) (h1 : SetMinus old.set s.set B) (h2 : SetMinus s.set s'.set B)
    (hc : s'.Core) (ho : s'.ops = A) : s'.OK := by
  refine ⟨hc, h2.1, fun x => ?_⟩
  have hn : ((A ++ B).map Psi.time).Nodup := (hp.map Psi.time).nodup_iff.2 hs.nodup
  rw [List.map_append, List.nodup_append] at hn
  rw [h2.2, h1.2, hs.mem, ho, ← hp.mem_iff, List.mem_append]
  constructor
  · rintro ⟨⟨h3 | h3, h4⟩, -⟩
    · exact h3
    · exact absurd (List.mem_map_of_mem h3) h4
  · intro h3
    have : x.time ∉ B.map Psi.time := fun hm => hn.2.2 _ (List.mem_map_of_mem h3) _ hm rfl
    exact ⟨⟨Or.inl h3, this⟩, this⟩

theorem zip_fst {α β : Type} (B : List α) (D : List β) (h : B.length = D.length) :
    (B.zip D).map Prod.fst = B := List.map_fst_zip (le_of_eq h)

theorem zip_snd {α β : Type} (B : List α) (D : List β) (h : B.length = D.length) :
    (B.zip D).map Prod.snd = D := List.map_snd_zip (le_of_eq h.symm)

theorem sumMat_core {G : Psi T → Psi T → K} {s : DM T K} (h : s.Core G) (N R : ℕ) (hn : s.n = N + R) :
    sumMat N R s.inv * sumMat N R (gEntry G s.c.ops s.cd.ops) = 1 := by
  rw [sumMat_mul_iff, ← hn]; exact h.inv

theorem blk_ofMat_down (f : ℕ → ℕ → K) (N R N' R' : ℕ) (h1 : N' = N) (h2 : R' = R) :
    blk (ofMat (inverseDown (sumMat N' R' f))) 0 0 N N = inverseDown (sumMat N R f) := by
  subst h1 h2
  exact blk_ofMat _

theorem DM.tryRemove_ok {G : Psi T → Psi T → K} {s : DM T K} (h : s.Inv G) (hm : s.mode = some .rem)
    (ch : HybChange T) (ha : ch.Adm s.cd.ops s.c.ops) (l : List (Psi T × Psi T))
    (ha1 : ch.cdAdd = []) (ha2 : ch.cAdd = []) (hr1 : ch.cdRem = l.map Prod.fst)
    (hr2 : ch.cRem = l.map Prod.snd) :
    ∃ r s1, s.tryRemove l = .ok (r, s1) ∧ DM.TryOK G s ch r s1 := by
  have h1 : (l.map Prod.fst).Subperm s.cd.ops := hr1 ▸ ha.cdRem
  have h2 : (l.map Prod.snd).Subperm s.c.ops := hr2 ▸ ha.cRem
  obtain ⟨s1, A, B, C, D, e1, hc1, hn1, hm1, oA, oC, lB, lD, pB, pD, pcd, pc, hrem, sB, sD⟩ :=
    DM.moveToEnd_ok h l h1 h2
  obtain ⟨cd', c', k, e2, g2, g3, g4, g5, g6, g7, g8⟩ := removeLoop_ok l.length s1.cd s1.c 0 A B C D
    hc1.cd hc1.c sB.1 sD.1 oA oC lB lD
  have hcd : IsChanged s.cd.ops ch.cdRem ch.cdAdd A := by
    have := isChanged_of_perm (add := ch.cdAdd) pcd oA (hr1 ▸ pB)
    rwa [ha1, List.append_nil, ← ha1] at this
  have hc : IsChanged s.c.ops ch.cRem ch.cAdd C := by
    have := isChanged_of_perm (add := ch.cAdd) pc oC (hr2 ▸ pD)
    rwa [ha2, List.append_nil, ← ha2] at this
  have hn := Adm.nodup_new ha hcd hc
  have lA : A.length + l.length = s.n := by
    have := hc1.cdLen
    rw [oA, List.length_append, hn1] at this
    omega
  have lC : C.length + l.length = s.n := by
    have := hc1.cLen
    rw [oC, List.length_append, hn1] at this
    omega
  have hN : s.n - l.length + l.length = s.n := by omega
  have okcd : cd'.OK := sideOK_of_minus h.cdOK (by rw [← oA]; exact pcd) sB g6 g4 g2
  have okc : c'.OK := sideOK_of_minus h.cOK (by rw [← oC]; exact pc) sD g7 g5 g3
  have hmul := sumMat_core hc1 (s.n - l.length) l.length (by omega)
  have hdet := C14_det_ratio_down _ _ hmul
  have hinv := C14_inverse_down _ _ hmul
  have hA : (sumMat (s.n - l.length) l.length (gEntry G s1.c.ops s1.cd.ops)).toBlocks₁₁ =
      blk (gEntry G C A) 0 0 (s.n - l.length) (s.n - l.length) := by
    unfold sumMat
    rw [toBlocks_fromBlocks₁₁, oA, oC, blk_gEntry_append _ _ _ _ _ _ (by omega) (by omega)]
  rw [hA] at hdet hinv
  rw [Nat.zero_add] at e2
  unfold DM.tryRemove DM.check
  rw [if_pos h.state]
  simp only [Except.bind]
  unfold DM.removalPossible
  rw [rem_exist h l h1 h2, rem_nodup h l h1 h2]
  simp only [Bool.false_eq_true, if_false, Bool.not_false, if_true]
  rw [e1]
  simp only []
  unfold removeLast
  rw [if_neg (by rw [oA, List.length_append]; omega), e2]
  refine ⟨_, _, rfl, ?_⟩
  have hrl : s1.removed.length = l.length := by
    rw [hrem, List.length_reverse, List.length_zip]; omega
  refine ⟨?_, ?_, ?_⟩
  · -- reject
    have hnc : ((s1.cd.ops).map Psi.time).Nodup := hc1.cd.nodup
    have hnc2 : ((s1.c.ops).map Psi.time).Nodup := hc1.c.nodup
    obtain ⟨cd2, c2, k2, f1, f2, f3, f4, f5, -⟩ := addOps_ok (B.zip D) cd' c' 0 okcd okc
      (by rw [g2, g3]; omega) (by rw [g2, zip_fst _ _ (by omega), ← oA]; exact hnc)
      (by rw [g3, zip_snd _ _ (by omega), ← oC]; exact hnc2)
    rw [g2, zip_fst _ _ (by omega), ← oA] at f2
    rw [g3, zip_snd _ _ (by omega), ← oC] at f3
    simp only [DM.reject, hm1, hm]
    unfold DM.rejectRemove DM.check
    simp only [if_true, Except.bind]
    rw [hrem, List.reverse_reverse, f1]
    refine ⟨_, rfl, ⟨⟨f4.toCore, f5.toCore, ?_, ?_, ?_, ?_⟩, rfl, f4, f5, ?_⟩, ?_, ?_⟩
    · simp only [f2]; exact hc1.cdLen
    · simp only [f3]; exact hc1.cLen
    · simp only [f2, f3]; exact hc1.perm
    · simp only [f2, f3]; exact hc1.inv
    · simp only [f2, f3]; exact ((pcd.append pc).map Psi.time).nodup_iff.2 h.nodup
    · simp only [f2]; exact pcd
    · simp only [f3]; exact pc
  · -- perform
    intro hr
    have hne := right_ne_zero_of_mul hr
    simp only [DM.perform, hm1, hm]
    unfold DM.performRemove DM.check
    simp only [if_true, Except.bind, hrl, hn1]
    rw [if_neg (by omega)]
    refine ⟨_, rfl, ⟨⟨okcd.toCore, okc.toCore, ?_, ?_, ?_, ?_⟩, rfl, okcd, okc, ?_⟩, ?_, ?_⟩
    · simp only [g2]; omega
    · simp only [g3]; omega
    · simp only [g2, g3, hc1.perm, paritySign_eq]
      rw [mul_comm]
      exact (neg_one_pow_eq k _ _ (by omega)).symm
    · simp only [g2, g3]
      rw [blk_ofMat_down _ _ _ _ _ (by rw [hrl, hn1]) hrl]
      exact hinv hne
    · simp only [g2, g3]; exact hn
    · simp only [g2]; exact hcd
    · simp only [g3]; exact hc
  · -- ratio
    intro _ cs cds i1 i2
    have := ratio_of G (c := s.c.ops) (cd := s.cd.ops) (c0 := s1.c.ops) (cd0 := s1.cd.ops) (nc := C)
      (ncd := A) (c' := cs) (cd' := cds) (detRatioDown (sumMat (s.n - l.length) l.length s1.inv)) k
      pc pcd h.nodup (hc.perm i1) (hcd.perm i2) hn (by omega)
      (by rw [listDet_blk G _ _ (s.n - l.length) (by omega) (by omega),
            listDet_blk G _ _ s1.n hc1.cLen hc1.cdLen, hdet, sumMat_det, hN, hn1])
    rw [this, paritySign_eq]

/-! ### Simultaneous removals and additions -/

theorem remAdd_possible {G : Psi T → Psi T → K} {s : DM T K} (h : s.Inv G) (ch : HybChange T)
    (ha : ch.Adm s.cd.ops s.c.ops) (lr la : List (Psi T × Psi T)) (hr1 : ch.cdRem = lr.map Prod.fst)
    (hr2 : ch.cRem = lr.map Prod.snd) (ha1 : ch.cdAdd = la.map Prod.fst)
    (ha2 : ch.cAdd = la.map Prod.snd) : s.removalInsertionPossible lr la = .ok true := by
  have h1 : (lr.map Prod.fst).Subperm s.cd.ops := hr1 ▸ ha.cdRem
  have h2 : (lr.map Prod.snd).Subperm s.c.ops := hr2 ▸ ha.cRem
  have hnd := ha.nodup
  rw [hr1, hr2, ha1, ha2, Multiset.map_add, Multiset.map_add, Multiset.map_add] at hnd
  have hadd : hasDuplicate (pairTimes la) = false := by
    rw [hasDuplicate_iff, (pairTimes_perm la).nodup_iff, ← Multiset.coe_nodup, ← Multiset.map_coe,
      ← Multiset.coe_add, Multiset.map_add]
    refine Multiset.nodup_of_le ?_ hnd
    exact add_le_add (Multiset.le_add_left _ _) (Multiset.le_add_left _ _)
  -- an operator at the time of an added one is removed
  have key : ∀ t, t ∈ pairTimes la → s.exist t = true → t ∈ pairTimes lr := by
    intro t ht hex
    rw [h.exist_iff, List.map_append, List.mem_append, List.mem_map, List.mem_map] at hex
    have ht' : t ∈ (((la.map Prod.fst : List (Psi T)) : Multiset (Psi T)) +
        ((la.map Prod.snd : List (Psi T)) : Multiset (Psi T))).map Psi.time := by
      rw [Multiset.coe_add, Multiset.map_coe, Multiset.mem_coe]
      exact (pairTimes_perm la).mem_iff.1 ht
    rw [Multiset.map_add] at ht'
    have hdis : ∀ x, (x ∈ (s.cd.ops : Multiset (Psi T)) - (lr.map Prod.fst : List (Psi T)) ∨
        x ∈ (s.c.ops : Multiset (Psi T)) - (lr.map Prod.snd : List (Psi T))) → x.time = t → False := by
      intro x hx hxt
      have e : ∀ a b c d : Multiset T, a + b + (c + d) = (a + c) + (b + d) := by
        intro a b c d; abel
      rw [e, Multiset.nodup_add, Multiset.disjoint_left] at hnd
      refine hnd.2.2 ?_ ht'
      rw [Multiset.mem_add]
      rcases hx with hx | hx
      · exact Or.inl (hxt ▸ Multiset.mem_map_of_mem Psi.time hx)
      · exact Or.inr (hxt ▸ Multiset.mem_map_of_mem Psi.time hx)
    rw [(pairTimes_perm lr).mem_iff, List.map_append, List.mem_append]
    rcases hex with ⟨x, hx, hxt⟩ | ⟨x, hx, hxt⟩
    · left
      by_contra hno
      refine hdis x (Or.inl ?_) hxt
      rw [Multiset.mem_sub_of_nodup (by simpa using List.Nodup.of_map _ h.cd.nodup)]
      exact ⟨by simpa using hx, fun hm => hno (hxt ▸ List.mem_map_of_mem (by simpa using hm))⟩
    · right
      by_contra hno
      refine hdis x (Or.inr ?_) hxt
      rw [Multiset.mem_sub_of_nodup (by simpa using List.Nodup.of_map _ h.c.nodup)]
      exact ⟨by simpa using hx, fun hm => hno (hxt ▸ List.mem_map_of_mem (by simpa using hm))⟩
  have hany : (la.any fun p => !((!s.exist p.1.time || decide (p.1.time ∈ pairTimes lr)) &&
      (!s.exist p.2.time || decide (p.2.time ∈ pairTimes lr)))) = false := by
    rw [List.any_eq_false]
    intro p hp
    have e : ∀ t, t ∈ pairTimes la → (!s.exist t || decide (t ∈ pairTimes lr)) = true := by
      intro t ht
      cases hx : s.exist t with
      | false => rfl
      | true => simpa using key t ht hx
    rw [e _ ((mem_pairTimes _ _).2 ⟨p, hp, Or.inl rfl⟩), e _ ((mem_pairTimes _ _).2 ⟨p, hp, Or.inr rfl⟩)]
    simp
  unfold DM.removalInsertionPossible
  rw [rem_exist h lr h1 h2, hany, hadd, rem_nodup h lr h1 h2]
  rfl

theorem blk_ofMat_inv_zero (f : ℕ → ℕ → K) (P M : ℕ) (hP : P = M) (hd : (blk f 0 0 M M).det ≠ 0) :
    blk (ofMat (blk f 0 0 M M)⁻¹) 0 0 P P * blk f 0 0 P P = 1 := by
  subst hP
  rw [blk_ofMat]
  exact nonsing_inv_mul _ (isUnit_iff_ne_zero.2 hd)

theorem DM.tryRemoveAdd_ok [DecidableEq K] {G : Psi T → Psi T → K} {s : DM T K} (h : s.Inv G)
    (hm : s.mode = some .remAdd) (ch : HybChange T) (ha : ch.Adm s.cd.ops s.c.ops)
    (lr la : List (Psi T × Psi T)) (hr1 : ch.cdRem = lr.map Prod.fst) (hr2 : ch.cRem = lr.map Prod.snd)
    (ha1 : ch.cdAdd = la.map Prod.fst) (ha2 : ch.cAdd = la.map Prod.snd) (hlr : 0 < lr.length)
    (hla : 0 < la.length) :
    ∃ r s1, s.tryRemoveAdd G lr la = .ok (r, s1) ∧ DM.TryOK G s ch r s1 := by
  have h1 : (lr.map Prod.fst).Subperm s.cd.ops := hr1 ▸ ha.cdRem
  have h2 : (lr.map Prod.snd).Subperm s.c.ops := hr2 ▸ ha.cRem
  obtain ⟨s1, A, B, C, D, e1, hc1, hn1, hm1, oA, oC, lB, lD, pB, pD, pcd, pc, hrem, sB, sD⟩ :=
    DM.moveToEnd_ok h lr h1 h2
  obtain ⟨cd', c', k, e2, g2, g3, g4, g5, g6, g7, g8⟩ := removeLoop_ok lr.length s1.cd s1.c 0 A B C D
    hc1.cd hc1.c sB.1 sD.1 oA oC lB lD
  have hcd : IsChanged s.cd.ops ch.cdRem ch.cdAdd (A ++ la.map Prod.fst) :=
    ha1 ▸ isChanged_of_perm (add := ch.cdAdd) pcd oA (hr1 ▸ pB)
  have hc : IsChanged s.c.ops ch.cRem ch.cAdd (C ++ la.map Prod.snd) :=
    ha2 ▸ isChanged_of_perm (add := ch.cAdd) pc oC (hr2 ▸ pD)
  have hn := Adm.nodup_new ha hcd hc
  have lA : A.length + lr.length = s.n := by
    have := hc1.cdLen
    rw [oA, List.length_append, hn1] at this
    omega
  have lC : C.length + lr.length = s.n := by
    have := hc1.cLen
    rw [oC, List.length_append, hn1] at this
    omega
  have hN : s.n - lr.length + lr.length = s.n := by omega
  have okcd : cd'.OK := sideOK_of_minus h.cdOK (by rw [← oA]; exact pcd) sB g6 g4 g2
  have okc : c'.OK := sideOK_of_minus h.cOK (by rw [← oC]; exact pc) sD g7 g5 g3
  obtain ⟨cd2, c2, k2, f1, f2, f3, f4, f5, f6⟩ := addOps_ok la cd' c' 0 okcd okc
    (by rw [g2, g3]; omega) (by rw [g2]; exact nodup_left hn) (by rw [g3]; exact nodup_right hn)
  rw [g2] at f2
  rw [g3] at f3
  rw [g2, g3] at f6
  rw [Nat.zero_add] at e2 f1
  have lcd : cd2.ops.length = s.n - lr.length + la.length := by
    rw [f2, List.length_append, List.length_map]; omega
  have lc : c2.ops.length = s.n - lr.length + la.length := by
    rw [f3, List.length_append, List.length_map]; omega
  have hmul := sumMat_core hc1 (s.n - lr.length) lr.length (by omega)
  have hA : (sumMat (s.n - lr.length) lr.length (gEntry G s1.c.ops s1.cd.ops)).toBlocks₁₁ =
      blk (gEntry G c2.ops cd2.ops) 0 0 (s.n - lr.length) (s.n - lr.length) := by
    unfold sumMat
    rw [toBlocks_fromBlocks₁₁, oA, oC, f2, f3, blk_gEntry_append _ _ _ _ _ _ (by omega) (by omega),
      blk_gEntry_append _ _ _ _ _ _ (by omega) (by omega)]
  have hdet := C15_replace_det_ratio _ _
    (blk (fun i j => gEntry G c2.ops cd2.ops i (s.n - lr.length + j)) 0 0 (s.n - lr.length) la.length)
    (blk (fun i j => gEntry G c2.ops cd2.ops (s.n - lr.length + i) j) 0 0 la.length (s.n - lr.length))
    (blk (fun i j => gEntry G c2.ops cd2.ops (s.n - lr.length + i) (s.n - lr.length + j)) 0 0
      la.length la.length) hmul
  have hinv := C15_replace_inverse _ _
    (blk (fun i j => gEntry G c2.ops cd2.ops i (s.n - lr.length + j)) 0 0 (s.n - lr.length) la.length)
    (blk (fun i j => gEntry G c2.ops cd2.ops (s.n - lr.length + i) j) 0 0 la.length (s.n - lr.length))
    (blk (fun i j => gEntry G c2.ops cd2.ops (s.n - lr.length + i) (s.n - lr.length + j)) 0 0
      la.length la.length) hmul
  rw [hA, newBlocks_det G c2.ops cd2.ops (s.n - lr.length) la.length lc lcd] at hdet hinv
  have hsing : ∀ (Q : Matrix (Fin (s.n - lr.length)) (Fin la.length) K) R S,
      replaceDetRatio (sumMat (s.n - lr.length) lr.length s1.inv) Q R S ≠ 0 →
      Fintype.card (Fin (s.n - lr.length)) = 0 ∨
        (sumMat (s.n - lr.length) lr.length s1.inv).toBlocks₂₂.det ≠ 0 := by
    intro Q R S hne
    by_contra hcon
    rw [not_or, not_not] at hcon
    apply hne
    unfold replaceDetRatio
    rw [if_neg hcon.1, if_pos hcon.2]
  unfold DM.tryRemoveAdd DM.check
  rw [if_pos h.state]
  simp only [Except.bind]
  rw [remAdd_possible h ch ha lr la hr1 hr2 ha1 ha2]
  simp only [if_true]
  rw [if_pos hlr, e1]
  simp only []
  unfold removeLast
  rw [if_neg (by rw [oA, List.length_append]; omega), e2]
  simp only []
  rw [f1]
  refine ⟨_, _, rfl, ?_⟩
  refine ⟨?_, ?_, ?_⟩
  · -- reject
    obtain ⟨cd3, c3, k3, a1, a2, a3, a4, a5, a6, a7, -⟩ := removeLoop_ok la.length cd2 c2 0 A
      (la.map Prod.fst) C (la.map Prod.snd) f4.toCore f5.toCore f4.sorted f5.sorted f2 f3 (by simp) (by simp)
    have ok3 : cd3.OK := by
      refine ⟨a4, a6.1, fun x => ?_⟩
      have hnn := f4.nodup
      rw [f2, List.map_append, List.nodup_append] at hnn
      rw [a6.2, f4.mem, f2, a2, List.mem_append]
      constructor
      · rintro ⟨b1 | b1, b2⟩
        · exact b1
        · exact absurd (List.mem_map_of_mem b1) b2
      · exact fun b1 => ⟨Or.inl b1, fun b2 => hnn.2.2 _ (List.mem_map_of_mem b1) _ b2 rfl⟩
    have ok4 : c3.OK := by
      refine ⟨a5, a7.1, fun x => ?_⟩
      have hnn := f5.nodup
      rw [f3, List.map_append, List.nodup_append] at hnn
      rw [a7.2, f5.mem, f3, a3, List.mem_append]
      constructor
      · rintro ⟨b1 | b1, b2⟩
        · exact b1
        · exact absurd (List.mem_map_of_mem b1) b2
      · exact fun b1 => ⟨Or.inl b1, fun b2 => hnn.2.2 _ (List.mem_map_of_mem b1) _ b2 rfl⟩
    obtain ⟨cd4, c4, k4, b1, b2, b3, b4, b5, -⟩ := addOps_ok (B.zip D) cd3 c3 0 ok3 ok4
      (by rw [a2, a3]; omega) (by rw [a2, zip_fst _ _ (by omega), ← oA]; exact hc1.cd.nodup)
      (by rw [a3, zip_snd _ _ (by omega), ← oC]; exact hc1.c.nodup)
    rw [a2, zip_fst _ _ (by omega), ← oA] at b2
    rw [a3, zip_snd _ _ (by omega), ← oC] at b3
    simp only [DM.reject, hm1, hm]
    unfold DM.rejectRemoveAdd DM.check
    simp only [if_true, Except.bind]
    unfold removeLast
    rw [if_neg (by rw [lcd]; omega), a1]
    simp only []
    rw [hrem, List.reverse_reverse, b1]
    refine ⟨_, rfl, ⟨⟨b4.toCore, b5.toCore, ?_, ?_, ?_, ?_⟩, rfl, b4, b5, ?_⟩, ?_, ?_⟩
    · simp only [b2]; exact hc1.cdLen
    · simp only [b3]; exact hc1.cLen
    · simp only [b2, b3]; exact hc1.perm
    · simp only [b2, b3]; exact hc1.inv
    · simp only [b2, b3]; exact ((pcd.append pc).map Psi.time).nodup_iff.2 h.nodup
    · simp only [b2]; exact pcd
    · simp only [b3]; exact pc
  · -- perform
    intro hr
    have hne := right_ne_zero_of_mul hr
    have hi := hinv hne
    have hs := hsing _ _ _ hne
    rw [Fintype.card_fin] at hs
    simp only [DM.perform, hm1, hm]
    unfold DM.performRemoveAdd
    simp only []
    have happ : ∃ inv', RHelper.apply
        ⟨s.n - lr.length, la.length,
          if s.n - lr.length = 0 ∨ (sumMat (s.n - lr.length) lr.length s1.inv).toBlocks₂₂.det = 0 then none
          else some (ofMat (replaceMmat (sumMat (s.n - lr.length) lr.length s1.inv)),
            ofMat (replaceInvTSp (replaceMmat (sumMat (s.n - lr.length) lr.length s1.inv))
              (blk (fun i j => gEntry G c2.ops cd2.ops i (s.n - lr.length + j)) 0 0 (s.n - lr.length) la.length)
              (blk (fun i j => gEntry G c2.ops cd2.ops (s.n - lr.length + i) j) 0 0 la.length (s.n - lr.length))
              (blk (fun i j => gEntry G c2.ops cd2.ops (s.n - lr.length + i) (s.n - lr.length + j)) 0 0
                la.length la.length)))⟩
        (s.n - lr.length) la.length
        (fun i j => gEntry G c2.ops cd2.ops i (s.n - lr.length + j))
        (fun i j => gEntry G c2.ops cd2.ops (s.n - lr.length + i) j)
        (fun i j => gEntry G c2.ops cd2.ops (s.n - lr.length + i) (s.n - lr.length + j)) =
          .ok (s.n - lr.length + la.length, inv') ∧
        blk inv' 0 0 (s.n - lr.length + la.length) (s.n - lr.length + la.length) *
          blk (gEntry G c2.ops cd2.ops) 0 0 (s.n - lr.length + la.length) (s.n - lr.length + la.length) = 1 := by
      unfold RHelper.apply
      rw [if_neg (by simp)]
      by_cases hz : s.n - lr.length = 0
      · simp only [hz, true_or, if_true, Nat.zero_add]
        refine ⟨_, rfl, ?_⟩
        have hS : (blk (gEntry G c2.ops cd2.ops) 0 0 la.length la.length).det ≠ 0 := by
          intro h0
          apply hne
          unfold replaceDetRatio
          rw [if_pos (by rw [Fintype.card_fin, hz])]
          simp only [hz, Nat.zero_add]
          show (blk (gEntry G c2.ops cd2.ops) 0 0 la.length la.length).det * _ = 0
          rw [h0, zero_mul]
        exact blk_ofMat_inv_zero _ _ _ (by omega) hS
      · have hd := hs.resolve_left hz
        rw [if_neg (by rw [not_or]; exact ⟨hz, hd⟩)]
        simp only [blk_ofMat]
        exact ⟨_, rfl, ofSumMat_inv _ _ _ _ hi⟩
    obtain ⟨inv', i1, i2⟩ := happ
    rw [i1]
    simp only [Except.bind, DM.check, if_true, Bool.false_eq_true, if_false]
    refine ⟨_, rfl, ⟨⟨f4.toCore, f5.toCore, lcd, lc, ?_, i2⟩, rfl, f4, f5, ?_⟩, ?_, ?_⟩
    · simp only [hc1.perm, paritySign_eq]
      rw [mul_comm, ← pow_add]
      exact (neg_one_pow_eq (k + k2) _ _ (by omega)).symm
    · simp only [f2, f3]; exact hn
    · simp only [f2]; exact hcd
    · simp only [f3]; exact hc
  · -- ratio
    intro hcase cs cds i1 i2
    have hsing2 : Fintype.card (Fin (s.n - lr.length)) = 0 ∨
        (sumMat (s.n - lr.length) lr.length s1.inv).toBlocks₂₂.det ≠ 0 := by
      rcases hcase with hr | hr | hr | hr | hr | ⟨cs0, cds0, j1, j2, j3⟩
      · exact hsing _ _ _ (right_ne_zero_of_mul hr)
      · rw [hr1] at hr; simp at hr; simp [hr] at hlr
      · rw [ha1] at hr; simp at hr; simp [hr] at hla
      · rw [hr2] at hr; simp at hr; simp [hr] at hlr
      · rw [ha2] at hr; simp at hr; simp [hr] at hla
      · right
        have q1 : C.Perm cs0 :=
          IsChanged.perm (by have := isChanged_of_perm (add := []) pc oC (hr2 ▸ pD)
                             rwa [List.append_nil] at this) j1
        have q2 : A.Perm cds0 :=
          IsChanged.perm (by have := isChanged_of_perm (add := []) pcd oA (hr1 ▸ pB)
                             rwa [List.append_nil] at this) j2
        have nA : (A.map Psi.time).Nodup := by
          have := hc1.cd.nodup
          rw [oA] at this
          exact nodup_left this
        have nC : (C.map Psi.time).Nodup := by
          have := hc1.c.nodup
          rw [oC] at this
          exact nodup_left this
        rw [← timeDet_congr G q1 q2 nC nA, timeDet_eq G _ _ nC nA,
          listDet_blk G _ _ (s.n - lr.length) (by omega) (by omega)] at j3
        have j4 := right_ne_zero_of_mul j3
        have j5 := C14_det_ratio_down _ _ hmul
        rw [hA, f2, f3, blk_gEntry_append _ _ _ _ _ _ (by omega) (by omega)] at j5
        rw [j5] at j4
        exact left_ne_zero_of_mul j4
    have hd := hdet hsing2
    have := ratio_of G (c := s.c.ops) (cd := s.cd.ops) (c0 := s1.c.ops) (cd0 := s1.cd.ops) (nc := c2.ops)
      (ncd := cd2.ops) (c' := cs) (cd' := cds) _ (k + k2)
      pc pcd h.nodup (by rw [f3]; exact hc.perm i1) (by rw [f2]; exact hcd.perm i2)
      (by rw [f2, f3]; exact hn) (by omega)
      (by rw [listDet_blk G _ _ _ lc lcd, listDet_blk G _ _ s1.n hc1.cLen hc1.cdLen, ← sumMat_det, hd,
            sumMat_det, hN, hn1])
    rw [this, paritySign_eq, paritySign_eq, pow_add]

/-! ### Replacing one operator -/

theorem blk_gEntry_last_cd (G : Psi T → Psi T → K) (c l : List (Psi T)) (old new : Psi T) (n : ℕ) (hn : 0 < n)
    (hl : l.length + 1 = n) :
    blk (gEntry G c (l ++ [new])) 0 0 n n = (blk (gEntry G c (l ++ [old])) 0 0 n n).updateCol
      ⟨n - 1, by omega⟩ (fun i => match c[i.1]? with | some a => G a new | none => 0) := by
  ext i j
  rw [updateCol_apply]
  by_cases hj : j = ⟨n - 1, by omega⟩
  · rw [if_pos hj]
    have hj' : j.1 = l.length := by rw [hj]; simp; omega
    simp only [blk, Matrix.of_apply, gEntry, Nat.zero_add, hj', List.getElem?_concat_length]
    cases c[i.1]? <;> rfl
  · rw [if_neg hj]
    have hj' : j.1 < l.length := by
      have := j.2
      have hne : j.1 ≠ n - 1 := fun h => hj (Fin.ext h)
      omega
    simp only [blk, Matrix.of_apply, gEntry, Nat.zero_add, List.getElem?_append_left hj']

theorem blk_gEntry_last_c (G : Psi T → Psi T → K) (cd l : List (Psi T)) (old new : Psi T) (n : ℕ) (hn : 0 < n)
    (hl : l.length + 1 = n) :
    blk (gEntry G (l ++ [new]) cd) 0 0 n n = (blk (gEntry G (l ++ [old]) cd) 0 0 n n).updateRow
      ⟨n - 1, by omega⟩ (fun j => match cd[j.1]? with | some b => G new b | none => 0) := by
  ext i j
  rw [updateRow_apply]
  by_cases hi : i = ⟨n - 1, by omega⟩
  · rw [if_pos hi]
    have hi' : i.1 = l.length := by rw [hi]; simp; omega
    simp only [blk, Matrix.of_apply, gEntry, Nat.zero_add, hi', List.getElem?_concat_length]
    cases cd[j.1]? <;> rfl
  · rw [if_neg hi]
    have hi' : i.1 < l.length := by
      have := i.2
      have hne : i.1 ≠ n - 1 := fun h => hi (Fin.ext h)
      omega
    simp only [blk, Matrix.of_apply, gEntry, Nat.zero_add, List.getElem?_append_left hi']

theorem swapAt_last {l : List (Psi T)} {i n : ℕ} {o : Psi T} (hl : l.length = n) (hi : l[i]? = some o) :
    ∃ l', swapAt l i (n - 1) = l' ++ [o] ∧ l'.length + 1 = n := by
  have hin : i < l.length := by
    by_contra h
    rw [List.getElem?_eq_none (by omega)] at hi
    cases hi
  have hlen : (swapAt l i (n - 1)).length = n := by rw [swapAt_length, hl]
  have hlast : (swapAt l i (n - 1))[n - 1]? = some o := by
    rw [swapAt_getElem? _ _ _ _ hin (by omega), Equiv.swap_apply_right, hi]
  refine ⟨(swapAt l i (n - 1)).take (n - 1), ?_, by rw [List.length_take, hlen]; omega⟩
  have hd : (swapAt l i (n - 1)).drop (n - 1) = [o] := by
    rw [List.getElem?_eq_some_iff] at hlast
    obtain ⟨h1, h2⟩ := hlast
    rw [List.drop_eq_getElem_cons h1, h2, List.drop_eq_nil_of_le (by omega)]
  rw [← hd, List.take_append_drop]

theorem inverseCol_cast (inv : ℕ → ℕ → K) (n1 n : ℕ) (e : n1 = n) (h1 : n - 1 < n1) (h2 : n - 1 < n)
    (col : ℕ → K) (r : K) :
    blk (ofMat (inverseCol (blk inv 0 0 n1 n1) ⟨n - 1, h1⟩ (fun i => col i) r)) 0 0 n n =
      inverseCol (blk inv 0 0 n n) ⟨n - 1, h2⟩ (fun i => col i) r := by
  subst e
  rw [blk_ofMat]

theorem inverseRow_cast (inv : ℕ → ℕ → K) (n1 n : ℕ) (e : n1 = n) (h1 : n - 1 < n1) (h2 : n - 1 < n)
    (row : ℕ → K) (r : K) :
    blk (ofMat (inverseRow (blk inv 0 0 n1 n1) ⟨n - 1, h1⟩ (fun i => row i) r)) 0 0 n n =
      inverseRow (blk inv 0 0 n n) ⟨n - 1, h2⟩ (fun i => row i) r := by
  subst e
  rw [blk_ofMat]

theorem DM.tryReplaceCd_ok {G : Psi T → Psi T → K} {s : DM T K} (h : s.Inv G)
    (hm : s.mode = some .replaceCd) (ch : HybChange T) (ha : ch.Adm s.cd.ops s.c.ops) (old new : Psi T)
    (hr : ch.cdRem = [old]) (hd : ch.cdAdd = [new]) (hr' : ch.cRem = []) (hd' : ch.cAdd = []) :
    ∃ r s1, s.tryReplaceCd G old new = .ok (r, s1) ∧ DM.TryOK G s ch r s1 := by
  have hold : old ∈ s.cd.ops := ha.cdRem.subset (by rw [hr]; simp)
  obtain ⟨i, hi⟩ := List.mem_iff_getElem?.1 hold
  have hin : i < s.n := by
    by_contra hc
    rw [List.getElem?_eq_none (by rw [h.cdLen]; omega)] at hi
    cases hi
  obtain ⟨s1, e1, hc1, m1, o1, o2⟩ := DM.swapCd_ok h.toCore i (s.n - 1) hin (by omega)
  obtain ⟨l, ol, ll⟩ := swapAt_last h.cdLen hi
  have pcd : s1.cd.ops.Perm s.cd.ops := by rw [o1]; exact swapAt_perm _ _ _
  have oks : s1.cd.OK := ⟨hc1.cd, by rw [m1.cdSet]; exact h.cdOK.sorted,
    fun x => by rw [m1.cdSet, h.cdOK.mem, pcd.mem_iff]⟩
  have k3 : s.c.ops.length = s1.n := by rw [m1.n]; exact h.cLen
  have k4 := hc1.perm
  have k5 := hc1.inv
  rw [o2] at k4 k5
  rw [ol] at o1
  have hcd : IsChanged s.cd.ops ch.cdRem ch.cdAdd (l ++ [new]) :=
    hd ▸ isChanged_of_perm (add := ch.cdAdd) pcd o1 (by rw [hr])
  have hc : IsChanged s.c.ops ch.cRem ch.cAdd s.c.ops := by
    rw [hr', hd']; simp [IsChanged]
  have hn := Adm.nodup_new ha hcd hc
  have hnew : new.time ∉ l.map Psi.time := by
    have := nodup_left hn
    rw [List.map_append, List.nodup_append] at this
    exact fun hx => this.2.2 _ hx new.time (by simp) rfl
  have hG := blk_gEntry_last_cd G s.c.ops l old new s.n (by omega) ll
  have hmul := hc1.inv
  rw [m1.n, o1, o2] at hmul
  have hdet := C15_det_ratio_col _ _ (⟨s.n - 1, by omega⟩ : Fin s.n)
    (fun i => match s.c.ops[i.1]? with | some a => G a new | none => 0) hmul
  have hinv := C15_inverse_col _ _ (⟨s.n - 1, by omega⟩ : Fin s.n)
    (fun i => match s.c.ops[i.1]? with | some a => G a new | none => 0) hmul
  rw [← hG] at hdet hinv
  have hpr := replacePermRat_eq hc1.cd l old new o1 hnew
  unfold DM.tryReplaceCd DM.check
  rw [if_pos h.state]
  simp only [Except.bind]
  rw [h.cd.at i old hi]
  simp only []
  rw [dif_pos (by omega), e1]
  simp only [o2]
  refine ⟨_, _, rfl, ?_, ?_, ?_⟩
  · simp only [DM.reject, m1.mode, hm]
    unfold DM.rejectReplace DM.check
    simp only [if_true, Except.bind]
    refine ⟨_, rfl, ⟨⟨hc1.cd, h.c, hc1.cdLen, k3, k4, k5⟩, rfl, oks, ?_, ?_⟩, pcd, ?_⟩
    · exact h.cOK
    · exact ((pcd.append (List.Perm.refl _)).map Psi.time).nodup_iff.2 h.nodup
    · exact List.Perm.refl _
  · intro hr0
    have hne := right_ne_zero_of_mul hr0
    obtain ⟨cd', r1, r2, r3⟩ := Side.replaceLast_ok oks l old new o1 hnew
    simp only [DM.perform, m1.mode, hm]
    unfold DM.performReplaceCd DM.check
    simp only [if_true, Except.bind, m1.n]
    rw [dif_pos (by omega)]
    rw [ll] at r1
    rw [r1]
    refine ⟨_, rfl, ⟨⟨r3.toCore, h.c, ?_, h.cLen, ?_, ?_⟩, rfl, r3, ?_, ?_⟩, ?_, ?_⟩
    · simp only [r2, List.length_append, List.length_singleton]; rw [ll]
    · simp only [r2]
      rw [hpr, k4]
      rw [← pow_add]
      have := neg_one_pow_eq (opInvs s.c.ops + opInvs s1.cd.ops + (opInvs s1.cd.ops + opInvs (l ++ [new]))) 0
        (opInvs s.c.ops + opInvs (l ++ [new])) (by omega)
      rw [this, pow_zero, mul_one]
    · simp only [r2]
      exact (congrArg (· * _) (inverseCol_cast s1.inv s1.n s.n m1.n _ _
        (fun i => match s.c.ops[i]? with | some a => G a new | none => 0) _)).trans (hinv hne)
    · exact h.cOK
    · simp only [r2]; exact hn
    · simp only [r2]; exact hcd
    · exact hc
  · intro _ cs cds i1 i2
    have := ratio_of G (c := s.c.ops) (cd := s.cd.ops) (c0 := s.c.ops) (cd0 := s1.cd.ops) (nc := s.c.ops)
      (ncd := l ++ [new]) (c' := cs) (cd' := cds) _ (opInvs s1.cd.ops + opInvs (l ++ [new]))
      (List.Perm.refl _) pcd h.nodup (hc.perm i1) (hcd.perm i2) hn (by omega)
      (by rw [listDet_blk G _ _ s.n h.cLen (by simpa using ll), listDet_blk G _ _ s.n h.cLen
            (by rw [hc1.cdLen, m1.n]), hdet, o1])
    rw [hpr]
    exact this

theorem DM.tryReplaceC_ok {G : Psi T → Psi T → K} {s : DM T K} (h : s.Inv G)
    (hm : s.mode = some .replaceC) (ch : HybChange T) (ha : ch.Adm s.cd.ops s.c.ops) (old new : Psi T)
    (hr : ch.cRem = [old]) (hd : ch.cAdd = [new]) (hr' : ch.cdRem = []) (hd' : ch.cdAdd = []) :
    ∃ r s1, s.tryReplaceC G old new = .ok (r, s1) ∧ DM.TryOK G s ch r s1 := by
  have hold : old ∈ s.c.ops := ha.cRem.subset (by rw [hr]; simp)
  obtain ⟨i, hi⟩ := List.mem_iff_getElem?.1 hold
  have hin : i < s.n := by
    by_contra hc
    rw [List.getElem?_eq_none (by rw [h.cLen]; omega)] at hi
    cases hi
  obtain ⟨s1, e1, hc1, m1, o1, o2⟩ := DM.swapC_ok h.toCore i (s.n - 1) hin (by omega)
  obtain ⟨l, ol, ll⟩ := swapAt_last h.cLen hi
  have pc : s1.c.ops.Perm s.c.ops := by rw [o1]; exact swapAt_perm _ _ _
  have oks : s1.c.OK := ⟨hc1.c, by rw [m1.cSet]; exact h.cOK.sorted,
    fun x => by rw [m1.cSet, h.cOK.mem, pc.mem_iff]⟩
  have k3 : s.cd.ops.length = s1.n := by rw [m1.n]; exact h.cdLen
  have k4 := hc1.perm
  have k5 := hc1.inv
  rw [o2] at k4 k5
  rw [ol] at o1
  have hc : IsChanged s.c.ops ch.cRem ch.cAdd (l ++ [new]) :=
    hd ▸ isChanged_of_perm (add := ch.cAdd) pc o1 (by rw [hr])
  have hcd : IsChanged s.cd.ops ch.cdRem ch.cdAdd s.cd.ops := by
    rw [hr', hd']; simp [IsChanged]
  have hn := Adm.nodup_new ha hcd hc
  have hnew : new.time ∉ l.map Psi.time := by
    have := nodup_right hn
    rw [List.map_append, List.nodup_append] at this
    exact fun hx => this.2.2 _ hx new.time (by simp) rfl
  have hG := blk_gEntry_last_c G s.cd.ops l old new s.n (by omega) ll
  have hmul := hc1.inv
  rw [m1.n, o1, o2] at hmul
  have hdet := C15_det_ratio_row _ _ (⟨s.n - 1, by omega⟩ : Fin s.n)
    (fun j => match s.cd.ops[j.1]? with | some b => G new b | none => 0) hmul
  have hinv := C15_inverse_row _ _ (⟨s.n - 1, by omega⟩ : Fin s.n)
    (fun j => match s.cd.ops[j.1]? with | some b => G new b | none => 0) hmul
  rw [← hG] at hdet hinv
  have hpr := replacePermRat_eq hc1.c l old new o1 hnew
  unfold DM.tryReplaceC DM.check
  rw [if_pos h.state]
  simp only [Except.bind]
  rw [h.c.at i old hi]
  simp only []
  rw [dif_pos (by omega), e1]
  simp only [o2]
  refine ⟨_, _, rfl, ?_, ?_, ?_⟩
  · simp only [DM.reject, m1.mode, hm]
    unfold DM.rejectReplace DM.check
    simp only [if_true, Except.bind]
    refine ⟨_, rfl, ⟨⟨h.cd, hc1.c, k3, hc1.cLen, k4, k5⟩, rfl, ?_, oks, ?_⟩, ?_, pc⟩
    · exact h.cdOK
    · exact (((List.Perm.refl _).append pc).map Psi.time).nodup_iff.2 h.nodup
    · exact List.Perm.refl _
  · intro hr0
    have hne := right_ne_zero_of_mul hr0
    obtain ⟨c', r1, r2, r3⟩ := Side.replaceLast_ok oks l old new o1 hnew
    simp only [DM.perform, m1.mode, hm]
    unfold DM.performReplaceC DM.check
    simp only [if_true, Except.bind, m1.n]
    rw [dif_pos (by omega)]
    rw [ll] at r1
    rw [r1]
    refine ⟨_, rfl, ⟨⟨h.cd, r3.toCore, h.cdLen, ?_, ?_, ?_⟩, rfl, ?_, r3, ?_⟩, ?_, ?_⟩
    · simp only [r2, List.length_append, List.length_singleton]; rw [ll]
    · simp only [r2]
      rw [hpr, k4]
      rw [← pow_add]
      have := neg_one_pow_eq (opInvs s1.c.ops + opInvs s.cd.ops + (opInvs s1.c.ops + opInvs (l ++ [new]))) 0
        (opInvs (l ++ [new]) + opInvs s.cd.ops) (by omega)
      rw [this, pow_zero, mul_one]
    · simp only [r2]
      exact (congrArg (· * _) (inverseRow_cast s1.inv s1.n s.n m1.n _ _
        (fun j => match s.cd.ops[j]? with | some b => G new b | none => 0) _)).trans (hinv hne)
    · exact h.cdOK
    · simp only [r2]; exact hn
    · exact hcd
    · simp only [r2]; exact hc
  · intro _ cs cds i1 i2
    have := ratio_of G (c := s.c.ops) (cd := s.cd.ops) (c0 := s1.c.ops) (cd0 := s.cd.ops) (nc := l ++ [new])
      (ncd := s.cd.ops) (c' := cs) (cd' := cds) _ (opInvs s1.c.ops + opInvs (l ++ [new]))
      pc (List.Perm.refl _) h.nodup (hc.perm i1) (hcd.perm i2) hn (by omega)
      (by rw [listDet_blk G _ _ s.n (by simpa using ll) h.cdLen, listDet_blk G _ _ s.n
            (by rw [hc1.cLen, m1.n]) h.cdLen, hdet, o1])
    rw [hpr]
    exact this

/-! ### `try_update` -/

theorem listDet_of_ne (G : Psi T → Psi T → K) {r c : List (Psi T)} (h : c.length ≠ r.length) :
    listDet G r c = 0 := dif_neg h

theorem timeDet_of_ne (G : Psi T → Psi T → K) {r c : List (Psi T)} (h : c.length ≠ r.length) :
    timeDet G r c = 0 := by
  unfold timeDet
  exact listDet_of_ne G (by rw [(timeSort_perm c).length_eq, (timeSort_perm r).length_eq]; exact h)

theorem IsChanged.length {old rem add l : List (Psi T)} (h : IsChanged old rem add l)
    (hr : rem.Subperm old) : l.length + rem.length = old.length + add.length := by
  have hle : (rem : Multiset (Psi T)) ≤ old := Multiset.coe_le.2 hr
  have e := congrArg Multiset.card h
  rw [Multiset.card_add, Multiset.card_sub hle, Multiset.coe_card, Multiset.coe_card, Multiset.coe_card,
    Multiset.coe_card] at e
  have := hr.length_le
  omega

theorem DM.TryOK.ofMode {G : Psi T → Psi T → K} {s : DM T K} {m : DMode} {ch : HybChange T} {r : K}
    {s1 : DM T K} (h : DM.TryOK G { s with mode := some m } ch r s1) : DM.TryOK G s ch r s1 :=
  ⟨h.reject, h.perform, h.ratio⟩

theorem toPairs_ok (cd c : List (Psi T)) (h : cd.length = c.length) :
    toPairs cd c cd.length = .ok (cd.zip c) := by
  unfold toPairs
  rw [if_neg (by omega), List.take_of_length_le (by simp)]

theorem DM.tryUpdate_ok [DecidableEq K] {G : Psi T → Psi T → K} {s : DM T K} (h : s.Inv G)
    (ch : HybChange T) (ha : ch.Adm s.cd.ops s.c.ops) (hs : ch.Shape) :
    ∃ r s1, s.tryUpdate G ch = .ok (r, s1) ∧ DM.TryOK G s ch r s1 := by
  unfold DM.tryUpdate
  simp only []
  by_cases hmis : ch.cdAdd.length + ch.cRem.length ≠ ch.cAdd.length + ch.cdRem.length
  · rw [if_pos (by omega)]
    refine ⟨_, _, rfl, ⟨_, rfl, h.withMode _, List.Perm.refl _, List.Perm.refl _⟩, fun hr => absurd rfl hr, ?_⟩
    intro _ cs cds i1 i2
    have l1 := i1.length ha.cRem
    have l2 := i2.length ha.cdRem
    rw [h.cLen] at l1
    rw [h.cdLen] at l2
    rw [timeDet_of_ne G (by omega), zero_mul]
  · rw [if_neg (by omega)]
    by_cases h0 : ch.cdAdd.length = 0 ∧ ch.cdRem.length = 0 ∧ ch.cAdd.length = 0 ∧ ch.cRem.length = 0
    · rw [if_pos h0]
      simp only [List.length_eq_zero_iff] at h0
      obtain ⟨e1, e2, e3, e4⟩ := h0
      have hcd : IsChanged s.cd.ops ch.cdRem ch.cdAdd s.cd.ops := by rw [e1, e2]; simp [IsChanged]
      have hc : IsChanged s.c.ops ch.cRem ch.cAdd s.c.ops := by rw [e3, e4]; simp [IsChanged]
      refine ⟨_, _, rfl, ⟨_, rfl, h.withMode _, List.Perm.refl _, List.Perm.refl _⟩,
        fun _ => ⟨_, rfl, h.withMode _, hcd, hc⟩, ?_⟩
      intro _ cs cds i1 i2
      rw [one_mul]
      have n := Adm.nodup_new ha i2 i1
      exact timeDet_congr G (i1.perm hc) (i2.perm hcd) (nodup_right n) (nodup_left n)
    · rw [if_neg h0]
      rcases hs with ⟨hr, hd⟩ | ⟨e1, e2, e3, e4⟩ | ⟨e1, e2, e3, e4⟩ | hne
      · rw [if_neg (by omega), if_neg (by omega)]
        by_cases hadd : 0 < ch.cdAdd.length ∧ ch.cdRem.length = 0 ∧ 0 < ch.cAdd.length ∧ ch.cRem.length = 0
        · rw [if_pos hadd, toPairs_ok _ _ hd]
          obtain ⟨r, s1, k1, k2⟩ := DM.tryAdd_ok (h.withMode .add) rfl ch ha (ch.cdAdd.zip ch.cAdd)
            (List.length_eq_zero_iff.1 hadd.2.1) (List.length_eq_zero_iff.1 hadd.2.2.2)
            (zip_fst _ _ hd).symm (zip_snd _ _ hd).symm
          exact ⟨r, s1, k1, k2.ofMode⟩
        · rw [if_neg hadd]
          by_cases hrem : ch.cdAdd.length = 0 ∧ 0 < ch.cdRem.length ∧ ch.cAdd.length = 0 ∧ 0 < ch.cRem.length
          · rw [if_pos hrem, toPairs_ok _ _ hr]
            obtain ⟨r, s1, k1, k2⟩ := DM.tryRemove_ok (h.withMode .rem) rfl ch ha (ch.cdRem.zip ch.cRem)
              (List.length_eq_zero_iff.1 hrem.1) (List.length_eq_zero_iff.1 hrem.2.2.1)
              (zip_fst _ _ hr).symm (zip_snd _ _ hr).symm
            exact ⟨r, s1, k1, k2.ofMode⟩
          · rw [if_neg hrem, toPairs_ok _ _ hd, toPairs_ok _ _ hr]
            obtain ⟨r, s1, k1, k2⟩ := DM.tryRemoveAdd_ok (h.withMode .remAdd) rfl ch ha
              (ch.cdRem.zip ch.cRem) (ch.cdAdd.zip ch.cAdd)
              (zip_fst _ _ hr).symm (zip_snd _ _ hr).symm (zip_fst _ _ hd).symm (zip_snd _ _ hd).symm
              (by rw [List.length_zip]; omega) (by rw [List.length_zip]; omega)
            exact ⟨r, s1, k1, k2.ofMode⟩
      · rw [if_pos ⟨e2, e1, by rw [e4]; rfl, by rw [e3]; rfl⟩]
        obtain ⟨old, eo⟩ := List.length_eq_one_iff.1 e1
        obtain ⟨new, en⟩ := List.length_eq_one_iff.1 e2
        rw [eo, en]
        obtain ⟨r, s1, k1, k2⟩ := DM.tryReplaceCd_ok (h.withMode .replaceCd) rfl ch ha old new eo en e3 e4
        exact ⟨r, s1, k1, k2.ofMode⟩
      · rw [if_neg (by rw [e1, e2]; simp), if_pos ⟨by rw [e2]; rfl, by rw [e1]; rfl, e4, e3⟩]
        obtain ⟨old, eo⟩ := List.length_eq_one_iff.1 e3
        obtain ⟨new, en⟩ := List.length_eq_one_iff.1 e4
        rw [eo, en]
        obtain ⟨r, s1, k1, k2⟩ := DM.tryReplaceC_ok (h.withMode .replaceC) rfl ch ha old new eo en e1 e2
        exact ⟨r, s1, k1, k2.ofMode⟩
      · exact absurd hne hmis

end CTHyb
