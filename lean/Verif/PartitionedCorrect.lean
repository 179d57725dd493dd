import Verif.PartitionedDet

namespace CTHyb

open Matrix

variable {T K : Type} [LinearOrder T] [Field K]

theorem perm_of_inSector {E : PEnv} {k : ℕ} {l act : List (Psi T)}
    (h : (l : Multiset (Psi T)) = E.inSector k act) : l.Perm (act.filter fun o => E.sector o.flavor = k) := by
  rw [← Multiset.coe_eq_coe, h]
  unfold PEnv.inSector
  rw [Multiset.filter_coe]

theorem PM.Inv.cdNodup {E : PEnv} {G : Psi T → Psi T → K} {s : PM T K} (h : s.Inv E G) :
    (s.cd.act.map Psi.time).Nodup := by
  have := h.nodup
  rw [List.map_append, List.nodup_append] at this
  exact this.1

theorem PM.Inv.cNodup {E : PEnv} {G : Psi T → Psi T → K} {s : PM T K} (h : s.Inv E G) :
    (s.c.act.map Psi.time).Nodup := by
  have := h.nodup
  rw [List.map_append, List.nodup_append] at this
  exact this.2.1

theorem PM.Inv.determinant {E : PEnv} {G : Psi T → Psi T → K} (hG : E.BlockDiag G) {s : PM T K}
    (h : s.Inv E G) : s.determinant E = timeDet G s.c.act s.cd.act ∧ s.determinant E ≠ 0 := by
  have e : s.determinant E = timeDet G s.c.act s.cd.act := by
    rw [C18_sector_determinants E G hG _ _ h.cNodup h.cdNodup (fun o ho => h.cOK.valid o ho)
      (fun o ho => h.cdOK.valid o ho), PM.determinant, h.perm, h.cOK.order_eq, h.cdOK.order_eq]
    push_cast
    congr 1
    apply Finset.prod_congr rfl
    intro k hk
    rw [Finset.mem_range] at hk
    have hb := h.block k hk
    rw [(C16_determinant G _ hb).1]
    exact timeDet_congr G (perm_of_inSector (h.cOps k hk)) (perm_of_inSector (h.cdOps k hk)) hb.c.nodup hb.cd.nodup
  refine ⟨e, ?_⟩
  unfold PM.determinant
  refine mul_ne_zero ?_ ?_
  · rw [h.perm]; push_cast; exact pow_ne_zero _ (by simp)
  · rw [Finset.prod_ne_zero_iff]
    intro k hk
    exact (C16_determinant G _ (h.block k (Finset.mem_range.1 hk))).2

/-- The operators of a sector after a change. -/
theorem inSector_changed (E : PEnv) (k : ℕ) (m : Multiset (Psi T)) (rem add : List (Psi T)) :
    E.inSector k (m - (rem : Multiset (Psi T)) + (add : Multiset (Psi T))) =
      E.inSector k m - ((rem.filter fun o => E.sector o.flavor = k : List (Psi T)) : Multiset (Psi T)) +
        ((add.filter fun o => E.sector o.flavor = k : List (Psi T)) : Multiset (Psi T)) := by
  unfold PEnv.inSector
  rw [Multiset.filter_add, Multiset.filter_sub, Multiset.filter_coe, Multiset.filter_coe]

theorem inSector_le (E : PEnv) (k : ℕ) (m : Multiset (Psi T)) : E.inSector k m ≤ m := Multiset.filter_le _ _

/-- A consistent object from its parts. -/
theorem PM.inv_of {E : PEnv} {G : Psi T → Psi T → K} (s : PM T K) (mcd mc : Multiset (Psi T))
    (h1 : ∀ k, k < E.ns → (s.blocks k).Inv G)
    (h2 : ∀ k, k < E.ns → ((s.blocks k).cd.ops : Multiset (Psi T)) = E.inSector k mcd)
    (h3 : ∀ k, k < E.ns → ((s.blocks k).c.ops : Multiset (Psi T)) = E.inSector k mc)
    (h4 : s.cd.act = (List.range E.ns).flatMap fun k => (s.blocks k).cd.ops)
    (h5 : s.c.act = (List.range E.ns).flatMap fun k => (s.blocks k).c.ops)
    (h6 : s.cd.OK E mcd) (h7 : s.c.OK E mc) (h8 : ((mcd + mc).map Psi.time).Nodup)
    (h9 : s.perm = s.c.sgn E * s.cd.sgn E)
    (h10 : ∀ k, k < E.ns → s.part k = ⟨[], [], [], []⟩) :
    s.Inv E G ∧ (s.cd.act : Multiset (Psi T)) = mcd ∧ (s.c.act : Multiset (Psi T)) = mc := by
  have e1 : (s.cd.act : Multiset (Psi T)) = mcd := by
    rw [h4, flatMap_coe mcd (fun o => E.sector o.flavor) _ E.ns h2]
    exact Multiset.filter_eq_self.2 fun o ho => (h6.valid o ho).2
  have e2 : (s.c.act : Multiset (Psi T)) = mc := by
    rw [h5, flatMap_coe mc (fun o => E.sector o.flavor) _ E.ns h3]
    exact Multiset.filter_eq_self.2 fun o ho => (h7.valid o ho).2
  refine ⟨⟨h1, ?_, ?_, h4, h5, ?_, ?_, ?_, ?_, h10⟩, e1, e2⟩
  · rw [e1]; exact h2
  · rw [e2]; exact h3
  · rw [e1]; exact h6
  · rw [e2]; exact h7
  · rw [← e1, ← e2, Multiset.coe_add, Multiset.map_coe, Multiset.coe_nodup] at h8
    exact h8
  · rw [h9, pow_add]; rfl

theorem PSide.OK.sgn_eq {E : PEnv} {p q : PSide T} {m : Multiset (Psi T)} (hp : p.OK E m) (hq : q.OK E m) :
    p.sgn E = q.sgn E := by
  have : p.order E = q.order E := by
    unfold PSide.order
    apply List.flatMap_congr
    intro k hk
    have h1 := hp.sec k (List.mem_range.1 hk)
    have h2 := hq.sec k (List.mem_range.1 hk)
    congr 1
    apply OpSet.eq_of_mem_iff _ _ h1.1 h2.1
    intro x
    rw [← Multiset.mem_coe, ← Multiset.mem_coe, h1.2, h2.2]
  unfold PSide.sgn
  rw [this]

theorem adm_inSector {E : PEnv} {G : Psi T → Psi T → K} {s : PM T K} (h : s.Inv E G) (ch : HybChange T)
    (ha : ch.Adm s.cd.act s.c.act) (k : ℕ) (hk : k < E.ns) :
    (ch.inSector E k).Adm (s.blocks k).cd.ops (s.blocks k).c.ops := by
  refine ⟨?_, ?_, ?_⟩
  · rw [← Multiset.coe_le, h.cdOps k hk]
    have := Multiset.filter_le_filter (fun o => E.sector o.flavor = k) (Multiset.coe_le.2 ha.cdRem)
    rw [Multiset.filter_coe] at this
    exact this
  · rw [← Multiset.coe_le, h.cOps k hk]
    have := Multiset.filter_le_filter (fun o => E.sector o.flavor = k) (Multiset.coe_le.2 ha.cRem)
    rw [Multiset.filter_coe] at this
    exact this
  · rw [h.cdOps k hk, h.cOps k hk]
    unfold HybChange.inSector
    simp only []
    rw [← inSector_changed, ← inSector_changed]
    exact Multiset.nodup_of_le (Multiset.map_le_map (add_le_add (inSector_le _ _ _) (inSector_le _ _ _))) ha.nodup

theorem isChanged_filter {E : PEnv} {old act rem add l : List (Psi T)} (k : ℕ)
    (ho : (old : Multiset (Psi T)) = E.inSector k act) (h : IsChanged act rem add l) :
    IsChanged old (rem.filter fun o => E.sector o.flavor = k) (add.filter fun o => E.sector o.flavor = k)
      (l.filter fun o => E.sector o.flavor = k) := by
  unfold IsChanged at h ⊢
  rw [ho, ← inSector_changed, ← h]
  unfold PEnv.inSector
  rw [Multiset.filter_coe]

/-- The result of a correct `try_update` of the partitioned object. -/
structure PM.TryOK (E : PEnv) (G : Psi T → Psi T → K) (s : PM T K) (ch : HybChange T) (r : K) (s1 : PM T K) :
    Prop where
  reject : ∃ s2, s1.reject E = .ok s2 ∧ s2.Inv E G ∧ s2.cd.act.Perm s.cd.act ∧ s2.c.act.Perm s.c.act
  perform : r ≠ 0 → ∃ s2, s1.perform E = .ok s2 ∧ s2.Inv E G ∧
    IsChanged s.cd.act ch.cdRem ch.cdAdd s2.cd.act ∧ IsChanged s.c.act ch.cRem ch.cAdd s2.c.act
  ratio : (r ≠ 0 ∨ ch.cdRem = [] ∨ ch.cdAdd = [] ∨ ch.cRem = [] ∨ ch.cAdd = [] ∨
      ∃ cs cds, IsChanged s.c.act ch.cRem [] cs ∧ IsChanged s.cd.act ch.cdRem [] cds ∧ timeDet G cs cds ≠ 0) →
    ∀ cs cds, IsChanged s.c.act ch.cRem ch.cAdd cs → IsChanged s.cd.act ch.cdRem ch.cdAdd cds →
    timeDet G cs cds = r * timeDet G s.c.act s.cd.act

theorem valid_of_sub {E : PEnv} {m m' : Multiset (Psi T)} (h : ∀ o ∈ m, E.Valid o) (hl : m' ≤ m) :
    ∀ o ∈ m', E.Valid o := fun o ho => h o (Multiset.mem_of_le hl ho)

theorem PM.tryUpdate_ok [DecidableEq K] {E : PEnv} {G : Psi T → Psi T → K} (hG : E.BlockDiag G) {s : PM T K}
    (h : s.Inv E G) (ch : HybChange T) (ha : ch.Adm s.cd.act s.c.act) (hs : ch.PShape E) :
    ∃ r s1, s.tryUpdate E G ch = .ok (r, s1) ∧ s.TryOK E G ch r s1 := by
  have hnd := ha.nodup
  rw [Multiset.map_add, Multiset.nodup_add] at hnd
  have rcd : (ch.cdRem : Multiset (Psi T)) ≤ (s.cd.act : Multiset (Psi T)) := Multiset.coe_le.2 ha.cdRem
  have rc : (ch.cRem : Multiset (Psi T)) ≤ (s.c.act : Multiset (Psi T)) := Multiset.coe_le.2 ha.cRem
  -- the sets
  obtain ⟨p1, a1, a2, a3, a4, a5⟩ := PSide.removeAll_ok ch.cdRem 1 h.cdOK rcd
  obtain ⟨p2, b1, b2, b3, b4, b5⟩ := PSide.removeAll_ok ch.cRem (1 * (s.cd.sgn E * p1.sgn E)) h.cOK rc
  obtain ⟨p3, c1, c2, c3, c4, c5⟩ := PSide.addAll_ok ch.cdAdd
    (1 * (s.cd.sgn E * p1.sgn E) * (s.c.sgn E * p2.sgn E)) a2 hs.cdValid hnd.1
  obtain ⟨p4, d1, d2, d3, d4, d5⟩ := PSide.addAll_ok ch.cAdd
    (1 * (s.cd.sgn E * p1.sgn E) * (s.c.sgn E * p2.sgn E) * (p1.sgn E * p3.sgn E)) b2 hs.cValid hnd.2.1
  have hperm : s.perm = s.c.sgn E * s.cd.sgn E := by rw [h.perm, pow_add]; rfl
  have hsign : (1 * (s.cd.sgn E * p1.sgn E) * (s.c.sgn E * p2.sgn E) * (p1.sgn E * p3.sgn E) *
      (p2.sgn E * p4.sgn E)) = s.perm * (p4.sgn E * p3.sgn E) := by
    rw [hperm]
    have q1 := PSide.sgn_sq E p1
    have q2 := PSide.sgn_sq E p2
    linear_combination (s.cd.sgn E * s.c.sgn E * p3.sgn E * p4.sgn E * (p2.sgn E * p2.sgn E)) * q1 +
      (s.cd.sgn E * s.c.sgn E * p3.sgn E * p4.sgn E) * q2
  rw [hsign] at d1
  have hps : s.perm * s.perm = 1 := by
    rw [hperm]
    have q1 := PSide.sgn_sq E s.cd
    have q2 := PSide.sgn_sq E s.c
    linear_combination (s.cd.sgn E * s.cd.sgn E) * q2 + q1
  -- the request for each sector
  have hw : ∀ k, k < E.ns → s.cd.rem k = [] ∧ s.c.rem k = [] ∧ s.cd.add k = [] ∧ s.c.add k = [] := by
    intro k hk
    have := h.work k hk
    unfold PM.part at this
    simpa only [HybChange.mk.injEq] using this
  have hcdr : ∀ k, k < E.ns → p3.rem k = ch.cdRem.filter fun o => E.sector o.flavor = k := by
    intro k hk; rw [c3, a4, (hw k hk).1, List.nil_append]
  have hcr : ∀ k, k < E.ns → p4.rem k = ch.cRem.filter fun o => E.sector o.flavor = k := by
    intro k hk; rw [d3, b4, (hw k hk).2.1, List.nil_append]
  have hcda : ∀ k, k < E.ns → p3.add k = ch.cdAdd.filter fun o => E.sector o.flavor = k := by
    intro k hk; rw [c4, a3, (hw k hk).2.2.1, List.nil_append]
  have hca : ∀ k, k < E.ns → p4.add k = ch.cAdd.filter fun o => E.sector o.flavor = k := by
    intro k hk; rw [d4, b3, (hw k hk).2.2.2, List.nil_append]
  -- the blocks
  have hblk : ∀ k, ∃ v : K × DM T K, k < E.ns → (s.blocks k).tryUpdate G (ch.inSector E k) = .ok v ∧
      (s.blocks k).TryOK G (ch.inSector E k) v.1 v.2 := by
    intro k
    by_cases hk : k < E.ns
    · obtain ⟨r, s1, e1, e2⟩ := DM.tryUpdate_ok (h.block k hk) (ch.inSector E k) (adm_inSector h ch ha k hk)
        (hs.shape k hk)
      exact ⟨(r, s1), fun _ => ⟨e1, e2⟩⟩
    · exact ⟨(1, s.blocks k), fun hk' => absurd hk' hk⟩
  choose v hv using hblk
  have hloop := loopN_ok E.ns (fun k => (s.blocks k).tryUpdate G (PM.part (K := K) { s with
      cd := p3
      c := p4
      newPerm := s.perm * (p4.sgn E * p3.sgn E) * s.perm } k)) (fun k => (1, s.blocks k)) v (by
    intro k hk
    rw [← (hv k hk).1]
    congr 1
    unfold PM.part HybChange.inSector
    simp only [hcdr k hk, hcr k hk, hcda k hk, hca k hk])
  refine ⟨(∏ k ∈ Finset.range E.ns, (v k).1) * ((s.perm * (p4.sgn E * p3.sgn E) : ℤ) : K),
    { s with
      cd := p3
      c := p4
      newPerm := s.perm * (p4.sgn E * p3.sgn E) * s.perm
      blocks := fun k => (if k < E.ns then v k else (1, s.blocks k)).2 }, ?_, ?_⟩
  · unfold PM.tryUpdate
    rw [a1]
    simp only [Except.bind]
    rw [b1]
    simp only []
    rw [c1]
    simp only []
    rw [d1]
    simp only []
    rw [hloop]
    simp only [Except.ok.injEq, Prod.mk.injEq, and_true]
    congr 1
    apply Finset.prod_congr rfl
    intro k hk
    rw [if_pos (Finset.mem_range.1 hk)]
  · refine ⟨?_, ?_, ?_⟩
    · -- reject
      have hrej : ∀ k, ∃ s2, k < E.ns → (v k).2.reject = .ok s2 ∧ s2.Inv G ∧
          s2.cd.ops.Perm (s.blocks k).cd.ops ∧ s2.c.ops.Perm (s.blocks k).c.ops := by
        intro k
        by_cases hk : k < E.ns
        · obtain ⟨s2, e⟩ := (hv k hk).2.reject
          exact ⟨s2, fun _ => e⟩
        · exact ⟨s.blocks k, fun hk' => absurd hk' hk⟩
      choose w hw2 using hrej
      have hl := loopN_ok E.ns (fun k => ((if k < E.ns then v k else (1, s.blocks k)).2).reject)
        (fun k => (if k < E.ns then v k else (1, s.blocks k)).2) w (by
        intro k hk
        simp only [if_pos hk]
        exact (hw2 k hk).1)
      have r1 : (p3.revert E.ns).OK E s.cd.act := PSide.revert_ok c2 rcd h.cdOK.set.nodup h.cdOK.valid hcdr hcda
      have r2 : (p4.revert E.ns).OK E s.c.act := PSide.revert_ok d2 rc h.cOK.set.nodup h.cOK.valid hcr hca
      unfold PM.reject
      simp only []
      rw [hl]
      simp only [Except.bind]
      refine ⟨_, rfl, ?_⟩
      have := PM.inv_of (E := E) (G := G) (({
          blocks := fun k => if k < E.ns then w k else (if k < E.ns then v k else (1, s.blocks k)).2
          cd := { p3.revert E.ns with
            act := (List.range E.ns).flatMap fun k =>
              (if k < E.ns then w k else (if k < E.ns then v k else (1, s.blocks k)).2).cd.ops
            rem := fun k => if k < E.ns then [] else (p3.revert E.ns).rem k
            add := fun k => if k < E.ns then [] else (p3.revert E.ns).add k }
          c := { p4.revert E.ns with
            act := (List.range E.ns).flatMap fun k =>
              (if k < E.ns then w k else (if k < E.ns then v k else (1, s.blocks k)).2).c.ops
            rem := fun k => if k < E.ns then [] else (p4.revert E.ns).rem k
            add := fun k => if k < E.ns then [] else (p4.revert E.ns).add k }
          perm := s.perm
          newPerm := s.perm * (p4.sgn E * p3.sgn E) * s.perm } : PM T K)) s.cd.act s.c.act
        (by intro k hk; simp only [if_pos hk]; exact (hw2 k hk).2.1)
        (by intro k hk; simp only [if_pos hk]; rw [← h.cdOps k hk, Multiset.coe_eq_coe]; exact (hw2 k hk).2.2.1)
        (by intro k hk; simp only [if_pos hk]; rw [← h.cOps k hk, Multiset.coe_eq_coe]; exact (hw2 k hk).2.2.2)
        rfl rfl (r1.congr rfl rfl) (r2.congr rfl rfl)
        (by rw [Multiset.coe_add, Multiset.map_coe, Multiset.coe_nodup]; exact h.nodup)
        (by
          have q1 : p3.revert E.ns |>.OK E s.cd.act := r1
          have e1 := (r1.congr (q := { p3.revert E.ns with
            act := (List.range E.ns).flatMap fun k =>
              (if k < E.ns then w k else (if k < E.ns then v k else (1, s.blocks k)).2).cd.ops
            rem := fun k => if k < E.ns then [] else (p3.revert E.ns).rem k
            add := fun k => if k < E.ns then [] else (p3.revert E.ns).add k }) rfl rfl).sgn_eq h.cdOK
          have e2 := (r2.congr (q := { p4.revert E.ns with
            act := (List.range E.ns).flatMap fun k =>
              (if k < E.ns then w k else (if k < E.ns then v k else (1, s.blocks k)).2).c.ops
            rem := fun k => if k < E.ns then [] else (p4.revert E.ns).rem k
            add := fun k => if k < E.ns then [] else (p4.revert E.ns).add k }) rfl rfl).sgn_eq h.cOK
          simp only []
          rw [e1, e2]
          exact hperm)
        (by intro k hk; simp only [PM.part, if_pos hk])
      exact ⟨this.1, Multiset.coe_eq_coe.1 this.2.1, Multiset.coe_eq_coe.1 this.2.2⟩
    · -- perform
      intro hr
      have hr0 : ∀ k, k < E.ns → (v k).1 ≠ 0 := by
        intro k hk
        exact Finset.prod_ne_zero_iff.1 (left_ne_zero_of_mul hr) k (Finset.mem_range.2 hk)
      have hper : ∀ k, ∃ s2, k < E.ns → (v k).2.perform = .ok s2 ∧ s2.Inv G ∧
          IsChanged (s.blocks k).cd.ops (ch.inSector E k).cdRem (ch.inSector E k).cdAdd s2.cd.ops ∧
          IsChanged (s.blocks k).c.ops (ch.inSector E k).cRem (ch.inSector E k).cAdd s2.c.ops := by
        intro k
        by_cases hk : k < E.ns
        · obtain ⟨s2, e⟩ := (hv k hk).2.perform (hr0 k hk)
          exact ⟨s2, fun _ => e⟩
        · exact ⟨s.blocks k, fun hk' => absurd hk' hk⟩
      choose w hw2 using hper
      have hl := loopN_ok E.ns (fun k => ((if k < E.ns then v k else (1, s.blocks k)).2).perform)
        (fun k => (if k < E.ns then v k else (1, s.blocks k)).2) w (by
        intro k hk
        simp only [if_pos hk]
        exact (hw2 k hk).1)
      unfold PM.perform
      simp only []
      rw [hl]
      simp only [Except.bind]
      refine ⟨_, rfl, ?_⟩
      have := PM.inv_of (E := E) (G := G) (({
          blocks := fun k => if k < E.ns then w k else (if k < E.ns then v k else (1, s.blocks k)).2
          cd := { p3 with
            act := (List.range E.ns).flatMap fun k =>
              (if k < E.ns then w k else (if k < E.ns then v k else (1, s.blocks k)).2).cd.ops
            rem := fun k => if k < E.ns then [] else p3.rem k
            add := fun k => if k < E.ns then [] else p3.add k }
          c := { p4 with
            act := (List.range E.ns).flatMap fun k =>
              (if k < E.ns then w k else (if k < E.ns then v k else (1, s.blocks k)).2).c.ops
            rem := fun k => if k < E.ns then [] else p4.rem k
            add := fun k => if k < E.ns then [] else p4.add k }
          perm := s.perm * (p4.sgn E * p3.sgn E) * s.perm
          newPerm := s.perm * (p4.sgn E * p3.sgn E) * s.perm } : PM T K)) _ _
        (by intro k hk; simp only [if_pos hk]; exact (hw2 k hk).2.1)
        (by
          intro k hk
          simp only [if_pos hk]
          rw [inSector_changed, ← h.cdOps k hk]; exact (hw2 k hk).2.2.1)
        (by
          intro k hk
          simp only [if_pos hk]
          rw [inSector_changed, ← h.cOps k hk]; exact (hw2 k hk).2.2.2)
        rfl rfl (c2.congr rfl rfl) (d2.congr rfl rfl) ha.nodup
        (by
          show s.perm * (p4.sgn E * p3.sgn E) * s.perm = p4.sgn E * p3.sgn E
          linear_combination (p4.sgn E * p3.sgn E) * hps)
        (by intro k hk; simp only [PM.part, if_pos hk])
      exact this
    · -- ratio
      intro hcond cs cds hcs hcds
      have nd1 : (cs.map Psi.time).Nodup := by
        rw [← Multiset.coe_nodup, ← Multiset.map_coe, hcs]; exact hnd.2.1
      have nd2 : (cds.map Psi.time).Nodup := by
        rw [← Multiset.coe_nodup, ← Multiset.map_coe, hcds]; exact hnd.1
      have v1 : ∀ o ∈ cs, E.Valid o := by
        intro o ho
        have : o ∈ (cs : Multiset (Psi T)) := ho
        rw [hcs] at this
        exact d2.valid o this
      have v2 : ∀ o ∈ cds, E.Valid o := by
        intro o ho
        have : o ∈ (cds : Multiset (Psi T)) := ho
        rw [hcds] at this
        exact c2.valid o this
      have hk : ∀ k, k < E.ns → timeDet G (cs.filter fun o => E.sector o.flavor = k)
          (cds.filter fun o => E.sector o.flavor = k) =
          (v k).1 * timeDet G (s.c.act.filter fun o => E.sector o.flavor = k)
            (s.cd.act.filter fun o => E.sector o.flavor = k) := by
        intro k hk
        have hb := h.block k hk
        rw [timeDet_congr G (perm_of_inSector (h.cOps k hk)).symm (perm_of_inSector (h.cdOps k hk)).symm
          (((perm_of_inSector (h.cOps k hk)).map Psi.time).nodup_iff.1 hb.c.nodup)
          (((perm_of_inSector (h.cdOps k hk)).map Psi.time).nodup_iff.1 hb.cd.nodup)]
        refine (hv k hk).2.ratio ?_ _ _ (isChanged_filter k (h.cOps k hk) hcs) (isChanged_filter k (h.cdOps k hk) hcds)
        rcases hcond with h1 | h1 | h1 | h1 | h1 | ⟨cs', cds', h1, h2, h3⟩
        · exact Or.inl (Finset.prod_ne_zero_iff.1 (left_ne_zero_of_mul h1) k (Finset.mem_range.2 hk))
        · exact Or.inr (Or.inl (by simp [HybChange.inSector, h1]))
        · exact Or.inr (Or.inr (Or.inl (by simp [HybChange.inSector, h1])))
        · exact Or.inr (Or.inr (Or.inr (Or.inl (by simp [HybChange.inSector, h1]))))
        · exact Or.inr (Or.inr (Or.inr (Or.inr (Or.inl (by simp [HybChange.inSector, h1])))))
        · refine Or.inr (Or.inr (Or.inr (Or.inr (Or.inr
            ⟨cs'.filter fun o => E.sector o.flavor = k, cds'.filter fun o => E.sector o.flavor = k,
              isChanged_filter k (h.cOps k hk) h1, isChanged_filter k (h.cdOps k hk) h2, ?_⟩))))
          have m1 : (cs' : Multiset (Psi T)) ≤ (s.c.act : Multiset (Psi T)) := by
            rw [h1, Multiset.coe_nil, add_zero]; exact tsub_le_self
          have m2 : (cds' : Multiset (Psi T)) ≤ (s.cd.act : Multiset (Psi T)) := by
            rw [h2, Multiset.coe_nil, add_zero]; exact tsub_le_self
          have n1 : (cs'.map Psi.time).Nodup := by
            rw [← Multiset.coe_nodup, ← Multiset.map_coe]
            exact Multiset.nodup_of_le (Multiset.map_le_map m1) h.cOK.set.nodup
          have n2 : (cds'.map Psi.time).Nodup := by
            rw [← Multiset.coe_nodup, ← Multiset.map_coe]
            exact Multiset.nodup_of_le (Multiset.map_le_map m2) h.cdOK.set.nodup
          rw [C18_sector_determinants E G hG cs' cds' n1 n2 (valid_of_sub h.cOK.valid m1)
            (valid_of_sub h.cdOK.valid m2)] at h3
          exact Finset.prod_ne_zero_iff.1 (right_ne_zero_of_mul h3) k (Finset.mem_range.2 hk)
      have ec : p4.OK E cs := by rw [hcs]; exact d2
      have ecd : p3.OK E cds := by rw [hcds]; exact c2
      rw [C18_sector_determinants E G hG cs cds nd1 nd2 v1 v2,
        C18_sector_determinants E G hG s.c.act s.cd.act h.cNodup h.cdNodup h.cOK.valid h.cdOK.valid,
        Finset.prod_congr rfl (fun k hk' => hk k (Finset.mem_range.1 hk')), Finset.prod_mul_distrib,
        ← ec.order_eq, ← ecd.order_eq, ← h.cOK.order_eq, ← h.cdOK.order_eq]
      have x1 : ((-1 : K)) ^ (invs (p4.order E) + invs (p3.order E)) = ((p4.sgn E * p3.sgn E : ℤ) : K) := by
        unfold PSide.sgn; push_cast; rw [pow_add]
      have x2 : ((-1 : K)) ^ (invs (s.c.order E) + invs (s.cd.order E)) = (s.perm : K) := by
        rw [h.perm]; push_cast; rfl
      have x3 : (s.perm : K) * (s.perm : K) = 1 := by exact_mod_cast congrArg (Int.cast (R := K)) hps
      rw [x1, x2]
      push_cast
      linear_combination (-((p4.sgn E : K) * (p3.sgn E : K)) * (∏ k ∈ Finset.range E.ns, (v k).1) *
        ∏ k ∈ Finset.range E.ns, timeDet G (s.c.act.filter fun o => E.sector o.flavor = k)
            (s.cd.act.filter fun o => E.sector o.flavor = k)) * x3

end CTHyb
