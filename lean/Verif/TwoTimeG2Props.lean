import Verif.TwoTimeG2Lemmas

/-!
Property C64: the measurement of the two-time Green's function with many times for the left pair.

Specification.  The weight of a configuration with the operators of the determinant matrix and the worm `ttWorm t r f` is
permutation sign times determinant times trace.  The estimator of an observable `x` from candidates is the mean of `x` with the
weights `W`, normalised by the sum of the absolute values of the weights.
-/

namespace CTHyb

open Matrix

variable {𝕜 : Type} [RCLike 𝕜]

/-! ### Specification -/

/-- Estimator from the candidates `(F, t)`, `F ∈ Fs`, `t ∈ times`, which satisfy `keep`. -/
noncomputable def ttEst {Φ : Type} (W x : Φ → ℝ → 𝕜) (keep : 𝕜 → Prop) [DecidablePred keep] (Fs : List Φ)
    (times : List ℝ) : 𝕜 :=
  (Fs.map fun F => (times.map fun t => if keep (W F t) then W F t * x F t else 0).sum).sum /
    (((Fs.map fun F => (times.map fun t => if keep (W F t) then ‖W F t‖ else 0).sum).sum : ℝ) : 𝕜)

section weight
variable [DecidableEq 𝕜] {N : ℕ}

/-- Weight of the configuration with the determinant matrix `M` and two pairs of worm operators. -/
noncomputable def CodeArgs.ttW (A : CodeArgs 𝕜 N) (M : CodeDet 𝕜) (r : ℝ) (f : Fin 4 → ℕ) (t : ℝ) : 𝕜 :=
  ((permSignImpl (A.env.D.cdagg M) (A.env.D.cs M) (ttWorm t r f) : ℤ) : 𝕜) *
    weightOf (ebEnv A.B A.p A.beta) A.G (A.env.D.cdagg M) (A.env.D.cs M) (ttWorm t r f)

end weight

/-! ### The times -/

theorem ttFill_ok {m : ℕ} {dup0 : List ℝ} {t0 : ℝ} {ok : ℝ → Prop} (ts : List ℝ) : ∀ (dup new times : List ℝ),
    (∀ t ∈ ts, ok t) → new.Pairwise (· < ·) → t0 ∈ new → (∀ t ∈ new, t ∈ dup) → (∀ t ∈ dup0, t ∈ dup) →
    (∀ t ∈ new, t ≠ t0 → ok t ∧ t ∉ dup0) → new.length ≤ m → ttFill m ts dup new = some times →
    times.Pairwise (· < ·) ∧ t0 ∈ times ∧ (∀ t ∈ times, t ≠ t0 → ok t ∧ t ∉ dup0) ∧ times.length = m := by
  induction ts with
  | nil =>
    intro dup new times _ hp h0 _ _ h4 hl h
    unfold ttFill at h
    split_ifs at h with hm
    obtain rfl := Option.some.inj h
    exact ⟨hp, h0, h4, by omega⟩
  | cons t ts ih =>
    intro dup new times hok hp h0 h2 h3 h4 hl h
    unfold ttFill at h
    split_ifs at h with hm hd
    · exact ih dup new times (fun u hu => hok u (List.mem_cons_of_mem _ hu)) hp h0 h2 h3 h4 hl h
    · refine ih (t :: dup) _ times (fun u hu => hok u (List.mem_cons_of_mem _ hu)) ?_ ?_ ?_ ?_ ?_ ?_ h
      · have hs : (new.orderedInsert (· ≤ ·) t).Pairwise (· ≤ ·) :=
          List.Pairwise.orderedInsert t new (hp.imp fun h => h.le)
        have hnd : (new.orderedInsert (· ≤ ·) t).Nodup := by
          rw [(List.perm_orderedInsert (· ≤ ·) t new).nodup_iff, List.nodup_cons]
          exact ⟨fun hm => hd (h2 t hm), hp.imp fun h => h.ne⟩
        exact hs.imp₂ (fun _ _ hle hne => lt_of_le_of_ne hle hne) hnd
      · exact (List.mem_orderedInsert (· ≤ ·)).2 (Or.inr h0)
      · intro u hu
        rcases (List.mem_orderedInsert (· ≤ ·)).1 hu with rfl | hu
        · simp
        · exact List.mem_cons_of_mem _ (h2 u hu)
      · exact fun u hu => List.mem_cons_of_mem _ (h3 u hu)
      · intro u hu hne
        rcases (List.mem_orderedInsert (· ≤ ·)).1 hu with rfl | hu
        · exact ⟨hok u (by simp), fun h => hd (h3 u h)⟩
        · exact h4 u hu hne
      · rw [List.orderedInsert_length]; omega
    · obtain rfl := Option.some.inj h
      exact ⟨hp, h0, h4, by omega⟩

/-- **C64, times.**  The times used are `max(20, average order)` different times: the present one and others strictly between
0 and β which are not the time of an operator. -/
theorem C64_times {beta : ℝ} (hb : 0 < beta) (ops : OpSet (OpTime ℝ)) (t0 : ℝ) (h0 : ∃ o ∈ ops, o.time.time = t0)
    (avg : ℕ) (rs : List ℝ) (hrs : ∀ r ∈ rs, 0 ≤ r ∧ r < 1) (times : List ℝ)
    (h : ttTimes beta ops t0 avg rs = some times) :
    times.Pairwise (· < ·) ∧ t0 ∈ times ∧ times.length = max 20 avg ∧
      ∀ t ∈ times, t ≠ t0 → (0 < t ∧ t < beta) ∧ ∀ o ∈ ops, o.time.time ≠ t := by
  have hm : (1 : ℕ) ≤ ttNum avg := by unfold ttNum; omega
  obtain ⟨o0, ho0, e0⟩ := h0
  unfold ttTimes at h
  obtain ⟨h1, h2, h3, h4⟩ := ttFill_ok (ok := fun t => 0 < t ∧ t < beta) (dup0 := ops.map fun o => o.time.time) (t0 := t0)
    (rs.map fun r => openRandom r 0 beta 1e-10) (ops.map fun o => o.time.time) [t0] times
    (by
      intro t ht
      obtain ⟨r, hr, rfl⟩ := List.mem_map.1 ht
      obtain ⟨hr0, hr1⟩ := hrs r hr
      unfold openRandom
      constructor
      · have : (1 - 1e-10) * r + 1e-10 / 2 < 1 := by nlinarith
        nlinarith
      · have : 0 < (1 - 1e-10) * r + 1e-10 / 2 := by nlinarith
        nlinarith) (List.pairwise_singleton _ _) (by simp) (by
      intro t ht
      rw [List.mem_singleton] at ht
      exact List.mem_map.2 ⟨o0, ho0, by rw [ht, e0]⟩) (fun t ht => ht)
    (fun t ht hne => absurd (List.mem_singleton.1 ht) hne) (by simpa using hm) h
  refine ⟨h1, h2, h4, fun t ht hne => ⟨(h3 t ht hne).1, fun o ho e => (h3 t ht hne).2 (List.mem_map.2 ⟨o, ho, e⟩)⟩⟩

/-! ### The measurement -/

section measure
variable [DecidableEq 𝕜] {N : ℕ}

/-- **C64, measurement.**  In every state of the simulation with two pairs of worm operators, if no candidate time is an edge
of the windows of the measurement, `measure` does not throw, restores the window, and its data are the estimator of the basis
functions from the candidates: all drawn times, with the present and with the drawn flavors.  Candidates whose weight is less
than `1e-30` of the present one are left out. -/
theorem C64_measure (A : CodeArgs 𝕜 N) (h : A.OK) (hb : 0 < A.beta) {s : A.St} (hs : SimInv A.env A.Inv (pmDet A.P) s)
    (t0 r : ℝ) (f g : Fin 4 → ℕ) (hworm : s.cfg.worm = some (ttWorm t0 r f)) (hf : ∀ i, f i < A.P.nf)
    (hg : ∀ i, g i < A.P.nf) (nl avg : ℕ) (rs : List ℝ) (hrs : ∀ x ∈ rs, 0 ≤ x ∧ x < 1) (times : List ℝ)
    (ht : ttTimes A.beta s.cfg.ops t0 avg rs = some times)
    (hedge : ∀ t ∈ times, ∀ p ≤ 2 * max (max 20 avg) s.sw.n, t ≠ tauEdge A.beta (max (max 20 avg) s.sw.n) p) :
    ∃ w data, twoTimeMeasure A nl avg rs [g 0, g 1, g 2, g 3] s = some (w, data) ∧
      SimInv A.env A.Inv (pmDet A.P) { s with sw := w } ∧ w.n = s.sw.n ∧ w.posL = s.sw.posL ∧ w.posR = s.sw.posR ∧
      ∀ k : Fin 4 → ℕ, ∀ il < nl, data (k 0) (k 1) (k 2) (k 3) il =
        ttEst (A.ttW s.cfg.M r) (fun F t => if k = F then ((ttBasis A.beta il (t - r) : ℝ) : 𝕜) else 0)
          (fun x => 1e-30 * ‖A.ttW s.cfg.M r f t0‖ < ‖x‖) [f, g] times := by
  set cds := A.env.D.cdagg s.cfg.M with hcds
  set cs := A.env.D.cs s.cfg.M with hcs
  have hwops : wormOps s.cfg.worm = ttWorm t0 r f := by rw [hworm]; rfl
  have hsorted : s.cfg.ops.Sorted := hs.cons.1
  have hperm : List.Perm s.cfg.ops (cds ++ cs ++ ttWorm t0 r f) := by
    have := hs.cons.2
    rw [hwops] at this
    exact Multiset.coe_eq_coe.1 this
  have hnd : ((cds ++ cs ++ ttWorm t0 r f).map Psi.time).Nodup := by
    rw [← (hperm.map Psi.time).nodup_iff, List.nodup_map_iff_inj_on (sorted_nodup _ hsorted)]
    exact fun x hx y hy hxy => OpSet.time_inj _ hsorted hx hy hxy
  have hmemw : ∀ o ∈ ttWorm t0 r f, o ∈ s.cfg.ops := fun o ho => hperm.mem_iff.2 (List.mem_append_right _ ho)
  have hndw : ((ttWorm t0 r f).map Psi.time).Nodup := by
    rw [List.map_append] at hnd
    exact hnd.of_append_right
  have ht0r : t0 ≠ r := by
    rintro rfl
    rw [ttWorm_times] at hndw
    simp at hndw
  have hrange := hs.win.ops.2
  have b1 : ∀ x : ℝ, (⟨x, 1⟩ : OpTime ℝ) ≤ opT A.beta → x < A.beta := by
    intro x hx
    rw [OpTime.le_def] at hx
    rcases hx with hx | ⟨-, hx⟩
    · exact hx
    · simp [opT] at hx
  have b0 : ∀ x : ℝ, opT 0 ≤ (⟨x, 0⟩ : OpTime ℝ) → 0 ≤ x := fun x hx => opT_le.1 hx
  have h0lo : 0 ≤ t0 := b0 t0 (hrange _ (hmemw ⟨⟨t0, 0⟩, .annihilation, f 1⟩ (by simp [ttWorm]))).1
  have h0hi : t0 < A.beta := b1 t0 (hrange _ (hmemw ⟨⟨t0, 1⟩, .creation, f 0⟩ (by simp [ttWorm]))).2
  have hrlo : 0 ≤ r := b0 r (hrange _ (hmemw ⟨⟨r, 0⟩, .annihilation, f 3⟩ (by simp [ttWorm]))).1
  have hrhi : r < A.beta := b1 r (hrange _ (hmemw ⟨⟨r, 1⟩, .creation, f 2⟩ (by simp [ttWorm]))).2
  obtain ⟨ops0, e0, s0, m0⟩ := ttEraseAll_ok (ttWorm t0 r f) s.cfg.ops hsorted hndw hmemw
  have hp0 : List.Perm ops0 (cds ++ cs) := by
    rw [List.perm_ext_iff_of_nodup (sorted_nodup _ s0)]
    · intro y
      rw [m0, hperm.mem_iff, List.mem_append (s := cds ++ cs)]
      constructor
      · rintro ⟨h1 | h1, h2⟩
        · exact h1
        · exact absurd h1 h2
      · intro hy
        refine ⟨Or.inl hy, fun hw => ?_⟩
        rw [List.map_append, List.nodup_append] at hnd
        exact hnd.2.2 y.time (List.mem_map_of_mem hy) y.time (List.mem_map_of_mem hw) rfl
    · rw [List.map_append] at hnd
      exact List.Nodup.of_map _ hnd.of_append_left
  have hok0 : OpsOK A.beta ops0 := ⟨s0, fun o ho => hrange o ((m0 o).1 ho).1⟩
  have hnot : ∀ o ∈ ops0, ∀ u ∈ ttWorm t0 r f, o.time ≠ u.time := by
    intro o ho u hu e
    have := OpSet.time_inj _ hsorted ((m0 o).1 ho).1 (hmemw u hu) e
    exact ((m0 o).1 ho).2 (this ▸ hu)
  have hpr : ∀ o ∈ ops0, o.time ≠ ⟨r, 1⟩ ∧ o.time ≠ ⟨r, 0⟩ := fun o ho =>
    ⟨hnot o ho ⟨⟨r, 1⟩, .creation, f 2⟩ (by simp [ttWorm]), hnot o ho ⟨⟨r, 0⟩, .annihilation, f 3⟩ (by simp [ttWorm])⟩
  obtain ⟨tp, tmem, tlen, tprop⟩ := C64_times hb s.cfg.ops t0 ⟨⟨⟨t0, 1⟩, .creation, f 0⟩, hmemw _ (by simp [ttWorm]), rfl⟩ avg rs hrs
    times ht
  have tlo : ∀ t ∈ times, 0 ≤ t := by
    intro t h'
    by_cases e : t = t0
    · rw [e]; exact h0lo
    · exact (tprop t h' e).1.1.le
  have thi : ∀ t ∈ times, t < A.beta := by
    intro t h'
    by_cases e : t = t0
    · rw [e]; exact h0hi
    · exact (tprop t h' e).1.2
  have ttr : ∀ t ∈ times, t ≠ r := by
    intro t h'
    by_cases e : t = t0
    · rw [e]; exact ht0r
    · exact ((tprop t h' e).2 ⟨⟨r, 1⟩, .creation, f 2⟩ (hmemw _ (by simp [ttWorm]))).symm
  have tfr : ∀ t ∈ times, ∀ o ∈ ops0, o.time ≠ ⟨t, 1⟩ ∧ o.time ≠ ⟨t, 0⟩ := by
    intro t h' o ho
    by_cases e : t = t0
    · rw [e]
      exact ⟨hnot o ho ⟨⟨t0, 1⟩, .creation, f 0⟩ (by simp [ttWorm]), hnot o ho ⟨⟨t0, 0⟩, .annihilation, f 1⟩ (by simp [ttWorm])⟩
    · have := (tprop t h' e).2 o ((m0 o).1 ho).1
      exact ⟨fun e' => this (by rw [e']), fun e' => this (by rw [e'])⟩
  set cut : ℝ := 1e-30 * ‖s.cfg.trace‖ with hcut
  have hm20 : 2 ≤ ttNum avg := by unfold ttNum; omega
  obtain ⟨a1, o1, e1, c1, st1, d1, n1⟩ := ttSweep_ok h nl (ttNum avg) s.sw.n hm20 s.cfg.trace s.cfg.sign cut t0 r f hf times
    ⟨s.sw, ops0, fun _ _ _ _ _ => 0, 0⟩ hs.win.caches hok0 hrlo hrhi hpr tp tlo thi ttr hedge tfr
  simp only at c1 d1 n1
  obtain ⟨a2, o2, e2, c2, st2, d2, n2⟩ := ttSweep_ok h nl (ttNum avg) s.sw.n hm20 s.cfg.trace s.cfg.sign cut t0 r g hg times
    a1 st1 (by rw [c1]; exact hok0) hrlo hrhi (by rw [c1]; exact hpr) tp tlo thi ttr hedge (by rw [c1]; exact tfr)
  rw [c1] at d2 n2
  have hposL : s.sw.posL ≤ 2 * s.sw.n := hs.win.caches.posL
  have htwo := hs.two
  obtain ⟨w, e3, k3, w1, w2, w3, w4⟩ := restoreState_ok st2 s.cfg.ops (getState s.sw) hposL
  have hn1 : 1 ≤ s.sw.n := hs.win.n_pos
  have hR : w.posR = s.sw.posR := by
    by_cases h2 : 2 ≤ (getState s.sw).n
    · exact (w3 h2).1
    · have e := w4 (by omega)
      have : (getState s.sw).n = s.sw.n := rfl
      omega
  have hL : w.posL = s.sw.posL := w2
  have hN : w.n = s.sw.n := w1
  refine ⟨w, fun k0 k1 k2 k3 il => a2.data k0 k1 k2 k3 il / ((a2.norm : ℝ) : 𝕜), ?_, ⟨hs.cons, hs.inv, hs.sign, hs.trace, ⟨hs.win.ops, k3, ?_, ?_⟩, ?_⟩, hN, hL, hR, ?_⟩
  · unfold twoTimeMeasure
    have ew : ttFlavors (ttWorm t0 r f) [g 0, g 1, g 2, g 3] = ttWorm t0 r g := rfl
    have e3' : restoreState A.env.V s.cfg.ops (getState s.sw) a2.sw = some w := e3
    simp only [hwops]
    have hcons : ttWorm t0 r f = ⟨⟨t0, 1⟩, .creation, f 0⟩ :: (ttWorm t0 r f).tail := rfl
    rw [hcons]
    simp only
    rw [← hcons, e0, Option.bind_some, ht, Option.bind_some, ← hcut, e1, Option.bind_some, ew, e2, Option.bind_some, e3',
      Option.map_some]
  · show 1 ≤ w.n
    omega
  · show w.posR ≤ w.posL
    omega
  · show w.posL = w.posR + 2
    omega
  · intro k il hil
    obtain ⟨hsg1, hdet, htr0, -⟩ := hs.sign
    have hdet' : timeDet A.G cs cds ≠ 0 := by
      have := (C60_lawful A h).det_eq _ hs.inv
      rw [this] at hdet
      exact hdet
    have hlen : cs.length = cds.length := (C60_lawful A h).len _ hs.inv
    -- the weights
    have hndt : ∀ (F : Fin 4 → ℕ) (t : ℝ), t ∈ times →
        (cs.map Psi.time ++ cds.map Psi.time ++ (ttWorm t r F).map Psi.time).Nodup := by
      intro F t h'
      rw [List.nodup_append]
      have hbath : (cs.map Psi.time ++ cds.map Psi.time).Nodup := by
        rw [List.map_append, List.map_append] at hnd
        exact (List.perm_append_comm.nodup_iff).1 hnd.of_append_left
      refine ⟨hbath, ?_, ?_⟩
      · rw [ttWorm_times]
        simp [ttr t h']
      · intro x hx y hy hxy
        have : x ∈ ops0.map Psi.time := by
          rw [(hp0.map Psi.time).mem_iff, List.map_append]
          rw [List.mem_append] at hx ⊢
          exact hx.symm
        obtain ⟨o, ho, rfl⟩ := List.mem_map.1 this
        have q1 := tfr t h' o ho
        have q2 := hpr o ho
        rw [ttWorm_times] at hy
        simp only [List.mem_cons, List.not_mem_nil, or_false] at hy
        rw [← hxy] at hy
        tauto
    set ε : 𝕜 := (((-1) ^ (crossCount (cs.map Psi.time) (cds.map Psi.time) + cs.length.choose 2) : ℤ) : 𝕜) with hε
    have hε0 : ε ≠ 0 := by rw [hε]; push_cast; exact pow_ne_zero _ (neg_ne_zero.2 one_ne_zero)
    have hxw : ∀ (F : Fin 4 → ℕ) (t : ℝ), t ∈ times →
        A.ttW s.cfg.M r F t = ε * timeDet A.G cs cds * fullTrace (ebEnv A.B A.p A.beta) (timeSort (ops0 ++ ttWorm t r F)) := by
      intro F t h'
      have e : timeSort (ops0 ++ ttWorm t r F) = timeSort (cds ++ cs ++ ttWorm t r F) := by
        have hp := hp0.append_right (ttWorm t r F)
        refine time_sorted_unique ((timeSort_perm _).trans (hp.trans (timeSort_perm _).symm)) ?_ (timeSort_sorted _) (timeSort_sorted _)
        rw [((timeSort_perm _).map Psi.time).nodup_iff, (hp.map Psi.time).nodup_iff, List.map_append, List.map_append]
        exact ((List.perm_append_comm.append_right _).nodup_iff).1 (hndt F t h')
      unfold CodeArgs.ttW weightOf
      rw [← hcds, ← hcs, permSign_ttWorm cds cs hlen t r F (hndt F t h'), e, ← hε, mul_assoc]
    have htrace : s.cfg.trace = fullTrace (ebEnv A.B A.p A.beta) (timeSort (ops0 ++ ttWorm t0 r f)) := by
      rw [hs.trace]
      refine congrArg _ (sorted_eq_timeSort _ _ hsorted ?_)
      exact hperm.trans (hp0.symm.append_right _)
    have hW0 : A.ttW s.cfg.M r f t0 = ε * timeDet A.G cs cds * s.cfg.trace := by rw [hxw f t0 tmem, htrace]
    have hW0ne : A.ttW s.cfg.M r f t0 ≠ 0 := by rw [hW0]; exact mul_ne_zero (mul_ne_zero hε0 hdet') htr0
    have hcontrib : A.contrib s A.G = A.ttW s.cfg.M r f t0 := by
      unfold CodeArgs.contrib CodeArgs.weight CodeArgs.ttW weightOf
      have : s.cfg.permSign = permSignImpl cds cs (ttWorm t0 r f) := by rw [hsg1, hwops]; rfl
      rw [this, ← hcds, ← hcs, ← sorted_eq_timeSort _ _ hsorted hperm]
    have hsign := A.contrib_sign h hs
    rw [hcontrib] at hsign
    have hnorm0 : ‖A.ttW s.cfg.M r f t0‖ ≠ 0 := norm_ne_zero_iff.2 hW0ne
    have hnorm0' : ((‖A.ttW s.cfg.M r f t0‖ : ℝ) : 𝕜) ≠ 0 := by rw [RCLike.ofReal_ne_zero]; exact hnorm0
    have hnum : ∀ F : Fin 4 → ℕ, ∀ t ∈ times,
        (if cut < ‖fullTrace (ebEnv A.B A.p A.beta) (timeSort (ops0 ++ ttWorm t r F))‖ then
          (if k = F ∧ il < nl then s.cfg.sign * (fullTrace (ebEnv A.B A.p A.beta) (timeSort (ops0 ++ ttWorm t r F)) / s.cfg.trace) *
            ((ttBasis A.beta il (t - r) : ℝ) : 𝕜) else 0) else 0) =
        (((‖A.ttW s.cfg.M r f t0‖ : ℝ) : 𝕜))⁻¹ *
          (if 1e-30 * ‖A.ttW s.cfg.M r f t0‖ < ‖A.ttW s.cfg.M r F t‖ then A.ttW s.cfg.M r F t *
            (if k = F then ((ttBasis A.beta il (t - r) : ℝ) : 𝕜) else 0) else 0) ∧
        (if cut < ‖fullTrace (ebEnv A.B A.p A.beta) (timeSort (ops0 ++ ttWorm t r F))‖ then
          ‖fullTrace (ebEnv A.B A.p A.beta) (timeSort (ops0 ++ ttWorm t r F)) / s.cfg.trace‖ else 0) =
        ‖A.ttW s.cfg.M r f t0‖⁻¹ *
          (if 1e-30 * ‖A.ttW s.cfg.M r f t0‖ < ‖A.ttW s.cfg.M r F t‖ then ‖A.ttW s.cfg.M r F t‖ else 0) := by
      intro F t h'
      have hpos : 0 < ‖ε * timeDet A.G cs cds‖ := norm_pos_iff.2 (mul_ne_zero hε0 hdet')
      have hiff : 1e-30 * ‖A.ttW s.cfg.M r f t0‖ < ‖A.ttW s.cfg.M r F t‖ ↔
          cut < ‖fullTrace (ebEnv A.B A.p A.beta) (timeSort (ops0 ++ ttWorm t r F))‖ := by
        rw [hxw F t h', hW0, norm_mul, norm_mul (ε * timeDet A.G cs cds), hcut,
          show (1e-30 : ℝ) * (‖ε * timeDet A.G cs cds‖ * ‖s.cfg.trace‖) = ‖ε * timeDet A.G cs cds‖ * (1e-30 * ‖s.cfg.trace‖) by ring]
        exact mul_lt_mul_iff_right₀ hpos
      by_cases hc : cut < ‖fullTrace (ebEnv A.B A.p A.beta) (timeSort (ops0 ++ ttWorm t r F))‖
      · rw [if_pos hc, if_pos (hiff.2 hc), if_pos hc, if_pos (hiff.2 hc)]
        constructor
        · by_cases hk : k = F
          · rw [if_pos ⟨hk, hil⟩, if_pos hk]
            have : s.cfg.sign = A.ttW s.cfg.M r f t0 / ((‖A.ttW s.cfg.M r f t0‖ : ℝ) : 𝕜) := by
              rw [eq_div_iff hnorm0', mul_comm]; exact hsign
            rw [this, hxw F t h']
            nth_rewrite 1 [hW0]
            field_simp
          · rw [if_neg (fun h => hk h.1), if_neg hk, mul_zero, mul_zero]
        · rw [hxw F t h', hW0, norm_div, norm_mul, norm_mul (ε * timeDet A.G cs cds)]
          have := norm_ne_zero_iff.2 htr0
          field_simp
      · rw [if_neg hc, if_neg (fun h' => hc (hiff.1 h')), if_neg hc, if_neg (fun h' => hc (hiff.1 h'))]
        simp
    have hsumN : ∀ F : Fin 4 → ℕ, _ := fun F => congrArg List.sum (List.map_congr_left fun t ht => (hnum F t ht).1)
    have hsumD : ∀ F : Fin 4 → ℕ, _ := fun F => congrArg List.sum (List.map_congr_left fun t ht => (hnum F t ht).2)
    show a2.data (k 0) (k 1) (k 2) (k 3) il / ((a2.norm : ℝ) : 𝕜) = _
    rw [d2, d1, n2, n1, hsumN f, hsumN g, hsumD f, hsumD g]
    simp only [List.sum_map_mul_left, zero_add]
    unfold ttEst
    simp only [List.map_cons, List.map_nil, List.sum_cons, List.sum_nil, add_zero]
    rw [← mul_add, ← mul_add]
    push_cast
    rw [mul_div_mul_left _ _ (inv_ne_zero hnorm0')]

end measure

end CTHyb
