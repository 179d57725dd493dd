import Verif.ObservablesProps

/-!
Observables which are recorded only if there is something to record: the Legendre coefficients of the Green's function measured with the
partition function, the acceptance rates of the global shifts and of the exchanges of flavors (src/impurity.ipp:398-413, 425-435).
-/

namespace CTHyb

/-- The operation is a global update. -/
def ROp.isGlobal : ROp → Bool
  | .globalUpdate _ => true
  | _ => false

/-- The operation is a global update with exchanges of flavors. -/
def ROp.isSwap : ROp → Bool
  | .globalUpdate true => true
  | _ => false

/-- **Specification.**  Number of measurements in the space of the partition function before which, at some time, there was a call of
the kind `on` and after it no call of the kind `off`. -/
def armedCount (on off : ROp → Bool) (ops : List ROp) : ℕ :=
  ((List.range ops.length).filter fun i => decide (∃ o, ops[i]? = some o ∧ o.isMeasureZ = true) &&
    (List.range i).any fun j => (ops[j]?.any on) && (List.range i).all fun k => !(decide (j < k) && ops[k]?.any off)).length

/-- Is the switch on at the end. -/
def armed (on off : ROp → Bool) (ops : List ROp) : Bool :=
  (List.range ops.length).any fun j => (ops[j]?.any on) && (List.range ops.length).all fun k => !(decide (j < k) && ops[k]?.any off)

theorem armed_append (on off : ROp → Bool) (ops : List ROp) (o : ROp) :
    armed on off (ops ++ [o]) = (on o || (armed on off ops && !off o)) := by
  rw [Bool.eq_iff_iff]
  unfold armed
  simp only [List.length_append, List.length_singleton, Bool.or_eq_true, Bool.and_eq_true, List.any_eq_true, List.all_eq_true,
    List.mem_range, Bool.not_eq_true', Bool.and_eq_false_iff, decide_eq_false_iff_not]
  have get : ∀ k, k < ops.length → (ops ++ [o])[k]? = ops[k]? := fun k hk => List.getElem?_append_left hk
  have last : (ops ++ [o])[ops.length]? = some o := by simp
  constructor
  · rintro ⟨j, hj, h1, h2⟩
    rcases Nat.lt_or_ge j ops.length with h | h
    · right
      refine ⟨⟨j, h, by rwa [get j h] at h1, fun k hk => ?_⟩, ?_⟩
      · have := h2 k (by omega)
        rwa [get k hk] at this
      · have := h2 ops.length (by omega)
        rw [last] at this
        simpa [h] using this
    · left
      obtain rfl : j = ops.length := by omega
      rw [last] at h1
      simpa using h1
  · rintro (h | ⟨⟨j, hj, h1, h2⟩, h3⟩)
    · exact ⟨ops.length, by omega, by rw [last]; simpa using h, fun k hk => Or.inl (by omega)⟩
    · refine ⟨j, by omega, by rwa [get j hj], fun k hk => ?_⟩
      rcases Nat.lt_or_ge k ops.length with h | h
      · rw [get k h]; exact h2 k h
      · obtain rfl : k = ops.length := by omega
        rw [last]; right; simpa using h3

theorem armedCount_append (on off : ROp → Bool) (ops : List ROp) (o : ROp) :
    armedCount on off (ops ++ [o]) = armedCount on off ops + if o.isMeasureZ && armed on off ops then 1 else 0 := by
  unfold armedCount
  rw [List.length_append, List.length_singleton, List.range_succ, List.filter_append, List.length_append]
  have get : ∀ k, k < ops.length → (ops ++ [o])[k]? = ops[k]? := fun k hk => List.getElem?_append_left hk
  congr 1
  · congr 1
    refine List.filter_congr fun i hi => ?_
    rw [List.mem_range] at hi
    rw [get i hi]
    congr 1
    rw [Bool.eq_iff_iff]
    simp only [List.any_eq_true, List.mem_range, Bool.and_eq_true, List.all_eq_true]
    refine exists_congr fun j => and_congr_right fun hj => ?_
    rw [get j (by omega)]
    refine and_congr_right fun _ => forall_congr' fun k => imp_congr_right fun hk => ?_
    rw [get k (by omega)]
  · have last : (ops ++ [o])[ops.length]? = some o := by simp
    have e : ((List.range ops.length).any fun j => ((ops ++ [o])[j]?.any on) &&
        (List.range ops.length).all fun k => !(decide (j < k) && (ops ++ [o])[k]?.any off)) = armed on off ops := by
      unfold armed
      rw [Bool.eq_iff_iff]
      simp only [List.any_eq_true, List.mem_range, Bool.and_eq_true, List.all_eq_true]
      refine exists_congr fun j => and_congr_right fun hj => ?_
      rw [get j hj]
      refine and_congr_right fun _ => forall_congr' fun k => imp_congr_right fun hk => ?_
      rw [get k hk]
    rw [List.filter_singleton, last, e]
    simp only [Option.some.injEq, exists_eq_left']
    cases o.isMeasureZ <;> cases armed on off ops <;> rfl

/-- **Specification.**  The observables, the calls which provide something to record and the calls after which there is nothing. -/
def condTable : List (String × (ROp → Bool) × (ROp → Bool)) :=
  [("Greens_legendre_Re", ROp.isStep .z, fun o => o.isMeasureZ || o.isPrep),
   ("Greens_legendre_Im", ROp.isStep .z, fun o => o.isMeasureZ || o.isPrep),
   ("Greens_legendre_rotated_Re", ROp.isStep .z, fun o => o.isMeasureZ || o.isPrep),
   ("Greens_legendre_rotated_Im", ROp.isStep .z, fun o => o.isMeasureZ || o.isPrep),
   ("Acceptance_rate_global_shift", ROp.isGlobal, ROp.isMeasureZ),
   ("Acceptance_rate_swap", ROp.isSwap, ROp.isMeasureZ)]

theorem writes_some (l : List Obs) : ∀ {st st' : RecState}, st.writes l = some st' →
    st' = { st with count := fun n => st.count n + (l.map Prod.fst).count n } := by
  induction l with
  | nil => intro st st' h; exact (Option.some.inj h).symm
  | cons o l ih =>
    intro st st' h
    have h1 : ((st.write o).bind fun s => s.writes l) = some st' := h
    unfold RecState.write at h1
    split_ifs at h1 with ho
    · rw [Option.bind_some] at h1
      rw [ih h1]
      congr 1
      funext n
      simp only [List.map_cons, List.count_cons]
      by_cases hn : n = o.1
      · subst hn
        rw [Function.update_self]
        simp
        omega
      · rw [Function.update_of_ne hn]
        have : (o.1 == n) = false := by simpa using fun h => hn h.symm
        rw [this]
        simp
    · simp at h1

/-- The names of `condTable`. -/
def condNames : List String := ["Greens_legendre_Re", "Greens_legendre_Im", "Greens_legendre_rotated_Re",
  "Greens_legendre_rotated_Im", "Acceptance_rate_global_shift", "Acceptance_rate_swap"]

set_option maxRecDepth 100000 in
theorem cond_static : ∀ n ∈ condNames, digitHead n = false ∧ n ≠ "order" := by decide +kernel

set_option maxRecDepth 100000 in
theorem cond_m (g2 tt eq1 eq2 : Bool) : ∀ n ∈ condNames, (((mList 0 g2 tt eq1 eq2)).map Prod.fst).count n = 0 := by
  revert g2 tt eq1 eq2; decide +kernel

set_option maxRecDepth 100000 in
theorem cond_steps : ∀ n ∈ condNames,
    ((complexObs "kLkR" .scalar ++ complexObs "k" .scalar).map Prod.fst).count n = 0 ∧
    ((complexObs (gName 1) .vector).map Prod.fst).count n = 0 ∧
    ((complexObs (gName 2) .vector).map Prod.fst).count n = 0 ∧
    ((complexObs "Two_time_G2" .vector).map Prod.fst).count n = 0 ∧
    ((complexObs "Equal_time_G1" .vector).map Prod.fst).count n = 0 ∧
    ((complexObs "Equal_time_G2" .vector).map Prod.fst).count n = 0 ∧
    ([("Pert_order_start", ObsType.scalar)].map Prod.fst).count n = 0 ∧
    ([("Pert_order_end", ObsType.scalar)].map Prod.fst).count n = 0 := by decide +kernel

/-- The switch of a name. -/
def condFlag (gs sw gl : Bool) (n : String) : Bool :=
  if n = "Acceptance_rate_global_shift" then gs else if n = "Acceptance_rate_swap" then sw else gl

set_option maxRecDepth 100000 in
theorem cond_z (gs sw gl corr : Bool) : ∀ n ∈ condNames, ((zStatic gs sw gl corr).map Prod.fst).count n =
    if condFlag gs sw gl n then 1 else 0 := by
  revert gs sw gl corr; decide +kernel

theorem cond_m_count (multi : ℕ) (g2 tt eq1 eq2 : Bool) {n : String} (hn : n ∈ condNames) :
    ((mList multi g2 tt eq1 eq2).map Prod.fst).count n = 0 := by
  have h1 := cond_m g2 tt eq1 eq2 n hn
  have h2 := count_k multi (cond_static n hn).1
  unfold mList bathObs at *
  unfold kObs at h2
  simp only [List.map_append, List.count_append] at *
  simp only [List.range_zero, List.flatMap_nil, List.map_nil, List.count_nil] at h1
  omega

theorem cond_z_count (q : RecParams) (st : RecState) {n : String} (hn : n ∈ condNames) :
    ((zWrites q st).map Prod.fst).count n = if condFlag st.gshift st.swap st.gl n then 1 else 0 := by
  rw [← cond_z st.gshift st.swap st.gl q.corr n hn]
  have h2 := count_k q.multi (cond_static n hn).1
  have h3 : ((List.replicate q.nf (("order", .vector) : Obs)).map Prod.fst).count n = 0 := by
    rw [List.map_replicate, List.count_eq_zero]
    intro h
    exact (cond_static n hn).2 (List.eq_of_mem_replicate h)
  unfold kObs at h2
  unfold zWrites zStatic
  simp only [List.map_append, List.count_append] at *
  omega

/-- One call: the switches and the numbers of samples. -/
theorem cond_exec {q : RecParams} {g2 tt eq1 eq2 : Bool} {st st' : RecState} {op : ROp}
    (h : st.exec q (bSpaces g2 tt eq1 eq2) op = some st') :
    st'.gl = (op.isStep .z || (st.gl && !(op.isMeasureZ || op.isPrep))) ∧
    st'.gshift = (op.isGlobal || (st.gshift && !op.isMeasureZ)) ∧
    st'.swap = (op.isSwap || (st.swap && !op.isMeasureZ)) ∧
    ∀ n ∈ condNames, st'.count n = st.count n + if op.isMeasureZ && condFlag st.gshift st.swap st.gl n then 1 else 0 := by
  cases op with
  | globalUpdate sw =>
    obtain rfl := Option.some.inj h
    refine ⟨by simp [ROp.isStep, ROp.isMeasureZ, ROp.isPrep], by simp [ROp.isGlobal], ?_, fun n _ => by simp [ROp.isMeasureZ, ROp.isGlobal, ROp.isSwap]⟩
    cases sw <;> simp [ROp.isMeasureZ, ROp.isSwap]
  | prepare =>
    rw [writes_some _ h]
    refine ⟨by simp [ROp.isStep, ROp.isPrep], by simp [ROp.isMeasureZ, ROp.isGlobal, ROp.isSwap], by simp [ROp.isMeasureZ, ROp.isGlobal, ROp.isSwap], fun n hn => ?_⟩
    show st.count n + _ = _
    rw [(cond_steps n hn).2.2.2.2.2.2.1]
    simp [ROp.isMeasureZ]
  | finish =>
    rw [writes_some _ h]
    refine ⟨by simp [ROp.isStep, ROp.isMeasureZ, ROp.isPrep], by simp [ROp.isMeasureZ, ROp.isGlobal, ROp.isSwap], by simp [ROp.isMeasureZ, ROp.isGlobal, ROp.isSwap], fun n hn => ?_⟩
    show st.count n + _ = _
    rw [(cond_steps n hn).2.2.2.2.2.2.2]
    simp [ROp.isMeasureZ]
  | step s =>
    have plain : ∀ l : List Obs, s ≠ .z → (∀ n ∈ condNames, (l.map Prod.fst).count n = 0) → ∀ st'' : RecState,
        st.writes l = some st'' → st''.gl = (ROp.isStep .z (.step s) || (st.gl && !(ROp.isMeasureZ (.step s) || ROp.isPrep (.step s)))) ∧
        st''.gshift = (false || (st.gshift && !ROp.isMeasureZ (.step s))) ∧
        st''.swap = (false || (st.swap && !ROp.isMeasureZ (.step s))) ∧
        ∀ n ∈ condNames, st''.count n = st.count n + if ROp.isMeasureZ (.step s) && condFlag st.gshift st.swap st.gl n then 1 else 0 := by
      intro l hs hl st'' e
      rw [writes_some _ e]
      refine ⟨by simp [ROp.isStep, ROp.isMeasureZ, ROp.isPrep, hs], by simp [ROp.isMeasureZ, ROp.isGlobal, ROp.isSwap], by simp [ROp.isMeasureZ, ROp.isGlobal, ROp.isSwap], fun n hn => ?_⟩
      show st.count n + _ = _
      rw [hl n hn]
      simp [ROp.isMeasureZ]
    cases s with
    | unknown => exact absurd h (by simp [RecState.exec, RecState.step])
    | z =>
      simp only [RecState.exec, RecState.step, Option.map_eq_some_iff] at h
      obtain ⟨s1, e1, rfl⟩ := h
      rw [writes_some _ e1]
      refine ⟨by simp [ROp.isStep], by simp [ROp.isMeasureZ, ROp.isGlobal, ROp.isSwap], by simp [ROp.isMeasureZ, ROp.isGlobal, ROp.isSwap], fun n hn => ?_⟩
      show st.count n + _ = _
      rw [(cond_steps n hn).1]
      simp [ROp.isMeasureZ]
    | tt => exact plain _ (by simp) (fun n hn => (cond_steps n hn).2.2.2.1) _ h
    | eq1 => exact plain _ (by simp) (fun n hn => (cond_steps n hn).2.2.2.2.1) _ h
    | eq2 => exact plain _ (by simp) (fun n hn => (cond_steps n hn).2.2.2.2.2.1) _ h
    | g1 =>
      simp only [RecState.exec, RecState.step] at h
      split_ifs at h
      · rw [Option.map_eq_some_iff] at h
        obtain ⟨s1, e1, rfl⟩ := h
        rw [writes_some _ e1]
        refine ⟨by simp [ROp.isStep, ROp.isMeasureZ, ROp.isPrep], by simp [ROp.isMeasureZ, ROp.isGlobal, ROp.isSwap], by simp [ROp.isMeasureZ, ROp.isGlobal, ROp.isSwap], fun n hn => ?_⟩
        show st.count n + _ = _
        rw [(cond_steps n hn).2.1]
        simp [ROp.isMeasureZ]
      · obtain rfl := Option.some.inj h
        refine ⟨by simp [ROp.isStep, ROp.isMeasureZ, ROp.isPrep], by simp [ROp.isMeasureZ, ROp.isGlobal, ROp.isSwap], by simp [ROp.isMeasureZ, ROp.isGlobal, ROp.isSwap], fun n hn => ?_⟩
        simp [ROp.isMeasureZ]
    | g2 =>
      simp only [RecState.exec, RecState.step] at h
      split_ifs at h
      · rw [Option.map_eq_some_iff] at h
        obtain ⟨s1, e1, rfl⟩ := h
        rw [writes_some _ e1]
        refine ⟨by simp [ROp.isStep, ROp.isMeasureZ, ROp.isPrep], by simp [ROp.isMeasureZ, ROp.isGlobal, ROp.isSwap], by simp [ROp.isMeasureZ, ROp.isGlobal, ROp.isSwap], fun n hn => ?_⟩
        show st.count n + _ = _
        rw [(cond_steps n hn).2.2.1]
        simp [ROp.isMeasureZ]
      · obtain rfl := Option.some.inj h
        refine ⟨by simp [ROp.isStep, ROp.isMeasureZ, ROp.isPrep], by simp [ROp.isMeasureZ, ROp.isGlobal, ROp.isSwap], by simp [ROp.isMeasureZ, ROp.isGlobal, ROp.isSwap], fun n hn => ?_⟩
        simp [ROp.isMeasureZ]
  | measure s =>
    simp only [RecState.exec, RecState.measure] at h
    rw [measureHead_eq, Option.bind_some, Option.bind_eq_some_iff] at h
    obtain ⟨s1, e1, h⟩ := h
    have e1' := writes_some _ e1
    by_cases hs : s = .z
    · subst hs
      rw [if_pos rfl, Option.map_eq_some_iff] at h
      obtain ⟨s2, e2, rfl⟩ := h
      rw [writes_some _ e2]
      refine ⟨by simp [ROp.isStep, ROp.isMeasureZ], by simp [ROp.isMeasureZ, ROp.isGlobal, ROp.isSwap], by simp [ROp.isMeasureZ, ROp.isGlobal, ROp.isSwap], fun n hn => ?_⟩
      show s1.count n + _ = _
      rw [cond_z_count q s1 hn, e1']
      show st.count n + _ + _ = _
      rw [cond_m_count q.multi g2 tt eq1 eq2 hn]
      simp [ROp.isMeasureZ]
    · rw [if_neg hs] at h
      obtain rfl := Option.some.inj h
      have hz : ROp.isMeasureZ (.measure s) = false := by cases s <;> first | rfl | exact absurd rfl hs
      rw [e1', hz]
      refine ⟨by simp [ROp.isStep, ROp.isPrep], by simp [ROp.isGlobal], by simp [ROp.isSwap], fun n hn => ?_⟩
      show st.count n + _ = _
      rw [cond_m_count q.multi g2 tt eq1 eq2 hn]
      simp

/-- The switches and numbers after a run. -/
theorem cond_run {q : RecParams} {g2 tt eq1 eq2 : Bool} (S : List Obs) (ops : List ROp) : ∀ st : RecState,
    runRec q (bSpaces g2 tt eq1 eq2) (RecState.init S) ops = some st →
    st.gl = armed (ROp.isStep .z) (fun o => o.isMeasureZ || o.isPrep) ops ∧
    st.gshift = armed ROp.isGlobal ROp.isMeasureZ ops ∧
    st.swap = armed ROp.isSwap ROp.isMeasureZ ops ∧
    ∀ e ∈ condTable, st.count e.1 = armedCount e.2.1 e.2.2 ops := by
  induction ops using List.reverseRecOn with
  | nil =>
    intro st h
    obtain rfl := Option.some.inj h
    exact ⟨rfl, rfl, rfl, fun e _ => rfl⟩
  | append_singleton ops o ih =>
    intro st h
    unfold runRec at h
    rw [List.foldlM_append] at h
    obtain ⟨s0, h0, h1⟩ := Option.bind_eq_some_iff.1 h
    obtain ⟨i1, i2, i3, i4⟩ := ih s0 h0
    have h1' : s0.exec q (bSpaces g2 tt eq1 eq2) o = some st := by simpa using h1
    obtain ⟨k1, k2, k3, k4⟩ := cond_exec h1'
    refine ⟨by rw [armed_append, k1, i1], by rw [armed_append, k2, i2], by rw [armed_append, k3, i3], fun e he => ?_⟩
    rw [armedCount_append]
    have hm : e.1 ∈ condNames := by
      unfold condTable at he
      simp only [List.mem_cons, List.not_mem_nil, or_false] at he
      rcases he with rfl | rfl | rfl | rfl | rfl | rfl <;> simp [condNames]
    rw [k4 _ hm, i4 e he]
    congr 3
    unfold condTable at he
    simp only [List.mem_cons, List.not_mem_nil, or_false] at he
    rcases he with rfl | rfl | rfl | rfl | rfl | rfl
    · exact congrArg (o.isMeasureZ && ·) i1
    · exact congrArg (o.isMeasureZ && ·) i1
    · exact congrArg (o.isMeasureZ && ·) i1
    · exact congrArg (o.isMeasureZ && ·) i1
    · exact congrArg (o.isMeasureZ && ·) i2
    · exact congrArg (o.isMeasureZ && ·) i3

/-- **C73.**  The conditional observables: in every history in the spaces in use, the Legendre coefficients are recorded once for each
measurement in the space of the partition function which follows a step in this space, with no other such measurement and no
`prepare_for_measurement` in between; the acceptance rates of the global updates once for each such measurement after a global update. -/
theorem C73_conditional {p : WormParams} {t : WormTables} (ht : createWormUpdaters p = some t) {sp : Spaces} (hsp : t.spaces = some sp)
    (q : RecParams) {S : List Obs} (hS : createObservables p q.multi t = some S) (ops : List ROp) (hops : ∀ o ∈ ops, InSpaces p o.space) :
    ∃ st, runRec q sp (RecState.init S) ops = some st ∧ ∀ e ∈ condTable, st.count e.1 = armedCount e.2.1 e.2.2 ops := by
  obtain ⟨st, h1, -, -⟩ := C73_run ht hsp q hS ops hops
  have e1 := (create_form ht).1
  rw [hsp] at e1
  obtain rfl := Option.some.inj e1
  exact ⟨st, h1, (cond_run S ops st h1).2.2.2⟩

/-- Two steps and two measurements in the space of the partition function: one sample; a measurement after a step in the worm space
alone gives none; the steps before `prepare_for_measurement` do not count. -/
example :
    armedCount (ROp.isStep .z) (fun o => o.isMeasureZ || o.isPrep)
      [.step .z, .step .z, .measure .z, .measure .z, .step .g1, .measure .z] = 1 ∧
    armedCount (ROp.isStep .z) (fun o => o.isMeasureZ || o.isPrep) [.step .z, .prepare, .measure .z, .step .z, .measure .g1, .measure .z] = 1 ∧
    armedCount ROp.isSwap ROp.isMeasureZ [.globalUpdate true, .measure .z, .globalUpdate false, .measure .z] = 1 := by
  decide

end CTHyb
