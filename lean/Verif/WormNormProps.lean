import Verif.WormNorm
import Mathlib.Algebra.BigOperators.Group.List.Basic
import Mathlib.Algebra.Module.Basic
import Mathlib.Algebra.Module.BigOperators
import Mathlib.Data.List.TakeDrop
import Mathlib.Data.Fin.VecNotation
import Mathlib.Tactic.FinCases
import Mathlib.Tactic.Linarith
import Mathlib.Tactic.FieldSimp
import Mathlib.Tactic.Ring
import Mathlib.Tactic.Module

/-!
Property C65: normalisation of the observables measured in worm spaces, for a finite sample.

Specification: `stepsIn` counts the steps in a space, `dataIn` lists what was measured there, `signsOf` the signs; they know nothing of
accumulators and buffers.  `fullGroups` are the data in complete groups.
-/

namespace CTHyb

variable {k : ℕ} {V : Type} [AddCommGroup V] [Module ℝ V]

section spec

/-- Number of steps in a space. -/
def stepsIn (i : Fin (k + 1)) : List (MEvent k V) → ℕ
  | [] => 0
  | .step j _ :: es => (if j = i then 1 else 0) + stepsIn i es
  | _ :: es => stepsIn i es

/-- What was measured in a space. -/
def dataIn (i : Fin (k + 1)) : List (MEvent k V) → List V
  | [] => []
  | .step j (some d) :: es => if j = i then d :: dataIn i es else dataIn i es
  | _ :: es => dataIn i es

/-- The signs. -/
def signsOf : List (MEvent k V) → List ℝ
  | [] => []
  | .measure (some s) :: es => s :: signsOf es
  | _ :: es => signsOf es

/-- Number of calls of `measure`. -/
def measuresOf : List (MEvent k V) → ℕ
  | [] => 0
  | .measure _ :: es => measuresOf es + 1
  | _ :: es => measuresOf es

/-- Data in complete groups of `n`. -/
def fullGroups {α : Type} (n : ℕ) (l : List α) : List α := l.take (n * (l.length / n))

/-- A process which prepares the measurement before its first step and ends with a call of `measure`; the weights are `w`. -/
def IsRun (w : Fin (k + 1) → ℝ) (es : List (MEvent k V)) : Prop :=
  ∃ mid s, es = .prepare w :: mid ++ [.measure s] ∧ ∀ w', .prepare w' ∉ mid

end spec

/-! ### One process -/

theorem stepsIn_append (i : Fin (k + 1)) (a b : List (MEvent k V)) : stepsIn i (a ++ b) = stepsIn i a + stepsIn i b := by
  induction a with
  | nil => simp [stepsIn]
  | cons e a ih => cases e <;> simp [stepsIn, ih, add_assoc]

theorem dataIn_append (i : Fin (k + 1)) (a b : List (MEvent k V)) : dataIn i (a ++ b) = dataIn i a ++ dataIn i b := by
  induction a with
  | nil => simp [dataIn]
  | cons e a ih =>
    cases e with
    | step j d =>
      cases d with
      | none => simp [dataIn, ih]
      | some d => simp only [List.cons_append, dataIn]; split_ifs <;> simp [ih]
    | prepare => simp [dataIn, ih]
    | measure => simp [dataIn, ih]

theorem signsOf_append (a b : List (MEvent k V)) : signsOf (a ++ b) = signsOf a ++ signsOf b := by
  induction a with
  | nil => simp [signsOf]
  | cons e a ih =>
    cases e with
    | measure s => cases s <;> simp [signsOf, ih]
    | _ => simp [signsOf, ih]

theorem measuresOf_append (a b : List (MEvent k V)) : measuresOf (a ++ b) = measuresOf a + measuresOf b := by
  induction a with
  | nil => simp [measuresOf]
  | cons e a ih => cases e <;> simp [measuresOf, ih] <;> omega

/-- The buffer of a space holds the data of the last, incomplete group. -/
def BufOK (n : ℕ) (l : List V) (b : WBuf V) : Prop :=
  b.cap = n ∧ b.num = l.length % n ∧ b.buf = (l.drop (n * (l.length / n))).sum ∧ b.acc.count = l.length / n ∧
    (n : ℝ) • b.acc.sum = (fullGroups n l).sum

theorem BufOK.add {n : ℕ} (hn : 0 < n) {l : List V} {b : WBuf V} (h : BufOK n l b) (x : V) : BufOK n (l ++ [x]) (b.add x) := by
  obtain ⟨h1, h2, h3, h4, h5⟩ := h
  have hn' : (n : ℝ) ≠ 0 := by exact_mod_cast hn.ne'
  have hlen : (l ++ [x]).length = l.length + 1 := by simp
  have hdm := Nat.div_add_mod l.length n
  have hle : n * (l.length / n) ≤ l.length := Nat.mul_div_le _ _
  unfold WBuf.add
  rw [h1, h2]
  by_cases hc : l.length % n + 1 = n
  · rw [if_pos hc]
    have e1 : (l.length + 1) / n = l.length / n + 1 := by
      have : l.length + 1 = n * (l.length / n + 1) := by rw [Nat.mul_add]; omega
      rw [this, Nat.mul_div_cancel_left _ hn]
    have e2 : (l.length + 1) % n = 0 := by
      have : l.length + 1 = n * (l.length / n + 1) := by rw [Nat.mul_add]; omega
      rw [this, Nat.mul_mod_right]
    have e3 : n * (l.length / n + 1) = l.length + 1 := by rw [Nat.mul_add]; omega
    refine ⟨rfl, by rw [hlen, e2], ?_, ?_, ?_⟩
    · rw [hlen, e1, e3]; simp
    · simp only [Acc.add, hlen, e1, h4]
    · unfold fullGroups
      rw [hlen, e1, e3, List.take_of_length_le (by simp)]
      simp only [Acc.add, smul_add, h5, smul_smul, mul_inv_cancel₀ hn', one_smul, h3, List.sum_append, List.sum_singleton]
      unfold fullGroups
      rw [← add_assoc, ← List.sum_append, List.take_append_drop]
  · rw [if_neg hc]
    have hlt := Nat.mod_lt l.length hn
    have e1 : (l.length + 1) / n = l.length / n := by
      have : l.length + 1 = n * (l.length / n) + (l.length % n + 1) := by omega
      rw [this, Nat.mul_add_div hn, Nat.div_eq_of_lt (show l.length % n + 1 < n by omega), add_zero]
    have e2 : (l.length + 1) % n = l.length % n + 1 := by
      have := Nat.div_add_mod (l.length + 1) n
      rw [e1] at this; omega
    refine ⟨rfl, by rw [hlen, e2], ?_, by rw [hlen, e1]; exact h4, ?_⟩
    · rw [hlen, e1, List.drop_append_of_le_length hle, List.sum_append, List.sum_singleton]
      simp only [h3]
    · unfold fullGroups at h5 ⊢
      rw [hlen, e1, List.take_append_of_le_length hle]
      exact h5

/-- What holds during a run with weights `w`. -/
structure RunInv (w : Fin (k + 1) → ℝ) (cap : Fin (k + 1) → ℕ) (es : List (MEvent k V)) (m : WMeas k V) : Prop where
  weight : m.weight = w
  vol : ∀ i, (m.vol i).sum * w i + m.num i = stepsIn i es
  count : ∀ i, (m.vol i).count = measuresOf es
  data : ∀ i, BufOK (cap i) (dataIn i es) (m.data i)
  signSum : m.sign.sum = (signsOf es).sum
  signCount : m.sign.count = (signsOf es).length

theorem RunInv.exec {w : Fin (k + 1) → ℝ} (hw : ∀ i, w i ≠ 0) {cap : Fin (k + 1) → ℕ} (hc : ∀ i, 0 < cap i) {es : List (MEvent k V)}
    {m : WMeas k V} (h : RunInv w cap es m) {e : MEvent k V} (he : ∀ w', e ≠ .prepare w') : RunInv w cap (es ++ [e]) (m.exec e) := by
  obtain ⟨h1, h2, h3, h4, h5, h6⟩ := h
  cases e with
  | prepare w' => exact absurd rfl (he w')
  | measure s =>
    refine ⟨h1, fun i => ?_, fun i => ?_, fun i => ?_, ?_, ?_⟩
    · simp only [WMeas.exec, WMeas.measure, Acc.add, stepsIn_append, stepsIn, h1, add_zero]
      rw [← h2 i, add_mul, div_mul_cancel₀ _ (hw i)]
    · simp only [WMeas.exec, WMeas.measure, Acc.add, measuresOf_append, measuresOf, h3]
    · simpa [WMeas.exec, WMeas.measure, dataIn_append, dataIn] using h4 i
    · cases s <;> simp [WMeas.exec, WMeas.measure, signsOf_append, signsOf, Acc.add, h5]
    · cases s <;> simp [WMeas.exec, WMeas.measure, signsOf_append, signsOf, Acc.add, h6]
  | step j d =>
    refine ⟨h1, fun i => ?_, fun i => ?_, fun i => ?_, ?_, ?_⟩
    · have := h2 i
      by_cases hij : j = i
      · subst hij
        simp only [WMeas.exec, WMeas.step, stepsIn_append, stepsIn, Function.update_self, if_true]
        push_cast
        linarith
      · simp only [WMeas.exec, WMeas.step, stepsIn_append, stepsIn, Function.update_of_ne (Ne.symm hij), hij, if_false]
        push_cast
        linarith
    · simpa [WMeas.exec, WMeas.step, measuresOf_append, measuresOf] using h3 i
    · by_cases hij : j = i
      · subst hij
        simp only [WMeas.exec, WMeas.step, dataIn_append, Function.update_self]
        cases d with
        | none => simpa [dataIn] using h4 j
        | some d => simpa [dataIn] using (h4 j).add (hc j) d
      · simp only [WMeas.exec, WMeas.step, dataIn_append, Function.update_of_ne (Ne.symm hij)]
        cases d with
        | none => simpa [dataIn] using h4 i
        | some d => simpa [dataIn, hij] using h4 i
    · simpa [WMeas.exec, WMeas.step, signsOf_append, signsOf] using h5
    · simpa [WMeas.exec, WMeas.step, signsOf_append, signsOf] using h6

theorem run_append (m : WMeas k V) (a b : List (MEvent k V)) : m.run (a ++ b) = (m.run a).run b := by
  simp [WMeas.run]

theorem run_inv {w : Fin (k + 1) → ℝ} (hw : ∀ i, w i ≠ 0) {cap : Fin (k + 1) → ℕ} (hc : ∀ i, 0 < cap i) (mid : List (MEvent k V))
    (hm : ∀ w', .prepare w' ∉ mid) : RunInv w cap (.prepare w :: mid) ((WMeas.start cap).run (.prepare w :: mid)) := by
  induction mid using List.reverseRecOn with
  | nil =>
    refine ⟨rfl, fun i => ?_, fun i => rfl, fun i => ?_, rfl, rfl⟩
    · simp [WMeas.run, WMeas.exec, WMeas.prepare, WMeas.start, stepsIn, Acc.empty]
    · simp [WMeas.run, WMeas.exec, WMeas.prepare, WMeas.start, dataIn, BufOK, Acc.empty, fullGroups]
  | append_singleton mid e ih =>
    have h := ih fun w' hw' => hm w' (by simp [hw'])
    have h2 := h.exec hw hc (e := e) fun w' e' => hm w' (by simp [e'])
    rw [← List.cons_append, run_append]
    exact h2

/-- After the last `measure` all steps are in the volumes. -/
theorem run_volume {w : Fin (k + 1) → ℝ} (hw : ∀ i, w i ≠ 0) {cap : Fin (k + 1) → ℕ} (hc : ∀ i, 0 < cap i) {es : List (MEvent k V)}
    (h : IsRun w es) : RunInv w cap es ((WMeas.start cap).run es) ∧ (∀ i, (((WMeas.start cap).run es).vol i).sum * w i = stepsIn i es) ∧
      0 < measuresOf es := by
  obtain ⟨mid, s, rfl, hm⟩ := h
  have h1 := run_inv hw hc mid hm
  have h2 := h1.exec hw hc (e := .measure s) (by simp)
  have e : (WMeas.start cap).run (.prepare w :: mid ++ [.measure s]) = ((WMeas.start cap).run (.prepare w :: mid)).exec (.measure s) := by
    rw [run_append]; rfl
  rw [e]
  refine ⟨h2, fun i => ?_, by rw [measuresOf_append]; simp [measuresOf]⟩
  have := h2.vol i
  simpa [WMeas.exec, WMeas.measure] using this

/-! ### All processes -/

theorem merge_foldl {W : Type} [AddCommGroup W] [Module ℝ W] (l : List (Acc W)) (a : Acc W) :
    (l.foldl Acc.merge a).sum = a.sum + (l.map Acc.sum).sum ∧ (l.foldl Acc.merge a).count = a.count + (l.map Acc.count).sum := by
  induction l generalizing a with
  | nil => simp
  | cons b l ih =>
    obtain ⟨i1, i2⟩ := ih (a.merge b)
    rw [List.foldl_cons, i1, i2]
    simp [Acc.merge, add_assoc]

theorem mean_pos {W : Type} [AddCommGroup W] [Module ℝ W] {a : Acc W} (h : 0 < a.count) : a.mean = some ((a.count : ℝ)⁻¹ • a.sum) := by
  unfold Acc.mean; rw [if_neg h.ne']

/-- **C65, finite sample.**  With any number of processes which prepared their measurement before the first step, with the same weights
of the spaces, the number written by the postprocessing is
`temp * (N_i / w_i) / (mean sign * N_Z / w_Z)` times the mean of the data of complete groups, where `N_i` and `N_Z` are
the numbers of steps of all processes in the worm space and in the space of the partition function; whatever the numbers of steps
between two calls of `measure` and the calls in which the sign is recorded.  Partial: see `C65_early_violated` for processes which make
steps before. -/
theorem C65_sample_partial {w : Fin (k + 1) → ℝ} (hw : ∀ i, 0 < w i) {cap : Fin (k + 1) → ℕ} (hc : ∀ i, 0 < cap i)
    (runs : List (List (MEvent k V))) (hr : ∀ es ∈ runs, IsRun w es) (i : Fin (k + 1)) (temp : ℝ)
    (hs : 0 < (runs.map fun es => (signsOf es).length).sum)
    (hd : 0 < (runs.flatMap fun es => fullGroups (cap i) (dataIn i es)).length) :
    (collect (runs.map fun es => (WMeas.start cap).run es)).result temp i = some
      ((temp * ((runs.map (stepsIn i)).sum / w i) /
        (((runs.flatMap signsOf).sum / (runs.flatMap signsOf).length) * ((runs.map (stepsIn 0)).sum / w 0))) •
        (((runs.flatMap fun es => fullGroups (cap i) (dataIn i es)).length : ℝ)⁻¹ •
          (runs.flatMap fun es => fullGroups (cap i) (dataIn i es)).sum)) := by
  have hw' : ∀ i, w i ≠ 0 := fun i => (hw i).ne'
  have hne : runs ≠ [] := by rintro rfl; simp at hs
  have hv : ∀ j, ((collect (runs.map fun es => (WMeas.start cap).run es)).vol j).sum = (runs.map (stepsIn j)).sum / w j ∧
      ((collect (runs.map fun es => (WMeas.start cap).run es)).vol j).count = (runs.map measuresOf).sum := by
    intro j
    obtain ⟨e1, e2⟩ := merge_foldl ((runs.map fun es => (WMeas.start cap).run es).map fun m : WMeas k V => m.vol j) Acc.empty
    unfold collect
    refine ⟨e1.trans ?_, e2.trans ?_⟩
    · rw [eq_div_iff (hw' j), List.map_map, List.map_map]
      simp only [Acc.empty, zero_add, Function.comp_def]
      rw [← List.sum_map_mul_right, Nat.cast_list_sum, List.map_map]
      refine congrArg List.sum (List.map_congr_left fun es hes => ?_)
      exact (run_volume hw' hc (hr es hes)).2.1 j
    · simp only [Acc.empty, zero_add, List.map_map, Function.comp_def]
      exact congrArg List.sum (List.map_congr_left fun es hes => (run_volume hw' hc (hr es hes)).1.count j)
  have hsg : (collect (runs.map fun es => (WMeas.start cap).run es)).sign.sum = (runs.flatMap signsOf).sum ∧
      (collect (runs.map fun es => (WMeas.start cap).run es)).sign.count = (runs.flatMap signsOf).length := by
    obtain ⟨e1, e2⟩ := merge_foldl ((runs.map fun es => (WMeas.start cap).run es).map fun m : WMeas k V => m.sign) Acc.empty
    unfold collect
    refine ⟨e1.trans ?_, e2.trans ?_⟩
    · simp only [Acc.empty, zero_add, List.map_map, Function.comp_def]
      rw [List.flatMap_def, List.sum_flatten, List.map_map]
      exact congrArg List.sum (List.map_congr_left fun es hes => (run_volume hw' hc (hr es hes)).1.signSum)
    · simp only [Acc.empty, zero_add, List.map_map, Function.comp_def]
      rw [List.length_flatMap]
      exact congrArg List.sum (List.map_congr_left fun es hes => (run_volume hw' hc (hr es hes)).1.signCount)
  have hdt : (cap i : ℝ) • ((collect (runs.map fun es => (WMeas.start cap).run es)).data i).sum =
        (runs.flatMap fun es => fullGroups (cap i) (dataIn i es)).sum ∧
      cap i * ((collect (runs.map fun es => (WMeas.start cap).run es)).data i).count =
        (runs.flatMap fun es => fullGroups (cap i) (dataIn i es)).length := by
    obtain ⟨e1, e2⟩ := merge_foldl ((runs.map fun es => (WMeas.start cap).run es).map fun m : WMeas k V => (m.data i).acc) Acc.empty
    unfold collect
    refine ⟨(congrArg _ e1).trans ?_, (congrArg _ e2).trans ?_⟩
    · simp only [Acc.empty, zero_add, List.map_map, Function.comp_def]
      rw [List.smul_sum, List.map_map, List.flatMap_def, List.sum_flatten, List.map_map]
      exact congrArg List.sum (List.map_congr_left fun es hes => ((run_volume hw' hc (hr es hes)).1.data i).2.2.2.2)
    · simp only [Acc.empty, zero_add, List.map_map, Function.comp_def]
      rw [← List.sum_map_mul_left, List.length_flatMap]
      refine congrArg List.sum (List.map_congr_left fun es hes => ?_)
      rw [((run_volume hw' hc (hr es hes)).1.data i).2.2.2.1]
      simp [fullGroups, Nat.mul_div_le]
  have hm : 0 < (runs.map measuresOf).sum := by
    obtain ⟨es, hes⟩ := List.exists_mem_of_ne_nil _ hne
    exact lt_of_lt_of_le (run_volume (cap := cap) hw' hc (hr es hes)).2.2 (List.single_le_sum (by simp) _ (List.mem_map_of_mem hes))
  rw [← List.length_flatMap] at hs
  generalize collect (runs.map fun es => (WMeas.start cap).run es) = r at hv hsg hdt ⊢
  have c1 : 0 < (r.vol i).count := by rw [(hv i).2]; exact hm
  have c0 : 0 < (r.vol 0).count := by rw [(hv 0).2]; exact hm
  have c2 : 0 < r.sign.count := by rw [hsg.2]; exact hs
  have c3 : 0 < (r.data i).count := by
    rw [← hdt.2] at hd; exact Nat.pos_of_mul_pos_left hd
  have hm' : ((runs.map measuresOf).sum : ℝ) ≠ 0 := by exact_mod_cast hm.ne'
  unfold WRes.result
  rw [mean_pos c1, mean_pos c0, mean_pos c2, mean_pos c3]
  simp only [Option.bind_some, Option.map_some, Option.some.injEq]
  rw [(hv i).1, (hv i).2, (hv 0).1, (hv 0).2, hsg.1, hsg.2]
  have e1 : wormCoeff temp (((runs.map measuresOf).sum : ℝ)⁻¹ • (((runs.map (stepsIn i)).sum : ℝ) / w i))
      (((runs.map measuresOf).sum : ℝ)⁻¹ • (((runs.map (stepsIn 0)).sum : ℝ) / w 0))
      (((runs.flatMap signsOf).length : ℝ)⁻¹ • (runs.flatMap signsOf).sum) =
      temp * (((runs.map (stepsIn i)).sum : ℝ) / w i) /
        (((runs.flatMap signsOf).sum / (runs.flatMap signsOf).length) * (((runs.map (stepsIn 0)).sum : ℝ) / w 0)) := by
    simp only [wormCoeff, smul_eq_mul]
    rw [mul_left_comm temp, mul_left_comm _ (((runs.map measuresOf).sum : ℝ)⁻¹), mul_div_mul_left _ _ (inv_ne_zero hm'), div_eq_inv_mul (runs.flatMap signsOf).sum]
  have e2 : (((r.data i).count : ℝ)⁻¹ • (r.data i).sum) =
      (((runs.flatMap fun es => fullGroups (cap i) (dataIn i es)).length : ℝ)⁻¹ •
          (runs.flatMap fun es => fullGroups (cap i) (dataIn i es)).sum) := by
    rw [← hdt.1, ← hdt.2, smul_smul]
    congr 1
    push_cast
    have : (cap i : ℝ) ≠ 0 := by exact_mod_cast (hc i).ne'
    rw [mul_inv, mul_right_comm, inv_mul_cancel₀ this, one_mul]
  rw [e1, e2]

/-- If every step records its datum at once (`cap i = 1`), the result is the sum of the data over the number of steps in the space of
the partition function, corrected by the weights and the sign. -/
theorem C65_sum_partial {w : Fin (k + 1) → ℝ} (hw : ∀ i, 0 < w i) {cap : Fin (k + 1) → ℕ} (hc : ∀ i, 0 < cap i)
    (runs : List (List (MEvent k V))) (hr : ∀ es ∈ runs, IsRun w es) (i : Fin (k + 1)) (h1 : cap i = 1) (temp : ℝ)
    (hs : 0 < (runs.map fun es => (signsOf es).length).sum) (hd : 0 < (runs.flatMap (dataIn i)).length)
    (hall : ∀ es ∈ runs, (dataIn i es).length = stepsIn i es) :
    (collect (runs.map fun es => (WMeas.start cap).run es)).result temp i = some
      ((temp * w 0 / w i / (((runs.flatMap signsOf).sum / (runs.flatMap signsOf).length) * (runs.map (stepsIn 0)).sum)) •
          (runs.flatMap (dataIn i)).sum) := by
  have e : (fun es : List (MEvent k V) => fullGroups (cap i) (dataIn i es)) = dataIn i := by
    funext es; rw [h1]; simp [fullGroups]
  have h := C65_sample_partial hw hc runs hr i temp hs (by rw [e]; exact hd)
  rw [h, e, smul_smul]
  congr 2
  have e2 : (runs.flatMap (dataIn i)).length = (runs.map (stepsIn i)).sum := by
    rw [List.length_flatMap]
    exact congrArg List.sum (List.map_congr_left hall)
  rw [e2]
  rw [e2] at hd
  have hd' : ((runs.map (stepsIn i)).sum : ℝ) ≠ 0 := by exact_mod_cast hd.ne'
  have := (hw 0).ne'
  have := (hw i).ne'
  generalize (runs.flatMap signsOf).sum / ((runs.flatMap signsOf).length : ℝ) = S
  generalize ((runs.map (stepsIn 0)).sum : ℝ) = N
  generalize ((runs.map (stepsIn i)).sum : ℝ) = n at hd' ⊢
  rcases eq_or_ne S 0 with rfl | hS
  · simp
  rcases eq_or_ne N 0 with rfl | hN
  · simp
  field_simp

/-! ### A concrete case: two processes, one worm space with weight 2 -/

noncomputable def exRunA : List (MEvent 1 ℝ) :=
  [.prepare ![1, 2], .step 0 none, .step 1 (some 3), .measure none, .step 1 (some 5), .step 0 none, .measure (some 1)]

noncomputable def exRunB : List (MEvent 1 ℝ) := [.prepare ![1, 2], .step 1 (some (-1)), .step 0 none, .measure (some (1 / 2))]

theorem exRunA_isRun : IsRun ![1, 2] exRunA :=
  ⟨[.step 0 none, .step 1 (some 3), .measure none, .step 1 (some 5), .step 0 none], some 1, rfl, by simp⟩

theorem exRunB_isRun : IsRun ![1, 2] exRunB := ⟨[.step 1 (some (-1)), .step 0 none], some (1 / 2), rfl, by simp⟩

/-- Two processes: the data 3, 5, -1 in 3 steps with weight 2, 3 steps in the space of the partition function, mean sign 3/4;
the result is `(7 / 2) / (3 / 4 * 3)`. -/
example : (collect ([exRunA, exRunB].map fun es => (WMeas.start fun _ => 1).run es)).result 1 1 = some (14 / 9) := by
  rw [C65_sum_partial (w := ![1, 2]) (by intro i; fin_cases i <;> simp) (by simp) [exRunA, exRunB]
    (by simp only [List.mem_cons, List.not_mem_nil, or_false, forall_eq_or_imp, forall_eq]; exact ⟨exRunA_isRun, exRunB_isRun⟩) 1 rfl 1
    (by simp [exRunA, exRunB, signsOf]) (by simp [exRunA, exRunB, dataIn]) (by simp [exRunA, exRunB, dataIn, stepsIn])]
  simp [exRunA, exRunB, dataIn, stepsIn, signsOf]
  norm_num

/-! ### Processes which are thermalized before the others -/

section spec

/-- Steps in a space, each with the inverse of the weight with which it was made. -/
noncomputable def volIn (i : Fin (k + 1)) : (Fin (k + 1) → ℝ) → List (MEvent k V) → ℝ
  | _, [] => 0
  | w, .step j _ :: es => (if j = i then (w i)⁻¹ else 0) + volIn i w es
  | _, .prepare w' :: es => volIn i w' es
  | w, .measure _ :: es => volIn i w es

/-- Data of a space, each with the inverse of the weight with which it was measured. -/
noncomputable def sumIn (i : Fin (k + 1)) : (Fin (k + 1) → ℝ) → List (MEvent k V) → V
  | _, [] => 0
  | w, .step j (some d) :: es => (if j = i then (w i)⁻¹ • d else 0) + sumIn i w es
  | w, .step _ none :: es => sumIn i w es
  | _, .prepare w' :: es => sumIn i w' es
  | w, .measure _ :: es => sumIn i w es

/-- The reweighted estimate. -/
noncomputable def reweighted (temp : ℝ) (i : Fin (k + 1)) (runs : List (List (MEvent k V))) : V :=
  (temp / (((runs.flatMap signsOf).sum / (runs.flatMap signsOf).length) * (runs.map (volIn 0 fun _ => 1)).sum)) •
    (runs.map (sumIn i fun _ => 1)).sum

end spec

/-- A process which is thermalized before the other one: it makes a step in the space of the partition function and 4 steps in the worm
space with its own weights before all processes are thermalized and share the weights (src/mc/mympiadapter.hpp:71-92,
src/impurity.ipp:248-250). -/
noncomputable def exEarly : List (MEvent 1 ℝ) :=
  [.prepare ![1, 4], .step 0 none, .step 1 (some 1), .step 1 (some 1), .step 1 (some 1), .step 1 (some 1),
    .prepare ![1, 1], .step 0 none, .step 1 (some 1), .measure (some 1)]

noncomputable def exLate : List (MEvent 1 ℝ) := [.prepare ![1, 1], .step 0 none, .step 1 (some 1), .measure (some 1)]

/-- **C65 is violated** by processes which are thermalized early: the steps made before the weights are shared are divided by the new
weights; here the result is 2, not 1. -/
theorem C65_early_violated :
    reweighted 1 1 [exEarly, exLate] = 1 ∧
      (collect ([exEarly, exLate].map fun es => (WMeas.start fun _ => 1).run es)).result 1 1 = some 2 := by
  constructor
  · simp [reweighted, exEarly, exLate, signsOf, volIn, sumIn]
    norm_num
  · simp [exEarly, exLate, collect, WMeas.run, WMeas.exec, WMeas.start, WMeas.prepare, WMeas.measure, WMeas.step, WBuf.add, WRes.result,
      Acc.merge, Acc.mean, Acc.add, Acc.empty, wormCoeff, Function.update]
    norm_num

/-- Without early steps the reweighted estimate is what the program gives (all data recorded at once). -/
theorem reweighted_eq {w : Fin (k + 1) → ℝ} (es : List (MEvent k V)) (h : ∀ w', .prepare w' ∉ es) (i : Fin (k + 1)) :
    volIn i w es = stepsIn i es / w i ∧ sumIn i w es = (w i)⁻¹ • (dataIn i es).sum := by
  induction es with
  | nil => simp [volIn, sumIn, stepsIn, dataIn]
  | cons e es ih =>
    obtain ⟨i1, i2⟩ := ih fun w' hw => h w' (List.mem_cons_of_mem _ hw)
    cases e with
    | prepare w' => exact absurd List.mem_cons_self (h w')
    | measure s => simpa [volIn, sumIn, stepsIn, dataIn] using ⟨i1, i2⟩
    | step j d =>
      constructor
      · rw [volIn, stepsIn, i1]
        split_ifs <;> push_cast <;> ring
      · cases d with
        | none => simpa [sumIn, dataIn] using i2
        | some d =>
          rw [sumIn, dataIn, i2]
          split_ifs <;> simp

/-- **C65**, in terms of the reweighted estimate: it is what the program gives, unless a process makes steps before the weights are shared;
then see `C65_early_violated`. -/
theorem C65_reweighted_partial {w : Fin (k + 1) → ℝ} (hw : ∀ i, 0 < w i) {cap : Fin (k + 1) → ℕ} (hc : ∀ i, 0 < cap i)
    (runs : List (List (MEvent k V))) (hr : ∀ es ∈ runs, IsRun w es) (i : Fin (k + 1)) (h1 : cap i = 1) (temp : ℝ)
    (hs : 0 < (runs.map fun es => (signsOf es).length).sum) (hd : 0 < (runs.flatMap (dataIn i)).length)
    (hall : ∀ es ∈ runs, (dataIn i es).length = stepsIn i es) :
    (collect (runs.map fun es => (WMeas.start cap).run es)).result temp i = some (reweighted temp i runs) := by
  rw [C65_sum_partial hw hc runs hr i h1 temp hs hd hall]
  have key : ∀ es ∈ runs, ∀ j, volIn j (fun _ => 1) es = stepsIn j es / w j ∧ sumIn j (fun _ => 1) es = (w j)⁻¹ • (dataIn j es).sum := by
    intro es hes j
    obtain ⟨mid, s, rfl, hm⟩ := hr es hes
    have h := reweighted_eq (w := w) (mid ++ [.measure s]) (by
      intro w' hw'
      rcases List.mem_append.1 hw' with h | h
      · exact hm w' h
      · simp at h) j
    simpa [volIn, sumIn, stepsIn, dataIn] using h
  have e1 : (runs.map (volIn 0 fun _ => 1)).sum = (runs.map (stepsIn 0)).sum / w 0 := by
    rw [List.map_congr_left fun es hes => (key es hes 0).1]
    simp only [div_eq_mul_inv]
    rw [List.sum_map_mul_right, Nat.cast_list_sum, List.map_map]
    rfl
  have e2 : (runs.map (sumIn i fun _ => 1)).sum = (w i)⁻¹ • (runs.flatMap (dataIn i)).sum := by
    rw [List.map_congr_left fun es hes => (key es hes i).2, List.flatMap_def, List.sum_flatten, List.smul_sum, List.map_map, List.map_map]
    rfl
  unfold reweighted
  rw [e1, e2, smul_smul]
  congr 2
  have := (hw 0).ne'
  have := (hw i).ne'
  generalize (runs.flatMap signsOf).sum / ((runs.flatMap signsOf).length : ℝ) = S
  generalize ((runs.map (stepsIn 0)).sum : ℝ) = N
  rcases eq_or_ne S 0 with rfl | hS
  · simp
  rcases eq_or_ne N 0 with rfl | hN
  · simp
  field_simp

end CTHyb
