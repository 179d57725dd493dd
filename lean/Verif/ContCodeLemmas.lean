import Verif.ContSweepProps
import Verif.SamplingRunProps
import Mathlib.MeasureTheory.Constructions.BorelSpace.Complex
import Mathlib.MeasureTheory.Constructions.BorelSpace.WithTop
import Mathlib.Analysis.Normed.Algebra.MatrixExponential

/-!
Measurability of the weight of the code as a function of the times and flavors of the operators.
-/

namespace CTHyb

open MeasureTheory Matrix

/-! ### Operators as a measurable space -/

/-- The data of an operator. -/
def tpsiCode (o : TPsi ℝ) : ℝ × ℤ × Bool × ℕ := (o.time.time, o.time.small, decide (o.type = .creation), o.flavor)

instance : MeasurableSpace (Psi (OpTime ℝ)) := MeasurableSpace.comap tpsiCode inferInstance

section
variable {Ω : Type} [MeasurableSpace Ω]

theorem measurable_tpsi {o : Ω → TPsi ℝ} : Measurable o ↔ Measurable fun z => tpsiCode (o z) :=
  measurable_comap_iff

theorem measurable_tpsiCode : Measurable tpsiCode := comap_measurable _

theorem measurable_time {o : Ω → TPsi ℝ} (h : Measurable o) : Measurable fun z => (o z).time.time :=
  (measurable_fst.comp measurable_tpsiCode).comp h

theorem measurable_small {o : Ω → TPsi ℝ} (h : Measurable o) : Measurable fun z => (o z).time.small :=
  ((measurable_fst.comp measurable_snd).comp measurable_tpsiCode).comp h

theorem measurable_flavor {o : Ω → TPsi ℝ} (h : Measurable o) : Measurable fun z => (o z).flavor :=
  ((measurable_snd.comp (measurable_snd.comp measurable_snd)).comp measurable_tpsiCode).comp h

/-- A function of the type and the flavor is measurable. -/
theorem measurable_typeFlavor {A : Type} [MeasurableSpace A] (f : OpType → ℕ → A) {o : Ω → TPsi ℝ} (h : Measurable o) :
    Measurable fun z => f (o z).type (o z).flavor := by
  have h1 : Measurable fun z => (tpsiCode (o z)).2.2 :=
    ((measurable_snd.comp measurable_snd).comp measurable_tpsiCode).comp h
  have h2 : Measurable fun q : Bool × ℕ => f (if q.1 then .creation else .annihilation) q.2 := Measurable.of_discrete
  have e : (fun z => f (o z).type (o z).flavor) =
      (fun q : Bool × ℕ => f (if q.1 then .creation else .annihilation) q.2) ∘ fun z => (tpsiCode (o z)).2.2 := by
    funext z
    show _ = f (if decide ((o z).type = .creation) = true then .creation else .annihilation) (o z).flavor
    cases (o z).type <;> rfl
  rw [e]
  exact h2.comp h1

theorem measurableSet_lt_time {o o' : Ω → TPsi ℝ} (h : Measurable o) (h' : Measurable o') :
    MeasurableSet {z | (o z).time < (o' z).time} := by
  have : {z | (o z).time < (o' z).time} = {z | (o z).time.time < (o' z).time.time} ∪
      ({z | (o z).time.time = (o' z).time.time} ∩ {z | (o z).time.small < (o' z).time.small}) := by
    ext z
    exact OpTime.lt_def _ _
  rw [this]
  exact (measurableSet_lt (measurable_time h) (measurable_time h')).union
    ((measurableSet_eq_fun (measurable_time h) (measurable_time h')).inter
      (measurableSet_lt (measurable_small h) (measurable_small h')))

/-- A function is measurable if it is on each of countably many measurable sets. -/
theorem measurable_of_cover {A ι : Type} [MeasurableSpace A] [Countable ι] {f : Ω → A} (S : ι → Set Ω) (g : ι → Ω → A)
    (hS : ∀ i, MeasurableSet (S i)) (hg : ∀ i, Measurable (g i)) (hc : ∀ z, ∃ i, z ∈ S i) (h : ∀ i, ∀ z ∈ S i, f z = g i z) :
    Measurable f := by
  intro t ht
  have : f ⁻¹' t = ⋃ i, S i ∩ g i ⁻¹' t := by
    ext z
    simp only [Set.mem_preimage, Set.mem_iUnion, Set.mem_inter_iff]
    constructor
    · intro hz
      obtain ⟨i, hi⟩ := hc z
      exact ⟨i, hi, by rw [← h i z hi]; exact hz⟩
    · rintro ⟨i, hi, hz⟩
      rw [h i z hi]; exact hz
  rw [this]
  exact MeasurableSet.iUnion fun i => (hS i).inter (hg i ht)

/-! ### Lists of operators -/

/-- A list of fixed length with measurable elements. -/
inductive LM {A : Type} [MeasurableSpace A] : (Ω → List A) → Prop
  | nil : LM fun _ => []
  | cons {o : Ω → A} {L : Ω → List A} : Measurable o → LM L → LM fun z => o z :: L z

variable {A : Type} [MeasurableSpace A]

theorem LM.append {L L' : Ω → List A} (h : LM L) (h' : LM L') : LM fun z => L z ++ L' z := by
  induction h with
  | nil => exact h'
  | cons ho _ ih => exact LM.cons ho ih

theorem LM.mapList {ι : Type} {o : ι → Ω → A} (l : List ι) (h : ∀ i ∈ l, Measurable (o i)) : LM fun z => l.map fun i => o i z := by
  induction l with
  | nil => exact LM.nil
  | cons i l ih => exact LM.cons (h i List.mem_cons_self) (ih fun j hj => h j (List.mem_cons_of_mem _ hj))

theorem LM.ofFn {k : ℕ} {o : Fin k → Ω → A} (h : ∀ i, Measurable (o i)) : LM fun z => List.ofFn fun i => o i z := by
  have := LM.mapList (List.finRange k) fun i _ => h i
  simpa only [List.ofFn_eq_map] using this

theorem LM.flatMap {ι : Type} {L : ι → Ω → List A} (l : List ι) (h : ∀ i ∈ l, LM (L i)) : LM fun z => l.flatMap fun i => L i z := by
  induction l with
  | nil => exact LM.nil
  | cons i l ih =>
    simp only [List.flatMap_cons]
    exact (h i List.mem_cons_self).append (ih fun j hj => h j (List.mem_cons_of_mem _ hj))

theorem LM.exists_ofFn {L : Ω → List A} (h : LM L) :
    ∃ k, ∃ o : Fin k → Ω → A, (∀ i, Measurable (o i)) ∧ ∀ z, L z = List.ofFn fun i => o i z := by
  induction h with
  | nil => exact ⟨0, fun i => i.elim0, fun i => i.elim0, fun z => by simp⟩
  | @cons o L ho _ ih =>
    obtain ⟨k, p, hp, e⟩ := ih
    refine ⟨k + 1, Fin.cons o p, fun i => ?_, fun z => ?_⟩
    · refine Fin.cases ?_ (fun j => ?_) i
      · exact ho
      · exact hp j
    · rw [List.ofFn_succ]
      show o z :: L z = _
      rw [e]
      rfl

end

/-! ### Functions of the operators in time order -/

section
variable {Ω : Type} [MeasurableSpace Ω] {A : Type} [MeasurableSpace A]

open Classical in
theorem measurable_timeSort [Zero A] (Φ : List (TPsi ℝ) → A) (hΦ : ∀ L : Ω → List (TPsi ℝ), LM L → Measurable fun z => Φ (L z))
    {L : Ω → List (TPsi ℝ)} (hL : LM L) :
    Measurable fun z => if ((L z).map Psi.time).Nodup then Φ (timeSort (L z)) else 0 := by
  obtain ⟨k, o, ho, e⟩ := hL.exists_ofFn
  let S : Equiv.Perm (Fin k) → Set Ω := fun σ => {z | ∀ i j, i < j → (o (σ i) z).time < (o (σ j) z).time}
  have hS : ∀ σ, MeasurableSet (S σ) := fun σ => by
    simp only [S, Set.ofPred_forall]
    exact MeasurableSet.iInter fun i => MeasurableSet.iInter fun j => MeasurableSet.iInter fun _ =>
      measurableSet_lt_time (ho _) (ho _)
  have hperm : ∀ (σ : Equiv.Perm (Fin k)) z, (List.ofFn fun i => o (σ i) z).Perm (L z) := fun σ z => by
    rw [e]
    exact Equiv.Perm.ofFn_comp_perm σ fun i => o i z
  have hsort : ∀ σ : Equiv.Perm (Fin k), ∀ z ∈ S σ, (List.ofFn fun i => o (σ i) z).Pairwise fun a b => a.time < b.time := fun σ z hz => by
    rw [List.pairwise_ofFn]
    exact fun i j hij => hz i j hij
  have hnd : ∀ z, ((L z).map Psi.time).Nodup ↔ ∃ σ, z ∈ S σ := by
    intro z
    constructor
    · intro hn
      have hinj : Function.Injective fun i => (o i z).time := by
        rw [e, List.map_ofFn, List.nodup_ofFn] at hn
        exact hn
      obtain ⟨σ, hσ, -⟩ := C20_permutation _ hinj
      exact ⟨σ, fun i j hij => hσ hij⟩
    · rintro ⟨σ, hz⟩
      refine (((hperm σ z).map Psi.time).nodup_iff).1 ?_
      exact List.pairwise_map.2 ((hsort σ z hz).imp fun h => ne_of_lt h)
  refine measurable_of_cover (ι := Option (Equiv.Perm (Fin k)))
    (fun i => i.elim {z | ¬ ((L z).map Psi.time).Nodup} S)
    (fun i => i.elim (fun _ => 0) fun σ z => Φ (List.ofFn fun i => o (σ i) z)) ?_ ?_ ?_ ?_
  · rintro (_ | σ)
    · show MeasurableSet {z | ¬ ((L z).map Psi.time).Nodup}
      simp only [hnd, not_exists, Set.ofPred_forall]
      exact MeasurableSet.iInter fun σ => (hS σ).compl
    · exact hS σ
  · rintro (_ | σ)
    · exact measurable_const
    · exact hΦ _ (LM.ofFn fun i => ho (σ i))
  · intro z
    by_cases hz : ((L z).map Psi.time).Nodup
    · obtain ⟨σ, hσ⟩ := (hnd z).1 hz
      exact ⟨some σ, hσ⟩
    · exact ⟨none, hz⟩
  · rintro (_ | σ) z hz
    · exact if_neg hz
    · show _ = Φ (List.ofFn fun i => o (σ i) z)
      have hn := (hnd z).2 ⟨σ, hz⟩
      rw [if_pos hn]
      congr 1
      refine time_sorted_unique ((timeSort_perm _).trans (hperm σ z).symm) ?_ (timeSort_sorted _)
        ((hsort σ z hz).imp fun h => le_of_lt h)
      exact ((timeSort_perm (L z)).map Psi.time).nodup_iff.2 hn

/-! ### The trace -/

variable {𝕜 : Type} [RCLike 𝕜] {N : ℕ}

theorem measurable_exp_entry (H : Matrix (Fin N) (Fin N) 𝕜) {a : Ω → ℝ} (ha : Measurable a) (i j : Fin N) :
    Measurable fun z => NormedSpace.exp (((a z : ℝ) : 𝕜) • H) i j := by
  have hc : Continuous fun x : ℝ => NormedSpace.exp (((x : ℝ) : 𝕜) • H) i j := by
    have h1 : Continuous fun x : ℝ => ((x : ℝ) : 𝕜) • H := Continuous.smul (RCLike.continuous_ofReal (K := 𝕜)) (continuous_const (y := H))
    have h2 : Continuous (NormedSpace.exp : Matrix (Fin N) (Fin N) 𝕜 → Matrix (Fin N) (Fin N) 𝕜) :=
      open scoped Norms.Operator in NormedSpace.exp_continuous
    exact (h2.comp h1).matrix_elem i j
  exact hc.measurable.comp ha

theorem measurable_timeOrderedMat (H : Matrix (Fin N) (Fin N) 𝕜) (O : OpType → ℕ → Matrix (Fin N) (Fin N) 𝕜) (c : ℝ)
    {L : Ω → List (TPsi ℝ)} (hL : LM L) {a : Ω → ℝ} (ha : Measurable a) (i j : Fin N) :
    Measurable fun z => timeOrderedMat H O c (L z) (a z) i j := by
  induction hL generalizing a i j with
  | nil => exact measurable_exp_entry H (measurable_const.sub ha).neg i j
  | @cons o L ho _ ih =>
    simp only [timeOrderedMat, mul_apply, Finset.sum_mul]
    refine Finset.measurable_sum _ fun x _ => Finset.measurable_sum _ fun y _ => ?_
    exact ((ih (measurable_time ho) i y).mul (measurable_typeFlavor (fun t f => O t f y x) ho)).mul
      (measurable_exp_entry H ((measurable_time ho).sub ha).neg x j)

theorem measurable_fullTrace {A : CodeArgs 𝕜 N} (hA : A.OK) {L : Ω → List (TPsi ℝ)} (hL : LM L) :
    Measurable fun z => fullTrace (ebEnv A.B A.p A.beta) (L z) := by
  obtain ⟨E0, P, Q, -, -, -, e⟩ := C57_trace (p := A.p) hA.base hA.solver hA.dim hA.inner
  simp only [e, trace, diag_apply, mul_apply]
  refine Finset.measurable_sum _ fun x _ => Finset.measurable_sum _ fun y _ => measurable_const.mul ?_
  exact measurable_timeOrderedMat _ _ _ hL measurable_const y x

end

end CTHyb
