import Verif.Sampling
import Verif.SimulationCodeProps
import Verif.WormMoveProps
import Verif.ChainProps
import Mathlib.MeasureTheory.Measure.Lebesgue.Basic
import Mathlib.MeasureTheory.Integral.IntervalIntegral.Basic

/-!
What a random local update of the code does to the configuration.

Specification.  `Reps x s`: the state `s` of the code holds the operators and the worm of the configuration `x`.
`cfgW`: weight of a configuration, the absolute value of the determinant of the time-ordered hybridization matrix
times the Fock-space trace of the time-ordered operators.  `codeProb`: probability that the update leads from a
state to a state with the configuration `y`, the random number of the acceptance being uniform in `[0,1)`.
-/

set_option linter.unusedSectionVars false

namespace CTHyb

open Matrix Rand

variable {𝕜 : Type} [RCLike 𝕜] [DecidableEq 𝕜] {N : ℕ} {T W : Type}

section spec

/-- All operators of a configuration. -/
def PCfg.ops (tau : T → ℝ) (wops : W → Option (List (TPsi ℝ))) (x : PCfg T W) : List (TPsi ℝ) :=
  x.cd.map (mkOp tau .creation) ++ x.c.map (mkOp tau .annihilation) ++ wormOps (wops x.worm)

/-- In time order. -/
noncomputable def PCfg.sorted (tau : T → ℝ) (wops : W → Option (List (TPsi ℝ))) (x : PCfg T W) : OpSet (OpTime ℝ) :=
  (x.ops tau wops).mergeSort fun a b => decide (a.time ≤ b.time)

/-- Weight of a configuration. -/
noncomputable def cfgW (A : CodeArgs 𝕜 N) (tau : T → ℝ) (wops : W → Option (List (TPsi ℝ))) (x : PCfg T W) : ℝ :=
  ‖A.weight (x.cd.map (mkOp tau .creation)) (x.c.map (mkOp tau .annihilation)) (x.sorted tau wops)‖

/-- The state holds the operators and the worm of the configuration. -/
structure Reps (A : CodeArgs 𝕜 N) (tau : T → ℝ) (wops : W → Option (List (TPsi ℝ))) (x : PCfg T W)
    (s : CodeState A W) : Prop where
  cd : (A.env.D.cdagg s.1.cfg.M).Perm (x.cd.map (mkOp tau .creation))
  c : (A.env.D.cs s.1.cfg.M).Perm (x.c.map (mkOp tau .annihilation))
  worm : s.2 = x.worm
  wops : s.1.cfg.worm = wops x.worm

/-- The same configuration, whatever the order of the lists. -/
def PCfg.Same (x y : PCfg T W) : Prop := x.cd.Perm y.cd ∧ x.c.Perm y.c ∧ x.worm = y.worm

/-- A configuration which can occur: different times, and weight not zero. -/
structure PCfg.Good (A : CodeArgs 𝕜 N) (tau : T → ℝ) (wops : W → Option (List (TPsi ℝ))) (x : PCfg T W) : Prop where
  nodup : ((x.ops tau wops).map Psi.time).Nodup
  weight : cfgW A tau wops x ≠ 0

/-- What the code relies on in a proposal: it removes operators that are there, new flavors exist, it only inserts,
only removes, or replaces at most one operator, its factor is positive, and what changes in the trace lies in
the window. -/
structure MvOK (A : CodeArgs 𝕜 N) (tau : T → ℝ) (wops : W → Option (List (TPsi ℝ))) (lo hi : ℝ) (x : PCfg T W)
    (mv : Mv T W) (corr : ℝ) : Prop where
  cdRem : mv.cdRem.Subperm x.cd
  cRem : mv.cRem.Subperm x.c
  cdAdd : ∀ o ∈ mv.cdAdd, o.2 < A.P.nf
  cAdd : ∀ o ∈ mv.cAdd, o.2 < A.P.nf
  shape : (mv.cdRem = [] ∧ mv.cRem = []) ∨ (mv.cdAdd = [] ∧ mv.cAdd = []) ∨
    (mv.cdRem.length ≤ 1 ∧ mv.cdAdd.length ≤ 1 ∧ mv.cRem = [] ∧ mv.cAdd = []) ∨
    (mv.cRem.length ≤ 1 ∧ mv.cAdd.length ≤ 1 ∧ mv.cdRem = [] ∧ mv.cdAdd = [])
  corr : 0 < corr
  win : ∀ o, (mv.cdRem.map (mkOp tau .creation) ++ mv.cRem.map (mkOp tau .annihilation) ++
        wormOps (wops x.worm)).count o ≠
      (mv.cdAdd.map (mkOp tau .creation) ++ mv.cAdd.map (mkOp tau .annihilation) ++ wormOps (wops mv.worm)).count o →
    lo < o.time.time ∧ o.time.time < hi

/-- Probability that an update with a random proposal leads from the state `s` to the configuration `y`. -/
noncomputable def codeProb (A : CodeArgs 𝕜 N) (tau : T → ℝ) (wops : W → Option (List (TPsi ℝ)))
    (prop : Rand ℝ (Option (Mv T W × ℝ))) (s : CodeState A W) (y : PCfg T W) : ℝ :=
  mean prop fun o => (MeasureTheory.volume {r : ℝ | 0 ≤ r ∧ r < 1 ∧
    ∃ s', codeStep A tau wops o r s = some s' ∧ Reps A tau wops y s'}).toReal

end spec

/-! ### Weights and states -/

variable {A : CodeArgs 𝕜 N} {tau : T → ℝ} {wops : W → Option (List (TPsi ℝ))}

theorem mkOp_inj (ht : Function.Injective tau) (ty : OpType) : Function.Injective (mkOp tau ty : BOp T → TPsi ℝ) := by
  rintro ⟨t, f⟩ ⟨t', f'⟩ h
  simp only [mkOp, Psi.mk.injEq, OpTime.mk.injEq, and_true, true_and] at h
  exact Prod.ext (ht h.1) h.2

theorem PCfg.sorted_perm (x : PCfg T W) : (x.sorted tau wops).Perm (x.ops tau wops) := List.mergeSort_perm _ _

theorem PCfg.sorted_sorted (x : PCfg T W) (h : ((x.ops tau wops).map Psi.time).Nodup) : (x.sorted tau wops).Sorted := by
  have h1 : (x.sorted tau wops).Pairwise fun a b => decide (a.time ≤ b.time) = true :=
    List.pairwise_mergeSort (by intro _ _ _ h1 h2; simp only [decide_eq_true_eq] at *; exact h1.trans h2)
      (by intro a b; simpa using le_total a.time b.time) _
  have h2 : ((x.sorted tau wops).map Psi.time).Nodup := ((x.sorted_perm).map Psi.time).nodup_iff.2 h
  exact h1.imp₂ (fun _ _ h h' => lt_of_le_of_ne (by simpa using h) h') (List.pairwise_map.1 h2)

theorem sorted_unique {l l' : OpSet (OpTime ℝ)} (h : l.Sorted) (h' : l'.Sorted) (hp : l.Perm l') : l = l' :=
  hp.eq_of_pairwise (fun a b _ _ h1 h2 => absurd (h1.trans h2) (lt_irrefl _)) h h'

theorem Reps.ops_perm {x : PCfg T W} {s : CodeState A W} (h : Reps A tau wops x s)
    (hs : SimInv A.env A.Inv (pmDet A.P) s.1) : (x.ops tau wops).Perm s.1.cfg.ops := by
  refine Multiset.coe_eq_coe.1 ?_
  rw [hs.cons.2, h.wops, PCfg.ops, ← Multiset.coe_add, ← Multiset.coe_add,
    Multiset.coe_eq_coe.2 h.cd, Multiset.coe_eq_coe.2 h.c]

theorem ops_times_nodup {ops : OpSet (OpTime ℝ)} (h : ops.Sorted) : (ops.map Psi.time).Nodup :=
  List.pairwise_map.2 (h.imp fun h => ne_of_lt h)

theorem Reps.nodup {x : PCfg T W} {s : CodeState A W} (h : Reps A tau wops x s)
    (hs : SimInv A.env A.Inv (pmDet A.P) s.1) : ((x.ops tau wops).map Psi.time).Nodup :=
  ((h.ops_perm hs).map Psi.time).nodup_iff.2 (ops_times_nodup hs.cons.1)

theorem Reps.weight {x : PCfg T W} {s : CodeState A W} (h : Reps A tau wops x s)
    (hs : SimInv A.env A.Inv (pmDet A.P) s.1) :
    cfgW A tau wops x = ‖A.weight (A.env.D.cdagg s.1.cfg.M) (A.env.D.cs s.1.cfg.M) s.1.cfg.ops‖ := by
  have hn := h.nodup hs
  have e : x.sorted tau wops = s.1.cfg.ops :=
    sorted_unique (x.sorted_sorted hn) hs.cons.1 (x.sorted_perm.trans (h.ops_perm hs))
  have hn' := hn
  rw [PCfg.ops, List.map_append, List.map_append] at hn'
  have n1 := (List.nodup_append.1 (List.nodup_append.1 hn').1).1
  have n2 := (List.nodup_append.1 (List.nodup_append.1 hn').1).2.1
  unfold cfgW CodeArgs.weight
  rw [e, timeDet_congr A.G h.c.symm h.cd.symm n2 n1]

theorem Reps.good (hA : A.OK) {x : PCfg T W} {s : CodeState A W} (h : Reps A tau wops x s)
    (hs : SimInv A.env A.Inv (pmDet A.P) s.1) : x.Good A tau wops := by
  refine ⟨h.nodup hs, ?_⟩
  rw [h.weight hs, norm_ne_zero_iff]
  have hE := C60_lawful A hA
  refine mul_ne_zero ?_ ?_
  · change timeDet A.env.G _ _ ≠ 0
    rw [← hE.det_eq _ hs.inv]; exact hs.sign.2.1
  · change fullTrace A.env.V _ ≠ 0
    rw [← hs.trace]; exact hs.sign.2.2.1

theorem Reps.same (ht : Function.Injective tau) {x y : PCfg T W} {s : CodeState A W} (h : Reps A tau wops x s)
    (h' : Reps A tau wops y s) : x.Same y :=
  ⟨(List.map_perm_map_iff (mkOp_inj ht _)).1 (h.cd.symm.trans h'.cd),
    (List.map_perm_map_iff (mkOp_inj ht _)).1 (h.c.symm.trans h'.c), h.worm.symm.trans h'.worm⟩

/-! ### One update -/

/-- The operators and the worm after an accepted update. -/
theorem localUpdate_accepted {T R K S : Type} [LinearOrder T] [Field K] [DecidableEq K] [Field R] [LinearOrder R]
    [IsStrictOrderedRing R] (D : DetOps T K S) (Tr : TraceOps T K R)
    (permFn : List (Psi T) → List (Psi T) → List (Psi T) → Int)
    (abv : AbsoluteValue K R) (sgn : K → K) (emb : R →+* K) (inWin : Psi T → Bool)
    (Sh : HybChange T → Prop) (Inv : S → Prop) (det : S → K) (hD : D.Lawful Sh Inv det)
    (cfg : Cfg T K S) (cnt : Counters) (p : Proposal T R) (r : R) (hr : 0 ≤ r)
    (hInv : Inv cfg.M) (hc : Consistent D cfg) (hv : ValidProp D Sh cfg p)
    (h : (localUpdate D Tr permFn abv sgn emb inWin cfg cnt (some p) r).2.2 = .accepted) :
    IsChanged (D.cdagg cfg.M) p.ch.cdRem p.ch.cdAdd
        (D.cdagg (localUpdate D Tr permFn abv sgn emb inWin cfg cnt (some p) r).1.M) ∧
      IsChanged (D.cs cfg.M) p.ch.cRem p.ch.cAdd
        (D.cs (localUpdate D Tr permFn abv sgn emb inWin cfg cnt (some p) r).1.M) ∧
      (localUpdate D Tr permFn abv sgn emb inWin cfg cnt (some p) r).1.worm = p.newWorm := by
  unfold localUpdate at h ⊢
  simp only at h ⊢
  by_cases hrg : (rangeCheck inWin (opChange cfg p).1 && rangeCheck inWin (opChange cfg p).2) = true
  · rw [if_pos hrg] at h ⊢
    cases hu : updateOperators cfg.ops (opChange cfg p).1 (opChange cfg p).2 with
    | fatal o => rw [hu] at h; simp at h
    | duplicate o => rw [hu] at h; simp at h
    | success o rec =>
      have hadm := updateOperators_adm D Sh cfg p hc hv o rec hu
      simp only [hu] at h ⊢
      have hgoal : ∀ tn prob, (D.tryUpdate cfg.M p.ch).1 ≠ 0 →
          IsChanged (D.cdagg cfg.M) p.ch.cdRem p.ch.cdAdd
            (D.cdagg (acceptCfg D permFn sgn cfg p o (D.tryUpdate cfg.M p.ch).2 tn prob).M) ∧
          IsChanged (D.cs cfg.M) p.ch.cRem p.ch.cAdd
            (D.cs (acceptCfg D permFn sgn cfg p o (D.tryUpdate cfg.M p.ch).2 tn prob).M) ∧
          (acceptCfg D permFn sgn cfg p o (D.tryUpdate cfg.M p.ch).2 tn prob).worm = p.newWorm := by
        intro tn prob hne
        refine ⟨?_, ?_, rfl⟩
        · simp only [acceptCfg, IsChanged]
          exact hD.perform_cdagg _ _ hInv hadm hv.2.2 hne
        · simp only [acceptCfg, IsChanged]
          exact hD.perform_cs _ _ hInv hadm hv.2.2 hne
      split_ifs at h ⊢ with he hacc hb hne hlz
      · refine hgoal _ _ ?_
        have hp0 : emb p.corr * (D.tryUpdate cfg.M p.ch).1 ≠ 0 := by
          intro h0; rw [h0, map_zero] at hacc; exact absurd hacc (not_lt.2 hr)
        exact right_ne_zero_of_mul hp0
      · exact hgoal _ _ hne
  · rw [if_neg hrg] at h; simp at h

theorem map_sub_inj {α β : Type} [DecidableEq α] [DecidableEq β] {f : α → β} (hf : Function.Injective f)
    (s t : Multiset α) : (s - t).map f = s.map f - t.map f := by
  induction t using Multiset.induction_on generalizing s with
  | empty => simp
  | cons a t ih => rw [Multiset.sub_cons, ih, Multiset.map_erase f hf, Multiset.map_cons, Multiset.sub_cons]

/-- The configuration after the move. -/
theorem leads_iff [DecidableEq T] (ht : Function.Injective tau) {x : PCfg T W} {s : CodeState A W}
    (h : Reps A tau wops x s) (mv : Mv T W) (y : PCfg T W) :
    Leads x mv y ↔ (IsChanged (A.env.D.cdagg s.1.cfg.M) (mv.cdRem.map (mkOp tau .creation))
        (mv.cdAdd.map (mkOp tau .creation)) (y.cd.map (mkOp tau .creation)) ∧
      IsChanged (A.env.D.cs s.1.cfg.M) (mv.cRem.map (mkOp tau .annihilation))
        (mv.cAdd.map (mkOp tau .annihilation)) (y.c.map (mkOp tau .annihilation))) ∧ mv.worm = y.worm := by
  have key : ∀ ty (a b c d : List (BOp T)) (l : List (TPsi ℝ)), l.Perm (a.map (mkOp tau ty)) →
      ((a : Multiset (BOp T)) - b + c = d ↔
        IsChanged l (b.map (mkOp tau ty)) (c.map (mkOp tau ty)) (d.map (mkOp tau ty))) := by
    intro ty a b c d l hl
    unfold IsChanged
    rw [Multiset.coe_eq_coe.2 hl]
    simp only [← Multiset.map_coe]
    have e := map_sub_inj (mkOp_inj ht ty) (a : Multiset (BOp T)) (b : Multiset (BOp T))
    have e2 : (a : Multiset (BOp T)) - b + c = d ↔ (d : Multiset (BOp T)).map (mkOp tau ty) =
        ((a : Multiset (BOp T)) - b + c).map (mkOp tau ty) := by
      rw [(Multiset.map_injective (mkOp_inj ht ty)).eq_iff, eq_comm]
    rw [e2, Multiset.map_add, e]
    convert Iff.rfl
  unfold Leads
  rw [key .creation _ _ _ _ _ h.cd, key .annihilation _ _ _ _ _ h.c, and_assoc]

/-- The proposal is one which the update can handle. -/
theorem MvOK.valid (hA : A.OK) {x : PCfg T W} {s : CodeState A W} (h : Reps A tau wops x s) {lo hi : ℝ} {mv : Mv T W} {corr : ℝ}
    (hm : MvOK A tau wops lo hi x mv corr) :
    ValidProp A.env.D (HybChange.PShape A.P) s.1.cfg (toProp tau wops mv corr) := by
  have hsub : ∀ {a b : List (BOp T)} (f : BOp T → TPsi ℝ), a.Subperm b → (a.map f).Subperm (b.map f) := by
    rintro a b f ⟨l, h1, h2⟩
    exact ⟨l.map f, h1.map f, h2.map f⟩
  refine ⟨(hsub _ hm.cdRem).trans h.cd.symm.subperm, (hsub _ hm.cRem).trans h.c.symm.subperm, ?_⟩
  refine C18_solver_requests _ _ ?_ ?_ ?_
  · intro o ho
    obtain ⟨q, hq, rfl⟩ := List.mem_map.1 ho
    exact ⟨hm.cdAdd q hq, hA.sectors _ (hm.cdAdd q hq)⟩
  · intro o ho
    obtain ⟨q, hq, rfl⟩ := List.mem_map.1 ho
    exact ⟨hm.cAdd q hq, hA.sectors _ (hm.cAdd q hq)⟩
  · rcases hm.shape with ⟨a, b⟩ | ⟨a, b⟩ | ⟨a, b, c, d⟩ | ⟨a, b, c, d⟩
    · exact Or.inl (by simp [toProp, a, b])
    · exact Or.inr (Or.inl (by simp [toProp, a, b]))
    · exact Or.inr (Or.inr (by simp [toProp, a, b, c, d]))
    · exact Or.inr (Or.inr (by simp [toProp, a, b, c, d]))

theorem opChange_count {T R K S : Type} [LinearOrder T] (cfg : Cfg T K S) (p : Proposal T R) (o : Psi T)
    (ho : o ∈ (opChange cfg p).1 ∨ o ∈ (opChange cfg p).2) :
    (p.ch.cdRem ++ p.ch.cRem ++ wormOps cfg.worm).count o ≠
      (p.ch.cdAdd ++ p.ch.cAdd ++ wormOps p.newWorm).count o := by
  obtain ⟨e1, e2⟩ := C46_merge_diff (p.ch.cdRem ++ p.ch.cRem) (p.ch.cdAdd ++ p.ch.cAdd) (wormOps cfg.worm)
    (wormOps p.newWorm)
  rw [Multiset.coe_add, Multiset.coe_add] at e1 e2
  intro hc
  rcases ho with ho | ho
  · have := Multiset.mem_coe.2 ho
    unfold opChange at this
    rw [e1, ← Multiset.count_pos, Multiset.count_sub, Multiset.coe_count, Multiset.coe_count] at this
    omega
  · have := Multiset.mem_coe.2 ho
    unfold opChange at this
    rw [e2, ← Multiset.count_pos, Multiset.count_sub, Multiset.coe_count, Multiset.coe_count] at this
    omega

theorem MvOK.inside {x : PCfg T W} {s : CodeState A W} (h : Reps A tau wops x s) {lo hi : ℝ} {mv : Mv T W} {corr : ℝ}
    (hm : MvOK A tau wops lo hi x mv corr) (o : TPsi ℝ)
    (ho : o ∈ (opChange s.1.cfg (toProp tau wops mv corr)).1 ∨ o ∈ (opChange s.1.cfg (toProp tau wops mv corr)).2) :
    opT lo ≤ o.time ∧ o.time ≤ opT hi := by
  have key : lo < o.time.time ∧ o.time.time < hi := by
    refine hm.win o ?_
    have := opChange_count _ _ o ho
    rw [h.wops] at this
    simp only [toProp] at this
    convert this
  constructor
  · rw [OpTime.le_def]; exact Or.inl key.1
  · rw [OpTime.le_def]; exact Or.inl key.2

/-- A state is unchanged if `propose` gives up. -/
theorem codeStep_none (r : ℝ) (s : CodeState A W) : codeStep A tau wops none r s = some s := by
  simp [codeStep, localCallStep, localUpdate]

theorem IsChanged.of_perm {T : Type} [LinearOrder T] {l a b l1 l2 : List (Psi T)} (h1 : IsChanged l a b l1)
    (h2 : l1.Perm l2) : IsChanged l a b l2 := by
  unfold IsChanged at h1 ⊢
  rw [← Multiset.coe_eq_coe.2 h2]; exact h1

/-- **C61, one update.**  In a state with the configuration `x`, an update with an admissible proposal does
not throw, keeps the invariant of the simulation and the window, and leads to a different configuration `y` exactly
if the move leads there and the random number is below the ratio of the weights times the factor of the
proposal. -/
theorem C61_update [DecidableEq T] (hA : A.OK) (ht : Function.Injective tau) {x : PCfg T W} {s : CodeState A W}
    (hs : SimInv A.env A.Inv (pmDet A.P) s.1) (h : Reps A tau wops x s) {mv : Mv T W} {corr : ℝ}
    (hm : MvOK A tau wops (loEdge A s) (hiEdge A s) x mv corr) (r : ℝ) (hr : 0 ≤ r) :
    ∃ s', codeStep A tau wops (some (mv, corr)) r s = some s' ∧ SimInv A.env A.Inv (pmDet A.P) s'.1 ∧
      s'.1.sw = s.1.sw ∧ (∃ y, Reps A tau wops y s' ∧ (x.Same y ∨ Leads x mv y)) ∧
      ∀ y, y.Good A tau wops → ¬ x.Same y →
        (Reps A tau wops y s' ↔ Leads x mv y ∧ r < cfgW A tau wops y / cfgW A tau wops x * corr) := by
  have hv := hm.valid hA h
  have hE := C60_lawful A hA
  have hin := hm.inside h
  have hcall : (⟨fun _ _ => some (toProp tau wops mv corr), r⟩ : LocalCall ℝ 𝕜 (CodeDet 𝕜) (BK 𝕜) (BK 𝕜)
      (Fin (ebBrakets A.B A.p).length)).OK A.env (HybChange.PShape A.P) s.1 := by
    refine ⟨hr, fun p hp => ?_⟩
    obtain rfl := Option.some.inj hp
    refine ⟨hv, ?_, ?_, hin⟩
    · change ((corr : ℝ) : 𝕜) / ((‖((corr : ℝ) : 𝕜)‖ : ℝ) : 𝕜) = 1
      rw [RCLike.norm_ofReal, abs_of_pos hm.corr]
      exact div_self (by exact_mod_cast hm.corr.ne')
    · change ((corr : ℝ) : 𝕜) ≠ 0
      exact_mod_cast hm.corr.ne'
  obtain ⟨s', e1, i1, w1⟩ := localCallStep_ok hE _ s.1 hs hcall
  have hcfg : s'.cfg = (localUpdate A.env.D (A.env.tr s.1.sw) A.env.permFn A.env.abv A.env.sgn A.env.emb
      (inWin A.beta s.1.sw) s.1.cfg ⟨0, 0, 0⟩ (some (toProp tau wops mv corr)) r).1 := by
    unfold localCallStep at e1
    simp only at e1
    split at e1
    · exact absurd e1 (by simp)
    · exact absurd e1 (by simp)
    · rw [← Option.some.inj e1]; rfl
  have hacc : ∀ y : PCfg T W, y.Good A tau wops → Leads x mv y →
      ((localUpdate A.env.D (A.env.tr s.1.sw) A.env.permFn A.env.abv A.env.sgn A.env.emb
      (inWin A.beta s.1.sw) s.1.cfg ⟨0, 0, 0⟩ (some (toProp tau wops mv corr)) r).2.2 = .accepted ↔
        r < cfgW A tau wops y / cfgW A tau wops x * corr) := by
    intro y hy hl
    obtain ⟨⟨c1, c2⟩, c3⟩ := (leads_iff ht h mv y).1 hl
    have := C60_accept A hA hs (toProp tau wops mv corr) hv hm.corr hin _ _ c1 c2 (y.sorted tau wops)
      (y.sorted_sorted hy.nodup) (by
        have := y.sorted_perm (tau := tau) (wops := wops)
        unfold PCfg.ops at this
        rw [← c3] at this
        exact this) (by
        rcases hm.shape with ⟨a, b⟩ | ⟨a, b⟩ | ⟨a, b, c, d⟩ | ⟨a, b, c, d⟩ <;> simp [toProp, *]) ⟨0, 0, 0⟩ r hr
    rw [this, norm_mul, norm_div, h.weight hs, mul_comm]
    unfold cfgW
    rw [show (toProp tau wops mv corr).corr = corr from rfl, RCLike.norm_ofReal, abs_of_pos hm.corr]
  refine ⟨(s', if (localUpdate A.env.D (A.env.tr s.1.sw) A.env.permFn A.env.abv A.env.sgn A.env.emb
      (inWin A.beta s.1.sw) s.1.cfg ⟨0, 0, 0⟩ (some (toProp tau wops mv corr)) r).2.2 = .accepted then mv.worm
      else s.2), ?_, i1, w1, ?_⟩
  · unfold codeStep
    simp only [Option.map_some, e1, Option.elim_some]
  · by_cases ha : (localUpdate A.env.D (A.env.tr s.1.sw) A.env.permFn A.env.abv A.env.sgn A.env.emb
      (inWin A.beta s.1.sw) s.1.cfg ⟨0, 0, 0⟩ (some (toProp tau wops mv corr)) r).2.2 = .accepted
    · rw [if_pos ha]
      obtain ⟨c1, c2, c3⟩ := localUpdate_accepted A.env.D (A.env.tr s.1.sw) A.env.permFn A.env.abv A.env.sgn A.env.emb
        (inWin A.beta s.1.sw) (HybChange.PShape A.P) A.Inv (pmDet A.P) (by convert hE.dets) s.1.cfg ⟨0, 0, 0⟩ _ r hr hs.inv hs.cons hv ha
      rw [← hcfg] at c1 c2 c3
      have key : ∀ y : PCfg T W, Reps A tau wops y (s', mv.worm) ↔ Leads x mv y := by
        intro y
        rw [leads_iff ht h]
        constructor
        · rintro ⟨d1, d2, d3, d4⟩
          exact ⟨⟨c1.of_perm d1, c2.of_perm d2⟩, d3⟩
        · rintro ⟨⟨d1, d2⟩, d3⟩
          exact ⟨c1.perm d1, c2.perm d2, d3, by rw [← d3]; exact c3⟩
      refine ⟨⟨⟨((x.cd : Multiset (BOp T)) - mv.cdRem + mv.cdAdd).toList,
        ((x.c : Multiset (BOp T)) - mv.cRem + mv.cAdd).toList, mv.worm⟩, (key _).2 ?_, Or.inr ?_⟩, ?_⟩
      · exact ⟨by simp, by simp, rfl⟩
      · exact ⟨by simp, by simp, rfl⟩
      · intro y hy hne
        rw [key]
        exact ⟨fun hl => ⟨hl, (hacc y hy hl).1 ha⟩, fun hl => hl.1⟩
    · rw [if_neg ha]
      obtain ⟨⟨-, -, -, -, c5, c6, c7, -⟩, -⟩ := C01_not_accepted_unchanged A.env.D (A.env.tr s.1.sw) A.env.permFn A.env.abv
        A.env.sgn A.env.emb (inWin A.beta s.1.sw) (HybChange.PShape A.P) A.Inv (pmDet A.P) (by convert hE.dets) s.1.cfg ⟨0, 0, 0⟩ (some (toProp tau wops mv corr)) r hs.inv
        hs.cons (by intro p hp; obtain rfl := Option.some.inj hp; exact hv) ha
      rw [← hcfg] at c5 c6 c7
      have hx : Reps A tau wops x (s', s.2) := ⟨c6.trans h.cd, c7.trans h.c, h.worm, c5.trans h.wops⟩
      refine ⟨⟨x, hx, Or.inl ⟨List.Perm.refl _, List.Perm.refl _, rfl⟩⟩, fun y hy hne => ?_⟩
      constructor
      · intro hy'
        exact absurd (hx.same ht hy') hne
      · rintro ⟨hl, hr'⟩
        exact absurd ((hacc y hy hl).2 hr') ha

/-! ### Transition probabilities -/

/-- The outcomes of the proposal are admissible. -/
def RandOK (A : CodeArgs 𝕜 N) (tau : T → ℝ) (wops : W → Option (List (TPsi ℝ))) (lo hi : ℝ) (x : PCfg T W)
    (m : Rand ℝ (Option (Mv T W × ℝ))) : Prop :=
  ∀ p ∈ m, ∀ mv c, p.2 = some (mv, c) → MvOK A tau wops lo hi x mv c

theorem cfgW_nonneg (x : PCfg T W) : 0 ≤ cfgW A tau wops x := norm_nonneg _

theorem PCfg.Good.pos {x : PCfg T W} (h : x.Good A tau wops) : 0 < cfgW A tau wops x :=
  lt_of_le_of_ne (cfgW_nonneg x) (Ne.symm h.weight)

/-- The random numbers with which the update leads to `y`. -/
theorem accept_set [DecidableEq T] [DecidableEq W] (hA : A.OK) (ht : Function.Injective tau) {x y : PCfg T W}
    {s : CodeState A W}
    (hs : SimInv A.env A.Inv (pmDet A.P) s.1) (h : Reps A tau wops x s) (hy : y.Good A tau wops) (hne : ¬ x.Same y)
    (o : Option (Mv T W × ℝ)) (ho : ∀ mv c, o = some (mv, c) → MvOK A tau wops (loEdge A s) (hiEdge A s) x mv c) :
    {r : ℝ | 0 ≤ r ∧ r < 1 ∧ ∃ s', codeStep A tau wops o r s = some s' ∧ Reps A tau wops y s'} =
      Set.Ico 0 (accFlow (cfgW A tau wops) x y o) := by
  ext r
  simp only [Set.mem_ofPred_eq, Set.mem_Ico]
  cases o with
  | none =>
    simp only [codeStep_none, Option.some.injEq, exists_eq_left', accFlow]
    constructor
    · rintro ⟨-, -, h'⟩; exact absurd (h.same ht h') hne
    · rintro ⟨h1, h2⟩; exact absurd h2 (not_lt.2 h1)
  | some q =>
    obtain ⟨mv, c⟩ := q
    have hm := ho mv c rfl
    by_cases hr : 0 ≤ r
    · obtain ⟨s', e, -, -, -, k⟩ := C61_update hA ht hs h hm r hr
      simp only [e, Option.some.injEq, exists_eq_left', k y hy hne, accFlow, hr, true_and]
      by_cases hl : Leads x mv y
      · simp only [hl, true_and, if_true, lt_min_iff]
      · simp only [hl, false_and, and_false, if_false, false_iff, not_lt]; exact hr
    · simp [hr]

/-- **C61, transition probabilities.**  The probability that an update of the code leads to another configuration
depends only on the configuration, and is the one which the detailed balance of the proposals is about, with
the absolute value of the weight as weight. -/
theorem C61_transition [DecidableEq T] [DecidableEq W] (hA : A.OK) (ht : Function.Injective tau)
    (prop : PCfg T W → Rand ℝ (Option (Mv T W × ℝ))) {x y : PCfg T W} {s : CodeState A W}
    (hs : SimInv A.env A.Inv (pmDet A.P) s.1) (h : Reps A tau wops x s)
    (hp : RandOK A tau wops (loEdge A s) (hiEdge A s) x (prop x)) (hy : y.Good A tau wops) (hne : ¬ x.Same y) :
    codeProb A tau wops (prop x) s y = flow (cfgW A tau wops) prop x y := by
  unfold codeProb flow
  refine mean_congr_mem fun p hpm => ?_
  rw [accept_set hA ht hs h hy hne p.2 fun mv c e => hp p hpm mv c e, Real.volume_Ico, sub_zero,
    ENNReal.toReal_ofReal]
  unfold accFlow
  split
  · exact le_rfl
  · split_ifs
    · rename_i mv c e _
      exact le_min zero_le_one (mul_nonneg (div_nonneg (cfgW_nonneg _) (cfgW_nonneg _)) (hp p hpm mv c e).corr.le)
    · exact le_rfl

/-- **C61, detailed balance of the code.** -/
theorem C61_detailed_balance [DecidableEq T] [DecidableEq W] (hA : A.OK) (ht : Function.Injective tau)
    {prop : PCfg T W → Rand ℝ (Option (Mv T W × ℝ))} {δ : ℝ} {dim : PCfg T W → ℕ} {eta : PCfg T W → ℝ}
    {ok : PCfg T W → Prop} (hb : BalancedW δ dim eta ok prop) {x y : PCfg T W} {s s' : CodeState A W}
    (hs : SimInv A.env A.Inv (pmDet A.P) s.1) (h : Reps A tau wops x s)
    (hs' : SimInv A.env A.Inv (pmDet A.P) s'.1) (h' : Reps A tau wops y s') (hx : ok x) (hy : ok y)
    (hp : RandOK A tau wops (loEdge A s) (hiEdge A s) x (prop x))
    (hp' : RandOK A tau wops (loEdge A s') (hiEdge A s') y (prop y)) (hne : ¬ x.Same y) :
    cfgW A tau wops x * eta x * δ ^ dim x * codeProb A tau wops (prop x) s y =
      cfgW A tau wops y * eta y * δ ^ dim y * codeProb A tau wops (prop y) s' x := by
  rw [C61_transition hA ht prop hs h hp (h'.good hA hs') hne,
    C61_transition hA ht prop hs' h' hp' (h.good hA hs) fun e => hne ⟨e.1.symm, e.2.1.symm, e.2.2.symm⟩]
  exact hb _ x y hx hy (h.good hA hs).pos (h'.good hA hs').pos

end CTHyb
