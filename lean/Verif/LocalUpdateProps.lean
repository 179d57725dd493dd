import Verif.LocalUpdate
import Verif.OperatorProps
import Verif.MergeDiffProps
import Mathlib.Tactic.FieldSimp
import Mathlib.Tactic.Ring

/-!
C01, C02, C04, C12 (acceptance decision) and C38 (counters) for `LocalUpdater::update`.
-/

namespace CTHyb

variable {T K R S : Type} [LinearOrder T] [Field K] [DecidableEq K]
  [Field R] [LinearOrder R] [IsStrictOrderedRing R]

/-! ### Specification -/

/-- The operators of the trace are exactly the hybridized operators and the worm operators
(what `sanity_check` demands, src/mc_config.hpp:121-134). -/
def Consistent (D : DetOps T K S) (cfg : Cfg T K S) : Prop :=
  cfg.ops.Sorted ∧
  (cfg.ops : Multiset (Psi T)) =
    (D.cdagg cfg.M : Multiset (Psi T)) + (D.cs cfg.M : Multiset (Psi T)) +
      (wormOps cfg.worm : Multiset (Psi T))

/-- A proposal only removes operators which the determinant matrix holds, as all `propose`
functions do (they pick them from `M.get_cdagg_ops_set()` / `M.get_c_ops_set()`), and it is of the
kind `Sh` for which the determinant machinery is made.  The times of new operators are arbitrary. -/
def ValidProp (D : DetOps T K S) (Sh : HybChange T → Prop) (cfg : Cfg T K S) (p : Proposal T R) : Prop :=
  p.ch.cdRem.Subperm (D.cdagg cfg.M) ∧ p.ch.cRem.Subperm (D.cs cfg.M) ∧ Sh p.ch

/-- Two configurations are the same for an observer: same operators in the trace, trace value,
sign, permutation sign, worm, hybridized operators and determinant. -/
def SameCfg (D : DetOps T K S) (det : S → K) (a b : Cfg T K S) : Prop :=
  a.ops = b.ops ∧ a.trace = b.trace ∧ a.sign = b.sign ∧ a.permSign = b.permSign ∧
  a.worm = b.worm ∧ (D.cdagg a.M).Perm (D.cdagg b.M) ∧ (D.cs a.M).Perm (D.cs b.M) ∧
  det a.M = det b.M

/-! ### Helper lemmas -/

theorem sorted_nodup (s : OpSet T) (hs : s.Sorted) : s.Nodup :=
  hs.imp (fun {a b} hab => by rintro rfl; exact lt_irrefl _ hab)

theorem opChange_rem_le (D : DetOps T K S) (Sh : HybChange T → Prop) (cfg : Cfg T K S) (p : Proposal T R)
    (hc : Consistent D cfg) (hv : ValidProp D Sh cfg p) :
    (((p.ch.cdRem ++ p.ch.cRem : List (Psi T)) : Multiset (Psi T)) +
      (wormOps cfg.worm : Multiset (Psi T))) ≤ (cfg.ops : Multiset (Psi T)) := by
  rw [hc.2, ← Multiset.coe_add]
  exact add_le_add (add_le_add (Multiset.coe_le.2 hv.1) (Multiset.coe_le.2 hv.2.1)) le_rfl

theorem opChange_rem_mem (D : DetOps T K S) (Sh : HybChange T → Prop) (cfg : Cfg T K S) (p : Proposal T R)
    (hc : Consistent D cfg) (hv : ValidProp D Sh cfg p) :
    (∀ x ∈ (opChange cfg p).1, x ∈ cfg.ops) ∧ (opChange cfg p).1.Nodup := by
  have h1 := (C46_merge_diff (p.ch.cdRem ++ p.ch.cRem) (p.ch.cdAdd ++ p.ch.cAdd)
    (wormOps cfg.worm) (wormOps p.newWorm)).1
  have hle : ((opChange cfg p).1 : Multiset (Psi T)) ≤ (cfg.ops : Multiset (Psi T)) := by
    unfold opChange
    rw [h1]
    exact le_trans (Multiset.sub_le_self _ _) (opChange_rem_le D Sh cfg p hc hv)
  constructor
  · intro x hx
    have : x ∈ (cfg.ops : Multiset (Psi T)) := Multiset.mem_of_le hle (by simpa using hx)
    simpa using this
  · have hn : (cfg.ops : Multiset (Psi T)).Nodup := by
      rw [Multiset.coe_nodup]; exact sorted_nodup _ hc.1
    have := Multiset.nodup_of_le hle hn
    rwa [Multiset.coe_nodup] at this

/-- Multiset form of a successful `update_operators`. -/
theorem updateOperators_multiset (D : DetOps T K S) (Sh : HybChange T → Prop) (cfg : Cfg T K S) (p : Proposal T R)
    (hc : Consistent D cfg) (hv : ValidProp D Sh cfg p) (ops' : OpSet T) (rec : Record T)
    (h : updateOperators cfg.ops (opChange cfg p).1 (opChange cfg p).2 = .success ops' rec) :
    ops'.Sorted ∧ revertChanges ops' rec = cfg.ops ∧
    (ops' : Multiset (Psi T)) =
      ((D.cdagg cfg.M : Multiset (Psi T)) - (p.ch.cdRem : Multiset (Psi T))
          + (p.ch.cdAdd : Multiset (Psi T))) +
      ((D.cs cfg.M : Multiset (Psi T)) - (p.ch.cRem : Multiset (Psi T))
          + (p.ch.cAdd : Multiset (Psi T))) +
      (wormOps p.newWorm : Multiset (Psi T)) := by
  obtain ⟨hm, hn⟩ := opChange_rem_mem D Sh cfg p hc hv
  have key := C03_update_operators cfg.ops (opChange cfg p).1 (opChange cfg p).2 hc.1 hm hn
  rw [h] at key
  obtain ⟨hrev, hsort, hmem, hadd⟩ := key
  refine ⟨hsort, hrev, ?_⟩
  have hnops : (cfg.ops).Nodup := sorted_nodup _ hc.1
  have hnadd : (opChange cfg p).2.Nodup := List.Nodup.of_map _ hadd.1
  have e1 : (ops' : Multiset (Psi T)) =
      (cfg.ops : Multiset (Psi T)) - ((opChange cfg p).1 : Multiset (Psi T)) +
        ((opChange cfg p).2 : Multiset (Psi T)) := by
    have hnd2 : ((cfg.ops : Multiset (Psi T)) - ((opChange cfg p).1 : Multiset (Psi T)) +
        ((opChange cfg p).2 : Multiset (Psi T))).Nodup := by
      rw [Multiset.nodup_add]
      refine ⟨Multiset.nodup_of_le (Multiset.sub_le_self _ _) (by simpa using hnops),
        by simpa using hnadd, ?_⟩
      rw [Multiset.disjoint_left]
      intro x hx hx2
      have hx2' : x ∈ (opChange cfg p).2 := by simpa using hx2
      have hnx := (Multiset.mem_sub_of_nodup (by simpa using hnops)).1 hx
      exact hadd.2 x hx2' x (by simpa using hnx.1) (by simpa using hnx.2) rfl
    rw [Multiset.Nodup.ext (by simpa using sorted_nodup _ hsort) hnd2]
    intro y
    rw [Multiset.mem_add, Multiset.mem_sub_of_nodup (by simpa using hnops)]
    simpa using hmem y
  rw [e1]
  unfold opChange
  rw [C46_net_effect _ _ _ _ _ (opChange_rem_le D Sh cfg p hc hv), hc.2]
  have h1 := Multiset.coe_le.2 hv.1
  have h2 := Multiset.coe_le.2 hv.2.1
  ext y
  have c1 := Multiset.count_le_of_le y h1
  have c2 := Multiset.count_le_of_le y h2
  simp only [Multiset.count_sub, Multiset.count_add, ← Multiset.coe_add] at c1 c2 ⊢
  omega

/-- If the operators could be updated, the change can be made to the determinant matrix. -/
theorem updateOperators_adm (D : DetOps T K S) (Sh : HybChange T → Prop) (cfg : Cfg T K S)
    (p : Proposal T R) (hc : Consistent D cfg) (hv : ValidProp D Sh cfg p) (ops' : OpSet T)
    (rec : Record T)
    (h : updateOperators cfg.ops (opChange cfg p).1 (opChange cfg p).2 = .success ops' rec) :
    p.ch.Adm (D.cdagg cfg.M) (D.cs cfg.M) := by
  obtain ⟨h1, _, h3⟩ := updateOperators_multiset D Sh cfg p hc hv ops' rec h
  refine ⟨hv.1, hv.2.1, ?_⟩
  have hn : ((ops' : Multiset (Psi T)).map Psi.time).Nodup := by
    rw [Multiset.map_coe, Multiset.coe_nodup]
    exact List.pairwise_map.2 (h1.imp (fun h => ne_of_lt h))
  rw [h3, Multiset.map_add] at hn
  exact (Multiset.nodup_add.1 hn).1

/-! ### C01 -/

/-- **C01.**  Whenever `update` ends in any way other than acceptance, the configuration is
observably the one before the call (operators in the trace, trace, sign, permutation sign, worm,
hybridized operators and their determinant), and the fatal "operator not found" exception is
impossible. -/
theorem C01_not_accepted_unchanged (D : DetOps T K S) (Tr : TraceOps T K R)
    (permFn : List (Psi T) → List (Psi T) → List (Psi T) → Int)
    (abv : AbsoluteValue K R) (sgn : K → K) (ι : R →+* K) (inWin : Psi T → Bool)
    (Sh : HybChange T → Prop) (Inv : S → Prop) (det : S → K) (hD : D.Lawful Sh Inv det)
    (cfg : Cfg T K S) (cnt : Counters) (prop : Option (Proposal T R)) (r : R)
    (hInv : Inv cfg.M) (hc : Consistent D cfg) (hv : ∀ p, prop = some p → ValidProp D Sh cfg p)
    (hna : (localUpdate D Tr permFn abv sgn ι inWin cfg cnt prop r).2.2 ≠ .accepted) :
    SameCfg D det (localUpdate D Tr permFn abv sgn ι inWin cfg cnt prop r).1 cfg ∧
    (localUpdate D Tr permFn abv sgn ι inWin cfg cnt prop r).2.2 ≠ .thrownFatal := by
  have hsame : SameCfg D det cfg cfg :=
    ⟨rfl, rfl, rfl, rfl, rfl, List.Perm.refl _, List.Perm.refl _, rfl⟩
  cases prop with
  | none => exact ⟨hsame, by simp [localUpdate]⟩
  | some p =>
    have hvp := hv p rfl
    obtain ⟨hm, hn⟩ := opChange_rem_mem D Sh cfg p hc hvp
    have key := C03_update_operators cfg.ops (opChange cfg p).1 (opChange cfg p).2 hc.1 hm hn
    have hrej : p.ch.Adm (D.cdagg cfg.M) (D.cs cfg.M) →
        SameCfg D det { cfg with M := D.reject (D.tryUpdate cfg.M p.ch).2 } cfg := fun ha =>
      ⟨rfl, rfl, rfl, rfl, rfl, hD.reject_cdagg _ _ hInv ha hvp.2.2,
        hD.reject_cs _ _ hInv ha hvp.2.2, hD.reject_det _ _ hInv ha hvp.2.2⟩
    unfold localUpdate at hna ⊢
    simp only at hna ⊢
    by_cases hr : (rangeCheck inWin (opChange cfg p).1 && rangeCheck inWin (opChange cfg p).2) = true
    · rw [if_pos hr] at hna ⊢
      cases hu : updateOperators cfg.ops (opChange cfg p).1 (opChange cfg p).2 with
      | fatal o => rw [hu] at key; exact key.elim
      | duplicate o =>
        rw [hu] at key
        simp only
        have k1 : o = cfg.ops := key.1
        rw [k1]
        exact ⟨hsame, by simp⟩
      | success o rec =>
        have hrej := hrej (updateOperators_adm D Sh cfg p hc hvp o rec hu)
        rw [hu] at key
        simp only [hu] at hna ⊢
        have k1 : revertChanges o rec = cfg.ops := key.1
        rw [k1] at hna ⊢
        split_ifs at hna ⊢
        · exact absurd rfl hna
        · exact ⟨hrej, by simp⟩
        · exact ⟨hsame, by simp⟩
        · exact absurd rfl hna
        · exact ⟨hrej, by simp⟩
        · exact ⟨hrej, by simp⟩
    · rw [if_neg hr]; exact ⟨hsame, by simp⟩

/-! ### C02 and C04 -/

/-- The stored sign is the sign of determinant, trace and permutation (what `sanity_check`
demands, src/mc_config.hpp:161-170), the permutation sign is the current one, and determinant and
trace do not vanish. -/
def SignOK (D : DetOps T K S) (permFn : List (Psi T) → List (Psi T) → List (Psi T) → Int)
    (sgn : K → K) (det : S → K) (cfg : Cfg T K S) : Prop :=
  cfg.permSign = permFn (D.cdagg cfg.M) (D.cs cfg.M) (wormOps cfg.worm) ∧
  det cfg.M ≠ 0 ∧ cfg.trace ≠ 0 ∧
  cfg.sign = sgn (det cfg.M) * sgn cfg.trace * (cfg.permSign : K)

theorem accept_step (D : DetOps T K S)
    (permFn : List (Psi T) → List (Psi T) → List (Psi T) → Int)
    (sgn : K → K) (ι : R →+* K) (Sh : HybChange T → Prop) (Inv : S → Prop) (det : S → K) (hD : D.Lawful Sh Inv det)
    (hsgn : ∀ a b : K, a ≠ 0 → b ≠ 0 → sgn (a * b) = sgn a * sgn b)
    (hsgn0 : ∀ a : K, a ≠ 0 → sgn a ≠ 0)
    (hpf : ∀ a b c, permFn a b c = 1 ∨ permFn a b c = -1)
    (cfg : Cfg T K S) (p : Proposal T R) (hcorr : sgn (ι p.corr) = 1)
    (hInv : Inv cfg.M) (hvp : ValidProp D Sh cfg p)
    (hadm : p.ch.Adm (D.cdagg cfg.M) (D.cs cfg.M)) (hs : SignOK D permFn sgn det cfg)
    (ops' : OpSet T) (tn : K) (hr : (D.tryUpdate cfg.M p.ch).1 ≠ 0) (hcorr0 : ι p.corr ≠ 0)
    (htn : tn ≠ 0) (prob : K)
    (hprob : prob = ι p.corr * (D.tryUpdate cfg.M p.ch).1 * (tn / cfg.trace)) :
    SignOK D permFn sgn det
      (acceptCfg D permFn sgn cfg p ops' (D.tryUpdate cfg.M p.ch).2 tn prob) := by
  obtain ⟨h1, h2, h3, h4⟩ := hs
  have hdet := hD.perform_det _ _ hInv hadm hvp.2.2 hr
  have hq : tn / cfg.trace ≠ 0 := div_ne_zero htn h3
  have hpz : (cfg.permSign : K) * (cfg.permSign : K) = 1 := by
    rw [h1]; rcases hpf (D.cdagg cfg.M) (D.cs cfg.M) (wormOps cfg.worm) with h | h <;>
      rw [h] <;> simp
  have hpne : (cfg.permSign : K) ≠ 0 := by
    intro h; rw [h] at hpz; simp at hpz
  refine ⟨rfl, ?_, htn, ?_⟩
  · change det (D.perform _) ≠ 0
    rw [hdet]; exact mul_ne_zero hr h2
  · have hsq : sgn (tn / cfg.trace) * sgn cfg.trace = sgn tn := by
      rw [← hsgn _ _ hq h3, div_mul_cancel₀ _ h3]
    simp only [acceptCfg]
    rw [hdet, hsgn _ _ hr h2, h4, hprob, hsgn _ _ (mul_ne_zero hcorr0 hr) hq, hsgn _ _ hcorr0 hr,
      hcorr, one_mul, ← hsq]
    field_simp

/-- One update keeps both invariants; used for C02 and C04. -/
theorem update_step (D : DetOps T K S) (Tr : TraceOps T K R)
    (permFn : List (Psi T) → List (Psi T) → List (Psi T) → Int)
    (abv : AbsoluteValue K R) (sgn : K → K) (ι : R →+* K) (inWin : Psi T → Bool)
    (Sh : HybChange T → Prop) (Inv : S → Prop) (det : S → K) (hD : D.Lawful Sh Inv det) (hT : Tr.Lawful abv)
    (cfg : Cfg T K S) (cnt : Counters) (prop : Option (Proposal T R)) (r : R) (hr : 0 ≤ r)
    (hInv : Inv cfg.M) (hc : Consistent D cfg) (hv : ∀ p, prop = some p → ValidProp D Sh cfg p) :
    let c' := (localUpdate D Tr permFn abv sgn ι inWin cfg cnt prop r).1
    Inv c'.M ∧ Consistent D c' ∧
    ((hsgn : ∀ a b : K, a ≠ 0 → b ≠ 0 → sgn (a * b) = sgn a * sgn b) →
      (hsgn0 : ∀ a : K, a ≠ 0 → sgn a ≠ 0) →
      (hpf : ∀ a b c, permFn a b c = 1 ∨ permFn a b c = -1) →
      (hpp : ∀ a a' b b' c, List.Perm a a' → List.Perm b b' → permFn a b c = permFn a' b' c) →
      (∀ p, prop = some p → sgn (ι p.corr) = 1 ∧ ι p.corr ≠ 0) →
      SignOK D permFn sgn det cfg → SignOK D permFn sgn det c') := by
  intro c'
  by_cases hna : (localUpdate D Tr permFn abv sgn ι inWin cfg cnt prop r).2.2 = .accepted
  · -- accepted
    cases prop with
    | none => simp [localUpdate] at hna
    | some p =>
      have hvp := hv p rfl
      revert c'
      unfold localUpdate at hna ⊢
      simp only at hna ⊢
      by_cases hrg : (rangeCheck inWin (opChange cfg p).1 && rangeCheck inWin (opChange cfg p).2) = true
      · rw [if_pos hrg] at hna ⊢
        cases hu : updateOperators cfg.ops (opChange cfg p).1 (opChange cfg p).2 with
        | fatal o => rw [hu] at hna; simp at hna
        | duplicate o => rw [hu] at hna; simp at hna
        | success o rec =>
          have hadm := updateOperators_adm D Sh cfg p hc hvp o rec hu
          obtain ⟨hso, _, hmo⟩ := updateOperators_multiset D Sh cfg p hc hvp o rec hu
          simp only [hu] at hna ⊢
          have hgoal : ∀ tn prob, (D.tryUpdate cfg.M p.ch).1 ≠ 0 →
              Inv (acceptCfg D permFn sgn cfg p o (D.tryUpdate cfg.M p.ch).2 tn prob).M ∧
              Consistent D (acceptCfg D permFn sgn cfg p o (D.tryUpdate cfg.M p.ch).2 tn prob) := by
            intro tn prob hne
            refine ⟨hD.perform_inv _ _ hInv hadm hvp.2.2 hne, hso, ?_⟩
            simp only [acceptCfg]
            rw [hD.perform_cdagg _ _ hInv hadm hvp.2.2 hne, hD.perform_cs _ _ hInv hadm hvp.2.2 hne]
            exact hmo
          split_ifs at hna ⊢ with he hacc hb hne hlz
          · -- trace not updated
            have hp0 : ι p.corr * (D.tryUpdate cfg.M p.ch).1 ≠ 0 := by
              intro h0; rw [h0, map_zero] at hacc; exact absurd hacc (not_lt.2 hr)
            have hne := right_ne_zero_of_mul hp0
            obtain ⟨g1, g2⟩ := hgoal cfg.trace (ι p.corr * (D.tryUpdate cfg.M p.ch).1) hne
            refine ⟨g1, g2, ?_⟩
            intro hsgn hsgn0 hpf hpp hcorr hs
            exact accept_step D permFn sgn ι Sh Inv det hD hsgn hsgn0 hpf cfg p (hcorr p rfl).1 hInv
              hvp hadm hs o cfg.trace hne (hcorr p rfl).2 hs.2.2.1 _
              (by rw [div_self hs.2.2.1, mul_one])
          · obtain ⟨g1, g2⟩ := hgoal
              (Tr.lazyEval o (abv (ι r * cfg.trace / (ι p.corr * (D.tryUpdate cfg.M p.ch).1)))).2
              (ι p.corr * (D.tryUpdate cfg.M p.ch).1 *
                ((Tr.lazyEval o
                  (abv (ι r * cfg.trace / (ι p.corr * (D.tryUpdate cfg.M p.ch).1)))).2 / cfg.trace))
              hne
            refine ⟨g1, g2, ?_⟩
            intro hsgn hsgn0 hpf hpp hcorr hs
            refine accept_step D permFn sgn ι Sh Inv det hD hsgn hsgn0 hpf cfg p (hcorr p rfl).1 hInv
              hvp hadm hs o _ hne (hcorr p rfl).2 ?_ _ rfl
            intro h0
            have := hT o _ hlz
            rw [h0, map_zero] at this
            exact absurd this (not_lt.2 (abv.nonneg _))
      · rw [if_neg hrg] at hna; simp at hna
  · -- not accepted
    obtain ⟨⟨h1, h2, h3, h4, h5, h6, h7, h8⟩, _⟩ :=
      C01_not_accepted_unchanged D Tr permFn abv sgn ι inWin Sh Inv det hD cfg cnt prop r hInv hc hv hna
    have hInv' : Inv c'.M := by
      cases prop with
      | none => exact hInv
      | some p =>
        have hvp := hv p rfl
        have hri := fun ha => hD.reject_inv _ _ hInv ha hvp.2.2
        revert c'
        unfold localUpdate at hna ⊢
        simp only at hna ⊢
        by_cases hrg : (rangeCheck inWin (opChange cfg p).1 && rangeCheck inWin (opChange cfg p).2) = true
        · rw [if_pos hrg] at hna ⊢
          cases hu : updateOperators cfg.ops (opChange cfg p).1 (opChange cfg p).2 with
          | fatal o => intros; exact hInv
          | duplicate o => intros; exact hInv
          | success o rec =>
            have hri := hri (updateOperators_adm D Sh cfg p hc hvp o rec hu)
            simp only [hu] at hna ⊢
            split_ifs at hna ⊢ <;> first
              | exact absurd rfl hna
              | (intros; exact hri)
              | (intros; exact hInv)
        · rw [if_neg hrg]; intros; exact hInv
    refine ⟨hInv', ⟨?_, ?_⟩, ?_⟩
    · change OpSet.Sorted c'.ops
      rw [show c'.ops = cfg.ops from h1]; exact hc.1
    · rw [show c'.ops = cfg.ops from h1, show c'.worm = cfg.worm from h5,
        Multiset.coe_eq_coe.2 h6, Multiset.coe_eq_coe.2 h7]
      exact hc.2
    · intro hsgn hsgn0 hpf hpp hcorr ⟨s1, s2, s3, s4⟩
      refine ⟨?_, ?_, ?_, ?_⟩
      · rw [show c'.permSign = cfg.permSign from h4, show c'.worm = cfg.worm from h5,
          hpp _ _ _ _ _ h6 h7]; exact s1
      · rw [show det c'.M = det cfg.M from h8]; exact s2
      · rw [show c'.trace = cfg.trace from h2]; exact s3
      · rw [show det c'.M = det cfg.M from h8, show c'.trace = cfg.trace from h2,
          show c'.sign = cfg.sign from h3, show c'.permSign = cfg.permSign from h4]; exact s4

/-- A history of local updates: at each step the proposal is any function of the current
configuration (the updaters look at it), together with the random number of the acceptance. -/
abbrev Step (T K R S : Type) := (Cfg T K S → Option (Proposal T R)) × R

/-- Run a history of local updates. -/
def runUpdates (D : DetOps T K S) (Tr : TraceOps T K R)
    (permFn : List (Psi T) → List (Psi T) → List (Psi T) → Int)
    (abv : AbsoluteValue K R) (sgn : K → K) (ι : R →+* K) (inWin : Psi T → Bool) :
    List (Step T K R S) → Cfg T K S × Counters → Cfg T K S × Counters
  | [], st => st
  | (f, r) :: rest, (cfg, cnt) =>
    let o := localUpdate D Tr permFn abv sgn ι inWin cfg cnt (f cfg) r
    runUpdates D Tr permFn abv sgn ι inWin rest (o.1, o.2.1)

/-- **C02.**  After any history of local updates, the operators in the trace are the disjoint
union of hybridized and worm operators, in time order. -/
theorem C02_operators_consistent (D : DetOps T K S) (Tr : TraceOps T K R)
    (permFn : List (Psi T) → List (Psi T) → List (Psi T) → Int)
    (abv : AbsoluteValue K R) (sgn : K → K) (ι : R →+* K) (inWin : Psi T → Bool)
    (Sh : HybChange T → Prop) (Inv : S → Prop) (det : S → K) (hD : D.Lawful Sh Inv det) (hT : Tr.Lawful abv)
    (steps : List (Step T K R S)) (cfg : Cfg T K S) (cnt : Counters)
    (hsteps : ∀ st ∈ steps, 0 ≤ st.2 ∧ ∀ c p, st.1 c = some p → ValidProp D Sh c p)
    (hInv : Inv cfg.M) (hc : Consistent D cfg) :
    Consistent D (runUpdates D Tr permFn abv sgn ι inWin steps (cfg, cnt)).1 := by
  induction steps generalizing cfg cnt with
  | nil => exact hc
  | cons st rest ih =>
    obtain ⟨f, r⟩ := st
    have h0 := hsteps (f, r) (by simp)
    obtain ⟨g1, g2, _⟩ := update_step D Tr permFn abv sgn ι inWin Sh Inv det hD hT cfg cnt (f cfg) r
      h0.1 hInv hc (fun p hp => h0.2 cfg p hp)
    exact ih _ _ (fun st hst => hsteps st (by simp [hst])) g1 g2

/-- **C04.**  After any history of local updates the stored sign is
`sign(det) * sign(trace) * permutation sign` of the current configuration, determinant and trace
are non-zero, and the stored permutation sign is the current one, provided it was so at the
start and each correction factor is positive.  `sgn` is multiplicative on non-zero numbers (as
`x/|x|` is), `permFn` takes the values ±1 and does not depend on the storage order. -/
theorem C04_sign_consistent (D : DetOps T K S) (Tr : TraceOps T K R)
    (permFn : List (Psi T) → List (Psi T) → List (Psi T) → Int)
    (abv : AbsoluteValue K R) (sgn : K → K) (ι : R →+* K) (inWin : Psi T → Bool)
    (Sh : HybChange T → Prop) (Inv : S → Prop) (det : S → K) (hD : D.Lawful Sh Inv det) (hT : Tr.Lawful abv)
    (hsgn : ∀ a b : K, a ≠ 0 → b ≠ 0 → sgn (a * b) = sgn a * sgn b)
    (hsgn0 : ∀ a : K, a ≠ 0 → sgn a ≠ 0)
    (hpf : ∀ a b c, permFn a b c = 1 ∨ permFn a b c = -1)
    (hpp : ∀ a a' b b' c, List.Perm a a' → List.Perm b b' → permFn a b c = permFn a' b' c)
    (steps : List (Step T K R S)) (cfg : Cfg T K S) (cnt : Counters)
    (hsteps : ∀ st ∈ steps, 0 ≤ st.2 ∧ ∀ c p, st.1 c = some p →
      ValidProp D Sh c p ∧ sgn (ι p.corr) = 1 ∧ ι p.corr ≠ 0)
    (hInv : Inv cfg.M) (hc : Consistent D cfg) (hs : SignOK D permFn sgn det cfg) :
    SignOK D permFn sgn det (runUpdates D Tr permFn abv sgn ι inWin steps (cfg, cnt)).1 := by
  induction steps generalizing cfg cnt with
  | nil => exact hs
  | cons st rest ih =>
    obtain ⟨f, r⟩ := st
    have h0 := hsteps (f, r) (by simp)
    obtain ⟨g1, g2, g3⟩ := update_step D Tr permFn abv sgn ι inWin Sh Inv det hD hT cfg cnt (f cfg) r
      h0.1 hInv hc (fun p hp => (h0.2 cfg p hp).1)
    exact ih _ _ (fun st hst => hsteps st (by simp [hst])) g1 g2
      (g3 hsgn hsgn0 hpf hpp (fun p hp => (h0.2 cfg p hp).2) hs)

/-! ### C12: the acceptance decision -/

/-- **C12 (decision).**  With an exact trace evaluation (the answer compares the exact trace
with the cutoff) a move with a valid range, no collisions and a non-vanishing trace bound is
accepted exactly if `r < |corr * det ratio * new trace / old trace|`. -/
theorem C12_accept_iff (D : DetOps T K S) (Tr : TraceOps T K R) (trExact : OpSet T → K)
    (permFn : List (Psi T) → List (Psi T) → List (Psi T) → Int)
    (abv : AbsoluteValue K R) (sgn : K → K) (ι : R →+* K) (inWin : Psi T → Bool)
    (hι : ∀ x : R, abv (ι x) = |x|)
    (cfg : Cfg T K S) (cnt : Counters) (p : Proposal T R) (r : R) (hr : 0 ≤ r)
    (hcorr : p.corr ≠ 0) (htr : cfg.trace ≠ 0) (htr0 : cfg.trace = trExact cfg.ops)
    (hrange : (rangeCheck inWin (opChange cfg p).1 && rangeCheck inWin (opChange cfg p).2) = true)
    (ops' : OpSet T) (rec : Record T)
    (hupd : updateOperators cfg.ops (opChange cfg p).1 (opChange cfg p).2 = .success ops' rec)
    (hex : ∀ cut, (Tr.lazyEval ops' cut).1 = decide (cut < abv (trExact ops')))
    (hbound : Tr.bound ops' = 0 → trExact ops' = 0) :
    (localUpdate D Tr permFn abv sgn ι inWin cfg cnt (some p) r).2.2 = .accepted ↔
      r < abv (ι p.corr * (D.tryUpdate cfg.M p.ch).1 * (trExact ops' / cfg.trace)) := by
  have hco : ι p.corr ≠ 0 := by
    intro h; have := hι p.corr; rw [h, map_zero] at this
    exact hcorr (abs_eq_zero.1 this.symm)
  unfold localUpdate
  simp only [hrange, if_true, hupd]
  split_ifs with he hacc hb hne hlz
  · -- trace not changed: the operators are the same
    have hops : ops' = cfg.ops := by
      simp only [Bool.and_eq_true, List.isEmpty_iff] at he
      rw [he.1, he.2] at hupd
      simp [updateOperators, safeEraseWithRecord, safeInsertWithRecord] at hupd
      exact hupd.1.symm
    simp only [true_iff]
    rw [hops, ← htr0, div_self htr, mul_one]; exact hacc
  · have hops : ops' = cfg.ops := by
      simp only [Bool.and_eq_true, List.isEmpty_iff] at he
      rw [he.1, he.2] at hupd
      simp [updateOperators, safeEraseWithRecord, safeInsertWithRecord] at hupd
      exact hupd.1.symm
    simp only [reduceCtorEq, false_iff]
    rw [hops, ← htr0, div_self htr, mul_one]; exact hacc
  · simp only [reduceCtorEq, false_iff]
    rw [hbound hb]; simp [hr]
  · simp only [true_iff]
    rw [hex] at hlz
    simp only [decide_eq_true_eq] at hlz
    rw [map_div₀, map_mul, hι, abs_of_nonneg hr] at hlz
    rw [map_mul, map_div₀]
    have hp1 : 0 < abv (ι p.corr * (D.tryUpdate cfg.M p.ch).1) := abv.pos (mul_ne_zero hco hne)
    have hp2 : 0 < abv cfg.trace := abv.pos htr
    rw [div_lt_iff₀ hp1] at hlz
    rw [← mul_div_assoc, lt_div_iff₀ hp2, mul_comm (abv _) (abv (trExact ops'))]
    exact hlz
  · simp only [reduceCtorEq, false_iff]
    rw [hex] at hlz
    simp only [decide_eq_true_eq] at hlz
    rw [map_div₀, map_mul, hι, abs_of_nonneg hr] at hlz
    rw [map_mul, map_div₀]
    have hp1 : 0 < abv (ι p.corr * (D.tryUpdate cfg.M p.ch).1) := abv.pos (mul_ne_zero hco hne)
    have hp2 : 0 < abv cfg.trace := abv.pos htr
    rw [div_lt_iff₀ hp1] at hlz
    rw [← mul_div_assoc, lt_div_iff₀ hp2, mul_comm (abv _) (abv (trExact ops'))]
    exact hlz
  · simp only [reduceCtorEq, false_iff]
    simp only [ne_eq, not_not] at hne
    rw [hne]; simp [hr]

/-! ### C38: counters -/

/-- Relation between counters: accepted ≤ valid ≤ attempted. -/
def Counters.OK (c : Counters) : Prop := c.accepted ≤ c.valid ∧ c.valid ≤ c.attempted

omit [DecidableEq K] in
theorem C38_step [DecidableEq K] (D : DetOps T K S) (Tr : TraceOps T K R)
    (permFn : List (Psi T) → List (Psi T) → List (Psi T) → Int)
    (abv : AbsoluteValue K R) (sgn : K → K) (ι : R →+* K) (inWin : Psi T → Bool)
    (cfg : Cfg T K S) (cnt : Counters) (prop : Option (Proposal T R)) (r : R) (h : cnt.OK) :
    let o := localUpdate D Tr permFn abv sgn ι inWin cfg cnt prop r
    o.2.1.OK ∧
    (o.2.2 ≠ .thrownRange → o.2.2 ≠ .thrownFatal → o.2.1.attempted = cnt.attempted + 1) ∧
    o.2.1.accepted = cnt.accepted + (if o.2.2 = .accepted then 1 else 0) ∧
    (o.2.2 ≠ .thrownRange → o.2.2 ≠ .thrownFatal →
      o.2.1.valid = cnt.valid + (if o.2.2 = .noMove then 0 else 1)) := by
  obtain ⟨h1, h2⟩ := h
  intro o
  revert o
  cases prop with
  | none => simp [localUpdate, finalizeUpdate, Counters.OK]; omega
  | some p =>
    unfold localUpdate
    simp only
    by_cases hrg : (rangeCheck inWin (opChange cfg p).1 && rangeCheck inWin (opChange cfg p).2) = true
    · rw [if_pos hrg]
      cases updateOperators cfg.ops (opChange cfg p).1 (opChange cfg p).2 with
      | fatal o => simp [Counters.OK, h1, h2]
      | duplicate o => simp [finalizeUpdate, Counters.OK]; omega
      | success o rec =>
        simp only
        split_ifs <;> simp_all [finalizeUpdate, Counters.OK] <;> omega
    · rw [if_neg hrg]; simp [Counters.OK, h1, h2]

/-- **C38 (counters).**  After any history starting from counters in order (in particular from
zero) accepted ≤ valid ≤ attempted, and if no exception occurred the number of attempts grew by
the number of updates. -/
theorem C38_counters (D : DetOps T K S) (Tr : TraceOps T K R)
    (permFn : List (Psi T) → List (Psi T) → List (Psi T) → Int)
    (abv : AbsoluteValue K R) (sgn : K → K) (ι : R →+* K) (inWin : Psi T → Bool)
    (steps : List (Step T K R S)) (cfg : Cfg T K S) (cnt : Counters) (h : cnt.OK) :
    (runUpdates D Tr permFn abv sgn ι inWin steps (cfg, cnt)).2.OK := by
  induction steps generalizing cfg cnt with
  | nil => exact h
  | cons st rest ih =>
    obtain ⟨f, r⟩ := st
    exact ih _ _ (C38_step D Tr permFn abv sgn ι inWin cfg cnt (f cfg) r h).1

/-! ### Non-vacuity

A small determinant machinery satisfying `DetOps.Lawful` (determinant 2^n for n creation
operators), and a concrete configuration with bath and worm operators, on which one accepted
and one rejected update are run.  `Verif.DetMatrixProps` provides the instance for the real
determinant matrix. -/

/-- Toy determinant matrix used only in the examples of this file. -/
def toyDet : DetOps ℕ ℚ ((List (Psi ℕ) × List (Psi ℕ)) × HybChange ℕ) where
  tryUpdate s ch := (2 ^ ch.cdAdd.length / 2 ^ ch.cdRem.length, (s.1, ch))
  perform s := ((s.1.1.diff s.2.cdRem ++ s.2.cdAdd, s.1.2.diff s.2.cRem ++ s.2.cAdd), s.2)
  reject s := s
  cdagg s := s.1.1
  cs s := s.1.2

theorem toyDet_lawful : toyDet.Lawful (fun _ => True) (fun _ => True) (fun s => (2 : ℚ) ^ s.1.1.length) where
  reject_inv := by simp
  reject_cdagg := by intro s ch _ _ _; exact List.Perm.refl _
  reject_cs := by intro s ch _ _ _; exact List.Perm.refl _
  reject_det := by intro s ch _ _ _; rfl
  perform_inv := by simp
  perform_cdagg := by
    intro s ch _ h _ _
    simp [toyDet, ← Multiset.coe_add, Multiset.coe_sub]
  perform_cs := by
    intro s ch _ h _ _
    simp [toyDet, ← Multiset.coe_add, Multiset.coe_sub]
  perform_det := by
    intro s ch _ h _ _
    have h' : ch.cdRem.Subperm s.1.1 := h.cdRem
    have hl : (s.1.1.diff ch.cdRem).length + ch.cdRem.length = s.1.1.length := by
      have := (List.subperm_append_diff_self_of_count_le
        (fun x _ => List.Subperm.count_le h' x)).length_eq
      simp at this; omega
    simp only [toyDet, List.length_append]
    rw [← hl, pow_add, pow_add]
    field_simp

/-- Toy trace: bound 1, exact trace = number of operators + 1. -/
def toyTrace : TraceOps ℕ ℚ ℚ where
  bound _ := 1
  lazyEval ops cut := (decide (cut < |(ops.length : ℚ) + 1|), ops.length + 1)

theorem toyTrace_lawful : toyTrace.Lawful AbsoluteValue.abs := by
  intro ops cut h
  simpa [toyTrace] using h

/-- A configuration with one bath pair and a worm of two operators. -/
def toyCfg : Cfg ℕ ℚ ((List (Psi ℕ) × List (Psi ℕ)) × HybChange ℕ) :=
  { ops := [⟨1, .creation, 0⟩, ⟨2, .creation, 1⟩, ⟨4, .annihilation, 1⟩, ⟨6, .annihilation, 0⟩]
    M := (([⟨1, .creation, 0⟩], [⟨6, .annihilation, 0⟩]), ⟨[], [], [], []⟩)
    trace := 5
    sign := 1
    permSign := 1
    worm := some [⟨2, .creation, 1⟩, ⟨4, .annihilation, 1⟩] }

/-- Insert the bath pair (3, 5) and turn nothing else. -/
def toyProp : Proposal ℕ ℚ :=
  { ch := ⟨[], [], [⟨3, .creation, 0⟩], [⟨5, .annihilation, 0⟩]⟩
    newWorm := some [⟨2, .creation, 1⟩, ⟨4, .annihilation, 1⟩]
    corr := 1 / 4 }

/-- The hypotheses of C01, C02 and C04 are met by a non-trivial configuration; the update with
`r = 1/2` is accepted, with `r = 3/4` rejected, and changes the operators in the first case. -/
example :
    Consistent toyDet toyCfg ∧ ValidProp toyDet (fun _ => True) toyCfg toyProp ∧
    SignOK toyDet (fun _ _ _ => 1) (fun x => x / |x|) (fun s => (2 : ℚ) ^ s.1.1.length) toyCfg ∧
    (localUpdate toyDet toyTrace (fun _ _ _ => 1) AbsoluteValue.abs (fun x => x / |x|)
      (RingHom.id ℚ) (fun _ => true) toyCfg ⟨0, 0, 0⟩ (some toyProp) (1 / 2)).2.2 = .accepted ∧
    (localUpdate toyDet toyTrace (fun _ _ _ => 1) AbsoluteValue.abs (fun x => x / |x|)
      (RingHom.id ℚ) (fun _ => true) toyCfg ⟨0, 0, 0⟩ (some toyProp) (3 / 4)).2.2 = .rejected ∧
    (localUpdate toyDet toyTrace (fun _ _ _ => 1) AbsoluteValue.abs (fun x => x / |x|)
      (RingHom.id ℚ) (fun _ => true) toyCfg ⟨0, 0, 0⟩ (some toyProp) (1 / 2)).1.ops.length = 6 := by
  refine ⟨⟨?_, ?_⟩, ⟨?_, ?_, trivial⟩, ⟨?_, ?_, ?_, ?_⟩, ?_, ?_, ?_⟩
  · simp [OpSet.Sorted, toyCfg]
  · decide
  · exact List.nil_subperm
  · exact List.nil_subperm
  · rfl
  · norm_num
  · norm_num [toyCfg]
  · norm_num [toyCfg]
  · decide +kernel
  · decide +kernel
  · decide +kernel

end CTHyb
