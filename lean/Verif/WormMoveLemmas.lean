import Verif.WormMove
import Verif.ShiftMoveProps

/-!
Probabilities of the draws in `Verif.WormMove`.
-/

set_option linter.unusedSectionVars false

namespace CTHyb

open Rand

section
variable {T R : Type} [Field R] [LinearOrder R] [IsStrictOrderedRing R] [DecidableEq T]

/-- Probability that the operators are picked in the order `t`. -/
theorem mean_pickOps_eq (l : List (BOp T)) (hl : l.Nodup) (n : ℕ) (hn : n ≤ l.length) (t : List (BOp T)) :
    mean (pickOps l n) (fun p => if p = t then (1 : R) else 0) =
      if t.length = n ∧ t.Nodup ∧ ∀ x ∈ t, x ∈ l then
        ((l.length - n).factorial : R) / (l.length.factorial : R) else 0 := by
  classical
  split_ifs with h
  · obtain ⟨hlen, hnd, hsub⟩ := h
    have hB : (t.map (l.idxOf ·)).Nodup :=
      List.Nodup.map_on (fun x hx y _ hxy => (List.idxOf_inj (hsub x hx)).1 hxy) hnd
    unfold pickOps
    rw [mean_bind]
    simp only [mean_ret]
    have key : ∀ p ∈ (pickRand R l.length n), (if p.2.filterMap (l[·]?) = t then (1 : R) else 0) =
        if p.2 = t.map (l.idxOf ·) then 1 else 0 := by
      intro p hp
      obtain ⟨h1, h2, h3⟩ := mem_pickRand hn hp
      refine if_congr ⟨fun e => ?_, fun e => ?_⟩ rfl rfl
      · rw [← e, idxOf_filterMap_get hl p.2 h3]
      · rw [e, filterMap_get_idxOf t hsub]
    rw [mean_congr_mem (f := fun a : List ℕ => if a.filterMap (l[·]?) = t then (1 : R) else 0)
      (g := fun a => if a = t.map (l.idxOf ·) then (1 : R) else 0) key]
    have hlt : (t.map (l.idxOf ·)).length = n := by simpa using hlen
    have := mean_pickRand_eq (R := R) l.length (t.map (l.idxOf ·)) hB (by
      intro x hx
      obtain ⟨y, hy, rfl⟩ := List.mem_map.1 hx
      exact List.idxOf_lt_length_iff.2 (hsub y hy))
    rw [hlt] at this
    exact this
  · refine mean_eq_zero fun p hp => if_neg fun e => h ?_
    obtain ⟨h1, h2, h3⟩ := mem_pickOps hn hl hp
    rw [← e]
    exact ⟨h1, h2, h3⟩

theorem mem_frontIdx {n : ℕ} : ∀ {N : ℕ} {p : R × List ℕ}, p ∈ frontIdx R N n → p.2.length = n ∧ FrontOK N p.2 := by
  induction n with
  | zero =>
    intro N p hp
    rw [mem_ret hp]
    exact ⟨rfl, fun i h => absurd h (by simp)⟩
  | succ n ih =>
    intro N p hp
    obtain ⟨a, ha, q, hq, e⟩ := mem_bind hp
    obtain ⟨b, hb, q', hq', e'⟩ := mem_bind hq
    rw [e, e', mem_ret hq']
    obtain ⟨h1, h2⟩ := ih hb
    refine ⟨by simp [h1], fun i h => ?_⟩
    cases i with
    | zero => simpa using mem_unif ha
    | succ i =>
      have := h2 i (by simpa using h)
      simp only [List.getElem_cons_succ]
      omega

theorem mean_frontIdx (n : ℕ) : ∀ (N : ℕ), n ≤ N → ∀ js : List ℕ, js.length = n → FrontOK N js →
    mean (frontIdx R N n) (fun b => if b = js then (1 : R) else 0) =
      ((N - n).factorial : R) / (N.factorial : R) := by
  induction n with
  | zero =>
    intro N _ js hl _
    rw [List.length_eq_zero_iff.1 hl]
    have : (N.factorial : R) ≠ 0 := by exact_mod_cast N.factorial_ne_zero
    simp [frontIdx, this]
  | succ n ih =>
    intro N hN js hl hf
    cases js with
    | nil => simp at hl
    | cons j js =>
      obtain ⟨M, rfl⟩ : ∃ M, N = M + 1 := ⟨N - 1, by omega⟩
      have hj : j < M + 1 := hf 0 (by simp)
      have hf' : FrontOK M js := fun i h => by
        have := hf (i + 1) (by simpa using h)
        simp only [List.getElem_cons_succ] at this
        omega
      simp only [frontIdx, mean_bind, mean_ret, List.cons.injEq, Nat.add_sub_cancel]
      have e : ∀ b, mean (frontIdx R M n) (fun bs => if b = j ∧ bs = js then (1 : R) else 0) =
          (if b = j then 1 else 0) * mean (frontIdx R M n) (fun bs => if bs = js then (1 : R) else 0) := by
        intro b
        rw [← mean_mul_left]
        refine mean_congr fun bs => ?_
        by_cases h1 : b = j <;> by_cases h2 : bs = js <;> simp [h1, h2]
      simp only [e]
      rw [mean_mul_right, ih M (by omega) js (by simpa using hl) hf', mean_unif, ← List.sum_toFinset _ List.nodup_range,
        Finset.sum_ite_eq', if_pos (by simpa using hj), List.length_range, Nat.factorial_succ,
        show M + 1 - (n + 1) = M - n by omega]
      push_cast
      rw [div_mul_div_comm, one_mul]

theorem exists_perm_append_of_subperm {α : Type} {t l : List α} (h : t.Subperm l) : ∃ l', l.Perm (t ++ l') := by
  obtain ⟨s, hs, hsl⟩ := h
  obtain ⟨l', hl'⟩ := hsl.exists_perm_append
  exact ⟨l', hl'.trans (hs.append_right l')⟩

/-- Picking by exchanging to the front has the same distribution as picking by `random_shuffle`. -/
theorem mean_pickFront (l : List (BOp T)) (hl : l.Nodup) (n : ℕ) (hn : n ≤ l.length) (F : List (BOp T) → R) :
    mean (pickFront l n) F = mean (pickOps l n) F := by
  classical
  have hmem : ∀ p ∈ (pickFront l n : Rand R _), p.2.length = n ∧ p.2.Nodup ∧ ∀ o ∈ p.2, o ∈ l := by
    intro p hp
    obtain ⟨a, _, q, hq, e⟩ := mem_bind hp
    rw [e, mem_ret hq]
    have hperm := frontShuffle_perm a.2 0 l
    refine ⟨by rw [List.length_take, hperm.length_eq]; omega,
      (hperm.nodup_iff.2 hl).sublist (List.take_sublist _ _), fun o ho => ?_⟩
    exact hperm.mem_iff.1 (List.mem_of_mem_take ho)
  set S := (l.permutations.map (List.take n)).dedup with hS
  have hin : ∀ t : List (BOp T), t.length = n ∧ t.Nodup ∧ (∀ o ∈ t, o ∈ l) → t ∈ S := by
    rintro t ⟨h1, h2, h3⟩
    obtain ⟨l', hl'⟩ := exists_perm_append_of_subperm (List.subperm_of_subset h2 h3)
    rw [hS, List.mem_dedup, List.mem_map]
    exact ⟨t ++ l', List.mem_permutations.2 hl'.symm, by rw [← h1]; simp⟩
  rw [mean_support (pickFront l n) S (List.nodup_dedup _) F (fun p hp hn => absurd (hin _ (hmem p hp)) hn),
    mean_support (pickOps l n) S (List.nodup_dedup _) F (fun p hp hn' => absurd (hin _ (mem_pickOps hn hl hp)) hn')]
  congr 1
  refine List.map_congr_left fun t _ => ?_
  rw [mean_pickOps_eq l hl n hn]
  congr 1
  split_ifs with h
  · obtain ⟨h1, h2, h3⟩ := h
    obtain ⟨js, ⟨g1, g2, g3⟩, huniq⟩ := C48_front_unique t l hl h2 h3
    unfold pickFront
    rw [mean_bind]
    simp only [mean_ret]
    rw [mean_congr_mem (f := fun a : List ℕ => if (frontShuffle 0 a l).take n = t then (1 : R) else 0)
      (g := fun a => if a = js then (1 : R) else 0)]
    · exact mean_frontIdx n l.length hn js (by rw [g1, h1]) g2
    · intro p hp
      obtain ⟨k1, k2⟩ := mem_frontIdx hp
      refine if_congr ⟨fun e => ?_, fun e => ?_⟩ rfl rfl
      · exact huniq p.2 ⟨by rw [k1, h1], k2, by rw [h1]; exact e⟩
      · rw [e, ← h1]; exact g3
  · refine mean_eq_zero fun p hp => if_neg fun e => h ?_
    rw [← e]; exact hmem p hp

/-- The whole of `pick_up_operators`. -/
theorem mean_pickFlavors (ops : ℕ → List (BOp T)) (hops : ∀ f, (ops f).Nodup) (m : ℕ → ℕ) (fs : List ℕ)
    (hm : ∀ f ∈ fs, m f ≤ (ops f).length) : ∀ F : List (BOp T) → R,
    mean (pickFlavors ops m fs) F = mean (pickBlocks ops m fs) F := by
  induction fs with
  | nil => intro F; simp [pickFlavors, pickBlocks]
  | cons f fs ih =>
    intro F
    have ih := ih fun f hf => hm f (List.mem_cons_of_mem _ hf)
    rw [pickBlocks, mean_bind, ← mean_pickFront (ops f) (hops f) (m f) (hm f (by simp))]
    rw [pickFlavors]
    split_ifs with h
    · rw [h, pickFront, mean_bind, frontIdx, mean_ret, mean_ret]
      simp only [List.take_zero, mean_bind, mean_ret, List.nil_append]
      exact ih F
    · simp only [mean_bind, mean_ret]
      exact mean_congr fun p => ih _

/-! ### Attaching the worm to the bath -/

/-- One block for each flavor. -/
def flavEnv (nf : ℕ) : PEnv := ⟨nf, nf, id⟩

theorem blockFlavors_flavEnv (nf f : ℕ) (hf : f < nf) : blockFlavors (flavEnv nf) f = [f] := by
  unfold blockFlavors flavEnv
  simp only [id]
  have hnd : ((List.range nf).filter fun g => g == f).Nodup := List.nodup_range.filter _
  have : ((List.range nf).filter fun g => g == f).Perm [f] := by
    refine (List.perm_ext_iff_of_nodup hnd (by simp)).2 fun a => ?_
    simp only [List.mem_filter, List.mem_range, beq_iff_eq, List.mem_singleton]
    constructor
    · exact fun h => h.2
    · rintro rfl; exact ⟨hf, rfl⟩
  exact List.perm_singleton.1 this

/-- Flavors of the operators of one type. -/
def typeFlavors (ops : List (Psi (OpTime T))) (ty : OpType) : List ℕ :=
  (ops.filter fun o => decide (o.type = ty)).map (·.flavor)

theorem wormCount_eq (ops : List (Psi (OpTime T))) (ty : OpType) (f : ℕ) :
    wormCount ops ty f = (typeFlavors ops ty).count f := by
  unfold wormCount typeFlavors
  rw [List.count_eq_countP, List.countP_map, List.countP_filter]
  refine List.countP_congr fun o _ => ?_
  simp [and_comm]

theorem typeFlavors_length (ops : List (Psi (OpTime T))) :
    (typeFlavors ops .creation).length + (typeFlavors ops .annihilation).length = ops.length := by
  induction ops with
  | nil => rfl
  | cons o ops ih =>
    unfold typeFlavors at ih ⊢
    cases h : o.type <;> simp [h] at ih ⊢ <;> omega

theorem mean_attachDraws (nf : ℕ) (win : Win T R) (ops : List (Psi (OpTime T)))
    (hf : ∀ o ∈ ops, o.flavor < nf) : ∀ f g : List (BOp T) → R,
    mean (attachDraws win ops) (fun r => f r.1 * g r.2) =
      mean (opsDraws (flavEnv nf) win (typeFlavors ops .creation)) f *
        mean (opsDraws (flavEnv nf) win (typeFlavors ops .annihilation)) g := by
  induction ops with
  | nil => intro f g; simp [attachDraws, typeFlavors, opsDraws]
  | cons o ops ih =>
    intro f g
    have ih := ih fun o ho => hf o (List.mem_cons_of_mem _ ho)
    have hr : ∀ F : BOp T → R, mean (randOp win (blockFlavors (flavEnv nf) o.flavor)) F =
        mean (unif win.grid) fun t => F (t, o.flavor) := by
      intro F
      rw [blockFlavors_flavEnv nf _ (hf o (by simp)), randOp]
      simp only [mean_bind, mean_ret]
      refine mean_congr fun t => ?_
      rw [mean_unif]; simp
    rw [attachDraws, mean_bind]
    simp only [mean_bind, mean_ret]
    cases h : o.type with
    | creation =>
      have e1 : typeFlavors (o :: ops) .creation = o.flavor :: typeFlavors ops .creation := by
        simp [typeFlavors, h]
      have e2 : typeFlavors (o :: ops) .annihilation = typeFlavors ops .annihilation := by
        simp [typeFlavors, h]
      rw [e1, e2, opsDraws, mean_bind, hr]
      simp only [mean_bind, mean_ret, if_true]
      rw [← mean_mul_right]
      refine mean_congr fun t => ?_
      exact ih (fun l => f ((t, o.flavor) :: l)) g
    | annihilation =>
      have e1 : typeFlavors (o :: ops) .annihilation = o.flavor :: typeFlavors ops .annihilation := by
        simp [typeFlavors, h]
      have e2 : typeFlavors (o :: ops) .creation = typeFlavors ops .creation := by
        simp [typeFlavors, h]
      rw [e1, e2, opsDraws, mean_bind, hr]
      simp only [mean_bind, mean_ret, reduceCtorEq, if_false]
      rw [← mean_mul_left]
      refine mean_congr fun t => ?_
      exact ih f (fun l => g ((t, o.flavor) :: l))

/-- `pickFac` is the product of all falling factorials. -/
theorem pickFac_eq (nf : ℕ) (ncd nc mcd mc : ℕ → ℕ) :
    (pickFac nf ncd nc mcd mc : R) = (∏ f ∈ Finset.range nf, fallingFac ((ncd f : ℕ) : R) (mcd f)) *
      ∏ f ∈ Finset.range nf, fallingFac ((nc f : ℕ) : R) (mc f) := by
  unfold pickFac
  induction nf with
  | zero => simp
  | succ n ih =>
    rw [List.range_succ, List.foldl_append, ih, Finset.prod_range_succ, Finset.prod_range_succ]
    simp only [List.foldl_cons, List.foldl_nil]
    rcases Nat.eq_zero_or_pos (mcd n) with h1 | h1 <;> rcases Nat.eq_zero_or_pos (mc n) with h2 | h2 <;>
      simp [h1, h2, fallingFac] <;> ring

end

end CTHyb
