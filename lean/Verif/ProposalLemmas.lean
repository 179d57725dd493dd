import Verif.Proposal
import Mathlib.Algebra.BigOperators.Ring.Finset
import Mathlib.Algebra.BigOperators.Ring.Multiset
import Mathlib.Algebra.Order.BigOperators.Group.Multiset
import Mathlib.Data.Fintype.BigOperators
import Mathlib.Data.Fintype.Perm
import Mathlib.Data.Nat.Factorial.Basic
import Mathlib.Data.Nat.Factorial.BigOperators
import Mathlib.Data.Nat.Factorial.Cast
import Mathlib.Data.List.Permutation
import Mathlib.Tactic.Ring
import Mathlib.Tactic.FieldSimp
import Mathlib.Tactic.Linarith

/-! Expectation values of finite distributions and of the draws of `Verif.Proposal`. -/

namespace CTHyb

namespace Rand
variable {R α β : Type} [Field R]

@[simp] theorem mean_ret (a : α) (f : α → R) : mean (ret a) f = f a := by simp [mean, ret]

theorem mean_bind (m : Rand R α) (k : α → Rand R β) (f : β → R) :
    mean (bind m k) f = mean m fun a => mean (k a) f := by
  simp only [mean, bind, Multiset.map_bind, Multiset.sum_bind, Multiset.map_map]
  congr 1
  refine Multiset.map_congr rfl fun p _ => ?_
  rw [← Multiset.sum_map_mul_left]
  congr 1
  refine Multiset.map_congr rfl fun q _ => ?_
  simp [mul_assoc]

theorem mean_unif (l : List α) (f : α → R) : mean (unif l) f = (l.map f).sum / l.length := by
  simp only [mean, unif, Multiset.map_map, Function.comp_def]
  rw [Multiset.sum_map_mul_left, Multiset.map_coe, Multiset.sum_coe]
  ring

theorem mean_coin (p : R) (f : Bool → R) : mean (coin p) f = p * f true + (1 - p) * f false := by
  simp [mean, coin]

theorem mean_congr {m : Rand R α} {f g : α → R} (h : ∀ a, f a = g a) : mean m f = mean m g := by
  rw [show f = g from funext h]

theorem mean_congr_mem {m : Rand R α} {f g : α → R} (h : ∀ p ∈ m, f p.2 = g p.2) :
    mean m f = mean m g := by
  unfold mean
  congr 1
  exact Multiset.map_congr rfl fun p hp => by rw [h p hp]

theorem mean_mul_left (m : Rand R α) (r : R) (f : α → R) : mean m (fun a => r * f a) = r * mean m f := by
  unfold mean
  rw [← Multiset.sum_map_mul_left]
  congr 1
  exact Multiset.map_congr rfl fun p _ => by ring

theorem mean_mul_right (m : Rand R α) (r : R) (f : α → R) : mean m (fun a => f a * r) = mean m f * r := by
  rw [mul_comm, ← mean_mul_left]
  exact mean_congr fun a => mul_comm _ _

theorem mean_add (m : Rand R α) (f g : α → R) : mean m (fun a => f a + g a) = mean m f + mean m g := by
  unfold mean
  rw [← Multiset.sum_map_add]
  congr 1
  exact Multiset.map_congr rfl fun p _ => by ring

@[simp] theorem mean_zero (m : Rand R α) : mean m (fun _ => 0) = 0 := by
  unfold mean; simp

theorem mean_eq_zero {m : Rand R α} {f : α → R} (h : ∀ p ∈ m, f p.2 = 0) : mean m f = 0 := by
  rw [mean_congr_mem (g := fun _ => 0) h, mean_zero]

theorem mean_comm (m : Rand R α) (n : Rand R β) (f : α → β → R) :
    mean m (fun a => mean n fun b => f a b) = mean n fun b => mean m fun a => f a b := by
  have e : ∀ {γ δ : Type} (m : Rand R γ) (n : Rand R δ) (f : γ → δ → R),
      mean m (fun a => mean n fun b => f a b) =
        (m.map fun p => (n.map fun q => p.1 * q.1 * f p.2 q.2).sum).sum := by
    intro γ δ m n f
    unfold mean
    congr 1
    refine Multiset.map_congr rfl fun p _ => ?_
    rw [← Multiset.sum_map_mul_left]
    congr 1
    exact Multiset.map_congr rfl fun q _ => by ring
  rw [e m n f, e n m (fun b a => f a b), Multiset.sum_map_sum_map]
  congr 1
  refine Multiset.map_congr rfl fun p _ => ?_
  congr 1
  exact Multiset.map_congr rfl fun q _ => by ring

theorem mean_list_sum (m : Rand R α) (l : List β) (f : β → α → R) :
    mean m (fun a => (l.map fun b => f b a).sum) = (l.map fun b => mean m (f b)).sum := by
  induction l with
  | nil => simp
  | cons b l ih => simp only [List.map_cons, List.sum_cons, mean_add, ih]

/-- Two independent draws and a product. -/
theorem mean_prod (m : Rand R α) (n : Rand R β) (f : α → R) (g : β → R) :
    mean m (fun a => mean n fun b => f a * g b) = mean m f * mean n g := by
  rw [← mean_mul_right]
  exact mean_congr fun a => mean_mul_left _ _ _

theorem mem_bind {m : Rand R α} {k : α → Rand R β} {p : R × β} (h : p ∈ bind m k) :
    ∃ a ∈ m, ∃ b ∈ k a.2, p.2 = b.2 := by
  rw [bind, Multiset.mem_bind] at h
  obtain ⟨a, ha, hb⟩ := h
  obtain ⟨b, hb', rfl⟩ := Multiset.mem_map.1 hb
  exact ⟨a, ha, b, hb', rfl⟩

theorem mem_ret {a : α} {p : R × α} (h : p ∈ (ret a : Rand R α)) : p.2 = a := by
  rw [ret, Multiset.mem_singleton] at h; rw [h]

theorem mem_unif {l : List α} {p : R × α} (h : p ∈ (unif l : Rand R α)) : p.2 ∈ l := by
  rw [unif, Multiset.mem_map] at h
  obtain ⟨a, ha, rfl⟩ := h
  exact ha

end Rand

open Rand

section
variable {T W R : Type} [Field R]

theorem fallingFac_natCast (n i : ℕ) : fallingFac (n : R) i = (n.descFactorial i : R) := by
  induction i with
  | zero => simp [fallingFac]
  | succ i ih =>
    rw [fallingFac, ih, Nat.descFactorial_succ]
    by_cases h : i ≤ n
    · push_cast [Nat.cast_sub h]; ring
    · have h0 : n.descFactorial i = 0 := Nat.descFactorial_eq_zero_iff_lt.2 (by omega)
      rw [h0]; simp

/-! ### Picking positions -/

variable [CharZero R]

theorem prod_shuffle_weight (N : ℕ) :
    (∏ c : Fin (N - 1), 1 / ((c.1 + 2 : ℕ) : R)) = 1 / (N.factorial : R) := by
  cases N with
  | zero => simp
  | succ n =>
    change (∏ c : Fin n, 1 / ((c.1 + 2 : ℕ) : R)) = _
    simp only [one_div]
    rw [Finset.prod_inv_distrib]
    congr 1
    rw [Fin.prod_univ_eq_prod_range (fun c => ((c + 2 : ℕ) : R)) n, ← Nat.cast_prod]
    congr 1
    induction n with
    | zero => rfl
    | succ n ih => rw [Finset.prod_range_succ, ih, Nat.factorial_succ (n + 1)]; ring

/-- An ordered choice `t` is picked with probability `(N-n)!/N!`. -/
theorem mean_pickRand_eq (N : ℕ) (t : List ℕ) (hnd : t.Nodup) (hr : ∀ x ∈ t, x < N) :
    mean (pickRand R N t.length) (fun idx => if idx = t then 1 else 0) =
      ((N - t.length).factorial : R) / (N.factorial : R) := by
  classical
  have hlen : t.length ≤ N := by
    have := (List.subperm_of_subset hnd (fun x hx => List.mem_range.2 (hr x hx))).length_le
    simpa using this
  unfold mean pickRand
  rw [Multiset.map_map, prod_shuffle_weight]
  simp only [Function.comp_def]
  rw [Multiset.sum_map_mul_left]
  have hres : ∀ J, resizeList (shuffleResult N J) t.length = (shuffleResult N J).take t.length := by
    intro J
    have hl : (shuffleResult N J).length = N := by
      rw [shuffleResult, (shuffleFrom_perm _ _ _).length_eq, List.length_range]
    rw [resizeList, hl, Nat.sub_eq_zero_of_le hlen]; simp
  simp only [hres]
  have hc := C48_shuffle_uniform N t hnd hr
  rw [Nat.card_eq_fintype_card, Fintype.card_subtype] at hc
  change 1 / (N.factorial : R) * (∑ J : (∀ c : Fin (N - 1), Fin (c.1 + 2)),
    if (shuffleResult N J).take t.length = t then (1 : R) else 0) = _
  rw [Finset.sum_boole, hc]
  ring

theorem mem_pickRand {N n : ℕ} (h : n ≤ N) {p : R × List ℕ} (hp : p ∈ pickRand R N n) :
    p.2.length = n ∧ p.2.Nodup ∧ ∀ i ∈ p.2, i < N := by
  rw [pickRand, Multiset.mem_map] at hp
  obtain ⟨J, _, rfl⟩ := hp
  have hperm : (shuffleResult N J).Perm (List.range N) := shuffleFrom_perm _ _ _
  have hl : (shuffleResult N J).length = N := by rw [hperm.length_eq, List.length_range]
  have e : resizeList (shuffleResult N J) n = (shuffleResult N J).take n := by
    rw [resizeList, hl, Nat.sub_eq_zero_of_le h]; simp
  simp only [e]
  refine ⟨by rw [List.length_take]; omega, ?_, ?_⟩
  · exact ((List.take_sublist _ _).nodup) (hperm.nodup_iff.2 (List.nodup_range))
  · intro i hi
    exact List.mem_range.1 (hperm.mem_iff.1 (List.mem_of_mem_take hi))

theorem filterMap_get_idxOf [DecidableEq T] {l : List (BOp T)} (a : List (BOp T)) (h : ∀ x ∈ a, x ∈ l) :
    (a.map (l.idxOf ·)).filterMap (l[·]?) = a := by
  induction a with
  | nil => rfl
  | cons x a ih =>
    have hx : l.idxOf x < l.length := List.idxOf_lt_length_iff.2 (h x (by simp))
    rw [List.map_cons, List.filterMap_cons, List.getElem?_eq_getElem hx]
    simp only [List.getElem_idxOf]
    rw [ih fun y hy => h y (List.mem_cons_of_mem _ hy)]

theorem idxOf_filterMap_get [DecidableEq T] {l : List (BOp T)} (hl : l.Nodup) (idx : List ℕ)
    (h : ∀ i ∈ idx, i < l.length) : (idx.filterMap (l[·]?)).map (l.idxOf ·) = idx := by
  induction idx with
  | nil => rfl
  | cons i idx ih =>
    have hi : i < l.length := h i (by simp)
    rw [List.filterMap_cons, List.getElem?_eq_getElem hi]
    simp only [List.map_cons]
    rw [ih fun y hy => h y (List.mem_cons_of_mem _ hy), List.Nodup.idxOf_getElem hl]

theorem mem_pickOps {l : List (BOp T)} {n : ℕ} (h : n ≤ l.length) (hl : l.Nodup)
    {p : R × List (BOp T)} (hp : p ∈ (pickOps l n : Rand R _)) :
    p.2.length = n ∧ p.2.Nodup ∧ ∀ o ∈ p.2, o ∈ l := by
  classical
  obtain ⟨a, ha, b, hb, hpb⟩ := mem_bind hp
  rw [mem_ret hb] at hpb
  obtain ⟨h1, h2, h3⟩ := mem_pickRand h ha
  rw [hpb]
  have e := idxOf_filterMap_get hl a.2 h3
  refine ⟨?_, ?_, ?_⟩
  · rw [← h1]
    conv_rhs => rw [← e]
    simp
  · refine List.Nodup.of_map (l.idxOf ·) ?_
    rw [e]; exact h2
  · intro o ho
    obtain ⟨i, _, hi⟩ := List.mem_filterMap.1 ho
    exact List.mem_of_getElem? hi

/-- The operators `a` are picked (in any order) with probability `n! (N-n)! / N!`. -/
theorem mean_pickOps [DecidableEq T] (l : List (BOp T)) (hl : l.Nodup) (n : ℕ) (hn : n ≤ l.length)
    (a : List (BOp T)) :
    mean (pickOps l n) (fun p => if p.Perm a then (1 : R) else 0) =
      if a.length = n ∧ a.Nodup ∧ ∀ x ∈ a, x ∈ l then
        (n.factorial : R) * ((l.length - n).factorial : R) / (l.length.factorial : R) else 0 := by
  classical
  split_ifs with h
  · obtain ⟨hlen, hnd, hsub⟩ := h
    unfold pickOps
    rw [mean_bind]
    simp only [mean_ret]
    set B := a.map (l.idxOf ·) with hB
    have hBnd : B.Nodup := by
      refine List.Nodup.map_on (fun x hx y hy hxy => ?_) hnd
      exact (List.idxOf_inj (hsub x hx)).1 hxy
    have key : mean (pickRand R l.length n)
        (fun idx => if (idx.filterMap (l[·]?)).Perm a then (1 : R) else 0) =
        mean (pickRand R l.length n)
          (fun idx => (B.permutations.map fun t => if idx = t then (1 : R) else 0).sum) := by
      refine mean_congr_mem fun p hp => ?_
      obtain ⟨h1, h2, h3⟩ := mem_pickRand hn hp
      have hiff : (p.2.filterMap (l[·]?)).Perm a ↔ p.2.Perm B := by
        constructor
        · intro hp
          have := hp.map (l.idxOf ·)
          rwa [idxOf_filterMap_get hl p.2 h3] at this
        · intro hp
          have := hp.filterMap (l[·]?)
          rwa [hB, filterMap_get_idxOf a hsub] at this
      rw [if_congr hiff rfl rfl]
      have hs : (B.permutations.map fun t => if p.2 = t then (1 : R) else 0).sum =
          ((B.permutations.toFinset).sum fun t => if p.2 = t then (1 : R) else 0) := by
        rw [List.sum_toFinset _ (List.nodup_permutations _ hBnd)]
      rw [hs, Finset.sum_ite_eq]
      simp [List.mem_permutations]
    rw [key, mean_list_sum]
    have : ∀ t ∈ B.permutations, mean (pickRand R l.length n) (fun idx => if idx = t then (1 : R) else 0)
        = ((l.length - n).factorial : R) / (l.length.factorial : R) := by
      intro t ht
      have htB := List.mem_permutations.1 ht
      have htl : t.length = n := by rw [htB.length_eq, hB, List.length_map, hlen]
      rw [← htl]
      refine mean_pickRand_eq _ t (htB.nodup_iff.2 hBnd) fun x hx => ?_
      obtain ⟨y, hy, rfl⟩ := List.mem_map.1 (htB.mem_iff.1 hx)
      exact List.idxOf_lt_length_iff.2 (hsub y hy)
    rw [List.map_congr_left this, List.map_const', List.sum_replicate, List.length_permutations, hB,
      List.length_map, hlen, nsmul_eq_mul]
    ring
  · refine mean_eq_zero fun p hp => if_neg fun hpa => h ?_
    obtain ⟨h1, h2, h3⟩ := mem_pickOps hn hl hp
    exact ⟨by rw [← hpa.length_eq, h1], hpa.nodup_iff.1 h2, fun x hx => h3 x (hpa.mem_iff.2 hx)⟩

/-! ### Picking in all blocks -/

/-- The draws of `remDraws` for one kind of operators. -/
def pickBlocks (ops : ℕ → List (BOp T)) (m : ℕ → ℕ) : List ℕ → Rand R (List (BOp T))
  | [] => ret []
  | b :: bs => bind (pickOps (ops b) (m b)) fun p => bind (pickBlocks ops m bs) fun r => ret (p ++ r)

omit [CharZero R] in
theorem mean_remDraws (E : PEnv) (win : Win T R) (x : PCfg T W) (m : ℕ → ℕ) (bs : List ℕ) :
    ∀ f g : List (BOp T) → R, mean (remDraws E win x m bs) (fun r => f r.1 * g r.2) =
      mean (pickBlocks (blockOps E win x.cd) m bs) f * mean (pickBlocks (blockOps E win x.c) m bs) g := by
  induction bs with
  | nil => intro f g; simp [remDraws, pickBlocks]
  | cons b bs ih =>
    intro f g
    simp only [remDraws, pickBlocks, mean_bind, mean_ret]
    rw [← mean_prod]
    refine mean_congr fun p => mean_congr fun q => ?_
    exact ih (fun r => f (p ++ r)) (fun r => g (q ++ r))

/-- Operators of `a` with flavor in block `b`. -/
def blockPart (E : PEnv) (a : List (BOp T)) (b : ℕ) : List (BOp T) := a.filter fun o => E.sector o.2 == b

theorem mem_pickBlocks {E : PEnv} {ops : ℕ → List (BOp T)} {m : ℕ → ℕ}
    (hops : ∀ b, (ops b).Nodup ∧ ∀ o ∈ ops b, E.sector o.2 = b) (bs : List ℕ)
    (hm : ∀ b ∈ bs, m b ≤ (ops b).length) :
    ∀ {p : R × List (BOp T)}, p ∈ (pickBlocks ops m bs : Rand R _) → ∀ o ∈ p.2, E.sector o.2 ∈ bs := by
  induction bs with
  | nil => intro p hp o ho; rw [pickBlocks] at hp; rw [mem_ret hp] at ho; simp at ho
  | cons b bs ih =>
    intro p hp o ho
    obtain ⟨a, ha, q, hq, e⟩ := mem_bind hp
    obtain ⟨r, hr, q', hq', e'⟩ := mem_bind hq
    rw [e, e', mem_ret hq'] at ho
    rcases List.mem_append.1 ho with h | h
    · rw [(hops b).2 o ((mem_pickOps (hm b (by simp)) (hops b).1 ha).2.2 o h)]; simp
    · exact List.mem_cons_of_mem _ (ih (fun b hb => hm b (List.mem_cons_of_mem _ hb)) hr o h)

theorem mean_pickBlocks [DecidableEq T] (E : PEnv) (ops : ℕ → List (BOp T)) (m : ℕ → ℕ)
    (hops : ∀ b, (ops b).Nodup ∧ ∀ o ∈ ops b, E.sector o.2 = b) (bs : List ℕ) (hbs : bs.Nodup)
    (hm : ∀ b ∈ bs, m b ≤ (ops b).length) : ∀ (a : List (BOp T)), (∀ o ∈ a, E.sector o.2 ∈ bs) →
    mean (pickBlocks ops m bs) (fun p => if p.Perm a then (1 : R) else 0) =
      (bs.map fun b => mean (pickOps (ops b) (m b))
        (fun p => if p.Perm (blockPart E a b) then (1 : R) else 0)).prod := by
  induction bs with
  | nil =>
    intro a ha
    have : a = [] := List.eq_nil_iff_forall_not_mem.2 fun o ho => by simpa using ha o ho
    simp [pickBlocks, this]
  | cons b bs ih =>
    intro a ha
    have hb : b ∉ bs := (List.nodup_cons.1 hbs).1
    simp only [pickBlocks, mean_bind, mean_ret, List.map_cons, List.prod_cons]
    set a' := a.filter fun o => !(E.sector o.2 == b) with ha'
    have hsplit : (blockPart E a b ++ a').Perm a := by
      rw [blockPart, ha']; exact List.filter_append_perm _ _
    have hih := ih (List.nodup_cons.1 hbs).2 (fun b hb => hm b (List.mem_cons_of_mem _ hb)) a' (by
      intro o ho
      rw [ha', List.mem_filter] at ho
      have := ha o ho.1
      rw [List.mem_cons] at this
      rcases this with h | h
      · simp [h] at ho
      · exact h)
    have hfil : ∀ b' ∈ bs, blockPart E a' b' = blockPart E a b' := by
      intro b' hb'
      rw [blockPart, blockPart, ha', List.filter_filter]
      refine List.filter_congr fun o _ => ?_
      have hne : b' ≠ b := fun h => hb (h ▸ hb')
      by_cases h : E.sector o.2 = b'
      · simp [h, hne]
      · simp [h]
    rw [show (bs.map fun b => mean (pickOps (ops b) (m b))
        (fun p => if p.Perm (blockPart E a b) then (1 : R) else 0)) =
        (bs.map fun b => mean (pickOps (ops b) (m b))
        (fun p => if p.Perm (blockPart E a' b) then (1 : R) else 0)) from
        List.map_congr_left fun b' hb' => by rw [hfil b' hb'], ← hih, ← mean_prod]
    refine mean_congr_mem fun p hp => mean_congr_mem fun r hr => ?_
    have hp1 : ∀ o ∈ p.2, E.sector o.2 = b := fun o ho =>
      (hops b).2 o ((mem_pickOps (hm b (by simp)) (hops b).1 hp).2.2 o ho)
    have hr1 : ∀ o ∈ r.2, E.sector o.2 ≠ b := fun o ho h => hb (h ▸
      mem_pickBlocks hops bs (fun b hb => hm b (List.mem_cons_of_mem _ hb)) hr o ho)
    have hiff : (p.2 ++ r.2).Perm a ↔ p.2.Perm (blockPart E a b) ∧ r.2.Perm a' := by
      constructor
      · intro h
        have e1 : p.2 = (p.2 ++ r.2).filter fun o => E.sector o.2 == b := by
          rw [List.filter_append, List.filter_eq_self.2 (by simpa using hp1),
            List.filter_eq_nil_iff.2 (by simpa using hr1), List.append_nil]
        have e2 : r.2 = (p.2 ++ r.2).filter fun o => !(E.sector o.2 == b) := by
          rw [List.filter_append, List.filter_eq_nil_iff.2 (by simpa using hp1),
            List.filter_eq_self.2 (by simpa using hr1), List.nil_append]
        constructor
        · rw [e1]; exact h.filter _
        · rw [e2]; exact h.filter _
      · rintro ⟨h1, h2⟩
        exact (h1.append h2).trans hsplit
    rw [if_congr hiff rfl rfl]
    by_cases h1 : p.2.Perm (blockPart E a b) <;> by_cases h2 : r.2.Perm a' <;> simp [h1, h2]

/-! ### Drawing new operators -/

/-- The operators of one kind drawn by `insDraws` when the blocks are `bl`. -/
def opsDraws (E : PEnv) (win : Win T R) : List ℕ → Rand R (List (BOp T))
  | [] => ret []
  | b :: bl => bind (randOp win (blockFlavors E b)) fun p => bind (opsDraws E win bl) fun l => ret (p :: l)

omit [CharZero R] in
/-- The blocks may be drawn first. -/
theorem mean_insDraws (E : PEnv) (win : Win T R) (k : ℕ) :
    ∀ f : List ℕ → List (BOp T) → List (BOp T) → R,
    mean (insDraws E win k) (fun l => f (l.map (·.1)) (l.map (·.2.1)) (l.map (·.2.2))) =
      mean (blockDraws R E.ns k) fun bl => mean (opsDraws E win bl) fun p =>
        mean (opsDraws E win bl) fun q => f bl p q := by
  induction k with
  | zero => intro f; simp [insDraws, blockDraws, opsDraws]
  | succ k ih =>
    intro f
    simp only [insDraws, blockDraws, mean_bind, mean_ret, List.map_cons]
    refine mean_congr fun b => ?_
    simp only [opsDraws, mean_bind, mean_ret]
    rw [show (fun p => mean (randOp win (blockFlavors E b)) fun q => mean (insDraws E win k) fun l =>
        f (b :: l.map (·.1)) (p :: l.map (·.2.1)) (q :: l.map (·.2.2))) =
        fun p => mean (randOp win (blockFlavors E b)) fun q => mean (blockDraws R E.ns k) fun bl =>
          mean (opsDraws E win bl) fun l => mean (opsDraws E win bl) fun l' =>
            f (b :: bl) (p :: l) (q :: l') from
        funext fun p => mean_congr fun q => ih (fun bl l l' => f (b :: bl) (p :: l) (q :: l'))]
    simp only [mean_comm (randOp win (blockFlavors E b)) (blockDraws R E.ns k)]
    refine mean_congr fun bl => mean_congr fun p => ?_
    exact mean_comm _ _ _

theorem mean_randOp [DecidableEq T] (win : Win T R) (hg : win.grid.Nodup) (fl : List ℕ) (hfl : fl.Nodup)
    (a : List (BOp T)) (ha : a.Nodup) :
    mean (randOp win fl) (fun o => if o ∈ a then (1 : R) else 0) =
      ((a.filter fun o => decide (o.1 ∈ win.grid) && decide (o.2 ∈ fl)).length : R) /
        ((win.grid.length : R) * (fl.length : R)) := by
  classical
  simp only [randOp, mean_bind, mean_ret, mean_unif]
  have e : (win.grid.map fun t => ((fl.map fun f => if (t, f) ∈ a then (1 : R) else 0).sum /
      (fl.length : R))).sum = ((a.filter fun o => decide (o.1 ∈ win.grid) && decide (o.2 ∈ fl)).length : R)
        / (fl.length : R) := by
    have h1 : ∀ t, (fl.map fun f => if (t, f) ∈ a then (1 : R) else 0).sum =
        ∑ f ∈ fl.toFinset, if (t, f) ∈ a then (1 : R) else 0 := fun t =>
      (List.sum_toFinset _ hfl).symm
    simp only [h1]
    rw [← List.sum_toFinset _ hg]
    simp only [div_eq_mul_inv]
    rw [← Finset.sum_mul]
    congr 1
    rw [← Finset.sum_product', Finset.sum_boole]
    congr 1
    rw [← List.toFinset_card_of_nodup (ha.filter _)]
    congr 1
    ext o
    simp [and_comm]
  rw [e, div_div, mul_comm]

/-- Number of operators in every block after taking one away. -/
theorem blockPart_erase [DecidableEq T] (E : PEnv) (a : List (BOp T)) (o : BOp T) (ho : o ∈ a) (b : ℕ) :
    (blockPart E a b).length = (blockPart E (a.erase o) b).length + if E.sector o.2 = b then 1 else 0 := by
  have h := (List.perm_cons_erase ho).filter fun o => E.sector o.2 == b
  rw [blockPart, h.length_eq, List.filter_cons, blockPart]
  by_cases hb : E.sector o.2 = b <;> simp [hb]

open Classical in
/-- Operators `a` are drawn, in any order, with probability `∏ m_b! / (N nf_b)^m_b` if the drawn
blocks fit, else never. -/
theorem mean_opsDraws [DecidableEq T] (E : PEnv) (win : Win T R) (hg : win.grid.Nodup) (S : Finset ℕ)
    (bl : List ℕ) (hS : ∀ b ∈ bl, b ∈ S) : ∀ (a : List (BOp T)), a.Nodup →
    (∀ o ∈ a, o.1 ∈ win.grid ∧ o.2 < E.nf) →
    mean (opsDraws E win bl) (fun p => if p.Perm a then (1 : R) else 0) =
      if ∀ b, bl.count b = (blockPart E a b).length then
        (bl.map fun b => 1 / ((win.grid.length : R) * ((blockFlavors E b).length : R))).prod *
          ∏ b ∈ S, ((blockPart E a b).length.factorial : R)
      else 0 := by
  classical
  induction bl with
  | nil =>
    intro a _ _
    simp only [opsDraws, mean_ret, List.nil_perm, List.count_nil, List.map_nil, List.prod_nil, one_mul]
    by_cases h : a = []
    · subst h; simp [blockPart]
    · rw [if_neg h, if_neg]
      intro hc
      obtain ⟨o, ho⟩ := List.exists_mem_of_ne_nil a h
      have := List.length_eq_zero_iff.1 (hc (E.sector o.2)).symm
      exact List.filter_eq_nil_iff.1 this o ho (by simp)
  | cons b bl ih =>
    intro a hnd ha
    have ih := ih fun b hb => hS b (List.mem_cons_of_mem _ hb)
    simp only [opsDraws, mean_bind, mean_ret]
    set v : R := (bl.map fun b => 1 / ((win.grid.length : R) * ((blockFlavors E b).length : R))).prod with hv
    set C : Prop := ∀ b', (b :: bl).count b' = (blockPart E a b').length with hC
    have hbS : b ∈ S := hS b (by simp)
    set u : R := (((blockPart E a b).length - 1).factorial : R) *
      ∏ b' ∈ S.erase b, ((blockPart E a b').length.factorial : R) with hu
    have step : mean (randOp win (blockFlavors E b)) (fun o => mean (opsDraws E win bl)
        (fun l => if (o :: l).Perm a then (1 : R) else 0)) =
        mean (randOp win (blockFlavors E b)) (fun o => (if C then v * u else 0) *
          (if o ∈ a then (1 : R) else 0)) := by
      refine mean_congr_mem fun o ho => ?_
      obtain ⟨t, ht, q, hq, e⟩ := mem_bind ho
      obtain ⟨f, hf, q', hq', e'⟩ := mem_bind hq
      rw [mem_ret hq'] at e'
      rw [e'] at e
      have hfb : E.sector o.2.2 = b := by
        rw [e]
        have := mem_unif hf
        rw [blockFlavors, List.mem_filter] at this
        simpa using this.2
      by_cases hoa : o.2 ∈ a
      · simp only [List.cons_perm_iff_perm_erase, hoa, true_and, if_true, mul_one]
        rw [ih (a.erase o.2) (hnd.erase _) (fun y hy => ha y (List.mem_of_mem_erase hy))]
        have hcount : (∀ b', bl.count b' = (blockPart E (a.erase o.2) b').length) ↔ C := by
          rw [hC]
          refine forall_congr' fun b' => ?_
          rw [blockPart_erase E a o.2 hoa b', hfb, List.count_cons]
          by_cases h : b = b' <;> simp [h]
        rw [if_congr hcount rfl rfl]
        split_ifs with hc
        · congr 1
          rw [← Finset.mul_prod_erase S _ hbS, hu]
          congr 1
          · have := blockPart_erase E a o.2 hoa b
            rw [if_pos hfb] at this
            rw [this, Nat.add_sub_cancel]
          · refine Finset.prod_congr rfl fun b' hb' => ?_
            have := blockPart_erase E a o.2 hoa b'
            rw [hfb, if_neg (Ne.symm (Finset.ne_of_mem_erase hb')), add_zero] at this
            rw [this]
        · rfl
      · rw [if_neg hoa, mul_zero]
        refine mean_eq_zero fun l _ => if_neg fun hp => hoa ?_
        exact hp.mem_iff.1 (by simp)
    rw [step, mean_mul_left, mean_randOp win hg (blockFlavors E b) ((List.nodup_range).filter _) a hnd]
    have hlen : (a.filter fun o => decide (o.1 ∈ win.grid) && decide (o.2 ∈ blockFlavors E b)) =
        blockPart E a b := by
      refine List.filter_congr fun o ho => ?_
      rw [Bool.eq_iff_iff]
      simp [(ha o ho).1, (ha o ho).2, blockFlavors]
    rw [hlen]
    split_ifs with hc
    · rw [List.map_cons, List.prod_cons, ← hv, ← Finset.mul_prod_erase S _ hbS, hu]
      have h1 : 1 ≤ (blockPart E a b).length := by rw [← hc b]; simp
      obtain ⟨n, hn⟩ : ∃ n, (blockPart E a b).length = n + 1 := ⟨_, (Nat.sub_add_cancel h1).symm⟩
      rw [hn, Nat.add_sub_cancel, Nat.factorial_succ]
      push_cast
      ring
    · rw [zero_mul]

end

end CTHyb
