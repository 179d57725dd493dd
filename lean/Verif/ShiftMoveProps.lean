import Verif.ShiftMove
import Verif.ProposalProps
import Mathlib.Algebra.Order.Floor.Semiring
import Mathlib.Data.Rat.Floor

/-!
Detailed balance of the updates which replace one bath operator (`Verif.ShiftMove`); the
specification is `Balanced` of `Verif.ProposalProps`.
-/

set_option linter.unusedSectionVars false

namespace CTHyb

open Rand

section
variable {T W R : Type} [Field R] [LinearOrder R] [IsStrictOrderedRing R] [DecidableEq T] [DecidableEq W]

/-- Expectation of a function which vanishes outside a list. -/
theorem mean_support {α : Type} [DecidableEq α] (m : Rand R α) (S : List α) (hS : S.Nodup) (g : α → R)
    (hg : ∀ p ∈ m, p.2 ∉ S → g p.2 = 0) :
    mean m g = (S.map fun a => g a * mean m (fun b => if b = a then 1 else 0)).sum := by
  have e : ∀ p ∈ m, g p.2 = (S.map fun a => g a * if p.2 = a then (1 : R) else 0).sum := by
    intro p hp
    rw [← List.sum_toFinset _ hS]
    simp only [mul_ite, mul_one, mul_zero]
    rw [Finset.sum_ite_eq]
    split_ifs with h
    · rfl
    · exact hg p hp (fun h' => h (List.mem_toFinset.2 h'))
  rw [mean_congr_mem (f := g) (g := fun b => (S.map fun a => g a * if b = a then (1 : R) else 0).sum) e,
    mean_list_sum]
  congr 1
  exact List.map_congr_left fun a _ => mean_mul_left _ _ _

/-- Replacing `o` by `o'` leads from `l` to `l'`: symmetric form. -/
def Swaps (l l' : List (BOp T)) (o o' : BOp T) : Prop :=
  (l : Multiset (BOp T)) + {o'} = (l' : Multiset (BOp T)) + {o}

instance (l l' : List (BOp T)) (o o' : BOp T) : Decidable (Swaps l l' o o') := by
  unfold Swaps; infer_instance

theorem swaps_symm (l l' : List (BOp T)) (o o' : BOp T) : Swaps l l' o o' ↔ Swaps l' l o' o := by
  unfold Swaps; exact eq_comm

theorem sub_add_eq_iff {l l' : List (BOp T)} {o o' : BOp T} (ho : o ∈ l) :
    (l : Multiset (BOp T)) - ([o] : List (BOp T)) + ([o'] : List (BOp T)) = l' ↔ Swaps l l' o o' := by
  unfold Swaps
  rw [Multiset.coe_singleton, Multiset.coe_singleton]
  have hle : ({o} : Multiset (BOp T)) ≤ l := Multiset.singleton_le.2 ho
  constructor
  · intro h
    rw [← h, add_right_comm, tsub_add_cancel_of_le hle]
  · intro h
    have : ((l : Multiset (BOp T)) - {o} + {o'}) + {o} = (l' : Multiset (BOp T)) + {o} := by
      rw [add_right_comm, tsub_add_cancel_of_le hle, h]
    exact add_right_cancel this

/-- The part of the flow which replaces a creation (annihilation) operator, as a double sum. -/
theorem leads_replace (x y : PCfg T W) (b : Bool) (o o' : BOp T)
    (ho : o ∈ if b then x.cd else x.c) :
    Leads x (replaceMv b o o' x.worm) y ↔
      (if b then Swaps x.cd y.cd o o' ∧ (x.c : Multiset (BOp T)) = y.c
        else Swaps x.c y.c o o' ∧ (x.cd : Multiset (BOp T)) = y.cd) ∧ x.worm = y.worm := by
  cases b
  · simp only [Bool.false_eq_true, if_false] at ho ⊢
    unfold Leads replaceMv
    simp only [Bool.false_eq_true, if_false, sub_add_eq_iff ho, Multiset.coe_nil, tsub_zero, add_zero]
    tauto
  · simp only [if_true] at ho ⊢
    unfold Leads replaceMv
    simp only [if_true, sub_add_eq_iff ho, Multiset.coe_nil, tsub_zero, add_zero]
    tauto

/-- Operators in the window of the kind `b`. -/
def kindOps (win : Win T R) (x : PCfg T W) (b : Bool) : List (BOp T) :=
  winOps win (if b then x.cd else x.c)

/-- A replacement: `o` is picked, then `new b o` is drawn, `none` meaning that `propose` gives up. -/
def replFlow (w : PCfg T W → R) (win : Win T R) (new : BOp T → Rand R (Option (BOp T))) (x y : PCfg T W)
    (b : Bool) : R :=
  ((kindOps win x b).map fun o => mean (new o) fun r =>
    r.elim 0 fun o' => accFlow w x y (some (replaceMv b o o' x.worm, 1))).sum

/-- If the distribution of the new operator is symmetric, so is the sum over the picked operators, up to
the Metropolis factor. -/
theorem replFlow_balance (nf : ℕ) (w : PCfg T W → R) (win : Win T R)
    (new : BOp T → Rand R (Option (BOp T)))
    (hin : ∀ o, ∀ p ∈ new o, ∀ o', p.2 = some o' → win.inWin o.1 = true → win.inWin o'.1 = true)
    (hsym : ∀ o o', o.2 < nf → o'.2 < nf → win.inWin o.1 = true → win.inWin o'.1 = true →
      mean (new o) (fun r => if r = some o' then (1 : R) else 0) =
        mean (new o') (fun r => if r = some o then (1 : R) else 0))
    (x y : PCfg T W) (hx : x.OK nf win) (hy : y.OK nf win) (hwx : 0 < w x) (hwy : 0 < w y) (b : Bool) :
    w x * replFlow w win new x y b = w y * replFlow w win new y x b := by
  classical
  -- both sides as a double sum
  have form : ∀ x y : PCfg T W, x.OK nf win → y.OK nf win →
      replFlow w win new x y b = ((kindOps win x b).map fun o => ((kindOps win y b).map fun o' =>
        (if Leads x (replaceMv b o o' x.worm) y then min 1 (w y / w x) else 0) *
          mean (new o) (fun r => if r = some o' then (1 : R) else 0)).sum).sum := by
    intro x y hx hy
    unfold replFlow
    congr 1
    refine List.map_congr_left fun o ho => ?_
    have hox : o ∈ if b then x.cd else x.c := (List.mem_filter.1 ho).1
    have how : win.inWin o.1 = true := (List.mem_filter.1 ho).2
    have hnd : (kindOps win y b).Nodup := by
      unfold kindOps winOps
      cases b
      · exact hy.c_nodup.filter _
      · exact hy.cd_nodup.filter _
    rw [mean_support (new o) ((kindOps win y b).map some)
      ((List.nodup_map_iff (Option.some_injective _)).2 hnd)]
    · rw [List.map_map]
      congr 1
      refine List.map_congr_left fun o' _ => ?_
      simp only [Function.comp, accFlow, mul_one, Option.elim_some]
    · intro p hp hnot
      cases hr : p.2 with
      | none => rfl
      | some o' =>
        simp only [accFlow]
        refine if_neg fun hl => hnot ?_
        rw [hr]
        refine List.mem_map.2 ⟨o', ?_, rfl⟩
        rw [leads_replace x y b o o' hox] at hl
        have hwin := hin o p hp o' hr how
        have hmem : o' ∈ if b then y.cd else y.c := by
          have hl1 := hl.1
          cases b
          · simp only [Bool.false_eq_true, if_false] at hl1 hox ⊢
            have hm : o' ∈ (y.c : Multiset (BOp T)) + {o} := by rw [← hl1.1]; simp
            rcases Multiset.mem_add.1 hm with h | h
            · exact h
            · rw [Multiset.mem_singleton.1 h]
              have he := hl1.1
              unfold Swaps at he
              rw [Multiset.mem_singleton.1 h] at he
              exact (Multiset.coe_eq_coe.1 (add_right_cancel he)).subset hox
          · simp only [if_true] at hl1 hox ⊢
            have hm : o' ∈ (y.cd : Multiset (BOp T)) + {o} := by rw [← hl1.1]; simp
            rcases Multiset.mem_add.1 hm with h | h
            · exact h
            · rw [Multiset.mem_singleton.1 h]
              have he := hl1.1
              unfold Swaps at he
              rw [Multiset.mem_singleton.1 h] at he
              exact (Multiset.coe_eq_coe.1 (add_right_cancel he)).subset hox
        exact List.mem_filter.2 ⟨hmem, hwin⟩
  rw [form x y hx hy, form y x hy hx]
  -- exchange the sums
  have comm : ∀ (l l' : List (BOp T)) (F : BOp T → BOp T → R),
      (l.map fun o => (l'.map fun o' => F o o').sum).sum = (l'.map fun o' => (l.map fun o => F o o').sum).sum := by
    intro l l' F
    induction l with
    | nil => simp
    | cons a l ih => simp only [List.map_cons, List.sum_cons, ih, List.sum_map_add]
  rw [comm, ← List.sum_map_mul_left, ← List.sum_map_mul_left]
  congr 1
  refine List.map_congr_left fun o' ho' => ?_
  rw [← List.sum_map_mul_left, ← List.sum_map_mul_left]
  congr 1
  refine List.map_congr_left fun o ho => ?_
  have hox : o ∈ if b then x.cd else x.c := (List.mem_filter.1 ho).1
  have hoy : o' ∈ if b then y.cd else y.c := (List.mem_filter.1 ho').1
  have hflx : o.2 < nf := by
    cases b
    · exact (hx.c_mem o hox).1
    · exact (hx.cd_mem o hox).1
  have hfly : o'.2 < nf := by
    cases b
    · exact (hy.c_mem o' hoy).1
    · exact (hy.cd_mem o' hoy).1
  rw [hsym o o' hflx hfly (List.mem_filter.1 ho).2 (List.mem_filter.1 ho').2]
  have hl : Leads x (replaceMv b o o' x.worm) y ↔ Leads y (replaceMv b o' o y.worm) x := by
    rw [leads_replace x y b o o' hox, leads_replace y x b o' o hoy]
    cases b
    · simp only [Bool.false_eq_true, if_false, swaps_symm x.c y.c, eq_comm]
    · simp only [if_true, swaps_symm x.cd y.cd, eq_comm]
  rw [if_congr hl rfl rfl]
  split_ifs
  · have e1 : w x * min 1 (w y / w x) = min (w x) (w y) := by
      rw [mul_min_of_nonneg _ _ hwx.le, mul_one, mul_div_cancel₀ _ hwx.ne']
    have e2 : w y * min 1 (w x / w y) = min (w y) (w x) := by
      rw [mul_min_of_nonneg _ _ hwy.le, mul_one, mul_div_cancel₀ _ hwy.ne']
    rw [← mul_assoc, ← mul_assoc, e1, e2, min_comm]
  · simp

/-- A replacement inside the window does not change the number of operators in the window. -/
theorem replFlow_counts (w : PCfg T W → R) (win : Win T R) (new : BOp T → Rand R (Option (BOp T)))
    (hin : ∀ o, ∀ p ∈ new o, ∀ o', p.2 = some o' → win.inWin o.1 = true → win.inWin o'.1 = true)
    (x y : PCfg T W) (b : Bool) (h : replFlow w win new x y b ≠ 0) :
    (winOps win x.cd).length = (winOps win y.cd).length ∧
      (winOps win x.c).length = (winOps win y.c).length ∧ bathDim x = bathDim y := by
  classical
  by_contra hne
  apply h
  unfold replFlow
  rw [List.sum_eq_zero]
  intro v hv
  obtain ⟨o, ho, rfl⟩ := List.mem_map.1 hv
  refine mean_eq_zero fun p hp => ?_
  cases hr : p.2 with
  | none => rfl
  | some o' =>
    simp only [accFlow]
    refine if_neg fun hl => hne ?_
    have hox : o ∈ if b then x.cd else x.c := (List.mem_filter.1 ho).1
    have how : win.inWin o.1 = true := (List.mem_filter.1 ho).2
    have hwin := hin o p hp o' hr how
    rw [leads_replace x y b o o' hox] at hl
    have key : ∀ l l' : List (BOp T), Swaps l l' o o' →
        (winOps win l).length = (winOps win l').length ∧ l.length = l'.length := by
      intro l l' hs
      unfold Swaps at hs
      have h1 := congrArg (Multiset.countP fun o => win.inWin o.1 = true) hs
      have h2 := congrArg Multiset.card hs
      rw [Multiset.countP_add, Multiset.countP_add] at h1
      simp only [Multiset.card_add, Multiset.card_singleton, Multiset.coe_card] at h2
      rw [← Multiset.cons_zero, ← Multiset.cons_zero,
        Multiset.countP_cons_of_pos (p := fun o : BOp T => win.inWin o.1 = true) 0 hwin,
        Multiset.countP_cons_of_pos (p := fun o : BOp T => win.inWin o.1 = true) 0 how] at h1
      simp only [Multiset.coe_countP, Multiset.countP_zero] at h1
      refine ⟨?_, by omega⟩
      unfold winOps
      rw [← List.countP_eq_length_filter, ← List.countP_eq_length_filter]
      have e : ∀ l : List (BOp T), l.countP (fun o => decide (win.inWin o.1 = true)) =
          l.countP fun o => win.inWin o.1 := fun l => by simp
      rw [e, e] at h1
      omega
    have keq : ∀ l l' : List (BOp T), (l : Multiset (BOp T)) = l' →
        (winOps win l).length = (winOps win l').length ∧ l.length = l'.length := by
      intro l l' hs
      have := Multiset.coe_eq_coe.1 hs
      exact ⟨(this.filter _).length_eq, this.length_eq⟩
    have hl1 := hl.1
    cases b
    · simp only [Bool.false_eq_true, if_false] at hl1
      obtain ⟨a1, a2⟩ := key _ _ hl1.1
      obtain ⟨b1, b2⟩ := keq _ _ hl1.2
      exact ⟨b1, a1, by unfold bathDim; omega⟩
    · simp only [if_true] at hl1
      obtain ⟨a1, a2⟩ := key _ _ hl1.1
      obtain ⟨b1, b2⟩ := keq _ _ hl1.2
      exact ⟨a1, b1, by unfold bathDim; omega⟩

end


section
variable {T W R : Type} [Field R] [LinearOrder R] [IsStrictOrderedRing R] [DecidableEq T] [DecidableEq W]

/-- Combining the two kinds, whatever the probabilities of choosing the kind are, as long as they depend
only on the numbers of operators in the window. -/
theorem repl_balanced (nf : ℕ) (δ : R) (win : Win T R) (new : BOp T → Rand R (Option (BOp T)))
    (hin : ∀ o, ∀ p ∈ new o, ∀ o', p.2 = some o' → win.inWin o.1 = true → win.inWin o'.1 = true)
    (hsym : ∀ o o', o.2 < nf → o'.2 < nf → win.inWin o.1 = true → win.inWin o'.1 = true →
      mean (new o) (fun r => if r = some o' then (1 : R) else 0) =
        mean (new o') (fun r => if r = some o then (1 : R) else 0))
    (prop : PCfg T W → Rand R (Option (Mv T W × R))) (p : ℕ → ℕ → Bool → R)
    (hflow : ∀ w x y, flow w prop x y =
      p (winOps win x.cd).length (winOps win x.c).length true * replFlow w win new x y true +
      p (winOps win x.cd).length (winOps win x.c).length false * replFlow w win new x y false) :
    Balanced δ bathDim (PCfg.OK nf win) prop := by
  intro w x y hx hy hwx hwy
  rw [hflow, hflow]
  have term : ∀ b, w x * δ ^ bathDim x *
        (p (winOps win x.cd).length (winOps win x.c).length b * replFlow w win new x y b) =
      w y * δ ^ bathDim y *
        (p (winOps win y.cd).length (winOps win y.c).length b * replFlow w win new y x b) := by
    intro b
    have hb := replFlow_balance nf w win new hin hsym x y hx hy hwx hwy b
    by_cases h : replFlow w win new x y b = 0
    · have : replFlow w win new y x b = 0 := by
        rw [h, mul_zero] at hb
        exact (mul_eq_zero.1 hb.symm).resolve_left hwy.ne'
      rw [h, this]; ring
    · obtain ⟨e1, e2, e3⟩ := replFlow_counts w win new hin x y b h
      rw [e1, e2, e3]
      linear_combination δ ^ bathDim y * p (winOps win y.cd).length (winOps win y.c).length b * hb
  rw [mul_add, mul_add, term true, term false]

/-- **C08** (flavor change).  `OperatorPairFlavorUpdater` is in detailed balance with correction 1. -/
theorem C08_flavor_balance (nf : ℕ) (δ : R) (win : Win T R) :
    Balanced (W := W) δ bathDim (PCfg.OK nf win) (flavorPropose nf win) := by
  classical
  refine repl_balanced nf δ win
    (fun o => bind (unif (List.range nf)) fun f => ret (some (o.1, f))) ?_ ?_ (flavorPropose nf win)
    (fun n m b => if n = 0 ∨ m = 0 then 0 else 1 / 2 / ((if b then n else m : ℕ) : R)) ?_
  · intro o p hp o' ho' h
    obtain ⟨f, _, q, hq, e⟩ := mem_bind hp
    rw [e, mem_ret hq] at ho'
    have := Option.some.inj ho'
    rw [← this]; exact h
  · intro o o' ho ho' _ _
    have key : ∀ o o' : BOp T, o'.2 < nf →
        mean (bind (unif (List.range nf)) fun f => ret (some (o.1, f)))
          (fun r => if r = some o' then (1 : R) else 0) = (if o.1 = o'.1 then 1 else 0) / nf := by
      intro o o' ho'
      rw [mean_bind, mean_unif, List.length_range]
      congr 1
      simp only [mean_ret, Option.some.injEq, Prod.ext_iff]
      by_cases h : o.1 = o'.1
      · simp only [h, true_and, if_true]
        rw [← List.sum_toFinset _ List.nodup_range]
        rw [Finset.sum_ite_eq', if_pos (by simpa using ho')]
      · simp [h]
    rw [key o o' ho', key o' o ho]
    simp only [eq_comm]
  · intro w x y
    unfold flow flavorPropose
    by_cases h : (winOps win x.cd).length = 0 ∨ (winOps win x.c).length = 0
    · rw [if_pos h, if_pos h, if_pos h]; simp [accFlow]
    · rw [if_neg h, if_neg h, if_neg h, mean_bind, mean_coin]
      simp only [if_true, Bool.false_eq_true, if_false, mean_bind (unif (winOps _ _)), mean_unif,
        mean_bind (unif (List.range nf)), mean_ret, replFlow, kindOps, List.length_range, Option.elim_some]
      ring

/-- What `SingleOperatorShiftUpdater` draws for a picked operator. -/
def shiftNew (E : PEnv) (win : Win ℤ R) (maxDist : ℕ → ℕ) (o : BOp ℤ) : Rand R (Option (BOp ℤ)) :=
  bind (bind (coin (1 / 2)) fun b => if b then ret o.2 else genNewFlavor R E o.2) fun f =>
  bind (unif (stepList (maxDist o.2))) fun s =>
  if win.inWin (o.1 + s) then ret (some (o.1 + s, f)) else ret none

theorem stepList_nodup (d : ℕ) : (stepList d).Nodup := by
  refine (List.nodup_map_iff ?_).2 List.nodup_range
  intro a b h
  simpa using h

theorem mem_stepList (d : ℕ) (s : ℤ) : s ∈ stepList d ↔ -(d : ℤ) ≤ s ∧ s ≤ d := by
  unfold stepList
  rw [List.mem_map]
  constructor
  · rintro ⟨i, hi, rfl⟩
    rw [List.mem_range] at hi
    omega
  · intro h
    exact ⟨(s + d).toNat, List.mem_range.2 (by omega), by omega⟩

/-- Probability of drawing the operator `o'`. -/
theorem shiftNew_prob (E : PEnv) (win : Win ℤ R) (maxDist : ℕ → ℕ) (o o' : BOp ℤ) (ho' : o'.2 < E.nf)
    (hw' : win.inWin o'.1 = true) :
    mean (shiftNew E win maxDist o) (fun r => if r = some o' then (1 : R) else 0) =
      (1 / 2 * (if o.2 = o'.2 then 1 else 0) + 1 / 2 * ((if E.sector o'.2 = E.sector o.2 then 1 else 0) /
        ((blockFlavors E (E.sector o.2)).length : R))) *
      ((if (o'.1 - o.1).natAbs ≤ maxDist o.2 then 1 else 0) / ((2 * maxDist o.2 + 1 : ℕ) : R)) := by
  classical
  have time : ∀ f, mean (bind (unif (stepList (maxDist o.2))) fun s =>
      if win.inWin (o.1 + s) then ret (some (o.1 + s, f)) else ret none)
        (fun r => if r = some o' then (1 : R) else 0) =
      (if f = o'.2 then 1 else 0) *
        ((if (o'.1 - o.1).natAbs ≤ maxDist o.2 then 1 else 0) / ((2 * maxDist o.2 + 1 : ℕ) : R)) := by
    intro f
    rw [mean_bind, mean_unif]
    have e : ∀ s, mean (if win.inWin (o.1 + s) then ret (some (o.1 + s, f)) else ret none)
        (fun r => if r = some o' then (1 : R) else 0) =
        if s = o'.1 - o.1 then (if f = o'.2 then 1 else 0) else 0 := by
      intro s
      by_cases hs : s = o'.1 - o.1
      · have h1 : o.1 + s = o'.1 := by omega
        rw [h1, hw', if_pos rfl, mean_ret, if_pos hs]
        simp only [Option.some.injEq, Prod.ext_iff, true_and]
      · rw [if_neg hs]
        split_ifs
        · rw [mean_ret, if_neg]
          intro h
          have := congrArg Prod.fst (Option.some.inj h)
          simp only at this
          omega
        · rw [mean_ret, if_neg (by simp)]
    simp only [e]
    rw [← List.sum_toFinset _ (stepList_nodup _), Finset.sum_ite_eq']
    have hm : o'.1 - o.1 ∈ (stepList (maxDist o.2)).toFinset ↔ (o'.1 - o.1).natAbs ≤ maxDist o.2 := by
      rw [List.mem_toFinset, mem_stepList]; omega
    rw [if_congr hm rfl rfl]
    have hl : (stepList (maxDist o.2)).length = 2 * maxDist o.2 + 1 := by simp [stepList]
    rw [hl]
    split_ifs <;> ring
  unfold shiftNew
  rw [mean_bind]
  simp only [time]
  rw [mean_mul_right]
  congr 1
  rw [mean_bind, mean_coin]
  simp only [if_true, Bool.false_eq_true, if_false, mean_ret, genNewFlavor, mean_unif]
  have hb : ((blockFlavors E (E.sector o.2)).map fun f => if f = o'.2 then (1 : R) else 0).sum =
      if E.sector o'.2 = E.sector o.2 then 1 else 0 := by
    have hnd : (blockFlavors E (E.sector o.2)).Nodup := List.nodup_range.filter _
    rw [← List.sum_toFinset _ hnd, Finset.sum_ite_eq']
    refine if_congr ?_ rfl rfl
    simp [blockFlavors, ho']
  rw [hb]
  norm_num

/-- Flow of the shift update in terms of the two kinds of operators. -/
theorem shift_flow (E : PEnv) (win : Win ℤ R) (maxDist : ℕ → ℕ) (w : PCfg ℤ W → R) (x y : PCfg ℤ W) :
    flow w (shiftPropose E win maxDist) x y =
      1 / (((winOps win x.cd).length + (winOps win x.c).length : ℕ) : R) *
        replFlow w win (shiftNew E win maxDist) x y true +
      1 / (((winOps win x.cd).length + (winOps win x.c).length : ℕ) : R) *
        replFlow w win (shiftNew E win maxDist) x y false := by
  have inner : ∀ b (o : BOp ℤ), mean (bind (bind (coin (1 / 2)) fun b => if b then ret o.2 else genNewFlavor R E o.2)
      fun f => bind (unif (stepList (maxDist o.2))) fun s =>
      if win.inWin (o.1 + s) then ret (some (replaceMv b o (o.1 + s, f) x.worm, (1 : R))) else ret none)
        (accFlow w x y) =
      mean (shiftNew E win maxDist o) fun r =>
        r.elim 0 fun o' => accFlow w x y (some (replaceMv b o o' x.worm, 1)) := by
    intro b o
    unfold shiftNew
    rw [mean_bind, mean_bind (bind _ _)]
    refine mean_congr fun f => ?_
    rw [mean_bind, mean_bind]
    refine mean_congr fun s => ?_
    split_ifs
    · simp only [mean_ret, Option.elim_some]
    · simp only [mean_ret, accFlow, Option.elim_none]
  unfold flow shiftPropose
  simp only [List.length_append, List.length_map]
  split_ifs with h
  · simp [accFlow, h]
  · rw [mean_bind, mean_unif]
    simp only [inner, List.map_append, List.map_map, Function.comp_def, List.sum_append,
      List.length_append, List.length_map]
    simp only [replFlow, kindOps, if_true, Bool.false_eq_true, if_false]
    ring

/-- **C08, partial** (shift).  `SingleOperatorShiftUpdater` is in detailed balance with correction 1 as
long as all flavors of a block have the same `max_distance_`; in particular when every block has one
flavor. -/
theorem C08_shift_balance_partial (E : PEnv) (δ : R) (win : Win ℤ R) (maxDist : ℕ → ℕ)
    (hd : ∀ f f', f < E.nf → f' < E.nf → E.sector f = E.sector f' → maxDist f = maxDist f') :
    Balanced (W := W) δ bathDim (PCfg.OK E.nf win) (shiftPropose E win maxDist) := by
  refine repl_balanced E.nf δ win (shiftNew E win maxDist) ?_ ?_ (shiftPropose E win maxDist)
    (fun n m _ => 1 / ((n + m : ℕ) : R)) (shift_flow E win maxDist)
  · intro o p hp o' ho' _
    obtain ⟨f, _, q, hq, e⟩ := mem_bind hp
    obtain ⟨s, _, q', hs, e'⟩ := mem_bind hq
    split_ifs at hs with hw
    · rw [e, e', mem_ret hs] at ho'
      rw [← Option.some.inj ho']; exact hw
    · rw [e, e', mem_ret hs] at ho'
      exact absurd ho' (by simp)
  · intro o o' ho ho' hw hw'
    rw [shiftNew_prob E win maxDist o o' ho' hw', shiftNew_prob E win maxDist o' o ho hw]
    have hs : (o'.1 - o.1).natAbs = (o.1 - o'.1).natAbs := by omega
    by_cases h : E.sector o.2 = E.sector o'.2
    · rw [hd o.2 o'.2 ho ho' h, h, hs]
      simp only [eq_comm]
    · have h1 : o.2 ≠ o'.2 := fun e => h (by rw [e])
      simp [h, Ne.symm h, h1, Ne.symm h1]

/-- **C08 is violated** whenever two flavors of a block have different `max_distance_`: for every block
structure and all step sizes there are a window, a weight and two configurations with a flow in only one
direction. -/
theorem C08_shift_violated (E : PEnv) (maxDist : ℕ → ℕ) (f f' : ℕ) (hf : f < E.nf) (hf' : f' < E.nf)
    (hs : E.sector f = E.sector f') (hlt : maxDist f < maxDist f') :
    ∃ (win : Win ℤ R), win.OK ∧
      ¬ Balanced (W := Unit) win.delta bathDim (PCfg.OK E.nf win) (shiftPropose E win maxDist) := by
  classical
  obtain ⟨D, hD⟩ : ∃ D : ℤ, D = maxDist f' := ⟨_, rfl⟩
  let win : Win ℤ R := ⟨[0, D], 1, fun t => decide (t = 0 ∨ t = D)⟩
  have hD0 : (0 : ℤ) ≠ D := by omega
  have hwin : win.OK := ⟨by simp [win, hD0], by simp [win], by simp [win], by simp [win]⟩
  refine ⟨win, hwin, fun h => ?_⟩
  let x : PCfg ℤ Unit := ⟨[(0, f)], [], ()⟩
  let y : PCfg ℤ Unit := ⟨[(D, f')], [], ()⟩
  have hx : x.OK E.nf win := ⟨by simp [x], by simp [x], by simp [x, win, hf], by simp [x]⟩
  have hy : y.OK E.nf win := ⟨by simp [y], by simp [y], by simp [y, win, hf'], by simp [y]⟩
  have hb := h (fun _ => 1) x y hx hy one_pos one_pos
  -- flow between configurations with one operator
  have single : ∀ o o' : BOp ℤ, o.2 < E.nf → o'.2 < E.nf → win.inWin o.1 = true → win.inWin o'.1 = true →
      flow (fun _ => (1 : R)) (shiftPropose E win maxDist) (⟨[o], [], ()⟩ : PCfg ℤ Unit) ⟨[o'], [], ()⟩ =
        mean (shiftNew E win maxDist o) (fun r => if r = some o' then (1 : R) else 0) := by
    intro o o' _ _ hw hw'
    rw [shift_flow]
    have w1 : winOps win [o] = [o] := by simp [winOps, hw]
    have w2 : winOps win ([] : List (BOp ℤ)) = [] := rfl
    simp only [replFlow, kindOps, if_true, Bool.false_eq_true, if_false, w1, w2, List.map_nil, List.sum_nil,
      List.map_cons, List.length_cons, List.length_nil, mul_zero, add_zero]
    norm_num
    refine mean_congr fun r => ?_
    cases r with
    | none => simp
    | some o'' =>
      simp only [accFlow, Option.some.injEq]
      refine if_congr ?_ (by norm_num) rfl
      rw [leads_replace _ _ true o o'' (by simp)]
      simp only [if_true, Swaps, and_true, Multiset.coe_singleton]
      rw [add_comm, add_right_cancel_iff, Multiset.singleton_inj]
  rw [single _ _ hf hf' (by simp [win]) (by simp [win]), single _ _ hf' hf (by simp [win]) (by simp [win]),
    shiftNew_prob E win maxDist _ _ hf' (by simp [win]), shiftNew_prob E win maxDist _ _ hf (by simp [win])] at hb
  have n1 : ¬ (D - 0).natAbs ≤ maxDist f := by omega
  have n2 : (0 - D).natAbs ≤ maxDist f' := by omega
  have hlen : 0 < ((blockFlavors E (E.sector f')).length : R) := by
    have : f' ∈ blockFlavors E (E.sector f') := by simp [blockFlavors, hf']
    exact_mod_cast List.length_pos_of_mem this
  have hff : f' ≠ f := fun e => by rw [e] at hlt; omega
  simp only [n1, n2, if_true, if_false, hs, hff, zero_div, mul_zero, zero_add, one_mul] at hb
  have hδ : 0 < win.delta := by
    unfold Win.delta
    exact div_pos hwin.len_pos (by exact_mod_cast hwin.pos)
  have : 0 < win.delta ^ bathDim y * (1 / 2 * (1 / ((blockFlavors E (E.sector f')).length : R)) *
      (1 / ((2 * maxDist f' + 1 : ℕ) : R))) := by positivity
  exact this.ne hb

end

/-! ### Concrete configurations -/

/-- One block with two flavors. -/
def exEnv2 : PEnv := ⟨2, 1, fun _ => 0⟩

/-- A window with the grid times `0, …, 3`. -/
def exWinZ : Win ℤ ℚ := ⟨[0, 1, 2, 3], 4, fun t => decide (0 ≤ t ∧ t < 4)⟩

/-- Two configurations connected by a shift with change of flavor; both flows are non-zero and equal for
equal weights. -/
example : flow (fun _ => (1 : ℚ)) (shiftPropose exEnv2 exWinZ fun _ => 2)
      (⟨[(0, 0), (9, 1)], [(3, 0)], ()⟩ : PCfg ℤ Unit) ⟨[(2, 1), (9, 1)], [(3, 0)], ()⟩ = 1 / 40 ∧
    flow (fun _ => (1 : ℚ)) (shiftPropose exEnv2 exWinZ fun _ => 2)
      (⟨[(2, 1), (9, 1)], [(3, 0)], ()⟩ : PCfg ℤ Unit) ⟨[(0, 0), (9, 1)], [(3, 0)], ()⟩ = 1 / 40 := by
  constructor <;> decide +kernel

example : (⟨[(0, 0), (9, 1)], [(3, 0)], ()⟩ : PCfg ℤ Unit).OK exEnv2.nf exWinZ :=
  ⟨by decide, by decide, by decide, by decide⟩

example : flow (fun _ => (1 : ℚ)) (flavorPropose 3 exWinZ)
      (⟨[(0, 0), (9, 1)], [(3, 0)], ()⟩ : PCfg ℤ Unit) ⟨[(0, 2), (9, 1)], [(3, 0)], ()⟩ = 1 / 6 := by
  decide +kernel

/-- Histogram after trial shifts at all distances, of which only the short ones were accepted. -/
def exShiftHist : Hist ℚ :=
  ((List.range 8).flatMap fun i => (List.replicate 20 i)).foldl
    (fun h i => (h.addSample (((i : ℚ) + 1 / 2) / 8) (if i = 0 then 1 else 0)).1) (Hist.init 8 1)

/-- **The step sizes do differ**: `update_parameters` shrinks the cutoff once for each flavor, so that from
equal step sizes, and with identical histograms for both flavors, the second flavor gets a smaller
`max_distance_` than the first. -/
theorem C08_step_sizes_violated : ∃ cut d0 d1,
    shiftUpdateParams [exShiftHist, exShiftHist] 1 8 2 [1, 1] = some (cut, [d0, d1]) ∧ d1 < d0 := by
  refine ⟨[13107200000000000000000 / 30041942495081691894741, 13107200000000000000000 / 30041942495081691894741],
    10240000000000 / 16679880978201, 13107200000000000000000 / 30041942495081691894741, ?_, by norm_num⟩
  decide +kernel

end CTHyb
