import Verif.DetCheck
import Verif.CombSortProps
import Verif.TimeDet
import Verif.PartitionedProps

/-!
Facts about the assertions of the determinant matrices: what the recomputed signs are.
-/

namespace CTHyb

open Equiv

variable {T K : Type} [LinearOrder T]

/-- `C20_comb_sort` for a comparison of keys. -/
theorem combSort_image {α β : Type} {N : ℕ} (r : β → β → Prop) [DecidableRel r] [IsStrictTotalOrder β r]
    (f : α → β) (R : α → α → Prop) [DecidableRel R] (hR : ∀ a b, R a b ↔ r (f a) (f b)) (v : Fin N → α) :
    ∃ w s, (∀ k, N * (N * N) + N + 2 ≤ k → combSort R shrink13 k v = some (w, s)) ∧
      ∃ σ : Perm (Fin N), w = v ∘ σ ∧ s = ((Perm.sign σ : ℤˣ) : ℤ) ∧
        ∀ i j : Fin N, i < j → ¬ r (f (w j)) (f (w i)) := by
  haveI : Std.Irrefl R := ⟨fun a h => irrefl_of r (f a) ((hR a a).1 h)⟩
  obtain ⟨ρ, hB, hρ⟩ := exists_rank r (f ∘ v)
  obtain ⟨res, ⟨⟨σ, hw, hs⟩, hadj⟩, hf0⟩ :=
    combLoop_gap0 R shrink13 rfl shrink13_lt v (ρ ∘ f) N (fun i => hB _)
      (fun i j h => hρ i j ((hR _ _).1 h)) v 0 ⟨1, by simp, by simp⟩ (shrink13 N)
  have hsN : shrink13 N ≤ N := by unfold shrink13; omega
  refine ⟨res.1, exchSign res.2, ?_, σ, hw, ?_, ?_⟩
  · intro k hk; simp [combSort, hf0 k (by omega)]
  · rw [exchSign_eq, hs]
  · exact sorted_of_adjacent r (f ∘ res.1) fun i hi h => hadj i hi ((hR _ _).2 h)

/-- The sign of a permutation which sorts a vector. -/
theorem sign_ofFn {n : ℕ} (u : Fin n → T) (hu : Function.Injective u) (σ : Perm (Fin n))
    (hs : ∀ i j, i < j → ¬ u (σ j) < u (σ i)) :
    ((Perm.sign σ : ℤˣ) : ℤ) = (-1) ^ invs (List.ofFn u) := by
  have hlen : (List.ofFn u).length = n := by simp
  have := sign_of_sorting_asc (List.ofFn u) (List.nodup_ofFn.2 hu) ((finCongr hlen).symm.permCongr σ) (by
    intro i j hij
    have := hs (i.cast hlen) (j.cast hlen) hij
    simpa using this)
  rw [← this]
  simp [Perm.sign_permCongr]

/-- Sectors and times of the operators. -/
def lexKeys (E : PEnv) (s : List (Psi T)) : List (ℕ ×ₗ T) := s.map fun o => toLex (E.sector o.flavor, o.time)

/-- In a list sorted by time only the sectors can be in wrong order. -/
theorem invs_lexKeys (E : PEnv) (s : OpSet T) (hs : s.Sorted) :
    invs (lexKeys E s) = invs (s.map fun o => E.sector o.flavor) := by
  induction s with
  | nil => rfl
  | cons o s ih =>
    unfold OpSet.Sorted at hs
    rw [List.pairwise_cons] at hs
    unfold lexKeys at ih ⊢
    rw [List.map_cons, List.map_cons, invs, invs, ih hs.2, List.countP_map, List.countP_map]
    congr 1
    apply List.countP_congr
    intro x hx
    have := hs.1 x hx
    simp only [Function.comp_apply, decide_eq_true_eq, Prod.Lex.toLex_lt_toLex]
    constructor
    · rintro (h | ⟨-, h⟩)
      · exact h
      · exact absurd h (not_lt.2 this.le)
    · exact Or.inl

theorem OpSet.Sorted.time_injective {s : OpSet T} (hs : s.Sorted) :
    Function.Injective fun i : Fin s.length => (s.get i).time := by
  intro i j h
  by_contra hne
  rcases lt_or_gt_of_ne hne with h1 | h1
  · exact absurd h (ne_of_lt (List.pairwise_iff_get.1 hs i j h1))
  · exact absurd h.symm (ne_of_lt (List.pairwise_iff_get.1 hs j i h1))

/-- The sign recomputed by the check is the parity of the pairs whose sectors are in wrong order in time. -/
theorem sectorSign_eq (E : PEnv) (s : OpSet T) (hs : s.Sorted) :
    sectorSign E s = some ((-1) ^ invs (s.map fun o => E.sector o.flavor)) := by
  unfold sectorSign
  have hl : (s.map fun o => (E.sector o.flavor, o)).length = s.length := by simp
  generalize hd : (s.map fun o => (E.sector o.flavor, o)) = l at hl
  have hmap : l.map Prod.snd = s := by rw [← hd, List.map_map]; exact List.map_id _
  have hsec : ∀ x ∈ l, x.1 = E.sector x.2.flavor := by
    intro x hx
    rw [← hd] at hx
    obtain ⟨o, -, rfl⟩ := List.mem_map.1 hx
    rfl
  have hsl : l.Pairwise fun a b => a.2.time < b.2.time := by
    have := hs
    unfold OpSet.Sorted at this
    rw [← hmap, List.pairwise_map] at this
    exact this
  have hinj : Function.Injective fun i : Fin l.length => (l.get i).2.time := by
    intro i j h
    by_contra hne
    rcases lt_or_gt_of_ne hne with h1 | h1
    · exact absurd h (ne_of_lt (List.pairwise_iff_get.1 hsl i j h1))
    · exact absurd h.symm (ne_of_lt (List.pairwise_iff_get.1 hsl j i h1))
  obtain ⟨w, s1, f1, σ, hw, -, hso⟩ := combSort_image (fun a b : T => a < b) (fun p : ℕ × Psi T => p.2.time)
    overSectors (fun a b => Iff.rfl) l.get
  have hσ : σ = 1 := by
    refine C20_sign_unique (fun a b : T => a < b) (fun i => (l.get i).2.time) hinj σ 1 ?_ ?_
    · intro i j hij
      have := hso i j hij
      rw [hw] at this
      exact this
    · intro i j hij
      exact not_lt.2 (List.pairwise_iff_get.1 hsl i j hij).le
  have hw1 : w = l.get := by rw [hw, hσ]; rfl
  obtain ⟨w2, s2, f2, τ, hw2, hs2, hso2⟩ := combSort_image (fun a b : ℕ ×ₗ T => a < b)
    (fun p : ℕ × Psi T => toLex (p.1, p.2.time)) withinSectors (fun a b => by
      rw [Prod.Lex.toLex_lt_toLex]
      unfold withinSectors
      by_cases h : a.1 = b.1
      · rw [if_pos h]
        simp [h]
      · rw [if_neg h]
        simp [h]) l.get
  simp only
  rw [f1 (combFuel l.length) le_rfl]
  simp only [Option.bind_some]
  rw [hw1, f2 (combFuel l.length) le_rfl, Option.map_some, hs2]
  refine congrArg some ?_
  have h3 := sign_ofFn (fun i : Fin l.length => toLex ((l.get i).1, (l.get i).2.time)) (by
    intro i j h
    apply hinj
    have := congrArg (fun x : ℕ ×ₗ T => (ofLex x).2) h
    exact this) τ (by
    intro i j hij
    have := hso2 i j hij
    rw [hw2] at this
    exact this)
  refine h3.trans ?_
  rw [← invs_lexKeys E s hs]
  congr 2
  have : (List.ofFn fun i : Fin l.length => toLex ((l.get i).1, (l.get i).2.time)) =
      l.map fun x => toLex (x.1, x.2.time) := by
    conv_rhs => rw [← List.ofFn_get l]
    rw [List.map_ofFn]
    rfl
  rw [this, ← hd, List.map_map]
  rfl

/-- The sign stored in a consistent object is the parity of the pairs whose sectors are in wrong order. -/
theorem PSide.OK.order_sign {E : PEnv} {p : PSide T} {m : Multiset (Psi T)} (h : p.OK E m) :
    (-1 : ℤ) ^ invs (p.order E) = (-1) ^ invs (p.set.map fun o => E.sector o.flavor) := by
  have hs := h.set.1
  rw [← invs_lexKeys E p.set hs]
  -- the operators sector by sector
  set L : List (Psi T) := (List.range E.ns).flatMap p.sec with hL
  have hLs : ((L : List (Psi T)) : Multiset (Psi T)) = m := by
    have h1 := flatMap_coe m (fun o => E.sector o.flavor) p.sec E.ns (fun k hk => (h.sec k hk).2)
    rw [← hL] at h1
    rw [h1]
    exact Multiset.filter_eq_self.2 fun o ho => (h.valid o ho).2
  have hperm : L.Perm p.set := Multiset.coe_eq_coe.1 (hLs.trans h.set.2.symm)
  have hsorted : (lexKeys E L).Pairwise fun a b => a < b := by
    unfold lexKeys
    rw [List.pairwise_map, hL, List.pairwise_flatMap]
    have hk : ∀ k ∈ List.range E.ns, ∀ o ∈ p.sec k, E.sector o.flavor = k := by
      intro k hk o ho
      have h2 := (h.sec k (List.mem_range.1 hk)).2
      have : o ∈ E.inSector k m := by rw [← h2]; exact ho
      exact ((mem_inSector E k m o).1 this).2
    constructor
    · intro k hk'
      refine List.Pairwise.imp_of_mem ?_ (h.sec k (List.mem_range.1 hk')).1
      intro a b ha hb hab
      rw [Prod.Lex.toLex_lt_toLex]
      exact Or.inr ⟨by rw [hk k hk' a ha, hk k hk' b hb], hab⟩
    · refine List.Pairwise.imp_of_mem ?_ (List.pairwise_lt_range (n := E.ns))
      intro k k' hk1 hk2 hlt a ha b hb
      rw [Prod.Lex.toLex_lt_toLex]
      exact Or.inl (by rw [hk k hk1 a ha, hk k' hk2 b hb]; exact hlt)
  have hord : p.order E = L.map Psi.time := by
    rw [hL, List.map_flatMap]; rfl
  obtain ⟨w, s1, -, τ, hw, -, hso⟩ := combSort_image (fun a b : ℕ ×ₗ T => a < b)
    (fun o : Psi T => toLex (E.sector o.flavor, o.time)) (fun a b => toLex (E.sector a.flavor, a.time) <
      toLex (E.sector b.flavor, b.time)) (fun a b => Iff.rfl) p.set.get
  have hinj : Function.Injective fun i : Fin p.set.length =>
      toLex (E.sector (p.set.get i).flavor, (p.set.get i).time) := by
    intro i j e
    apply hs.time_injective
    exact congrArg (fun x : ℕ ×ₗ T => (ofLex x).2) e
  have h3 := sign_ofFn _ hinj τ (by
    intro i j hij
    have := hso i j hij
    rw [hw] at this
    exact this)
  have h4 : (List.ofFn fun i : Fin p.set.length =>
      toLex (E.sector (p.set.get i).flavor, (p.set.get i).time)) = lexKeys E p.set := by
    unfold lexKeys
    conv_rhs => rw [← List.ofFn_get p.set]
    rw [List.map_ofFn]
    rfl
  rw [h4] at h3
  rw [← h3]
  -- the sorted operators
  have h5 : (List.ofFn w).map Psi.time = L.map Psi.time := by
    have hp : (List.ofFn w).Perm L := by
      refine List.Perm.trans ?_ hperm.symm
      rw [hw]
      have := Equiv.Perm.ofFn_comp_perm τ p.set.get
      rw [List.ofFn_get] at this
      exact this
    have hsw : (lexKeys E (List.ofFn w)).Pairwise fun a b => a ≤ b := by
      unfold lexKeys
      rw [List.pairwise_map, List.pairwise_ofFn]
      intro i j hij
      exact not_lt.1 (hso i j hij)
    have e : lexKeys E (List.ofFn w) = lexKeys E L :=
      (hp.map _).eq_of_pairwise (fun a b _ _ h1 h2 => le_antisymm h1 h2) hsw (hsorted.imp le_of_lt)
    have := congrArg (List.map fun x : ℕ ×ₗ T => (ofLex x).2) e
    simpa [lexKeys, List.map_map, Function.comp_def] using this
  rw [hord, ← h5, List.map_ofFn]
  have h6 := sign_ofFn (Psi.time ∘ w) (by
    intro i j e
    rw [hw] at e
    exact τ.injective (hs.time_injective e)) τ⁻¹ (by
    intro i j hij
    rw [hw]
    have e : ∀ k, τ (τ⁻¹ k) = k := fun k => by simp
    simp only [Function.comp_apply, e]
    exact not_lt.2 (List.pairwise_iff_get.1 hs i j hij).le)
  rw [← h6, Perm.sign_inv]

end CTHyb
