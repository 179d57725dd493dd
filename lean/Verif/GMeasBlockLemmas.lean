import Verif.GMeasExchLemmas

/-!
Lemmas for the measurement of the Green's functions in equilibrium: blocks of configurations which have the same operators and differ
only in those which form the worm.
-/

set_option linter.unusedSectionVars false

namespace CTHyb

open Matrix Rand

variable {𝕜 : Type} [RCLike 𝕜] [DecidableEq 𝕜] {N : ℕ} {A : CodeArgs 𝕜 N} {tau : ℤ → ℝ}

section defs

/-- The worm belongs to the Green's function with `r` particles. -/
def isGreen (r : ℕ) (y : WCfg ℤ) : Bool := y.worm.any fun w => decide (w.kind = .green r)

/-- The annihilation operators of the worm. -/
def gwc (r : ℕ) (y : WCfg ℤ) : Fin r → BOp ℤ := y.worm.elim (fun _ => (0, 0)) (wormC r)

/-- The creation operators of the worm. -/
def gwd (r : ℕ) (y : WCfg ℤ) : Fin r → BOp ℤ := y.worm.elim (fun _ => (0, 0)) (wormCd r)

/-- All annihilation operators. -/
def unionC (r : ℕ) (y : WCfg ℤ) : Finset (BOp ℤ) := (y.c ++ List.ofFn (gwc r y)).toFinset

/-- All creation operators. -/
def unionD (r : ℕ) (y : WCfg ℤ) : Finset (BOp ℤ) := (y.cd ++ List.ofFn (gwd r y)).toFinset

/-- The configurations with the annihilation operators `Uc` and the creation operators `Ud` whose worm is taken from `C`, `R`. -/
def InBlock (r : ℕ) (b : Finset (BOp ℤ) × Finset (BOp ℤ) × Finset (BOp ℤ) × Finset (BOp ℤ)) (y : WCfg ℤ) : Prop :=
  isGreen r y = true ∧ unionC r y = b.1 ∧ unionD r y = b.2.1 ∧ (∀ i, gwc r y i ∈ b.2.2.1) ∧ ∀ i, gwd r y i ∈ b.2.2.2

instance (r : ℕ) (b : Finset (BOp ℤ) × Finset (BOp ℤ) × Finset (BOp ℤ) × Finset (BOp ℤ)) (y : WCfg ℤ) : Decidable (InBlock r b y) := by
  unfold InBlock; infer_instance

/-- Choices of `r` different places. -/
def tuples {n r : ℕ} (C : Finset (Fin n ⊕ Fin r)) : Finset (Fin r → Fin n ⊕ Fin r) :=
  Finset.univ.filter fun a => Function.Injective a ∧ ∀ i, a i ∈ C

/-- The operators `γc`, `γd` are those of the configuration, bath first. -/
structure Frame {n r : ℕ} (γc γd : Fin n ⊕ Fin r → BOp ℤ) (x : WCfg ℤ) : Prop where
  c : (List.ofFn (γc ∘ .inl)).Perm x.c
  cd : (List.ofFn (γd ∘ .inl)).Perm x.cd
  wc : γc ∘ .inr = gwc r x
  wd : γd ∘ .inr = gwd r x
  green : isGreen r x = true

end defs

theorem isGreen_some {r : ℕ} {y : WCfg ℤ} (h : isGreen r y = true) : ∃ w, y.worm = some w ∧ w.kind = .green r := by
  unfold isGreen at h
  cases e : y.worm with
  | none => rw [e] at h; simp at h
  | some w => rw [e] at h; exact ⟨w, rfl, by simpa using h⟩

theorem green_ops {r : ℕ} {y : WCfg ℤ} (h : isGreen r y = true) : (y.ops tau (codeWops tau)).Perm
    ((y.cd ++ List.ofFn (gwd r y)).map (mkOp tau .creation) ++ (y.c ++ List.ofFn (gwc r y)).map (mkOp tau .annihilation)) := by
  obtain ⟨w, hw, hk⟩ := isGreen_some h
  have h3 : (wormOps (codeWops tau y.worm)).Perm
      ((List.ofFn (gwc r y)).map (mkOp tau .annihilation) ++ (List.ofFn (gwd r y)).map (mkOp tau .creation)) := by
    unfold gwc gwd
    rw [hw, green_wops tau hk, List.map_ofFn, List.map_ofFn]
    exact interleave_perm' _ _ (by simp)
  unfold PCfg.ops
  refine (h3.append_left _).trans ?_
  simp only [List.map_append, List.append_assoc]
  refine List.Perm.append_left _ ?_
  refine (List.Perm.append_left _ List.perm_append_comm).trans ?_
  rw [← List.append_assoc, ← List.append_assoc]
  exact List.perm_append_comm.append_right _

theorem green_nodup {r : ℕ} {y : WCfg ℤ} (h : isGreen r y = true) (hn : ((y.ops tau (codeWops tau)).map Psi.time).Nodup) :
    (y.c ++ List.ofFn (gwc r y)).Nodup ∧ (y.cd ++ List.ofFn (gwd r y)).Nodup := by
  have h1 := (((green_ops h (tau := tau)).map Psi.time).nodup_iff.1 hn)
  rw [List.map_append, List.map_map, List.map_map] at h1
  exact ⟨List.Nodup.of_map _ (List.nodup_append.1 h1).2.1, List.Nodup.of_map _ (List.nodup_append.1 h1).1⟩

section frame
variable {n r : ℕ} {γc γd : Fin n ⊕ Fin r → BOp ℤ} {x : WCfg ℤ}

theorem Frame.allC (h : Frame γc γd x) : (allOps γc).Perm (x.c ++ List.ofFn (gwc r x)) := by
  unfold allOps
  rw [h.wc]
  exact h.c.append_right _

theorem Frame.allD (h : Frame γc γd x) : (allOps γd).Perm (x.cd ++ List.ofFn (gwd r x)) := by
  unfold allOps
  rw [h.wd]
  exact h.cd.append_right _

theorem Frame.times (h : Frame γc γd x) (hn : ((x.ops tau (codeWops tau)).map Psi.time).Nodup) :
    ((allOps (mkOp tau .creation ∘ γd) ++ allOps (mkOp tau .annihilation ∘ γc)).map Psi.time).Nodup := by
  refine (List.Perm.nodup_iff ?_).1 (((green_ops h.green (tau := tau)).map Psi.time).nodup_iff.1 hn)
  refine List.Perm.map _ ?_
  rw [← allOps_map, ← allOps_map]
  exact ((h.allD.map _).append (h.allC.map _)).symm

theorem Frame.injC (h : Frame γc γd x) (hn : ((x.ops tau (codeWops tau)).map Psi.time).Nodup) : Function.Injective γc :=
  (nodup_allOps γc).1 (h.allC.nodup_iff.2 (green_nodup h.green hn).1)

theorem Frame.injD (h : Frame γc γd x) (hn : ((x.ops tau (codeWops tau)).map Psi.time).Nodup) : Function.Injective γd :=
  (nodup_allOps γd).1 (h.allD.nodup_iff.2 (green_nodup h.green hn).2)

theorem mem_allOps {α : Type} (f : Fin n ⊕ Fin r → α) (y : α) : y ∈ allOps f ↔ ∃ k, f k = y := by
  unfold allOps
  rw [List.mem_append, List.mem_ofFn, List.mem_ofFn]
  constructor
  · rintro (⟨i, h⟩ | ⟨i, h⟩)
    · exact ⟨_, h⟩
    · exact ⟨_, h⟩
  · rintro ⟨i | i, h⟩
    · exact Or.inl ⟨i, h⟩
    · exact Or.inr ⟨i, h⟩

theorem Frame.unionC_eq (h : Frame γc γd x) : unionC r x = Finset.univ.image γc := by
  ext y
  unfold unionC
  rw [List.mem_toFinset, ← h.allC.mem_iff, mem_allOps]
  simp

theorem Frame.unionD_eq (h : Frame γc γd x) : unionD r x = Finset.univ.image γd := by
  ext y
  unfold unionD
  rw [List.mem_toFinset, ← h.allD.mem_iff, mem_allOps]
  simp

theorem gwc_exch (a b : Fin r → Fin n ⊕ Fin r) : gwc r (exchCfg γc γd a b) = γc ∘ a := by
  unfold gwc exchCfg
  exact wormC_pairWorm _ _

theorem gwd_exch (a b : Fin r → Fin n ⊕ Fin r) : gwd r (exchCfg γc γd a b) = γd ∘ b := by
  unfold gwd exchCfg
  exact wormCd_pairWorm _ _

theorem unionC_exch {a b : Fin r → Fin n ⊕ Fin r} (ha : Function.Injective a) :
    unionC r (exchCfg γc γd a b) = Finset.univ.image γc := by
  ext y
  unfold unionC
  rw [gwc_exch, List.mem_toFinset]
  change y ∈ restOps γc a ++ List.ofFn (γc ∘ a) ↔ _
  rw [(restOps_perm γc a ha).mem_iff, mem_allOps]
  simp

theorem unionD_exch {a b : Fin r → Fin n ⊕ Fin r} (hb : Function.Injective b) :
    unionD r (exchCfg γc γd a b) = Finset.univ.image γd := by
  ext y
  unfold unionD
  rw [gwd_exch, List.mem_toFinset]
  change y ∈ restOps γd b ++ List.ofFn (γd ∘ b) ↔ _
  rw [(restOps_perm γd b hb).mem_iff, mem_allOps]
  simp

theorem isGreen_same {x y : WCfg ℤ} (e : x.Same y) : isGreen r x = isGreen r y := by
  unfold isGreen; rw [e.2.2]

theorem gwc_same {x y : WCfg ℤ} (e : x.Same y) : gwc r x = gwc r y := by
  unfold gwc; rw [e.2.2]

theorem gwd_same {x y : WCfg ℤ} (e : x.Same y) : gwd r x = gwd r y := by
  unfold gwd; rw [e.2.2]

theorem unionC_same {x y : WCfg ℤ} (e : x.Same y) : unionC r x = unionC r y := by
  unfold unionC; rw [gwc_same e]
  ext z
  simp [e.2.1.mem_iff]

theorem unionD_same {x y : WCfg ℤ} (e : x.Same y) : unionD r x = unionD r y := by
  unfold unionD; rw [gwd_same e]
  ext z
  simp [e.1.mem_iff]

theorem inBlock_same {x y : WCfg ℤ} (e : x.Same y) (b : Finset (BOp ℤ) × Finset (BOp ℤ) × Finset (BOp ℤ) × Finset (BOp ℤ)) :
    InBlock r b x ↔ InBlock r b y := by
  unfold InBlock
  rw [isGreen_same e, gwc_same e, gwd_same e, unionC_same e, unionD_same e]

/-- The exchanged configuration lies on the grid. -/
theorem Frame.memC (h : Frame γc γd x) {nf : ℕ} {G : Finset ℤ} {kinds : List WormKind} (hx : OnGrid nf G kinds x) (k : Fin n ⊕ Fin r) :
    (γc k).1 ∈ G ∧ (γc k).2 < nf := by
  obtain ⟨w, hw, hk⟩ := isGreen_some h.green
  obtain ⟨v, k1, k2, k3⟩ := hx.worm w hw
  have h1 : γc k ∈ x.c ++ List.ofFn (gwc r x) := h.allC.mem_iff.1 ((mem_allOps γc _).2 ⟨k, rfl⟩)
  rcases List.mem_append.1 h1 with h2 | h2
  · exact hx.c_mem _ h2
  · obtain ⟨i, hi⟩ := List.mem_ofFn.1 h2
    rw [← hi]
    unfold gwc
    rw [hw]
    have l1 : 2 * i.1 < w.times.length := by rw [v.1, hk]; change _ < 2 * r; omega
    have l2 : 2 * i.1 < w.flavors.length := by rw [v.2, hk]; change _ < 2 * r; omega
    simp only [Option.elim_some, wormC]
    rw [List.getD_eq_getElem?_getD, List.getD_eq_getElem?_getD, List.getElem?_eq_getElem l1, List.getElem?_eq_getElem l2]
    exact ⟨k3 _ (List.getElem_mem _), k2 _ (List.getElem_mem _)⟩

theorem Frame.memD (h : Frame γc γd x) {nf : ℕ} {G : Finset ℤ} {kinds : List WormKind} (hx : OnGrid nf G kinds x) (k : Fin n ⊕ Fin r) :
    (γd k).1 ∈ G ∧ (γd k).2 < nf := by
  obtain ⟨w, hw, hk⟩ := isGreen_some h.green
  obtain ⟨v, k1, k2, k3⟩ := hx.worm w hw
  have h1 : γd k ∈ x.cd ++ List.ofFn (gwd r x) := h.allD.mem_iff.1 ((mem_allOps γd _).2 ⟨k, rfl⟩)
  rcases List.mem_append.1 h1 with h2 | h2
  · exact hx.cd_mem _ h2
  · obtain ⟨i, hi⟩ := List.mem_ofFn.1 h2
    rw [← hi]
    unfold gwd
    rw [hw]
    have l1 : 2 * i.1 + 1 < w.times.length := by rw [v.1, hk]; change _ < 2 * r; omega
    have l2 : 2 * i.1 + 1 < w.flavors.length := by rw [v.2, hk]; change _ < 2 * r; omega
    simp only [Option.elim_some, wormCd]
    rw [List.getD_eq_getElem?_getD, List.getD_eq_getElem?_getD, List.getElem?_eq_getElem l1, List.getElem?_eq_getElem l2]
    exact ⟨k3 _ (List.getElem_mem _), k2 _ (List.getElem_mem _)⟩

theorem Frame.onGrid (h : Frame γc γd x) {nf : ℕ} {G : Finset ℤ} {kinds : List WormKind} (hx : OnGrid nf G kinds x)
    (hn : ((x.ops tau (codeWops tau)).map Psi.time).Nodup) {a b : Fin r → Fin n ⊕ Fin r} (ha : Function.Injective a)
    (hb : Function.Injective b) : OnGrid nf G kinds (exchCfg γc γd a b) := by
  obtain ⟨w, hw, hk⟩ := isGreen_some h.green
  obtain ⟨v, k1, k2, k3⟩ := hx.worm w hw
  have mC := h.memC hx
  have mD := h.memD hx
  have hrest : ∀ (γ : Fin n ⊕ Fin r → BOp ℤ) (a : Fin r → Fin n ⊕ Fin r), ∀ o ∈ restOps γ a, ∃ k, γ k = o := by
    intro γ a o ho
    obtain ⟨k, -, hk⟩ := List.mem_map.1 ho
    exact ⟨k, hk⟩
  have hlen : ∀ (γ : Fin n ⊕ Fin r → BOp ℤ) (a : Fin r → Fin n ⊕ Fin r), Function.Injective a → (restOps γ a).length = n := by
    intro γ a ha
    have := (restOps_perm γ a ha).length_eq
    rw [List.length_append, length_allOps, List.length_ofFn] at this
    omega
  have hnd : ∀ (γ : Fin n ⊕ Fin r → BOp ℤ) (a : Fin r → Fin n ⊕ Fin r), Function.Injective a → Function.Injective γ →
      (restOps γ a).Nodup := by
    intro γ a ha hγ
    have := (restOps_perm γ a ha).nodup_iff.2 ((nodup_allOps γ).2 hγ)
    exact (List.nodup_append.1 this).1
  refine ⟨hnd _ _ hb (h.injD hn), hnd _ _ ha (h.injC hn), ?_, ?_, ?_, ?_⟩
  · intro o ho
    obtain ⟨k, rfl⟩ := hrest _ _ o ho
    exact mD k
  · intro o ho
    obtain ⟨k, rfl⟩ := hrest _ _ o ho
    exact mC k
  · change (restOps γd b).length = (restOps γc a).length
    rw [hlen _ _ hb, hlen _ _ ha]
  · intro w' hw'
    have e : w' = pairWorm (γc ∘ a) (γd ∘ b) := (Option.some.inj hw').symm
    have mem : ∀ {α : Type} (u v : List α), u.length = v.length → ∀ z ∈ interleave u v, z ∈ u ∨ z ∈ v := by
      intro α u v huv z hz
      exact List.mem_append.1 ((interleave_perm' u v huv).mem_iff.1 hz)
    subst e
    refine ⟨pairWorm_valid _ _, (by rw [hk] at k1; exact k1), ?_, ?_⟩
    · intro f hf
      rcases mem _ _ (by simp) f hf with h1 | h1 <;> obtain ⟨i, rfl⟩ := List.mem_ofFn.1 h1
      · exact (mC _).2
      · exact (mD _).2
    · intro f hf
      rcases mem _ _ (by simp) f hf with h1 | h1 <;> obtain ⟨i, rfl⟩ := List.mem_ofFn.1 h1
      · exact (mC _).1
      · exact (mD _).1

/-- A configuration with the same operators is obtained by exchange. -/
theorem Frame.exch_same (h : Frame γc γd x) (hn : ((x.ops tau (codeWops tau)).map Psi.time).Nodup) {y : WCfg ℤ}
    (hy : isGreen r y = true) (hv : ∀ w, y.worm = some w → w.Valid) (hny : ((y.ops tau (codeWops tau)).map Psi.time).Nodup)
    (hc : unionC r y = unionC r x) (hd : unionD r y = unionD r x) {a b : Fin r → Fin n ⊕ Fin r}
    (ea : γc ∘ a = gwc r y) (eb : γd ∘ b = gwd r y) :
    Function.Injective a ∧ Function.Injective b ∧ (exchCfg γc γd a b).Same y := by
  obtain ⟨w, hw, hk⟩ := isGreen_some hy
  obtain ⟨nc, nd⟩ := green_nodup hy hny
  have ic : Function.Injective (gwc r y) := List.nodup_ofFn.1 (List.nodup_append.1 nc).2.1
  have id' : Function.Injective (gwd r y) := List.nodup_ofFn.1 (List.nodup_append.1 nd).2.1
  have ia : Function.Injective a := Function.Injective.of_comp (f := γc) (by rw [ea]; exact ic)
  have ib : Function.Injective b := Function.Injective.of_comp (f := γd) (by rw [eb]; exact id')
  refine ⟨ia, ib, ?_, ?_, ?_⟩
  · have p1 := restOps_perm γd b ib
    have p2 : (allOps γd).Perm (y.cd ++ List.ofFn (gwd r y)) := by
      refine h.allD.trans ?_
      exact List.perm_of_nodup_nodup_toFinset_eq (green_nodup h.green hn).2 nd hd.symm
    have p3 := p1.trans p2
    rw [eb] at p3
    exact (List.perm_append_right_iff _).1 p3
  · have p1 := restOps_perm γc a ia
    have p2 : (allOps γc).Perm (y.c ++ List.ofFn (gwc r y)) := by
      refine h.allC.trans ?_
      exact List.perm_of_nodup_nodup_toFinset_eq (green_nodup h.green hn).1 nc hc.symm
    have p3 := p1.trans p2
    rw [ea] at p3
    exact (List.perm_append_right_iff _).1 p3
  · change some (pairWorm (γc ∘ a) (γd ∘ b)) = y.worm
    rw [ea, eb, hw]
    unfold gwc gwd
    rw [hw]
    exact congrArg some (pairWorm_eq (hv w hw) hk)

/-- A sum over all exchanges is a sum over the configurations of a block. -/
theorem Frame.exch_sum {X V : Type} [Fintype X] [AddCommMonoid V] {c : X → WCfg ℤ} {nf : ℕ} {G : Finset ℤ} {kinds : List WormKind}
    (hR : Reprs A tau (codeWops tau) (OnGrid nf G kinds) c)
    (h : Frame γc γd x) (hx : OnGrid nf G kinds x) (hn : ((x.ops tau (codeWops tau)).map Psi.time).Nodup)
    (C R : Finset (Fin n ⊕ Fin r)) (H : (Fin r → BOp ℤ) → (Fin r → BOp ℤ) → 𝕜 → V) (hH : ∀ a b, H a b 0 = 0) :
    ∑ a ∈ tuples C, ∑ b ∈ tuples R, H (γc ∘ a) (γd ∘ b)
        (exchWeight (trOf A) A.G (mkOp tau .annihilation ∘ γc) (mkOp tau .creation ∘ γd) a b) =
      ∑ j, if InBlock r (unionC r x, unionD r x, C.image γc, R.image γd) (c j) then
        H (gwc r (c j)) (gwd r (c j)) (signedW A tau (c j)) else 0 := by
  classical
  rw [← Finset.sum_product', ← Finset.sum_filter]
  symm
  have ht := h.times hn
  have ic := h.injC hn
  have id' := h.injD hn
  have hne : Nonempty (Fin n ⊕ Fin r) ∨ r = 0 := by
    rcases Nat.eq_zero_or_pos r with h0 | h0
    · exact Or.inr h0
    · exact Or.inl ⟨.inr ⟨0, h0⟩⟩
  -- places of the operators of the worm
  have hex : ∀ j, ∃ ab : (Fin r → Fin n ⊕ Fin r) × (Fin r → Fin n ⊕ Fin r),
      InBlock r (unionC r x, unionD r x, C.image γc, R.image γd) (c j) →
        ((γc ∘ ab.1 = gwc r (c j) ∧ γd ∘ ab.2 = gwd r (c j)) ∧ (∀ i, ab.1 i ∈ C) ∧ ∀ i, ab.2 i ∈ R) := by
    intro j
    by_cases hj : InBlock r (unionC r x, unionD r x, C.image γc, R.image γd) (c j)
    · obtain ⟨-, -, -, h4, h5⟩ := hj
      simp only [Finset.mem_image] at h4 h5
      choose a ha using h4
      choose b hb using h5
      exact ⟨(a, b), fun _ => ⟨⟨funext fun i => (ha i).2, funext fun i => (hb i).2⟩, fun i => (ha i).1, fun i => (hb i).1⟩⟩
    · exact ⟨(Sum.inr, Sum.inr), fun h => absurd h hj⟩
  choose e he using hex
  have hsame : ∀ j, InBlock r (unionC r x, unionD r x, C.image γc, R.image γd) (c j) →
      Function.Injective (e j).1 ∧ Function.Injective (e j).2 ∧ (exchCfg γc γd (e j).1 (e j).2).Same (c j) := by
    intro j hj
    obtain ⟨h1, h2, h3⟩ : isGreen r (c j) = true ∧ unionC r (c j) = unionC r x ∧ unionD r (c j) = unionD r x :=
      ⟨hj.1, hj.2.1, hj.2.2.1⟩
    exact h.exch_same hn h1 (fun w hw => ((hR.mem j).1.worm w hw).1) (hR.mem j).2.nodup h2 h3 (he j hj).1.1 (he j hj).1.2
  refine Finset.sum_of_injOn e ?_ ?_ ?_ ?_
  · intro j hj j' hj' hjj
    have hj := (Finset.mem_filter.1 (Finset.mem_coe.1 hj)).2
    have hj' := (Finset.mem_filter.1 (Finset.mem_coe.1 hj')).2
    have s1 := (hsame j hj).2.2
    have s2 := (hsame j' hj').2.2
    rw [hjj] at s1
    exact hR.inj _ _ ⟨s1.1.symm.trans s2.1, s1.2.1.symm.trans s2.2.1, s1.2.2.symm.trans s2.2.2⟩
  · intro j hj
    have hj := (Finset.mem_filter.1 hj).2
    obtain ⟨i1, i2, -⟩ := hsame j hj
    obtain ⟨-, m1, m2⟩ := he j hj
    rw [Finset.coe_product]
    refine ⟨?_, ?_⟩
    · simp only [Finset.mem_coe, tuples, Finset.mem_filter, Finset.mem_univ, true_and]
      exact ⟨i1, m1⟩
    · simp only [Finset.mem_coe, tuples, Finset.mem_filter, Finset.mem_univ, true_and]
      exact ⟨i2, m2⟩
  · rintro ⟨a, b⟩ hab hni
    simp only [tuples, Finset.mem_product, Finset.mem_filter, Finset.mem_univ, true_and] at hab
    obtain ⟨⟨ia, ma⟩, ib, mb⟩ := hab
    have hw : exchWeight (trOf A) A.G (mkOp tau .annihilation ∘ γc) (mkOp tau .creation ∘ γd) a b = 0 := by
      by_contra hw
      rw [exchWeight_signedW γc γd ia ib ht] at hw
      have hny := ((exchCfg_ops (tau := tau) γc γd ia ib).map Psi.time).nodup_iff.2 ht
      obtain ⟨j, hj⟩ := hR.all _ (h.onGrid hx hn ia ib) ⟨hny, by rw [← norm_signedW]; exact norm_ne_zero_iff.2 hw⟩
      have hb : InBlock r (unionC r x, unionD r x, C.image γc, R.image γd) (c j) := by
        rw [inBlock_same hj]
        refine ⟨?_, ?_, ?_, ?_, ?_⟩
        · simp [isGreen, exchCfg, pairWorm]
        · rw [unionC_exch ia, h.unionC_eq]
        · rw [unionD_exch ib, h.unionD_eq]
        · intro i; rw [gwc_exch]; exact Finset.mem_image_of_mem _ (ma i)
        · intro i; rw [gwd_exch]; exact Finset.mem_image_of_mem _ (mb i)
      refine hni ⟨j, by simpa using hb, ?_⟩
      obtain ⟨⟨e1, e2⟩, -, -⟩ := he j hb
      rw [gwc_same hj, gwc_exch] at e1
      rw [gwd_same hj, gwd_exch] at e2
      exact Prod.ext (funext fun i => ic (congrFun e1 i)) (funext fun i => id' (congrFun e2 i))
    simp only [hw, hH]
  · intro j hj
    have hj := (Finset.mem_filter.1 hj).2
    obtain ⟨i1, i2, hs⟩ := hsame j hj
    obtain ⟨⟨e1, e2⟩, -, -⟩ := he j hj
    rw [e1, e2, exchWeight_signedW γc γd i1 i2 ht]
    rw [signedW_same hs (((exchCfg_ops (tau := tau) γc γd i1 i2).map Psi.time).nodup_iff.2 ht)]

end frame

end CTHyb
