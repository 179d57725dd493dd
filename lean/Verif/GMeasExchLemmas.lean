import Verif.GMeasMeanLemmas

/-!
Lemmas for the measurement of the Green's functions in equilibrium: the configurations which arise when operators of the bath take the
place of the worm.
-/

set_option linter.unusedSectionVars false

namespace CTHyb

open Matrix Rand

variable {𝕜 : Type} [RCLike 𝕜] [DecidableEq 𝕜] {N : ℕ}

/-! ### Worms of the Green's functions -/

section worm
variable {r : ℕ}

/-- The worm with the annihilation operators `a` and the creation operators `b`. -/
def pairWorm (a b : Fin r → BOp ℤ) : Worm ℤ :=
  ⟨.green r, interleave (List.ofFn fun i => (a i).1) (List.ofFn fun i => (b i).1),
    interleave (List.ofFn fun i => (a i).2) (List.ofFn fun i => (b i).2)⟩

/-- The annihilation operators of a worm. -/
def wormC (r : ℕ) (w : Worm ℤ) : Fin r → BOp ℤ := fun i => (w.times.getD (2 * i.1) 0, w.flavors.getD (2 * i.1) 0)

/-- The creation operators of a worm. -/
def wormCd (r : ℕ) (w : Worm ℤ) : Fin r → BOp ℤ := fun i => (w.times.getD (2 * i.1 + 1) 0, w.flavors.getD (2 * i.1 + 1) 0)

theorem interleave_getD {α : Type} (d : α) : ∀ (u v : List α), u.length = v.length → ∀ i, i < u.length →
    (interleave u v).getD (2 * i) d = u.getD i d ∧ (interleave u v).getD (2 * i + 1) d = v.getD i d
  | [], [], _, i, hi => by simp at hi
  | x :: u, y :: v, h, 0, _ => by simp [interleave]
  | x :: u, y :: v, h, i + 1, hi => by
    have := interleave_getD d u v (by simpa using h) i (by simpa using hi)
    simpa [interleave, show 2 * (i + 1) = 2 * i + 1 + 1 by omega, show 2 * (i + 1) + 1 = 2 * i + 1 + 1 + 1 by omega] using this

theorem interleave_length {α : Type} : ∀ (u v : List α), u.length = v.length → (interleave u v).length = 2 * u.length
  | [], [], _ => rfl
  | x :: u, y :: v, h => by
    have := interleave_length u v (by simpa using h)
    simp only [interleave, List.length_cons, this]
    omega

theorem getD_ofFn {α : Type} (f : Fin r → α) (d : α) (i : Fin r) : (List.ofFn f).getD i.1 d = f i := by
  rw [List.getD_eq_getElem?_getD, List.getElem?_eq_getElem (by simp), List.getElem_ofFn]
  rfl

theorem ofFn_eq_of_getD {α : Type} (d : α) (l : List α) (hl : l.length = 2 * r) :
    l = interleave (List.ofFn fun i : Fin r => l.getD (2 * i.1) d) (List.ofFn fun i : Fin r => l.getD (2 * i.1 + 1) d) := by
  have hlen : (interleave (List.ofFn fun i : Fin r => l.getD (2 * i.1) d) (List.ofFn fun i : Fin r => l.getD (2 * i.1 + 1) d)).length =
      2 * r := by
    rw [interleave_length _ _ (by simp)]; simp
  refine List.ext_getElem (by rw [hl, hlen]) fun i h1 h2 => ?_
  have hi : i / 2 < r := by omega
  have key := interleave_getD d (List.ofFn fun i : Fin r => l.getD (2 * i.1) d) (List.ofFn fun i : Fin r => l.getD (2 * i.1 + 1) d)
    (by simp) (i / 2) (by simpa using hi)
  have g1 := getD_ofFn (fun i : Fin r => l.getD (2 * i.1) d) d ⟨i / 2, hi⟩
  have g2 := getD_ofFn (fun i : Fin r => l.getD (2 * i.1 + 1) d) d ⟨i / 2, hi⟩
  simp only at g1 g2
  rw [g1, g2] at key
  have f1 : l[i] = l.getD i d := by rw [List.getD_eq_getElem?_getD, List.getElem?_eq_getElem h1]; rfl
  have f2 := (congrArg (Option.getD · d) (List.getElem?_eq_getElem h2)).symm
  rw [← List.getD_eq_getElem?_getD] at f2
  change _ = _ at f2
  rw [f1]
  refine Eq.trans ?_ f2.symm
  rcases Nat.mod_two_eq_zero_or_one i with h | h
  · have e : 2 * (i / 2) = i := by omega
    rw [e] at key
    exact key.1.symm
  · have e : 2 * (i / 2) + 1 = i := by omega
    rw [e] at key
    exact key.2.symm

theorem wormC_pairWorm (a b : Fin r → BOp ℤ) : wormC r (pairWorm a b) = a := by
  funext i
  have h1 := (interleave_getD 0 (List.ofFn fun i => (a i).1) (List.ofFn fun i => (b i).1) (by simp) i.1 (by simp)).1
  have h2 := (interleave_getD 0 (List.ofFn fun i => (a i).2) (List.ofFn fun i => (b i).2) (by simp) i.1 (by simp)).1
  rw [getD_ofFn (fun i => (a i).1)] at h1
  rw [getD_ofFn (fun i => (a i).2)] at h2
  exact Prod.ext h1 h2

theorem wormCd_pairWorm (a b : Fin r → BOp ℤ) : wormCd r (pairWorm a b) = b := by
  funext i
  have h1 := (interleave_getD 0 (List.ofFn fun i => (a i).1) (List.ofFn fun i => (b i).1) (by simp) i.1 (by simp)).2
  have h2 := (interleave_getD 0 (List.ofFn fun i => (a i).2) (List.ofFn fun i => (b i).2) (by simp) i.1 (by simp)).2
  rw [getD_ofFn (fun i => (b i).1)] at h1
  rw [getD_ofFn (fun i => (b i).2)] at h2
  exact Prod.ext h1 h2

theorem pairWorm_eq {w : Worm ℤ} (hv : w.Valid) (hk : w.kind = .green r) : pairWorm (wormC r w) (wormCd r w) = w := by
  obtain ⟨k, t, f⟩ := w
  obtain ⟨h1, h2⟩ := hv
  simp only at hk
  subst hk
  unfold pairWorm wormC wormCd
  simp only
  rw [← ofFn_eq_of_getD 0 t h1, ← ofFn_eq_of_getD 0 f h2]

theorem pairWorm_valid (a b : Fin r → BOp ℤ) : (pairWorm a b).Valid := by
  refine ⟨?_, ?_⟩
  · change (interleave _ _).length = 2 * r
    rw [interleave_length _ _ (by simp)]; simp
  · change (interleave _ _).length = 2 * r
    rw [interleave_length _ _ (by simp)]; simp

/-- The operators of the worm in the trace. -/
theorem green_wops (tau : ℤ → ℝ) {w : Worm ℤ} (hk : w.kind = .green r) : wormOps (codeWops tau (some w)) =
    pairOps (mkOp tau .annihilation ∘ wormC r w) (mkOp tau .creation ∘ wormCd r w) := by
  have gen : ∀ (f g : ℕ → TPsi ℝ), ((List.range r).flatMap fun i => [f i, g i]) =
      interleave (List.ofFn fun i : Fin r => f i) (List.ofFn fun i : Fin r => g i) := by
    intro f g
    have hof : ∀ (f : ℕ → TPsi ℝ), (List.range r).map f = List.ofFn fun i : Fin r => f i := by
      intro f
      apply List.ext_getElem <;> simp
    have : ∀ l : List ℕ, (l.flatMap fun i => [f i, g i]) = interleave (l.map f) (l.map g) := by
      intro l
      induction l with
      | nil => rfl
      | cons x l ih => simp only [List.flatMap_cons, List.map_cons, interleave, ih]; rfl
    rw [this, hof, hof]
  simp only [codeWops, Option.map_some, wormOps, Worm.operators, hk, List.map_flatMap, List.map_cons, List.map_nil]
  rw [gen]
  rfl

end worm

/-! ### The term of a configuration -/

variable {A : CodeArgs 𝕜 N} {tau : ℤ → ℝ}

theorem signedW_same {x y : WCfg ℤ} (e : x.Same y) (hn : ((x.ops tau (codeWops tau)).map Psi.time).Nodup) :
    signedW A tau x = signedW A tau y := by
  have hn2 : ((y.ops tau (codeWops tau)).map Psi.time).Nodup := ((e.ops_perm).map Psi.time).nodup_iff.1 hn
  have es : x.sorted tau (codeWops tau) = y.sorted tau (codeWops tau) :=
    sorted_unique (x.sorted_sorted hn) (y.sorted_sorted hn2)
      ((x.sorted_perm.trans e.ops_perm).trans y.sorted_perm.symm)
  have hn' := hn
  rw [PCfg.ops, List.map_append, List.map_append] at hn'
  have n1 := (List.nodup_append.1 (List.nodup_append.1 hn').1).1
  have n2 := (List.nodup_append.1 (List.nodup_append.1 hn').1).2.1
  unfold signedW CodeArgs.weight
  rw [es, timeDet_congr A.G (e.2.1.map _) (e.1.map _) n2 n1,
    (C05_perm_sign_invariant _ _ _ _ _).2 (e.1.map (mkOp tau .creation)) (e.2.1.map (mkOp tau .annihilation)), e.2.2]

/-- The absolute value of the term is the weight. -/
theorem norm_signedW (x : WCfg ℤ) : ‖signedW A tau x‖ = cfgW A tau (codeWops tau) x := by
  unfold signedW cfgW
  rw [norm_mul]
  rcases (C05_perm_sign_invariant (x.cd.map (mkOp tau .creation)) [] (x.c.map (mkOp tau .annihilation)) []
    (wormOps (codeWops tau x.worm))).1 with e | e <;> rw [e] <;> simp

/-- The trace as a function of the set of operators. -/
noncomputable def trOf (A : CodeArgs 𝕜 N) (ms : Multiset (TPsi ℝ)) : 𝕜 := fullTrace (ebEnv A.B A.p A.beta) (timeSort ms.toList)

/-- The weight of `C36` is the term of the configuration. -/
theorem cfgWeight_signedW (x : WCfg ℤ) (hn : ((x.ops tau (codeWops tau)).map Psi.time).Nodup) :
    cfgWeight (trOf A) A.G (x.c.map (mkOp tau .annihilation)) (x.cd.map (mkOp tau .creation)) (wormOps (codeWops tau x.worm)) =
      signedW A tau x := by
  unfold cfgWeight signedW CodeArgs.weight trOf
  have e : timeSort (((x.c.map (mkOp tau .annihilation) ++ x.cd.map (mkOp tau .creation) ++
      wormOps (codeWops tau x.worm) : List (TPsi ℝ)) : Multiset (TPsi ℝ)).toList) = x.sorted tau (codeWops tau) := by
    change _ = timeSort (x.ops tau (codeWops tau))
    refine (timeSort_congr ?_ hn).symm
    refine List.Perm.trans ?_ (Multiset.coe_eq_coe.1 (Multiset.coe_toList _)).symm
    exact List.perm_append_comm.append_right _
  rw [e]
  ring

/-! ### Exchange of operators -/

section exch
variable {n r : ℕ}

/-- The configuration in which the operators `a`, `b` form the worm. -/
def exchCfg (γc γd : Fin n ⊕ Fin r → BOp ℤ) (a b : Fin r → Fin n ⊕ Fin r) : WCfg ℤ :=
  ⟨restOps γd b, restOps γc a, some (pairWorm (γc ∘ a) (γd ∘ b))⟩

theorem restOps_map {α β : Type} (f : α → β) (γ : Fin n ⊕ Fin r → α) (a : Fin r → Fin n ⊕ Fin r) :
    (restOps γ a).map f = restOps (f ∘ γ) a := by
  unfold restOps
  rw [List.map_map]

theorem exchCfg_ops (γc γd : Fin n ⊕ Fin r → BOp ℤ) {a b : Fin r → Fin n ⊕ Fin r} (ha : Function.Injective a)
    (hb : Function.Injective b) : ((exchCfg γc γd a b).ops tau (codeWops tau)).Perm
      (allOps (mkOp tau .creation ∘ γd) ++ allOps (mkOp tau .annihilation ∘ γc)) := by
  have h1 := restOps_perm (mkOp tau .creation ∘ γd) b hb
  have h2 := restOps_perm (mkOp tau .annihilation ∘ γc) a ha
  have h3 : (wormOps (codeWops tau (some (pairWorm (γc ∘ a) (γd ∘ b))))).Perm
      (List.ofFn (mkOp tau .annihilation ∘ γc ∘ a) ++ List.ofFn (mkOp tau .creation ∘ γd ∘ b)) := by
    rw [green_wops tau (r := r) rfl, wormC_pairWorm, wormCd_pairWorm]
    exact interleave_perm' _ _ (by simp)
  refine List.Perm.trans ?_ (h1.append h2)
  unfold PCfg.ops exchCfg
  simp only [restOps_map]
  refine (h3.append_left _).trans ?_
  simp only [List.append_assoc]
  refine List.Perm.append_left _ ?_
  refine (List.Perm.append_left _ List.perm_append_comm).trans ?_
  rw [← List.append_assoc, ← List.append_assoc]
  exact List.perm_append_comm.append_right _

/-- The weight with exchanged operators is the term of the configuration. -/
theorem exchWeight_signedW (γc γd : Fin n ⊕ Fin r → BOp ℤ) {a b : Fin r → Fin n ⊕ Fin r} (ha : Function.Injective a)
    (hb : Function.Injective b)
    (hn : ((allOps (mkOp tau .creation ∘ γd) ++ allOps (mkOp tau .annihilation ∘ γc)).map Psi.time).Nodup) :
    exchWeight (trOf A) A.G (mkOp tau .annihilation ∘ γc) (mkOp tau .creation ∘ γd) a b = signedW A tau (exchCfg γc γd a b) := by
  rw [← cfgWeight_signedW _ (((exchCfg_ops γc γd ha hb).map _).nodup_iff.2 hn)]
  unfold exchWeight
  congr 1
  · exact (restOps_map _ _ _).symm
  · exact (restOps_map _ _ _).symm
  · change _ = wormOps (codeWops tau (some (pairWorm (γc ∘ a) (γd ∘ b))))
    rw [green_wops tau (r := r) rfl, wormC_pairWorm, wormCd_pairWorm]
    rfl

end exch

end CTHyb
