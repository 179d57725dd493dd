import Mathlib.Analysis.Calculus.ParametricIntegral
import Verif.ContOrderProps
import Verif.TailProps

/-!
# C90: Green's function by removal in continuous time

The numbers added to `g_meas_` (src/measurement/measurement.hpp:54-99) after the loop of `update` with real times.

Specification: `zLine`, the integral over the configurations without worm which have a weight, as a function of one Legendre coefficient
of the hybridization function.
-/

namespace CTHyb

open Rand MeasureTheory ENNReal Matrix Topology

variable {𝕜 : Type} [RCLike 𝕜] {N : ℕ}

/-! ### Specification -/

/-- **Specification.**  The model with `e` added to the Legendre coefficient `il` of the hybridization function between the flavors. -/
noncomputable def lineA (A : CodeArgs 𝕜 N) (fa fc il : ℕ) (e : ℝ) : CodeArgs 𝕜 N :=
  { A with G := fun o o' => A.G o o' + (e : 𝕜) * lineDir A.beta fa fc il o o' }

open Classical in
/-- **Specification.**  The integral of a component `φ` of the terms, over the configurations without worm which have a weight. -/
noncomputable def zLine (A : CodeArgs 𝕜 N) (φ : 𝕜 →L[ℝ] ℝ) (fa fc il : ℕ) (e : ℝ) : ℝ :=
  cfgInt A.beta A.P.nf (none : Option (Worm ℝ)) fun X X' ω => if codeW A X X' ω = 0 then 0 else φ (signedC (lineA A fa fc il e) X X' ω)

/-! ### Derivative of the determinant -/

theorem det_line {n : ℕ} (P Q : Matrix (Fin n) (Fin n) 𝕜) (e : ℝ) : ∃ d : 𝕜,
    HasDerivAt (fun e : ℝ => (Matrix.of fun i j => P i j + (e : 𝕜) * Q i j).det) d e ∧
    ∀ C : ℝ, 0 ≤ C → (∀ i j, ‖P i j + (e : 𝕜) * Q i j‖ ≤ C) → (∀ i j, ‖Q i j‖ ≤ C) → ‖d‖ ≤ n * (n.factorial * C ^ n) := by
  have h0 : ∀ i j, HasDerivAt (fun e : ℝ => P i j + (e : 𝕜) * Q i j) (Q i j) e := fun i j => by
    have h1 : HasDerivAt (fun e : ℝ => (e : 𝕜)) 1 e := by
      simpa using (RCLike.ofRealCLM (K := 𝕜)).hasDerivAt (x := e)
    simpa using (h1.mul_const (Q i j)).const_add (P i j)
  refine ⟨∑ s : Equiv.Perm (Fin n), ((Equiv.Perm.sign s : ℤ) : 𝕜) *
    ∑ i, (∏ j ∈ Finset.univ.erase i, (P (s j) j + (e : 𝕜) * Q (s j) j)) • Q (s i) i, ?_, fun C hC hP hQ => ?_⟩
  · simp only [Matrix.det_apply', Matrix.of_apply]
    exact HasDerivAt.fun_sum fun s _ => (HasDerivAt.fun_finsetProd fun i _ => h0 (s i) i).const_mul _
  · have hs : ∀ s : Equiv.Perm (Fin n), ‖((Equiv.Perm.sign s : ℤ) : 𝕜)‖ = 1 := fun s => by
      rcases Int.units_eq_one_or (Equiv.Perm.sign s) with h | h <;> rw [h] <;> simp
    have hi : ∀ (s : Equiv.Perm (Fin n)) (i : Fin n),
        ‖(∏ j ∈ Finset.univ.erase i, (P (s j) j + (e : 𝕜) * Q (s j) j)) • Q (s i) i‖ ≤ C ^ n := fun s i => by
      rw [norm_smul, norm_prod]
      have h1 : ∏ j ∈ Finset.univ.erase i, ‖P (s j) j + (e : 𝕜) * Q (s j) j‖ ≤ C ^ (n - 1) := by
        refine (Finset.prod_le_prod (fun _ _ => norm_nonneg _) fun j _ => hP (s j) j).trans ?_
        rw [Finset.prod_const, Finset.card_erase_of_mem (Finset.mem_univ _), Finset.card_univ, Fintype.card_fin]
      refine (mul_le_mul h1 (hQ _ _) (norm_nonneg _) (by positivity)).trans (le_of_eq ?_)
      rw [← pow_succ, Nat.sub_add_cancel (Fin.pos i)]
    refine (norm_sum_le _ _).trans ?_
    have hb : ∀ s ∈ (Finset.univ : Finset (Equiv.Perm (Fin n))), ‖((Equiv.Perm.sign s : ℤ) : 𝕜) *
        ∑ i, (∏ j ∈ Finset.univ.erase i, (P (s j) j + (e : 𝕜) * Q (s j) j)) • Q (s i) i‖ ≤ n * C ^ n := fun s _ => by
      rw [norm_mul, hs, one_mul]
      refine (norm_sum_le _ _).trans ((Finset.sum_le_card_nsmul _ _ _ fun i _ => hi s i).trans (le_of_eq ?_))
      rw [Finset.card_univ, Fintype.card_fin, nsmul_eq_mul]
    refine (Finset.sum_le_card_nsmul _ _ _ hb).trans (le_of_eq ?_)
    rw [Finset.card_univ, Fintype.card_perm, Fintype.card_fin, nsmul_eq_mul]
    ring

theorem timeDet_line (G D : TPsi ℝ → TPsi ℝ → 𝕜) (cs cds : List (TPsi ℝ)) (e : ℝ) : ∃ d : 𝕜,
    HasDerivAt (fun e : ℝ => timeDet (fun a b => G a b + (e : 𝕜) * D a b) cs cds) d e ∧
    ∀ C : ℝ, 0 ≤ C → (∀ a ∈ cs, ∀ b ∈ cds, ‖G a b + (e : 𝕜) * D a b‖ ≤ C) → (∀ a ∈ cs, ∀ b ∈ cds, ‖D a b‖ ≤ C) →
      ‖d‖ ≤ if cds.length = cs.length then cs.length * (cs.length.factorial * C ^ cs.length) else 0 := by
  have l1 := (timeSort_perm cs).length_eq
  have l2 := (timeSort_perm cds).length_eq
  unfold timeDet listDet
  by_cases h : (timeSort cds).length = (timeSort cs).length
  · obtain ⟨d, hd, hb⟩ := det_line (fun i j : Fin (timeSort cs).length => G ((timeSort cs).get i) ((timeSort cds).get (j.cast h.symm)))
      (fun i j => D ((timeSort cs).get i) ((timeSort cds).get (j.cast h.symm))) e
    refine ⟨d, ?_, fun C hC hG hD => ?_⟩
    · simp only [dif_pos h]
      exact hd
    · rw [if_pos (by omega), ← l1]
      exact hb C hC (fun i j => hG _ ((timeSort_perm cs).mem_iff.1 (List.get_mem _ _)) _ ((timeSort_perm cds).mem_iff.1 (List.get_mem _ _)))
        fun i j => hD _ ((timeSort_perm cs).mem_iff.1 (List.get_mem _ _)) _ ((timeSort_perm cds).mem_iff.1 (List.get_mem _ _))
  · refine ⟨0, ?_, fun C hC _ _ => ?_⟩
    · simp only [dif_neg h]
      exact hasDerivAt_const _ _
    · rw [norm_zero]
      split_ifs <;> positivity

/-! ### The direction -/

theorem measurable_legendreBasis (β : ℝ) (l : ℕ) : Measurable (legendreBasis β l) := by
  unfold legendreBasis
  have hc := (continuous_legendreP l).measurable
  refine Measurable.ite (measurableSet_lt measurable_const measurable_id) ?_ ?_
  · exact (hc.comp (by fun_prop)).const_mul _
  · exact ((hc.comp (by fun_prop)).const_mul _).neg

theorem legendreBasis_bound {β : ℝ} (hβ : 0 < β) (l : ℕ) : ∃ C : ℝ, 0 ≤ C ∧ ∀ t, -β ≤ t → t ≤ β → |legendreBasis β l t| ≤ C := by
  obtain ⟨K, hK⟩ := (isCompact_Icc (a := (-1 : ℝ)) (b := 1)).exists_bound_of_continuousOn (continuous_legendreP l).continuousOn
  have hK0 : 0 ≤ K := (norm_nonneg _).trans (hK 0 (by norm_num))
  refine ⟨Real.sqrt (2 * l + 1) * K, by positivity, fun t h1 h2 => ?_⟩
  have hx : ∀ u, 0 ≤ u → u ≤ β → 2 * u / β - 1 ∈ Set.Icc (-1 : ℝ) 1 := fun u a b => by
    constructor
    · have : 0 ≤ 2 * u / β := by positivity
      linarith
    · have : 2 * u / β ≤ 2 := by rw [div_le_iff₀ hβ]; linarith
      linarith
  unfold legendreBasis
  split_ifs with h
  · rw [abs_mul, abs_of_nonneg (Real.sqrt_nonneg _)]
    exact mul_le_mul_of_nonneg_left (hK _ (hx t h.le h2)) (Real.sqrt_nonneg _)
  · rw [abs_neg, abs_mul, abs_of_nonneg (Real.sqrt_nonneg _)]
    exact mul_le_mul_of_nonneg_left (hK _ (hx (t + β) (by linarith) (by linarith))) (Real.sqrt_nonneg _)

variable {A : CodeArgs 𝕜 N} {a : LoopC} {k : ℕ} {plan : Rand ℝ (List (ℕ × List (ℕ → ℕ)))}
  {σ : WCfg ℝ → CodeState A (Option (Worm ℝ))} {st : SavedState} {fa fc il : ℕ}

/-- The same terms, with all flavors in one sector. -/
noncomputable def lineF (A : CodeArgs 𝕜 N) (fa fc il : ℕ) (e : ℝ) : CodeArgs 𝕜 N :=
  { lineA A fa fc il e with P := ⟨A.P.nf, 1, fun _ => 0⟩ }

theorem lineF_ok (hA : A.OK) (e : ℝ) : (lineF A fa fc il e).OK :=
  { hA with
    blocks := fun _ _ _ _ h => absurd rfl h
    sectors := fun _ _ => Nat.zero_lt_one }

theorem lineA_meas (hG : Measurable fun q : TPsi ℝ × TPsi ℝ => A.G q.1 q.2) (e : ℝ) :
    Measurable fun q : TPsi ℝ × TPsi ℝ => (lineA A fa fc il e).G q.1 q.2 := by
  have h1 := measurable_time (o := fun q : TPsi ℝ × TPsi ℝ => q.1) measurable_fst
  have h2 := measurable_time (o := fun q : TPsi ℝ × TPsi ℝ => q.2) measurable_snd
  have f1 := measurable_flavor (o := fun q : TPsi ℝ × TPsi ℝ => q.1) measurable_fst
  have f2 := measurable_flavor (o := fun q : TPsi ℝ × TPsi ℝ => q.2) measurable_snd
  refine hG.add (Measurable.const_mul ?_ _)
  unfold lineDir
  refine Measurable.ite ((f1 (measurableSet_singleton fa)).inter (f2 (measurableSet_singleton fc))) ?_ measurable_const
  exact RCLike.continuous_ofReal.measurable.comp ((measurable_legendreBasis _ _).comp (h1.sub h2))

theorem lineA_bound (hb : 0 < A.beta) {C : ℝ} (hC : A.Bounded C) : ∃ K : ℝ, 0 ≤ K ∧ ∀ e : ℝ, |e| ≤ 1 → ∀ o o' : TPsi ℝ,
    o.time.time ∈ Set.Icc 0 A.beta → o'.time.time ∈ Set.Icc 0 A.beta →
      ‖A.G o o' + (e : 𝕜) * lineDir A.beta fa fc il o o'‖ ≤ K ∧ ‖(lineDir A.beta fa fc il o o' : 𝕜)‖ ≤ K := by
  obtain ⟨D, hD0, hD⟩ := legendreBasis_bound hb il
  have hC0 : 0 ≤ C := (norm_nonneg _).trans (hC ⟨⟨0, 0⟩, .creation, 0⟩ ⟨⟨0, 0⟩, .creation, 0⟩ ⟨le_rfl, hb.le⟩ ⟨le_rfl, hb.le⟩)
  have hl : ∀ o o' : TPsi ℝ, o.time.time ∈ Set.Icc 0 A.beta → o'.time.time ∈ Set.Icc 0 A.beta →
      ‖(lineDir A.beta fa fc il o o' : 𝕜)‖ ≤ D := fun o o' h1 h2 => by
    unfold lineDir
    split_ifs
    · rw [RCLike.norm_ofReal]
      exact hD _ (by linarith [h1.1, h2.2]) (by linarith [h1.2, h2.1])
    · rw [norm_zero]; exact hD0
  refine ⟨C + D, by positivity, fun e he o o' h1 h2 => ⟨(norm_add_le _ _).trans (add_le_add (hC o o' h1 h2) ?_),
    (hl o o' h1 h2).trans (by linarith)⟩⟩
  rw [norm_mul, RCLike.norm_ofReal]
  exact (mul_le_mul he (hl o o' h1 h2) (norm_nonneg _) zero_le_one).trans (le_of_eq (one_mul _))

/-! ### Derivative of the terms -/

theorem signedC_line {T M : ℝ} (hT : 0 ≤ T) (hM : 0 ≤ M)
    (htr : ∀ L : List (TPsi ℝ), (∀ o ∈ L, 0 ≤ o.time.time ∧ o.time.time ≤ A.beta) → ‖fullTrace (ebEnv A.B A.p A.beta) L‖ ≤ T * M ^ L.length)
    (fa fc il : ℕ) (X X' : Multiset (BOp ℝ)) (e : ℝ) : ∃ d : 𝕜,
    HasDerivAt (fun e : ℝ => signedC (lineA A fa fc il e) X X' none) d e ∧
    ∀ K : ℝ, 0 ≤ K → (∀ o o' : TPsi ℝ, o.time.time ∈ Set.Icc 0 A.beta → o'.time.time ∈ Set.Icc 0 A.beta →
      ‖A.G o o' + (e : 𝕜) * lineDir A.beta fa fc il o o'‖ ≤ K ∧ ‖(lineDir A.beta fa fc il o o' : 𝕜)‖ ≤ K) →
      (∀ o ∈ X, 0 ≤ o.1 ∧ o.1 ≤ A.beta) → (∀ o ∈ X', 0 ≤ o.1 ∧ o.1 ≤ A.beta) →
      ‖d‖ ≤ if Multiset.card X = Multiset.card X' then
        Multiset.card X' * ((Multiset.card X').factorial * K ^ Multiset.card X') * (T * M ^ (Multiset.card X + Multiset.card X')) else 0 := by
  classical
  by_cases h : CodeCfg A.P.nf ⟨X.toList, X'.toList, none⟩
  swap
  · have e1 : (fun e : ℝ => signedC (lineA A fa fc il e) X X' none) = fun _ => 0 := funext fun e => if_neg h
    refine ⟨0, by rw [e1]; exact hasDerivAt_const _ _, fun K hK _ _ _ => ?_⟩
    rw [norm_zero]
    split_ifs <;> positivity
  set x : WCfg ℝ := ⟨X.toList, X'.toList, none⟩ with hx
  obtain ⟨d, hd, hb⟩ := timeDet_line A.G (lineDir A.beta fa fc il) (x.c.map (mkOp id .annihilation)) (x.cd.map (mkOp id .creation)) e
  have e1 : (fun e : ℝ => signedC (lineA A fa fc il e) X X' none) = fun e : ℝ =>
      ((permSignImpl (x.cd.map (mkOp id .creation)) (x.c.map (mkOp id .annihilation)) (wormOps (codeWops id x.worm)) : ℤ) : 𝕜) *
      (timeDet (fun o o' => A.G o o' + (e : 𝕜) * lineDir A.beta fa fc il o o') (x.c.map (mkOp id .annihilation))
        (x.cd.map (mkOp id .creation)) * fullTrace (ebEnv A.B A.p A.beta) (x.sorted id (codeWops id))) := funext fun e => if_pos h
  rw [e1]
  refine ⟨_, (hd.mul_const _).const_mul _, fun K hK hG hX hX' => ?_⟩
  have hs : ‖((permSignImpl (x.cd.map (mkOp id .creation)) (x.c.map (mkOp id .annihilation)) (wormOps (codeWops id x.worm)) : ℤ) : 𝕜)‖ = 1 := by
    rcases (C05_perm_sign_invariant (T := OpTime ℝ) _ [] _ [] _).1 with h | h <;> rw [h] <;> simp
  have c1 : ∀ o ∈ x.c.map (mkOp id .annihilation), 0 ≤ o.time.time ∧ o.time.time ≤ A.beta := by
    intro o ho
    obtain ⟨y, hy, rfl⟩ := List.mem_map.1 ho
    exact hX' y (Multiset.mem_toList.1 hy)
  have c2 : ∀ o ∈ x.cd.map (mkOp id .creation), 0 ≤ o.time.time ∧ o.time.time ≤ A.beta := by
    intro o ho
    obtain ⟨y, hy, rfl⟩ := List.mem_map.1 ho
    exact hX y (Multiset.mem_toList.1 hy)
  have eops : x.ops id (codeWops id) = x.cd.map (mkOp id .creation) ++ x.c.map (mkOp id .annihilation) := by
    simp [PCfg.ops, hx, codeWops, wormOps]
  have h1 := hb K hK (fun o ho o' ho' => (hG o o' (c1 o ho) (c2 o' ho')).1) fun o ho o' ho' => (hG o o' (c1 o ho) (c2 o' ho')).2
  have h2 := htr (x.sorted id (codeWops id)) fun o ho => by
    have := (x.sorted_perm (tau := id) (wops := codeWops id)).mem_iff.1 ho
    rw [eops, List.mem_append] at this
    exact this.elim (c2 o) (c1 o)
  have l1 : (x.cd.map (mkOp id .creation)).length = Multiset.card X := by simp [hx]
  have l2 : (x.c.map (mkOp id .annihilation)).length = Multiset.card X' := by simp [hx]
  rw [(x.sorted_perm (tau := id) (wops := codeWops id)).length_eq, eops, List.length_append, l1, l2] at h2
  rw [l1, l2] at h1
  rw [norm_mul, hs, one_mul, norm_mul]
  split_ifs at h1 ⊢ with hc
  · exact mul_le_mul h1 h2 (norm_nonneg _) (by positivity)
  · rw [le_antisymm h1 (norm_nonneg _), zero_mul]

/-- Derivative of a component of the term of a configuration. -/
noncomputable def lineD (A : CodeArgs 𝕜 N) (φ : 𝕜 →L[ℝ] ℝ) (fa fc il : ℕ) (X X' : Multiset (BOp ℝ)) (e : ℝ) : ℝ :=
  deriv (fun e : ℝ => φ (signedC (lineA A fa fc il e) X X' none)) e

/-- Bounds of the derivatives: a sum over the orders which converges. -/
theorem lineD_bound (ha : a.OK A) (φ : 𝕜 →L[ℝ] ℝ) (fa fc il : ℕ) :
    (∀ X X' e, HasDerivAt (fun e : ℝ => φ (signedC (lineA A fa fc il e) X X' none)) (lineD A φ fa fc il X X' e) e) ∧
    ∃ B : ℕ × ℕ → ℝ, (∀ p, 0 ≤ B p) ∧
      (Summable fun p : ℕ × ℕ => ((p.1.factorial * p.2.factorial : ℕ) : ℝ)⁻¹ * (B p * (A.beta * A.P.nf) ^ (p.1 + p.2))) ∧
      ∀ m n (z : Lab m n), ((∀ i, 0 ≤ (z.1 i).1 ∧ (z.1 i).1 ≤ A.beta) ∧ ∀ i, 0 ≤ (z.2 i).1 ∧ (z.2 i).1 ≤ A.beta) →
        ∀ e : ℝ, |e| ≤ 1 → |lineD A φ fa fc il (ms z.1) (ms z.2) e| ≤ B (m, n) := by
  obtain ⟨C, hC⟩ := ha.bounded
  obtain ⟨K, hK, hKb⟩ := lineA_bound (fa := fa) (fc := fc) (il := il) ha.beta hC
  obtain ⟨T, M, hT, hM, htr⟩ := trace_bound ha.code
  have hd : ∀ X X' e, HasDerivAt (fun e : ℝ => φ (signedC (lineA A fa fc il e) X X' none)) (lineD A φ fa fc il X X' e) e := fun X X' e => by
    obtain ⟨d, hd, -⟩ := signedC_line hT hM htr fa fc il X X' e
    exact (φ.hasFDerivAt.comp_hasDerivAt e hd).differentiableAt.hasDerivAt
  refine ⟨hd, fun p => if p.1 = p.2 then ‖φ‖ * (p.2 * (p.2.factorial * K ^ p.2) * (T * M ^ (p.1 + p.2))) else 0, fun p => ?_, ?_, ?_⟩
  · simp only
    split_ifs <;> positivity
  · have hinj : Function.Injective fun n : ℕ => (n, n) := fun m n e => (Prod.mk.inj e).1
    have hb := ha.beta
    rw [← hinj.summable_iff]
    · refine Summable.of_nonneg_of_le (fun n => ?_) (fun n => ?_)
        ((Real.summable_pow_div_factorial (2 * (K * (M * (A.beta * A.P.nf)) ^ 2))).mul_left (‖φ‖ * T))
      · simp only [Function.comp, if_true]
        positivity
      · simp only [Function.comp, if_true]
        have h2 : (n : ℝ) ≤ 2 ^ n := by exact_mod_cast Nat.lt_two_pow_self.le
        have hf : (n.factorial : ℝ) ≠ 0 := by positivity
        have e1 : ((n.factorial * n.factorial : ℕ) : ℝ)⁻¹ * (‖φ‖ * (n * (n.factorial * K ^ n) * (T * M ^ (n + n))) * (A.beta * A.P.nf) ^ (n + n)) =
            (‖φ‖ * T) * ((n : ℝ) * (K * (M * (A.beta * A.P.nf)) ^ 2) ^ n / n.factorial) := by
          push_cast
          field_simp
          ring
        rw [e1, mul_pow 2]
        refine mul_le_mul_of_nonneg_left (div_le_div_of_nonneg_right (mul_le_mul_of_nonneg_right h2 ?_) ?_) ?_ <;> positivity
    · rintro ⟨m, n⟩ hp
      have : m ≠ n := fun e => hp ⟨m, by rw [e]⟩
      simp [this]
  · intro m n z hz e he
    obtain ⟨d, hd', hb⟩ := signedC_line hT hM htr fa fc il (ms z.1) (ms z.2) e
    have e1 : lineD A φ fa fc il (ms z.1) (ms z.2) e = φ d := (φ.hasFDerivAt.comp_hasDerivAt e hd').deriv
    have h1 := hb K hK (hKb e he)
      (fun o ho => by
        rw [ms_eq] at ho
        obtain ⟨i, -, rfl⟩ := Multiset.mem_map.1 ho
        exact hz.1 i)
      (fun o ho => by
        rw [ms_eq] at ho
        obtain ⟨i, -, rfl⟩ := Multiset.mem_map.1 ho
        exact hz.2 i)
    rw [card_ms, card_ms] at h1
    rw [e1, ← Real.norm_eq_abs]
    refine (φ.le_opNorm d).trans ?_
    simp only
    split_ifs at h1 ⊢ with hc
    · exact mul_le_mul_of_nonneg_left h1 (norm_nonneg _)
    · rw [le_antisymm h1 (norm_nonneg _), mul_zero]

theorem measurable_lineD (ha : a.OK A) (φ : 𝕜 →L[ℝ] ℝ) (m n : ℕ) (e : ℝ) :
    Measurable fun z : Lab m n => lineD A φ fa fc il (ms z.1) (ms z.2) e := by
  obtain ⟨hd, -⟩ := lineD_bound ha φ fa fc il
  have hm : ∀ e, Measurable fun z : Lab m n => φ (signedC (lineA A fa fc il e) (ms z.1) (ms z.2) none) := fun e =>
    φ.continuous.measurable.comp ((signedC_wmeas (lineF_ok ha.code e) (lineA_meas ha.meas e)).none m n)
  have ht : Filter.Tendsto (fun i : ℕ => (1 : ℝ) / ((i : ℝ) + 1)) Filter.atTop (𝓝[≠] 0) :=
    tendsto_nhdsWithin_iff.2 ⟨tendsto_one_div_add_atTop_nhds_zero_nat, Filter.Eventually.of_forall fun i => by
      have : (0 : ℝ) < (i : ℝ) + 1 := by positivity
      exact (one_div_pos.2 this).ne'⟩
  refine measurable_of_tendsto_metrizable (f := fun (i : ℕ) (z : Lab m n) => ((1 : ℝ) / ((i : ℝ) + 1))⁻¹ *
    (φ (signedC (lineA A fa fc il (e + 1 / ((i : ℝ) + 1))) (ms z.1) (ms z.2) none) - φ (signedC (lineA A fa fc il e) (ms z.1) (ms z.2) none)))
    (fun i => ((hm (e + 1 / ((i : ℝ) + 1))).sub (hm e)).const_mul _) ?_
  rw [tendsto_pi_nhds]
  intro z
  exact (hasDerivAt_iff_tendsto_slope_zero.1 (hd (ms z.1) (ms z.2) e)).comp ht

/-! ### Derivative of the integral -/

/-- The derivative where the configuration has a weight. -/
noncomputable def lineW (A : CodeArgs 𝕜 N) (φ : 𝕜 →L[ℝ] ℝ) (fa fc il : ℕ) (e : ℝ) (X X' : Multiset (BOp ℝ)) : ℝ :=
  if codeW A X X' none = 0 then 0 else lineD A φ fa fc il X X' e

theorem finite_labMeasure (β : ℝ) (nf m n : ℕ) : IsFiniteMeasure (labMeasure β nf m n) := ⟨by
  rw [labMeasure_univ]
  have : ENNReal.ofReal β * (nf : ℝ≥0∞) ≠ ∞ := ENNReal.mul_ne_top ENNReal.ofReal_ne_top (ENNReal.natCast_ne_top _)
  exact ENNReal.mul_lt_top (ENNReal.pow_ne_top this).lt_top (ENNReal.pow_ne_top this).lt_top⟩

theorem labMeasure_real {β : ℝ} (hβ : 0 ≤ β) (nf m n : ℕ) : (labMeasure β nf m n).real Set.univ = (β * nf) ^ (m + n) := by
  rw [measureReal_def, labMeasure_univ, ENNReal.toReal_mul, ENNReal.toReal_pow, ENNReal.toReal_pow, ENNReal.toReal_mul,
    ENNReal.toReal_ofReal hβ, ENNReal.toReal_natCast, pow_add]

theorem line_bound (ha : a.OK A) (φ : 𝕜 →L[ℝ] ℝ) {e : ℝ} (he : |e| ≤ 1) :
    ∃ B : ℕ × ℕ → ℝ, (∀ p, 0 ≤ B p) ∧
      (Summable fun p : ℕ × ℕ => ((p.1.factorial * p.2.factorial : ℕ) : ℝ)⁻¹ * (B p * (A.beta * A.P.nf) ^ (p.1 + p.2))) ∧
      ∀ m n (z : Lab m n), ((∀ i, 0 ≤ (z.1 i).1 ∧ (z.1 i).1 ≤ A.beta) ∧ ∀ i, 0 ≤ (z.2 i).1 ∧ (z.2 i).1 ≤ A.beta) →
        |φ (signedC (lineA A fa fc il e) (ms z.1) (ms z.2) none)| ≤ B (m, n) := by
  obtain ⟨C, hC⟩ := ha.bounded
  obtain ⟨K, hK, hKb⟩ := lineA_bound (fa := fa) (fc := fc) (il := il) ha.beta hC
  obtain ⟨T, M, hT, hM, hbd⟩ := codeW_bound (lineF_ok (fa := fa) (fc := fc) (il := il) ha.code e) (C := K) fun o o' h1 h2 => (hKb e he o o' h1 h2).1
  have hb := ha.beta
  refine ⟨fun p => if p.1 = p.2 then ‖φ‖ * (p.2.factorial * K ^ p.2 * (T * M ^ (p.1 + p.2))) else 0, fun p => ?_, ?_, ?_⟩
  · simp only
    split_ifs <;> positivity
  · have hinj : Function.Injective fun n : ℕ => (n, n) := fun m n e => (Prod.mk.inj e).1
    rw [← hinj.summable_iff]
    · refine ((Real.summable_pow_div_factorial (K * (M * (A.beta * A.P.nf)) ^ 2)).mul_left (‖φ‖ * T)).congr fun n => ?_
      simp only [Function.comp, if_true]
      have hf : (n.factorial : ℝ) ≠ 0 := by positivity
      push_cast
      field_simp
      ring
    · rintro ⟨m, n⟩ hp
      have : m ≠ n := fun e => hp ⟨m, by rw [e]⟩
      simp [this]
  · intro m n z hz
    have h1 := codeW_lab hbd (ω := none) (by simp [codeWops, wormOps]) z hz
    have e1 : (codeW (lineF A fa fc il e)).at (z.cfg none) = ‖signedC (lineA A fa fc il e) (ms z.1) (ms z.2) none‖ := (norm_signedC _ _ _ _).symm
    rw [e1] at h1
    rw [← Real.norm_eq_abs]
    refine (φ.le_opNorm _).trans ?_
    simp only
    split_ifs at h1 ⊢ with hc
    · subst hc
      exact mul_le_mul_of_nonneg_left h1 (norm_nonneg _)
    · rw [le_antisymm h1 (norm_nonneg _), mul_zero]

theorem zLine_deriv (ha : a.OK A) (φ : 𝕜 →L[ℝ] ℝ) :
    HasDerivAt (zLine A φ fa fc il)
      (cfgInt A.beta A.P.nf (none : Option (Worm ℝ)) fun X X' _ => lineW A φ fa fc il 0 X X') 0 := by
  obtain ⟨hd, B, hB0, hB, hb⟩ := lineD_bound ha φ fa fc il
  obtain ⟨hwm, -⟩ := C83_weight ha.code ha.meas
  have hw0 : ∀ m n, MeasurableSet {z : Lab m n | codeW A (ms z.1) (ms z.2) none = 0} := fun m n =>
    (hwm.none m n) (measurableSet_singleton 0)
  set F : (p : ℕ × ℕ) → ℝ → Lab p.1 p.2 → ℝ := fun p e z =>
    if codeW A (ms z.1) (ms z.2) none = 0 then 0 else φ (signedC (lineA A fa fc il e) (ms z.1) (ms z.2) none) with hF
  have hFm : ∀ p e, Measurable (F p e) := fun p e => Measurable.ite (hw0 _ _) measurable_const
    (φ.continuous.measurable.comp ((signedC_wmeas (lineF_ok ha.code e) (lineA_meas ha.meas e)).none p.1 p.2))
  have hDm : ∀ (p : ℕ × ℕ) e, Measurable fun z : Lab p.1 p.2 => lineW A φ fa fc il e (ms z.1) (ms z.2) := fun p e =>
    Measurable.ite (hw0 _ _) measurable_const (measurable_lineD ha φ p.1 p.2 e)
  have hFd : ∀ p e z, HasDerivAt (fun e => F p e z) (lineW A φ fa fc il e (ms z.1) (ms z.2)) e := fun p e z => by
    simp only [hF, lineW]
    split_ifs
    · exact hasDerivAt_const _ _
    · exact hd _ _ _
  have hWb : ∀ p : ℕ × ℕ, ∀ᵐ z ∂(labMeasure A.beta A.P.nf p.1 p.2), ∀ e ∈ Set.Ioo (-1 : ℝ) 1,
      ‖lineW A φ fa fc il e (ms z.1) (ms z.2)‖ ≤ B p := fun p =>
    (ae_labMeasure A.beta A.P.nf p.1 p.2).mono fun z hz e he => by
      unfold lineW
      split_ifs
      · rw [norm_zero]; exact hB0 p
      · exact hb p.1 p.2 z hz e (abs_le.2 ⟨he.1.le, he.2.le⟩)
  have hFb : ∀ e ∈ Set.Ioo (-1 : ℝ) 1, ∃ B' : ℕ × ℕ → ℝ,
      (Summable fun p : ℕ × ℕ => ((p.1.factorial * p.2.factorial : ℕ) : ℝ)⁻¹ * (B' p * (A.beta * A.P.nf) ^ (p.1 + p.2))) ∧
      ∀ p, ∀ᵐ z ∂(labMeasure A.beta A.P.nf p.1 p.2), ‖F p e z‖ ≤ B' p := fun e he => by
    obtain ⟨B', h0, h1, h2⟩ := line_bound (il := il) ha φ (abs_le.2 ⟨he.1.le, he.2.le⟩)
    refine ⟨B', h1, fun p => (ae_labMeasure A.beta A.P.nf p.1 p.2).mono fun z hz => ?_⟩
    simp only [hF]
    split_ifs
    · rw [norm_zero]; exact h0 p
    · exact h2 p.1 p.2 z hz
  have hint : ∀ (p : ℕ × ℕ), ∀ e ∈ Set.Ioo (-1 : ℝ) 1, Integrable (F p e) (labMeasure A.beta A.P.nf p.1 p.2) := fun p e he => by
    have := finite_labMeasure A.beta A.P.nf p.1 p.2
    obtain ⟨B', -, h⟩ := hFb e he
    exact Integrable.of_bound (hFm p e).aestronglyMeasurable (B' p) (h p)
  have hp : ∀ p : ℕ × ℕ, ∀ e ∈ Set.Ioo (-1 : ℝ) 1, HasDerivAt (fun e => ∫ z, F p e z ∂(labMeasure A.beta A.P.nf p.1 p.2))
      (∫ z : Lab p.1 p.2, lineW A φ fa fc il e (ms z.1) (ms z.2) ∂(labMeasure A.beta A.P.nf p.1 p.2)) e := fun p e he => by
    have := finite_labMeasure A.beta A.P.nf p.1 p.2
    exact (hasDerivAt_integral_of_dominated_loc_of_deriv_le (F := F p)
      (F' := fun e z => lineW A φ fa fc il e (ms z.1) (ms z.2)) (bound := fun _ => B p) (Ioo_mem_nhds he.1 he.2)
      (Filter.Eventually.of_forall fun e => (hFm p e).aestronglyMeasurable) (hint p e he) (hDm p e).aestronglyMeasurable (hWb p)
      (integrable_const _) (Filter.Eventually.of_forall fun z e _ => hFd p e z)).2
  have hib : ∀ p : ℕ × ℕ, ∀ e ∈ Set.Ioo (-1 : ℝ) 1,
      ‖∫ z : Lab p.1 p.2, lineW A φ fa fc il e (ms z.1) (ms z.2) ∂(labMeasure A.beta A.P.nf p.1 p.2)‖ ≤ B p * (A.beta * A.P.nf) ^ (p.1 + p.2) :=
    fun p e he => by
      have := finite_labMeasure A.beta A.P.nf p.1 p.2
      rw [← labMeasure_real ha.code.beta]
      exact norm_integral_le_of_norm_le_const ((hWb p).mono fun z hz => hz e he)
  have := hasDerivAt_tsum_of_isPreconnected (𝕜 := ℝ)
    (g := fun (p : ℕ × ℕ) (e : ℝ) => ((p.1.factorial * p.2.factorial : ℕ) : ℝ)⁻¹ * ∫ z, F p e z ∂(labMeasure A.beta A.P.nf p.1 p.2))
    (g' := fun p e => ((p.1.factorial * p.2.factorial : ℕ) : ℝ)⁻¹ *
      ∫ z : Lab p.1 p.2, lineW A φ fa fc il e (ms z.1) (ms z.2) ∂(labMeasure A.beta A.P.nf p.1 p.2))
    (t := Set.Ioo (-1) 1) (y₀ := 0) (y := 0) hB isOpen_Ioo isPreconnected_Ioo
    (fun p e he => (hp p e he).const_mul _)
    (fun p e he => by
      rw [norm_mul, Real.norm_of_nonneg (by positivity)]
      exact mul_le_mul_of_nonneg_left (hib p e he) (by positivity)) (by norm_num) ?_ (by norm_num)
  · exact this
  · obtain ⟨B', h1, h2⟩ := hFb 0 (by norm_num)
    refine Summable.of_norm_bounded h1 fun p => ?_
    have := finite_labMeasure A.beta A.P.nf p.1 p.2
    rw [norm_mul, Real.norm_of_nonneg (by positivity), ← labMeasure_real ha.code.beta]
    exact mul_le_mul_of_nonneg_left (norm_integral_le_of_norm_le_const (h2 p)) (by positivity)

/-! ### What is recorded in one configuration -/

theorem recordG_at (ha : a.OK A) {x : WCfg ℝ} {s : CodeState A (Option (Worm ℝ))} {st : SavedState} (h : Stands A st x s)
    (hw : x.worm = none) {nl : ℕ} (hil : il < nl) (φ : 𝕜 →L[ℝ] ℝ) :
    (codeW A).at x * φ (recordG A nl fa fc il s.1) = -1 / A.beta * lineD A φ fa fc il x.cd x.c 0 := by
  classical
  have hs := h.inv
  have hr := h.reps
  have hE := C60_lawful A ha.code
  have hn := hr.nodup hs
  have eo : x.sorted id (codeWops id) = s.1.cfg.ops :=
    sorted_unique (x.sorted_sorted hn) hs.cons.1 (x.sorted_perm.trans (hr.ops_perm hs))
  have hn' := hn
  rw [PCfg.ops, List.map_append, List.map_append] at hn'
  have n1 := (List.nodup_append.1 (List.nodup_append.1 hn').1).1
  have n2 := (List.nodup_append.1 (List.nodup_append.1 hn').1).2.1
  have hpp : permSignImpl (x.cd.map (mkOp id .creation)) (x.c.map (mkOp id .annihilation)) (wormOps (codeWops id x.worm)) =
      s.1.cfg.permSign := by
    rw [hs.sign.1, ← hr.wops]
    exact hE.perm_congr _ _ _ _ _ hr.cd.symm hr.c.symm
  have key : ∀ A' : CodeArgs 𝕜 N, signedR A' x =
      (s.1.cfg.permSign : 𝕜) * A'.weight (A.env.D.cdagg s.1.cfg.M) (A.env.D.cs s.1.cfg.M) s.1.cfg.ops := by
    intro A'
    unfold signedR CodeArgs.weight
    rw [hpp, eo, timeDet_congr A'.G hr.c.symm hr.cd.symm n2 n1]
  have hcc := hr.codeCfg hs
  have hterm : ∀ e : ℝ, A.contrib s.1 (fun a c => A.G a c + (e : 𝕜) * lineDir A.beta fa fc il a c) =
      signedC (lineA A fa fc il e) x.cd x.c none := by
    intro e
    have e0 : CodeCfg (lineA A fa fc il e).P.nf x := hcc
    have e1 := signedC_at (lineA A fa fc il e) x
    rw [if_pos e0, key] at e1
    have e2 : (signedC (lineA A fa fc il e)).at x = signedC (lineA A fa fc il e) x.cd x.c none := by
      show signedC _ _ _ x.worm = _
      rw [hw]
    rw [← e2, e1]
    rfl
  obtain ⟨m, hm, hinv⟩ := hs.inv
  obtain ⟨acc, e, -, ev⟩ := C63_measure A ha.code hs nl .zero
  have er : recordG A nl fa fc il s.1 = acc.g fa fc il := by
    unfold recordG
    rw [e]; rfl
  have hD := A.contrib_deriv ha.code hs hm hinv (lineDir A.beta fa fc il)
  have h0 : HasDerivAt (fun e : ℝ => (e : 𝕜)) 1 0 := by
    simpa using (RCLike.ofRealCLM (K := 𝕜)).hasDerivAt (x := (0 : ℝ))
  have hD' := hD.deriv ▸ hD
  rw [← RCLike.ofReal_zero] at hD'
  have hR := HasDerivAt.scomp (0 : ℝ) hD' h0
  have hφ := φ.hasFDerivAt.comp_hasDerivAt (0 : ℝ) hR
  have hl : lineD A φ fa fc il x.cd x.c 0 =
      φ (deriv (fun e : 𝕜 => A.contrib s.1 fun a c => A.G a c + e * lineDir A.beta fa fc il a c) 0) := by
    unfold lineD
    simp only [← hterm]
    have := hφ.deriv
    rw [one_smul, RCLike.ofReal_zero] at this
    exact this
  have hlin : ∀ (b : ℝ) (y : 𝕜), φ ((b : 𝕜) * y) = b * φ y := by
    intro b y
    rw [← RCLike.real_smul_eq_coe_mul, map_smul, smul_eq_mul]
  have hG0 : (fun a b => A.G a b + ((0 : ℝ) : 𝕜) * lineDir A.beta fa fc il a b) = A.G := by
    funext a b; rw [RCLike.ofReal_zero, zero_mul, add_zero]
  have hN : ‖A.contrib s.1 A.G‖ = (codeW A).at x := by
    have e1 := signedC_at A x
    rw [if_pos hcc, key A] at e1
    show _ = codeW A x.cd x.c x.worm
    rw [← norm_signedC]
    exact congrArg norm e1.symm
  have hv := ev fa fc il hil
  simp only [RemovalAcc.zero, sub_zero] at hv
  rw [hN, ← er] at hv
  rw [← hlin, hv, hl, ← hlin]
  push_cast
  rfl

/-! ### The mean -/

/-- **C90.**  In equilibrium the mean of what is added to `g_meas_[fa][fc][il]`, divided by the mean of the sign, is `-1/β` times the
derivative of the integral over the configurations without worm with respect to the `il`-th Legendre coefficient of the hybridization
function between the flavors, divided by this integral; for the real and the imaginary part (`φ`).  Missing for the full statement: as in
`C83_loop_partial`; configurations without a weight, which are not visited. -/
theorem C90_removal_partial (ha : a.OK A) (hp : PlanC A plan) (hst : WindowOK 0 st) (hσ : StatesC A st σ)
    {nl : ℕ} (hil : il < nl) (φ : 𝕜 →L[ℝ] ℝ) :
    let E := loopMeanC A a k plan σ
    let inZ : CodeState A (Option (Worm ℝ)) → ℝ := fun s => if s.2 = none then 1 else 0
    DifferentiableAt ℝ (zLine A φ fa fc il) 0 ∧
    (E (fun s => inZ s * φ (recordG A nl fa fc il s.1)) / E inZ) / (E (fun s => inZ s * RCLike.re s.1.cfg.sign) / E inZ) =
      -1 / A.beta * deriv (zLine A φ fa fc il) 0 / cfgInt A.beta A.P.nf none (fun X X' ω => RCLike.re (signedC A X X' ω)) := by
  intro E inZ
  have hder := zLine_deriv (fa := fa) (fc := fc) (il := il) ha φ
  refine ⟨hder.differentiableAt, ?_⟩
  obtain ⟨hd, B, hB0, hB, hb⟩ := lineD_bound ha φ fa fc il
  obtain ⟨hwm, h0, -⟩ := C83_weight ha.code ha.meas
  set d : CfgFun (Option (Worm ℝ)) ℝ := fun X X' _ => -1 / A.beta * lineD A φ fa fc il X X' 0 / codeW A X X' none with hdd
  have hdm : ∀ m n, Measurable fun z : Lab m n => -1 / A.beta * lineD A φ fa fc il (ms z.1) (ms z.2) 0 / codeW A (ms z.1) (ms z.2) none :=
    fun m n => ((measurable_lineD ha φ m n 0).const_mul _).div (hwm.none m n)
  have hdw : d.WMeas A.P.nf := ⟨fun m n => hdm m n, fun _ _ m n => (hdm m n).comp measurable_snd⟩
  have hβ := ha.beta
  have hfin : allFlow A.beta A.P.nf none (fun _ _ _ => 1) (codeW A) (fun x => ENNReal.ofReal |d.at x|) ≠ ∞ := by
    refine ne_top_of_le_ne_top ((hB.mul_left (1 / A.beta)).tsum_ofReal_ne_top) (ENNReal.tsum_le_tsum fun p => ?_)
    have h1 : ∫⁻ z : Lab p.1 p.2, CfgFun.at (fun _ _ _ => (1 : ℝ≥0∞)) (z.cfg (none : Option (Worm ℝ))) *
        ENNReal.ofReal ((codeW A).at (z.cfg none)) * ENNReal.ofReal |d.at (z.cfg none)| ∂(labMeasure A.beta A.P.nf p.1 p.2) ≤
        ∫⁻ _ : Lab p.1 p.2, ENNReal.ofReal (1 / A.beta * B p) ∂(labMeasure A.beta A.P.nf p.1 p.2) := by
      refine lintegral_mono_ae ((ae_labMeasure A.beta A.P.nf p.1 p.2).mono fun z hz => ?_)
      show 1 * ENNReal.ofReal (codeW A (ms z.1) (ms z.2) none) * ENNReal.ofReal
        |-1 / A.beta * lineD A φ fa fc il (ms z.1) (ms z.2) 0 / codeW A (ms z.1) (ms z.2) none| ≤ _
      rw [one_mul, ← ENNReal.ofReal_mul (h0 _ _ _)]
      refine ENNReal.ofReal_le_ofReal ?_
      have hL := hb p.1 p.2 z hz 0 (by norm_num)
      rcases eq_or_ne (codeW A (ms z.1) (ms z.2) none) 0 with hz0 | hz0
      · rw [hz0, zero_mul]
        exact mul_nonneg (by positivity) (hB0 p)
      · rw [abs_div, abs_of_nonneg (h0 _ _ none), mul_div_cancel₀ _ hz0, abs_mul, abs_div, abs_neg, abs_one, abs_of_pos hβ]
        exact mul_le_mul_of_nonneg_left hL (by positivity)
    unfold orderFlow
    refine (mul_le_mul' le_rfl h1).trans (le_of_eq ?_)
    have hV : (labMeasure A.beta A.P.nf p.1 p.2) Set.univ = ENNReal.ofReal ((A.beta * A.P.nf) ^ (p.1 + p.2)) := by
      have := finite_labMeasure A.beta A.P.nf p.1 p.2
      rw [← labMeasure_real hβ.le, ofReal_measureReal]
    have hf : (((p.1.factorial * p.2.factorial : ℕ) : ℝ≥0∞))⁻¹ = ENNReal.ofReal ((p.1.factorial * p.2.factorial : ℕ) : ℝ)⁻¹ := by
      rw [ENNReal.ofReal_inv_of_pos (by positivity), ENNReal.ofReal_natCast]
    have hBp := hB0 p
    rw [lintegral_const, hV, hf, ← ENNReal.ofReal_mul (by positivity), ← ENNReal.ofReal_mul (by positivity)]
    congr 1
    ring
  have hD : ∀ s x st, Stands A st x s → x.worm = none → φ (recordG A nl fa fc il s.1) = d.at x := by
    intro s x st h hx
    have e := recordG_at (fa := fa) (fc := fc) ha h hx hil φ
    have hw : (codeW A).at x ≠ 0 := by
      rw [h.reps.codeW h.inv]
      exact (h.reps.good ha.code h.inv).weight
    have ew : (codeW A).at x = codeW A x.cd x.c none := by
      show codeW A x.cd x.c x.worm = _
      rw [hx]
    rw [ew] at e hw
    show _ = -1 / A.beta * lineD A φ fa fc il x.cd x.c 0 / codeW A x.cd x.c none
    rw [eq_div_iff hw, mul_comm]
    exact e
  have e1 : E (fun s => inZ s * φ (recordG A nl fa fc il s.1)) = _ := mean_onZ_int ha hp hst hσ hdw hfin hD
  have e2 : E (fun s => inZ s * RCLike.re s.1.cfg.sign) = _ := mean_sign ha hp hst hσ
  have e3 : E inZ = _ := mean_one_onZ ha hp hst hσ
  have e4 : cfgInt A.beta A.P.nf none (fun X X' ω => codeW A X X' ω * d X X' ω) =
      -1 / A.beta * cfgInt A.beta A.P.nf (none : Option (Worm ℝ)) (fun X X' _ => lineW A φ fa fc il 0 X X') := by
    rw [cfgInt_congr (g' := fun X X' _ => -1 / A.beta * lineW A φ fa fc il 0 X X') fun X X' => ?_]
    · unfold cfgInt
      rw [← tsum_mul_left]
      refine tsum_congr fun p => ?_
      rw [mul_left_comm, ← integral_const_mul (-1 / A.beta)]
      rfl
    · unfold lineW
      split_ifs with hz
      · rw [hz, zero_mul, mul_zero]
      · rw [hdd, mul_div_cancel₀ _ hz]
  obtain ⟨hT, hZ⟩ := ha.total_pos
  rw [e1, e2, e3, e4, hder.deriv]
  generalize totalC A a = T at hT ⊢
  generalize cfgInt A.beta A.P.nf none (codeW A) = Z at hZ ⊢
  generalize cfgInt A.beta A.P.nf none (fun X X' ω => RCLike.re (signedC A X X' ω)) = S
  have hT' := hT.ne'
  have hZ' := hZ.ne'
  rcases eq_or_ne S 0 with rfl | hS
  · simp
  field_simp

/-! ### A concrete case: two spins in equal baths -/

/-- The demands of `C90_removal_partial` are met, with a bath. -/
example : ∃ σ : WCfg ℝ → CodeState freeCode (Option (Worm ℝ)),
    let E := loopMeanC freeCode freeLoop 0 freePlan σ
    let inZ : CodeState freeCode (Option (Worm ℝ)) → ℝ := fun s => if s.2 = none then 1 else 0
    (E (fun s => inZ s * recordG freeCode 3 1 1 2 s.1) / E inZ) / (E (fun s => inZ s * RCLike.re s.1.cfg.sign) / E inZ) =
      -1 / 4 * deriv (zLine freeCode (ContinuousLinearMap.id ℝ ℝ) 1 1 2) 0 /
        cfgInt 4 2 none (fun X X' ω => RCLike.re (signedC freeCode X X' ω)) := by
  obtain ⟨σ, hσ⟩ := exists_stands freeCode_ok (n := 4) (by norm_num)
  exact ⟨σ, (C90_removal_partial (k := 0) freeLoop_ok freePlan_ok (st := ⟨2, 0, true, 4⟩) ⟨by norm_num, rfl, by norm_num, dvd_zero _⟩ hσ
    (fa := 1) (fc := 1) (il := 2) (nl := 3) (by norm_num) (ContinuousLinearMap.id ℝ ℝ)).2⟩

end CTHyb
