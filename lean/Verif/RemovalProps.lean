import Verif.Removal
import Verif.LegendreProps
import Verif.PartitionedProps
import Verif.SamplingSweepProps
import Mathlib.LinearAlgebra.Matrix.Charpoly.Coeff
import Mathlib.Analysis.Calculus.Deriv.Polynomial

/-!
Property C63: the Green's function measured by removal is the derivative of the partition function with respect to the
hybridization function.

Specification.  `lineDir`: the antiperiodic function of `τ_c - τ_c†` which between the flavors `fa` and `fc` is
`√(2l+1) P_l(2τ/β - 1)`, the `l`-th Legendre basis function.  The contribution of a configuration to the partition function is
`permSign * weight`, where the hybridization function enters the weight through the determinant only.
-/

namespace CTHyb

open Matrix Polynomial

section
variable {𝕜 : Type} [RCLike 𝕜]

/-- Specification: the basis function of the Legendre representation, continued antiperiodically. -/
noncomputable def legendreBasis (beta : ℝ) (l : ℕ) (t : ℝ) : ℝ :=
  if 0 < t then Real.sqrt (2 * l + 1) * legendreP l (2 * t / beta - 1)
  else - (Real.sqrt (2 * l + 1) * legendreP l (2 * (t + beta) / beta - 1))

/-- Specification: change of the hybridization function between the flavors `fa`, `fc`. -/
noncomputable def lineDir (beta : ℝ) (fa fc l : ℕ) (a c : TPsi ℝ) : 𝕜 :=
  if a.flavor = fa ∧ c.flavor = fc then ((legendreBasis beta l (a.time.time - c.time.time) : ℝ) : 𝕜) else 0

end

/-! ### The derivative of a determinant -/

section det
variable {𝕜 : Type} [RCLike 𝕜]

theorem hasDerivAt_det {n : ℕ} (A B M : Matrix (Fin n) (Fin n) 𝕜) (h : M * A = 1) :
    HasDerivAt (fun e : 𝕜 => (A + e • B).det) (A.det * (M * B).trace) 0 := by
  have h' : A * M = 1 := mul_eq_one_comm.1 h
  have e1 : ∀ e : 𝕜, A + e • B = A * (1 + e • (M * B)) := by
    intro e
    rw [Matrix.mul_add, Matrix.mul_one, Matrix.mul_smul, ← Matrix.mul_assoc, h', Matrix.one_mul]
  have e2 : (fun e : 𝕜 => (A + e • B).det) = fun e => A.det *
      (1 + (M * B).trace * e + (det (1 + (X : 𝕜[X]) • (M * B).map C)).divX.divX.eval e * e ^ 2) := by
    funext e
    rw [e1, det_mul, det_one_add_smul]
  rw [e2]
  refine HasDerivAt.const_mul _ ?_
  have h1 : HasDerivAt (fun e : 𝕜 => 1 + (M * B).trace * e) ((M * B).trace) 0 := by
    simpa using ((hasDerivAt_id (0 : 𝕜)).const_mul (M * B).trace).const_add 1
  have h2 := ((det (1 + (X : 𝕜[X]) • (M * B).map C)).divX.divX.hasDerivAt (0 : 𝕜)).mul (hasDerivAt_pow 2 (0 : 𝕜))
  exact (h1.add h2).congr_deriv (by simp)

variable {T : Type} [LinearOrder T]

theorem hasDerivAt_timeDet (G D : Psi T → Psi T → 𝕜) (cs cds : List (Psi T)) (n : ℕ) (hc : cs.length = n)
    (hd : cds.length = n) (t1 : (cs.map Psi.time).Nodup) (t2 : (cds.map Psi.time).Nodup) (M : ℕ → ℕ → 𝕜)
    (h : blk M 0 0 n n * blk (gEntry G cs cds) 0 0 n n = 1) :
    HasDerivAt (fun e : 𝕜 => timeDet (fun a c => G a c + e * D a c) cs cds)
      (timeDet G cs cds * ∑ k ∈ Finset.range n, ∑ l ∈ Finset.range n, M l k * gEntry D cs cds k l) 0 := by
  have e1 : (fun e : 𝕜 => timeDet (fun a c => G a c + e * D a c) cs cds) = fun e =>
      (-1) ^ (invs (cs.map Psi.time) + invs (cds.map Psi.time)) *
        (blk (gEntry G cs cds) 0 0 n n + e • blk (gEntry D cs cds) 0 0 n n).det := by
    funext e
    rw [timeDet_eq _ _ _ t1 t2, listDet_blk _ _ _ n hc hd]
    congr 2
    ext i j
    have hi : (i : ℕ) < cs.length := by omega
    have hj : (j : ℕ) < cds.length := by omega
    simp [blk, gEntry, List.getElem?_eq_getElem hi, List.getElem?_eq_getElem hj]
  rw [e1, timeDet_eq _ _ _ t1 t2, listDet_blk _ _ _ n hc hd, mul_assoc]
  refine HasDerivAt.const_mul _ ?_
  have := hasDerivAt_det _ (blk (gEntry D cs cds) 0 0 n n) _ h
  refine this.congr_deriv ?_
  congr 1
  rw [Finset.sum_comm]
  simp [Matrix.trace, Matrix.mul_apply, blk, Finset.sum_range]

end det

/-! ### Sum over blocks -/

section blocks
variable {K : Type} [Field K] {T : Type} [LinearOrder T]

theorem sum_blocks {E : PEnv} {G : Psi T → Psi T → K} (hG : E.BlockDiag G) {s : PM T K}
    (h : s.Inv E G) (D : Psi T → Psi T → K) (m : ℕ) (hm : m ≤ E.ns) :
    ((List.range m).map fun b => ∑ k ∈ Finset.range (s.blocks b).n, ∑ l ∈ Finset.range (s.blocks b).n,
      (s.blocks b).inv l k * gEntry D (s.blocks b).c.ops (s.blocks b).cd.ops k l).sum =
    ∑ k ∈ Finset.range (s.inverseLoop m).2, ∑ l ∈ Finset.range (s.inverseLoop m).2, (s.inverseLoop m).1 l k *
      gEntry D ((List.range m).flatMap fun k => (s.blocks k).c.ops)
        ((List.range m).flatMap fun k => (s.blocks k).cd.ops) k l := by
  induction m with
  | zero => simp [PM.inverseLoop]
  | succ m ih =>
    obtain ⟨i1, i2, i3, -⟩ := h.inverseLoop hG m (by omega)
    have ih := ih (by omega)
    have hb := h.block m (by omega)
    set o := (s.inverseLoop m).2 with ho
    set A := (s.inverseLoop m).1 with hA
    set C := (List.range m).flatMap fun k => (s.blocks k).c.ops with hC
    set Dd := (List.range m).flatMap fun k => (s.blocks k).cd.ops with hD
    set n := (s.blocks m).n with hn
    have e2 : (s.inverseLoop (m + 1)).2 = o + n := rfl
    have e1 : ∀ i j, (s.inverseLoop (m + 1)).1 i j = if o ≤ i ∧ i < o + n ∧ o ≤ j ∧ j < o + n then
        (s.blocks m).inv (i - o) (j - o) else A i j := fun _ _ => rfl
    rw [List.range_succ, List.map_append, List.sum_append, ih, List.flatMap_append, List.flatMap_append,
      List.flatMap_singleton, List.flatMap_singleton, ← hC, ← hD, e2]
    simp only [List.map_cons, List.map_nil, List.sum_cons, List.sum_nil, add_zero, e1]
    simp only [Finset.sum_range_add]
    have z : ∀ i j, (o ≤ i ∨ o ≤ j) → A i j = 0 := i3
    rw [Finset.sum_add_distrib, ← hn]
    have r1 : ∀ k ∈ Finset.range o, ∀ l ∈ Finset.range o,
        (if o ≤ l ∧ l < o + n ∧ o ≤ k ∧ k < o + n then (s.blocks m).inv (l - o) (k - o) else A l k) *
          gEntry D (C ++ (s.blocks m).c.ops) (Dd ++ (s.blocks m).cd.ops) k l = A l k * gEntry D C Dd k l := by
      intro k hk l hl
      rw [Finset.mem_range] at hk hl
      rw [if_neg (by omega), gEntry_left _ _ _ _ _ _ _ (by omega) (by omega)]
    have r2 : ∀ k ∈ Finset.range o, ∀ l ∈ Finset.range n,
        (if o ≤ o + l ∧ o + l < o + n ∧ o ≤ k ∧ k < o + n then (s.blocks m).inv (o + l - o) (k - o) else A (o + l) k) *
          gEntry D (C ++ (s.blocks m).c.ops) (Dd ++ (s.blocks m).cd.ops) k (o + l) = 0 := by
      intro k hk l hl
      rw [Finset.mem_range] at hk hl
      rw [if_neg (by omega), z _ _ (by omega), zero_mul]
    have r3 : ∀ k ∈ Finset.range n, ∀ l ∈ Finset.range o,
        (if o ≤ l ∧ l < o + n ∧ o ≤ o + k ∧ o + k < o + n then (s.blocks m).inv (l - o) (o + k - o) else A l (o + k)) *
          gEntry D (C ++ (s.blocks m).c.ops) (Dd ++ (s.blocks m).cd.ops) (o + k) l = 0 := by
      intro k hk l hl
      rw [Finset.mem_range] at hk hl
      rw [if_neg (by omega), z _ _ (by omega), zero_mul]
    have r4 : ∀ k ∈ Finset.range n, ∀ l ∈ Finset.range n,
        (if o ≤ o + l ∧ o + l < o + n ∧ o ≤ o + k ∧ o + k < o + n then (s.blocks m).inv (o + l - o) (o + k - o)
          else A (o + l) (o + k)) *
          gEntry D (C ++ (s.blocks m).c.ops) (Dd ++ (s.blocks m).cd.ops) (o + k) (o + l) =
        (s.blocks m).inv l k * gEntry D (s.blocks m).c.ops (s.blocks m).cd.ops k l := by
      intro k hk l hl
      rw [Finset.mem_range] at hk hl
      rw [if_pos (by omega), Nat.add_sub_cancel_left, Nat.add_sub_cancel_left]
      congr 1
      have := gEntry_right D C (s.blocks m).c.ops Dd (s.blocks m).cd.ops k l
      rwa [i1, i2] at this
    rw [Finset.sum_congr rfl fun k hk => Finset.sum_congr rfl (r1 k hk),
      Finset.sum_congr rfl fun k hk => Finset.sum_congr rfl (r2 k hk),
      Finset.sum_add_distrib,
      Finset.sum_congr rfl fun k hk => Finset.sum_congr rfl (r3 k hk),
      Finset.sum_congr rfl fun k hk => Finset.sum_congr rfl (r4 k hk)]
    simp

end blocks

/-! ### The loops -/

section loops
variable {𝕜 : Type} [RCLike 𝕜]

theorem foldlM_add {α M : Type} [AddCommMonoid M] (F : M → α → Option M) (v : α → M) (L : List α)
    (h : ∀ x ∈ L, ∀ g, F g x = some (g + v x)) (g : M) : L.foldlM F g = some (g + (L.map v).sum) := by
  induction L generalizing g with
  | nil => simp
  | cons x L ih =>
    rw [List.foldlM_cons, h x (by simp), Option.bind_eq_bind, Option.bind_some,
      ih fun y hy => h y (List.mem_cons_of_mem _ hy)]
    simp [add_assoc]

theorem removalTerm_eq (nl : ℕ) (beta : ℝ) (sign m : 𝕜) (a c : TPsi ℝ) (il : ℕ) (hl : il < nl) :
    removalTerm nl beta sign m a c il =
      -(sign / (beta : 𝕜)) * (m * ((legendreBasis beta il (a.time.time - c.time.time) : ℝ) : 𝕜)) := by
  have hg : ∀ x : ℝ, (computeLegendre nl x).getD il 0 = legendreP il x := by
    intro x
    rw [C35_legendre, List.getD_eq_getElem?_getD]
    simp [hl]
  unfold removalTerm removalArg legendreBasis
  simp only [hg]
  split_ifs with h0
  · simp only [mul_one_div]; push_cast; ring
  · simp only [mul_one_div]; push_cast; ring

/-- What a pair of operators of a block adds. -/
noncomputable def pairVal (nl : ℕ) (beta : ℝ) (sign : 𝕜) (b : DM (OpTime ℝ) 𝕜) (k l : ℕ) : ℕ → ℕ → ℕ → 𝕜 :=
  fun fa fc il => if il < nl then
    -(sign / (beta : 𝕜)) * (b.inv l k * gEntry (lineDir beta fa fc il) b.c.ops b.cd.ops k l) else 0

theorem removalPair_ok (nf nl : ℕ) (beta : ℝ) (sign : 𝕜) (b : DM (OpTime ℝ) 𝕜) (k l : ℕ) (g : ℕ → ℕ → ℕ → 𝕜)
    (hk : k < b.c.ops.length) (hl : l < b.cd.ops.length) (h1 : ∀ o ∈ b.c.ops, o.flavor < nf)
    (h2 : ∀ o ∈ b.cd.ops, o.flavor < nf) :
    removalPair nf nl beta sign b k g l = some (g + pairVal nl beta sign b k l) := by
  unfold removalPair
  rw [List.getElem?_eq_getElem hk, List.getElem?_eq_getElem hl]
  simp only
  rw [if_pos ⟨h1 _ (List.getElem_mem hk), h2 _ (List.getElem_mem hl)⟩]
  congr 1
  funext fa fc il
  simp only [Pi.add_apply, pairVal, gEntry, List.getElem?_eq_getElem hk, List.getElem?_eq_getElem hl, lineDir]
  by_cases hil : il < nl
  · by_cases hf : fa = b.c.ops[k].flavor ∧ fc = b.cd.ops[l].flavor
    · rw [if_pos ⟨hf.1, hf.2, hil⟩, if_pos hil, if_pos ⟨hf.1.symm, hf.2.symm⟩, removalTerm_eq _ _ _ _ _ _ _ hil]
    · rw [if_neg (fun h => hf ⟨h.1, h.2.1⟩), if_pos hil, if_neg (fun h => hf ⟨h.1.symm, h.2.symm⟩)]
      simp
  · rw [if_neg (fun h => hil h.2.2), if_neg hil, add_zero]

theorem removalBlock_ok (nf nl : ℕ) (beta : ℝ) (sign : 𝕜) (b : DM (OpTime ℝ) 𝕜) (g : ℕ → ℕ → ℕ → 𝕜)
    (hk : b.c.ops.length = b.n) (hl : b.cd.ops.length = b.n) (h1 : ∀ o ∈ b.c.ops, o.flavor < nf)
    (h2 : ∀ o ∈ b.cd.ops, o.flavor < nf) :
    removalBlock nf nl beta sign b g = some (g + fun fa fc il => if il < nl then -(sign / (beta : 𝕜)) *
      ∑ k ∈ Finset.range b.n, ∑ l ∈ Finset.range b.n,
        b.inv l k * gEntry (lineDir beta fa fc il) b.c.ops b.cd.ops k l else 0) := by
  unfold removalBlock
  rw [foldlM_add _ (fun k => ((List.range b.n).map (pairVal nl beta sign b k)).sum)]
  · congr 2
    funext fa fc il
    have conv : ∀ (f : ℕ → ℕ → ℕ → ℕ → 𝕜) (n : ℕ), ((List.range n).map f).sum fa fc il =
        ∑ k ∈ Finset.range n, f k fa fc il := by
      intro f n
      induction n with
      | zero => simp
      | succ n ih => rw [List.range_succ, List.map_append, List.sum_append, Finset.sum_range_succ, ← ih]; simp
    rw [conv]
    simp only [conv, pairVal]
    split_ifs with hil
    · simp only [Finset.mul_sum]
    · simp
  · intro k hk' g
    refine foldlM_add _ _ _ (fun l hl' g => ?_) g
    rw [List.mem_range] at hk' hl'
    exact removalPair_ok _ _ _ _ _ _ _ _ (by omega) (by omega) h1 h2

theorem removalMeasure_ok {P : PEnv} {G : TPsi ℝ → TPsi ℝ → 𝕜} (hG : P.BlockDiag G) (nl : ℕ) (beta : ℝ)
    {m : PM (OpTime ℝ) 𝕜} (h : m.Inv P G) (sign : 𝕜) (acc : RemovalAcc 𝕜) :
    ∃ acc', removalMeasure P nl beta (.ok m) sign acc = some acc' ∧ acc'.nMeas = acc.nMeas + 1 ∧
      ∀ fa fc il, acc'.g fa fc il = acc.g fa fc il + if il < nl then -(sign / (beta : 𝕜)) *
        ∑ k ∈ Finset.range m.cd.act.length, ∑ l ∈ Finset.range m.cd.act.length,
          m.inverse P l k * gEntry (lineDir beta fa fc il) m.c.act m.cd.act k l else 0 := by
  obtain ⟨i1, i2, -, -⟩ := h.inverseLoop hG P.ns le_rfl
  rw [← h.cAct] at i1
  rw [← h.cdAct] at i2
  unfold removalMeasure
  simp only
  split_ifs with h0
  · refine ⟨_, rfl, rfl, fun fa fc il => ?_⟩
    simp [h0]
  · have hfl : ∀ k < P.ns, ∀ x, x ∈ (m.blocks k).c.ops ∨ x ∈ (m.blocks k).cd.ops → x.flavor < P.nf := by
      intro k hk x hx
      rcases hx with hx | hx
      · have : x ∈ P.inSector k (m.c.act : Multiset (TPsi ℝ)) := by rw [← h.cOps k hk]; exact hx
        exact (h.cOK.valid x ((mem_inSector P _ _ _).1 this).1).1
      · have : x ∈ P.inSector k (m.cd.act : Multiset (TPsi ℝ)) := by rw [← h.cdOps k hk]; exact hx
        exact (h.cdOK.valid x ((mem_inSector P _ _ _).1 this).1).1
    rw [foldlM_add _ _ _ fun k hk g => removalBlock_ok P.nf nl beta sign (m.blocks k) g
      (h.block k (List.mem_range.1 hk)).cLen (h.block k (List.mem_range.1 hk)).cdLen
      (fun o ho => hfl k (List.mem_range.1 hk) o (Or.inl ho)) (fun o ho => hfl k (List.mem_range.1 hk) o (Or.inr ho))]
    refine ⟨_, rfl, rfl, fun fa fc il => ?_⟩
    simp only [Pi.add_apply]
    congr 1
    have conv : ∀ (f : ℕ → ℕ → ℕ → ℕ → 𝕜) (n : ℕ), ((List.range n).map f).sum fa fc il =
        ((List.range n).map fun k => f k fa fc il).sum := by
      intro f n
      induction n with
      | zero => simp
      | succ n ih => rw [List.range_succ, List.map_append, List.sum_append, List.map_append, List.sum_append, ← ih]; simp
    rw [conv]
    split_ifs with hil
    · rw [List.sum_map_mul_left, sum_blocks hG h (lineDir beta fa fc il) P.ns le_rfl, ← h.cAct, ← h.cdAct, i2]
      rfl
    · simp

end loops

/-! ### Property -/

section property
variable {𝕜 : Type} [RCLike 𝕜] [DecidableEq 𝕜] {N : ℕ}

/-- The states of the simulation. -/
abbrev CodeArgs.St (A : CodeArgs 𝕜 N) := GState ℝ 𝕜 (CodeDet 𝕜) (BK 𝕜) (BK 𝕜) (Fin (ebBrakets A.B A.p).length)

/-- Specification: contribution of a configuration to the partition function, as function of the hybridization
function. -/
noncomputable def CodeArgs.contrib (A : CodeArgs 𝕜 N) (s : A.St) (G : TPsi ℝ → TPsi ℝ → 𝕜) : 𝕜 :=
  (s.cfg.permSign : 𝕜) * ({ A with G := G } : CodeArgs 𝕜 N).weight (A.env.D.cdagg s.cfg.M) (A.env.D.cs s.cfg.M) s.cfg.ops

omit [DecidableEq 𝕜] in
theorem CodeArgs.permSign_norm [DecidableEq 𝕜] (A : CodeArgs 𝕜 N) {s : A.St} (hs : SimInv A.env A.Inv (pmDet A.P) s) :
    ‖(s.cfg.permSign : 𝕜)‖ = 1 := by
  have h : s.cfg.permSign = 1 ∨ s.cfg.permSign = -1 := by
    rw [hs.sign.1]
    exact combSortSign_pm _
  rcases h with h | h <;> rw [h] <;> simp

theorem CodeArgs.contrib_ne (A : CodeArgs 𝕜 N) (h : A.OK) {s : A.St} (hs : SimInv A.env A.Inv (pmDet A.P) s) :
    A.contrib s A.G ≠ 0 := by
  obtain ⟨-, hd, ht, -⟩ := hs.sign
  have hdet := (C60_lawful A h).det_eq _ hs.inv
  unfold CodeArgs.contrib CodeArgs.weight
  refine mul_ne_zero (norm_ne_zero_iff.1 (by rw [A.permSign_norm hs]; norm_num)) (mul_ne_zero ?_ ?_)
  · rw [hdet] at hd; exact hd
  · rw [hs.trace] at ht; exact ht

theorem CodeArgs.contrib_eq (A : CodeArgs 𝕜 N) {s : A.St} (hs : SimInv A.env A.Inv (pmDet A.P) s)
    {m : PM (OpTime ℝ) 𝕜} (hm : s.cfg.M = .ok m) (G : TPsi ℝ → TPsi ℝ → 𝕜) :
    A.contrib s G = (s.cfg.permSign : 𝕜) * (timeDet G m.c.act m.cd.act * s.cfg.trace) := by
  unfold CodeArgs.contrib CodeArgs.weight
  rw [hs.trace, hm]
  rfl

theorem CodeArgs.contrib_deriv (A : CodeArgs 𝕜 N) (h : A.OK) {s : A.St} (hs : SimInv A.env A.Inv (pmDet A.P) s)
    {m : PM (OpTime ℝ) 𝕜} (hm : s.cfg.M = .ok m) (hinv : m.Inv A.P A.G) (D : TPsi ℝ → TPsi ℝ → 𝕜) :
    HasDerivAt (fun e : 𝕜 => A.contrib s fun a c => A.G a c + e * D a c)
      (A.contrib s A.G * ∑ k ∈ Finset.range m.cd.act.length, ∑ l ∈ Finset.range m.cd.act.length,
          m.inverse A.P l k * gEntry D m.c.act m.cd.act k l) 0 := by
  have hn := hinv.nodup
  rw [List.map_append, List.nodup_append] at hn
  have hI := C18_inverse A.P A.G h.blocks m hinv _ rfl
  have D1 := hasDerivAt_timeDet A.G D m.c.act m.cd.act _ hI.1 rfl hn.2.1 hn.1 _ hI.2
  simp only [A.contrib_eq hs hm]
  exact ((D1.mul_const s.cfg.trace).const_mul (s.cfg.permSign : 𝕜)).congr_deriv (by ring)

theorem CodeArgs.contrib_sign (A : CodeArgs 𝕜 N) (h : A.OK) {s : A.St} (hs : SimInv A.env A.Inv (pmDet A.P) s) :
    ((‖A.contrib s A.G‖ : ℝ) : 𝕜) * s.cfg.sign = A.contrib s A.G := by
  obtain ⟨m, hm, hinv⟩ := hs.inv
  have hdet := (C60_lawful A h).det_eq _ hs.inv
  obtain ⟨hp, hd, ht, hsg⟩ := hs.sign
  have hsg' : s.cfg.sign = pmDet A.P s.cfg.M / ((‖pmDet A.P s.cfg.M‖ : ℝ) : 𝕜) *
    (s.cfg.trace / ((‖s.cfg.trace‖ : ℝ) : 𝕜)) * (s.cfg.permSign : 𝕜) := hsg
  have nd : ((‖pmDet A.P s.cfg.M‖ : ℝ) : 𝕜) ≠ 0 := by
    rw [RCLike.ofReal_ne_zero]; exact norm_ne_zero_iff.2 hd
  have nt : ((‖s.cfg.trace‖ : ℝ) : 𝕜) ≠ 0 := by
    rw [RCLike.ofReal_ne_zero]; exact norm_ne_zero_iff.2 ht
  have hd' : timeDet A.G m.c.act m.cd.act = pmDet A.P s.cfg.M := by rw [hdet, hm]; rfl
  rw [A.contrib_eq hs hm, hd', norm_mul, norm_mul, A.permSign_norm hs, one_mul, RCLike.ofReal_mul, hsg']
  field_simp

/-- **C63, one measurement.**  In every state of the simulation `measure` does not run into undefined behaviour and raises the
number of measurements by one.  What it adds to `g_meas_[fa][fc][il]`, times the probability (up to normalisation) of the
configuration, is `-1/β` times the derivative of the contribution of the configuration to the partition function with
respect to the `il`-th Legendre coefficient of the hybridization function between the flavors `fa` and `fc`. -/
theorem C63_measure (A : CodeArgs 𝕜 N) (h : A.OK) {s : A.St} (hs : SimInv A.env A.Inv (pmDet A.P) s) (nl : ℕ)
    (acc : RemovalAcc 𝕜) :
    ∃ acc', removalMeasure A.P nl A.beta s.cfg.M s.cfg.sign acc = some acc' ∧ acc'.nMeas = acc.nMeas + 1 ∧
      ∀ fa fc il, il < nl →
        ((‖A.contrib s A.G‖ : ℝ) : 𝕜) * (acc'.g fa fc il - acc.g fa fc il) =
          -1 / (A.beta : 𝕜) * deriv (fun e : 𝕜 => A.contrib s fun a c => A.G a c + e * lineDir A.beta fa fc il a c) 0 := by
  obtain ⟨m, hm, hinv⟩ := hs.inv
  obtain ⟨acc', e, en, ev⟩ := removalMeasure_ok h.blocks nl A.beta hinv s.cfg.sign acc
  refine ⟨acc', by rw [hm]; exact e, en, fun fa fc il hil => ?_⟩
  rw [(A.contrib_deriv h hs hm hinv _).deriv, ev, if_pos hil, add_sub_cancel_left]
  linear_combination (-1 / (A.beta : 𝕜) * ∑ k ∈ Finset.range m.cd.act.length, ∑ l ∈ Finset.range m.cd.act.length,
    m.inverse A.P l k * gEntry (lineDir A.beta fa fc il) m.c.act m.cd.act k l) * A.contrib_sign h hs

/-- Specification: the estimator. -/
noncomputable def CodeArgs.lineG (A : CodeArgs 𝕜 N) (s : A.St) (fa fc il : ℕ) : 𝕜 :=
  -1 / (A.beta : 𝕜) * deriv (fun e : 𝕜 => A.contrib s fun a c => A.G a c + e * lineDir A.beta fa fc il a c) 0 /
    ((‖A.contrib s A.G‖ : ℝ) : 𝕜)

/-- **C63, recorded data.**  After measuring in a sequence of states, what is recorded for the `il`-th Legendre coefficient is
the mean of the estimators, transformed by the rotation matrix; without a measurement there is an exception. -/
theorem C63_result (A : CodeArgs 𝕜 N) (h : A.OK) (L : List A.St) (hL : ∀ s ∈ L, SimInv A.env A.Inv (pmDet A.P) s)
    (nl : ℕ) (rot : Matrix (Fin A.P.nf) (Fin A.P.nf) 𝕜) :
    ∃ acc, L.foldlM (fun acc (s : A.St) => removalMeasure A.P nl A.beta s.cfg.M s.cfg.sign acc) .zero = some acc ∧
      ∀ il, il < nl → removalResult rot acc il = if L = [] then none else some (rot *
        (Matrix.of fun a c : Fin A.P.nf => (L.map fun s => A.lineG s a c il).sum / (L.length : 𝕜)) * rotᴴ) := by
  have key : ∀ (L : List A.St), (∀ s ∈ L, SimInv A.env A.Inv (pmDet A.P) s) → ∀ acc0 : RemovalAcc 𝕜, ∃ acc,
      L.foldlM (fun acc (s : A.St) => removalMeasure A.P nl A.beta s.cfg.M s.cfg.sign acc) acc0 = some acc ∧
      acc.nMeas = acc0.nMeas + L.length ∧
      ∀ fa fc il, il < nl → acc.g fa fc il = acc0.g fa fc il + (L.map fun s => A.lineG s fa fc il).sum := by
    intro L
    induction L with
    | nil => intro _ acc0; exact ⟨acc0, rfl, rfl, by simp⟩
    | cons s L ih =>
      intro hL acc0
      obtain ⟨acc1, e1, n1, v1⟩ := C63_measure A h (hL s (by simp)) nl acc0
      obtain ⟨acc, e, n, v⟩ := ih (fun s hs => hL s (List.mem_cons_of_mem _ hs)) acc1
      refine ⟨acc, by rw [List.foldlM_cons, e1]; exact e, by rw [n, n1, List.length_cons]; omega, ?_⟩
      intro fa fc il hil
      have hne : ((‖A.contrib s A.G‖ : ℝ) : 𝕜) ≠ 0 := by
        rw [RCLike.ofReal_ne_zero]; exact norm_ne_zero_iff.2 (A.contrib_ne h (hL s (by simp)))
      have := v1 fa fc il hil
      have e2 : acc1.g fa fc il = acc0.g fa fc il + A.lineG s fa fc il := by
        unfold CodeArgs.lineG
        rw [← this, mul_div_cancel_left₀ _ hne]; ring
      rw [v fa fc il hil, e2, List.map_cons, List.sum_cons, add_assoc]
  obtain ⟨acc, e, n, v⟩ := key L hL .zero
  refine ⟨acc, e, fun il hil => ?_⟩
  have n' : acc.nMeas = L.length := by rw [n]; simp [RemovalAcc.zero]
  unfold removalResult
  rw [n']
  simp only [List.length_eq_zero_iff]
  split_ifs
  · rfl
  · simp only [v _ _ il hil, RemovalAcc.zero, zero_add]

/-- **C63, expectation value.**  Summed over a finite set of configurations with their probabilities (up to normalisation),
the estimators give `-1/β` times the derivative of the partition function with respect to the Legendre coefficient of the
hybridization function, and the signs the partition function: the ratio is `-1/β` times the logarithmic derivative, that is
the Green's function. -/
theorem C63_partition (A : CodeArgs 𝕜 N) (h : A.OK) {X : Type} [Fintype X] (s : X → A.St)
    (hs : ∀ x, SimInv A.env A.Inv (pmDet A.P) (s x)) (fa fc il : ℕ) :
    ∑ x, ((‖A.contrib (s x) A.G‖ : ℝ) : 𝕜) * A.lineG (s x) fa fc il =
        -1 / (A.beta : 𝕜) * deriv (fun e : 𝕜 => ∑ x, A.contrib (s x) fun a c => A.G a c + e * lineDir A.beta fa fc il a c) 0 ∧
      ∑ x, ((‖A.contrib (s x) A.G‖ : ℝ) : 𝕜) * (s x).cfg.sign = ∑ x, A.contrib (s x) A.G := by
  have hne : ∀ x, ((‖A.contrib (s x) A.G‖ : ℝ) : 𝕜) ≠ 0 := by
    intro x; rw [RCLike.ofReal_ne_zero]; exact norm_ne_zero_iff.2 (A.contrib_ne h (hs x))
  refine ⟨?_, Finset.sum_congr rfl fun x _ => A.contrib_sign h (hs x)⟩
  rw [deriv_fun_sum, Finset.mul_sum]
  · refine Finset.sum_congr rfl fun x _ => ?_
    unfold CodeArgs.lineG
    rw [mul_div_cancel₀ _ (hne x)]
  · intro x _
    obtain ⟨m, hm, hinv⟩ := (hs x).inv
    exact (A.contrib_deriv h (hs x) hm hinv _).differentiableAt

/-- Concrete case: a pair of operators hybridized with the bath; the hypotheses of the theorems hold, and what is recorded
is not zero. -/
example : ∃ (s : exCode.St) (acc : RemovalAcc ℝ), SimInv exCode.env exCode.Inv (pmDet exCode.P) s ∧
    removalMeasure exCode.P 3 exCode.beta s.cfg.M s.cfg.sign .zero = some acc ∧ acc.nMeas = 1 ∧ acc.g 0 0 0 ≠ 0 := by
  obtain ⟨s, hs, hr, -⟩ := C61_states exCode_ok exMoves_ok (n := 2) (by norm_num) exPair_good.1 exPair_good.2
  obtain ⟨acc, e, en, ev⟩ := C63_measure exCode exCode_ok hs 3 .zero
  refine ⟨s.1, acc, hs, e, en, fun h0 => ?_⟩
  have h := ev 0 0 0 (by norm_num)
  rw [h0] at h
  obtain ⟨m, hm, -⟩ := hs.inv
  have hc : m.c.act = [⟨⟨exMoves.tau 1, 0⟩, .annihilation, 0⟩] := by
    have := hr.c
    rw [hm] at this
    exact List.perm_singleton.1 this
  have hd : m.cd.act = [⟨⟨exMoves.tau 5, 0⟩, .creation, 0⟩] := by
    have := hr.cd
    rw [hm] at this
    exact List.perm_singleton.1 this
  have ht : ∀ G : TPsi ℝ → TPsi ℝ → ℝ, timeDet G m.c.act m.cd.act =
      G ⟨⟨exMoves.tau 1, 0⟩, .annihilation, 0⟩ ⟨⟨exMoves.tau 5, 0⟩, .creation, 0⟩ := by
    intro G
    rw [hc, hd, timeDet_eq _ _ _ (by simp) (by simp), listDet_eq _ _ _ 1 rfl rfl, Matrix.det_fin_one]
    simp [invs]
  have hne := exCode.contrib_ne exCode_ok hs
  simp only [exCode.contrib_eq hs hm, ht] at h hne
  have hb : lineDir (𝕜 := ℝ) exCode.beta 0 0 0 ⟨⟨exMoves.tau 1, 0⟩, .annihilation, 0⟩ ⟨⟨exMoves.tau 5, 0⟩, .creation, 0⟩ = -1 := by
    simp only [lineDir, legendreBasis, exMoves, gridTau, legendreP_zero]
    norm_num
  have hv : HasDerivAt (fun e : ℝ => (s.1.cfg.permSign : ℝ) *
      ((exCode.G ⟨⟨exMoves.tau 1, 0⟩, .annihilation, 0⟩ ⟨⟨exMoves.tau 5, 0⟩, .creation, 0⟩ + e * (-1)) * s.1.cfg.trace))
      ((s.1.cfg.permSign : ℝ) * (-1 * s.1.cfg.trace)) 0 := by
    refine HasDerivAt.const_mul _ (HasDerivAt.mul_const ?_ _)
    exact (((hasDerivAt_id (0 : ℝ)).mul_const (-1)).const_add _).congr_deriv (by simp)
  rw [hb] at h
  have hv' := hv.deriv
  simp only [RemovalAcc.zero, sub_zero, mul_zero] at h
  rw [hv'] at h
  have h1 := (mul_ne_zero_iff.1 hne)
  have h2 := (mul_ne_zero_iff.1 h1.2).2
  have : (s.1.cfg.permSign : ℝ) * s.1.cfg.trace = 0 := by
    norm_num [exCode] at h
    rcases h with h | h <;> simp [h]
  exact mul_ne_zero h1.1 h2 this

end property

end CTHyb
