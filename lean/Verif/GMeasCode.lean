import Verif.GMeas
import Verif.Sampling
import Verif.Legendre
import Mathlib.Analysis.RCLike.Sqrt

/-!
`GMeasurement::measure_via_hyb` (src/measurement/measurement.ipp:148-310) as it is called in a state of the simulation
(src/impurity.ipp:270-286): the operators, the inverse matrix and the sign are those of the state, the rows and columns kept are drawn
at random.
-/

namespace CTHyb

open Matrix Rand

variable {𝕜 : Type} [RCLike 𝕜] [DecidableEq 𝕜] {N : ℕ}

/-- `c_ops_new` or `cdagg_ops_new` (measurement.ipp:208-213): the bath operators, then `worm_ops[2 i]` (`off = 0`) or
`worm_ops[2 i + 1]` (`off = 1`).  A place outside the vectors would be undefined behaviour; here a default. -/
def gOps (bath worm : List (TPsi ℝ)) (off n r : ℕ) : Fin n ⊕ Fin r → TPsi ℝ :=
  Sum.elim (fun i => bath.getD i.1 ⟨⟨0, 0⟩, .creation, 0⟩) (fun i => worm.getD (2 * i.1 + off) ⟨⟨0, 0⟩, .creation, 0⟩)

/-- The position of a row or column belongs to the reduced matrix: an auxiliary line, or an operator which is kept. -/
def gKept {n r : ℕ} (l : List (Fin n ⊕ Fin r)) : Fin n ⊕ (Fin r ⊕ Fin r) → Bool
  | .inl i => l.any fun k => decide (k = .inl i)
  | .inr (.inl i) => l.any fun k => decide (k = .inr i)
  | .inr (.inr _) => true

/-- `1.0e-10 * M.block().cwiseAbs().maxCoeff()` (measurement.ipp:276) of the reduced matrix. -/
noncomputable def gCutoff {n r : ℕ} (M : Matrix (Fin n ⊕ (Fin r ⊕ Fin r)) (Fin n ⊕ (Fin r ⊕ Fin r)) 𝕜)
    (rows cols : List (Fin n ⊕ Fin r)) : ℝ :=
  1e-10 * ((Finset.univ.filter fun p : (Fin n ⊕ (Fin r ⊕ Fin r)) × (Fin n ⊕ (Fin r ⊕ Fin r)) =>
    gKept rows p.1 && gKept cols p.2).sup fun p => ‖M p.1 p.2‖₊ : NNReal)

/-- The results of `rnd(2), …, rnd(n)` in `std::random_shuffle` of `n` elements (measurement.ipp:231-232): independent and uniform. -/
noncomputable def shuffleRand (n : ℕ) : Rand ℝ (List ℕ) :=
  (Finset.univ : Finset (∀ c : Fin (n - 1), Fin (c.1 + 2))).val.map fun J =>
    (∏ c : Fin (n - 1), 1 / ((c.1 + 2 : ℕ) : ℝ), List.ofFn fun c => (J c).1)

/-- The number of bath operators, `pert_order` (measurement.ipp:155). -/
def bathOrder (M : CodeDet 𝕜) : ℕ :=
  match M with
  | .error _ => 0
  | .ok m => m.cd.act.length

/-- What `measure_via_hyb` makes of the state before the reduction (measurement.ipp:155-205): `det_rat` and the enlarged inverse. -/
noncomputable def gStateM (A : CodeArgs 𝕜 N) (r : ℕ) (s : CodeState A (Option (Worm ℤ))) (m : PM (OpTime ℝ) 𝕜)
    (aux : Fin r ⊕ Fin r → Fin r ⊕ Fin r → 𝕜) :
    Option (𝕜 × Matrix (Fin m.cd.act.length ⊕ (Fin r ⊕ Fin r)) (Fin m.cd.act.length ⊕ (Fin r ⊕ Fin r)) 𝕜) :=
  let w := wormOps s.1.cfg.worm
  gEnlarge A.G (gOps m.c.act w 0 m.cd.act.length r) (gOps m.cd.act w 1 m.cd.act.length r) aux
    (blk (m.inverse A.P) 0 0 m.cd.act.length m.cd.act.length)

/-- What one call for `Rank = 1` adds to an element of `data_`, if the contribution of the operators `a`, `b` to this element is
multiplied by `φ a b`.  Nothing is added if the intermediate state has no weight (measurement.ipp:200-204). -/
noncomputable def green1Value (A : CodeArgs 𝕜 N) (maxOps : ℕ) (φ : TPsi ℝ → TPsi ℝ → 𝕜)
    (s : CodeState A (Option (Worm ℤ))) (aux : Fin 1 ⊕ Fin 1 → Fin 1 ⊕ Fin 1 → 𝕜) (jr jc : List ℕ) : 𝕜 :=
  match s.1.cfg.M with
  | .error _ => 0
  | .ok m =>
    let n := m.cd.act.length
    let w := wormOps s.1.cfg.worm
    let c := gOps m.c.act w 0 n 1
    let cd := gOps m.cd.act w 1 n 1
    match gStateM A 1 s m aux with
    | none => 0
    | some dM =>
      let cut := gCutoff dM.2 (gRows n 1 maxOps jr) (gRows n 1 maxOps jc)
      ((measureG1 (fun z : 𝕜 => ‖z‖) OpTime.time A.beta A.G c cd aux (blk (m.inverse A.P) 0 0 n n) s.1.cfg.sign maxOps jr jc cut).elim
        0 fun data => (data.map fun x => φ (c x.1) (cd x.2.1) * x.2.2).sum)

/-- The same for `Rank = 2`; `φ` is a function of `a`, `b`, `c`, `d` (measurement.ipp:501-533). -/
noncomputable def green2Value (A : CodeArgs 𝕜 N) (maxOps : ℕ) (φ : TPsi ℝ → TPsi ℝ → TPsi ℝ → TPsi ℝ → 𝕜)
    (s : CodeState A (Option (Worm ℤ))) (aux : Fin 2 ⊕ Fin 2 → Fin 2 ⊕ Fin 2 → 𝕜) (jr jc : List ℕ) : 𝕜 :=
  match s.1.cfg.M with
  | .error _ => 0
  | .ok m =>
    let n := m.cd.act.length
    let w := wormOps s.1.cfg.worm
    let c := gOps m.c.act w 0 n 2
    let cd := gOps m.cd.act w 1 n 2
    match gStateM A 2 s m aux with
    | none => 0
    | some dM =>
      let cut := gCutoff dM.2 (gRows n 2 maxOps jr) (gRows n 2 maxOps jc)
      ((measureG2 (fun z : 𝕜 => ‖z‖) A.beta A.G c cd aux (blk (m.inverse A.P) 0 0 n n) s.1.cfg.sign maxOps jr jc cut).elim
        0 fun data => (data.map fun x => φ (c x.1.1) (cd x.1.2.1) (c x.1.2.2.1) (cd x.1.2.2.2) * x.2).sum)

/-- Expectation value over the random numbers of the measurement: the auxiliary lines and the shuffles of the rows and of the columns.
`L` is the real or the imaginary part. -/
noncomputable def drawMean {A : CodeArgs 𝕜 N} {Y V : Type} [AddCommMonoid V] [Module ℝ V]
    (aux : CodeState A (Option (Worm ℤ)) → Rand ℝ Y) (L : V →ₗ[ℝ] ℝ) (v : CodeState A (Option (Worm ℤ)) → Y → List ℕ → List ℕ → V) (s : CodeState A (Option (Worm ℤ))) : ℝ :=
  mean (aux s) fun y => mean (shuffleRand (bathOrder s.1.cfg.M)) fun jr => mean (shuffleRand (bathOrder s.1.cfg.M)) fun jc => L (v s y jr jc)

/-- The factor of `data_[fa][fc][il]` for the operators `a` and `c` (measurement.ipp:363-383). -/
noncomputable def green1Factor (beta : ℝ) (nl fa fc il : ℕ) (a c : TPsi ℝ) : 𝕜 :=
  if a.flavor = fa ∧ c.flavor = fc then
    ((Real.sqrt (2 * il + 1) * (computeLegendre nl (2 * g1Arg OpTime.time beta a c * (1 / beta) - 1)).getD il 0 : ℝ) : 𝕜)
  else 0

end CTHyb
