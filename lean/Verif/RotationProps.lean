import Verif.Postprocess
import Verif.FermionProps
import Verif.SectorsProps
import Mathlib.Algebra.BigOperators.Fin
import Mathlib.Algebra.Star.BigOperators
import Mathlib.Data.Complex.BigOperators
import Mathlib.LinearAlgebra.Matrix.Gershgorin
import Mathlib.LinearAlgebra.BilinearMap
import Mathlib.Tactic.Ring
import Mathlib.Tactic.Linarith
import Mathlib.Tactic.FieldSimp
import Mathlib.Tactic.NormNum

/-!
Properties C44 (basis rotation) and C55 (parameter `onsite_U`).

The specification is the meaning of a change of the single-particle basis: the operators of the
original basis are `c_i = sum_a R_ia c'_a` and `c_i^dagger = sum_a conj(R_ia) c'_a^dagger`, where the
primed operators are those of the new basis, in which the simulation is done.  Nothing is assumed
about the algebra of the operators or about the functional (the expectation value).
-/

namespace CTHyb

open Finset Matrix

section

variable {K : Type} [Field K] [StarRing K] {n : ℕ}

/-- Specification: `c, cd` are the operators of the original, `c', cd'` those of the new basis. -/
structure BasisChange {A : Type} [Ring A] [Algebra K A] (R : Matrix (Fin n) (Fin n) K)
    (c cd c' cd' : Fin n → A) : Prop where
  ann : ∀ i, c i = ∑ a, R i a • c' a
  cre : ∀ i, cd i = ∑ a, star (R i a) • cd' a

/-- Specification: the one-particle object in the new basis. -/
def toNewG1 (R G : Matrix (Fin n) (Fin n) K) : Matrix (Fin n) (Fin n) K :=
  fun a b => ∑ i, ∑ j, star (R i a) * G i j * R j b

/-- Specification: the two-particle object (annihilation, creation, annihilation, creation) in the new
basis. -/
def toNewG2 (R : Matrix (Fin n) (Fin n) K) (G : T4 n K) : T4 n K :=
  fun a b c d => ∑ i, ∑ j, ∑ k, ∑ l, star (R i a) * R j b * star (R k c) * R l d * G i j k l

theorem inv_unitary {R : Matrix (Fin n) (Fin n) K} (hR : R * Rᴴ = 1) : R⁻¹ = Rᴴ :=
  Matrix.inv_eq_right_inv hR

theorem rotateG1_eq {R : Matrix (Fin n) (Fin n) K} (hR : R * Rᴴ = 1) (G : Matrix (Fin n) (Fin n) K)
    (i j : Fin n) : rotateG1 R G i j = ∑ a, ∑ b, R i a * G a b * star (R j b) := by
  unfold rotateG1
  rw [inv_unitary hR, Matrix.mul_apply]
  simp only [Matrix.mul_apply, conjTranspose_apply, sum_mul]
  exact sum_comm

theorem toNewG1_eq (R G : Matrix (Fin n) (Fin n) K) : toNewG1 R G = Rᴴ * G * R := by
  ext a b
  unfold toNewG1
  rw [Matrix.mul_apply]
  simp only [Matrix.mul_apply, conjTranspose_apply, sum_mul]
  exact sum_comm

theorem rotateBackG2_eq (R : Matrix (Fin n) (Fin n) K) (G : T4 n K) (f1 f2 f3 f4 : Fin n) :
    rotateBackG2 R G f1 f2 f3 f4 = ∑ a, ∑ b, ∑ c, ∑ d,
      R f1 a * star (R f2 b) * R f3 c * star (R f4 d) * G a b c d := by
  unfold rotateBackG2 rotPass4 rotPass3 rotPass2 rotPass1
  simp only [mul_sum]
  rw [sum_comm]
  rw [sum_congr rfl fun c _ => sum_congr rfl fun d _ => sum_comm]
  rw [sum_congr rfl fun c _ => sum_comm]
  rw [sum_comm]
  rw [sum_congr rfl fun a _ => sum_congr rfl fun c _ => sum_comm]
  rw [sum_congr rfl fun a _ => sum_comm]
  exact sum_congr rfl fun a _ => sum_congr rfl fun b _ => sum_congr rfl fun c _ =>
    sum_congr rfl fun d _ => by ring

theorem sum4_rev {M : Type} [AddCommMonoid M] (f : Fin n → Fin n → Fin n → Fin n → M) :
    ∑ a, ∑ b, ∑ c, ∑ d, f a b c d = ∑ d, ∑ c, ∑ b, ∑ a, f a b c d := by
  rw [sum_comm]
  rw [sum_congr rfl fun b _ => sum_congr rfl fun a _ => sum_comm]
  rw [sum_congr rfl fun b _ => sum_comm]
  rw [sum_congr rfl fun b _ => sum_congr rfl fun d _ => sum_comm]
  rw [sum_comm]
  exact sum_congr rfl fun d _ => sum_comm

theorem prod_sum2 {M : Type} [Ring M] (f g : Fin n → Fin n → M) :
    (∑ a, ∑ b, f a b) * (∑ c, ∑ d, g c d) = ∑ a, ∑ b, ∑ c, ∑ d, f a b * g c d := by
  rw [sum_mul]
  refine sum_congr rfl fun a _ => ?_
  rw [sum_mul]
  refine sum_congr rfl fun b _ => ?_
  rw [mul_sum]
  exact sum_congr rfl fun c _ => mul_sum _ _ _

theorem prod_sum4 {M : Type} [Ring M] (x y z w : Fin n → M) :
    (∑ a, x a) * (∑ b, y b) * (∑ c, z c) * (∑ d, w d) = ∑ a, ∑ b, ∑ c, ∑ d, x a * y b * z c * w d := by
  rw [sum_mul_sum, mul_assoc, sum_mul_sum, prod_sum2]
  exact sum_congr rfl fun a _ => sum_congr rfl fun b _ => sum_congr rfl fun c _ =>
    sum_congr rfl fun d _ => by simp only [mul_assoc]

/-! ### C44: one- and two-particle objects -/

/-- **C44.** For every unitary rotation and every bilinear functional of an annihilation and a
creation operator: rotating the object measured in the new basis with the code of `compute_G1` gives
the object of the original basis. -/
theorem C44_g1 {A : Type} [Ring A] [Algebra K A] {R : Matrix (Fin n) (Fin n) K} (hR : R * Rᴴ = 1)
    {c cd c' cd' : Fin n → A} (hc : BasisChange R c cd c' cd') (E : A →ₗ[K] A →ₗ[K] K) :
    rotateG1 R (of fun a b => E (c' a) (cd' b)) = of fun i j => E (c i) (cd j) := by
  ext i j
  rw [rotateG1_eq hR, of_apply, hc.ann, hc.cre]
  simp only [map_sum, map_smul, LinearMap.sum_apply, LinearMap.smul_apply, smul_eq_mul, of_apply, mul_sum]
  rw [sum_comm]
  exact sum_congr rfl fun a _ => sum_congr rfl fun b _ => by ring

/-- **C44.** The same for the two-particle object of `rotate_back_G2`; the rotation need not be
unitary here. -/
theorem C44_g2 {A : Type} [Ring A] [Algebra K A] {R : Matrix (Fin n) (Fin n) K}
    {c cd c' cd' : Fin n → A} (hc : BasisChange R c cd c' cd') (E : A →ₗ[K] A →ₗ[K] A →ₗ[K] A →ₗ[K] K) :
    rotateBackG2 R (fun a b d e => E (c' a) (cd' b) (c' d) (cd' e)) =
      fun i j k l => E (c i) (cd j) (c k) (cd l) := by
  funext i j k l
  rw [rotateBackG2_eq, hc.ann i, hc.cre j, hc.ann k, hc.cre l]
  simp only [map_sum, map_smul, LinearMap.sum_apply, LinearMap.smul_apply, smul_eq_mul, mul_sum]
  rw [sum4_rev]
  exact sum_congr rfl fun a _ => sum_congr rfl fun b _ => sum_congr rfl fun c _ =>
    sum_congr rfl fun d _ => by ring

/-- **C44.** The same for the equal-time one-particle object (creation, annihilation). -/
theorem C44_equal_time_g1 {A : Type} [Ring A] [Algebra K A] {R : Matrix (Fin n) (Fin n) K}
    {c cd c' cd' : Fin n → A} (hc : BasisChange R c cd c' cd') (E : A →ₗ[K] A →ₗ[K] K) :
    rotateEqG1 R (of fun a b => E (cd' a) (c' b)) = of fun i j => E (cd i) (c j) := by
  ext i j
  unfold rotateEqG1
  rw [of_apply, hc.ann, hc.cre]
  simp only [map_sum, map_smul, LinearMap.sum_apply, LinearMap.smul_apply, smul_eq_mul, of_apply, mul_sum]
  rw [sum_comm]
  exact sum_congr rfl fun a _ => sum_congr rfl fun b _ => by ring

/-- **C44.** The same for the equal-time and the two-time two-particle objects (creation,
annihilation, creation, annihilation). -/
theorem C44_equal_time_g2 {A : Type} [Ring A] [Algebra K A] {R : Matrix (Fin n) (Fin n) K}
    {c cd c' cd' : Fin n → A} (hc : BasisChange R c cd c' cd') (E : A →ₗ[K] A →ₗ[K] A →ₗ[K] A →ₗ[K] K) :
    rotateEqG2 R (fun a b d e => E (cd' a) (c' b) (cd' d) (c' e)) =
      fun i j k l => E (cd i) (c j) (cd k) (c l) := by
  funext i j k l
  unfold rotateEqG2
  rw [hc.cre i, hc.ann j, hc.cre k, hc.ann l]
  simp only [map_sum, map_smul, LinearMap.sum_apply, LinearMap.smul_apply, smul_eq_mul, mul_sum]
  rw [sum4_rev]
  exact sum_congr rfl fun a _ => sum_congr rfl fun b _ => sum_congr rfl fun c _ =>
    sum_congr rfl fun d _ => by ring

/-! ### C44: inverse -/

/-- **C44.** Rotating back is the exact inverse of the rotation to the new basis, one-particle
objects, both orders. -/
theorem C44_g1_inverse {R : Matrix (Fin n) (Fin n) K} (hR : R * Rᴴ = 1) (G : Matrix (Fin n) (Fin n) K) :
    rotateG1 R (toNewG1 R G) = G ∧ toNewG1 R (rotateG1 R G) = G := by
  have hR' : Rᴴ * R = 1 := mul_eq_one_comm.1 hR
  unfold rotateG1
  rw [toNewG1_eq, toNewG1_eq, inv_unitary hR]
  constructor
  · calc R * (Rᴴ * G * R) * Rᴴ = (R * Rᴴ) * G * (R * Rᴴ) := by simp only [Matrix.mul_assoc]
      _ = G := by rw [hR, Matrix.one_mul, Matrix.mul_one]
  · calc Rᴴ * (R * G * Rᴴ) * R = (Rᴴ * R) * G * (Rᴴ * R) := by simp only [Matrix.mul_assoc]
      _ = G := by rw [hR', Matrix.one_mul, Matrix.mul_one]

omit [StarRing K] in
theorem rotPass1_inv {R S : Matrix (Fin n) (Fin n) K} (h : R * S = 1) (G : T4 n K) :
    rotPass1 R (rotPass1 S G) = G := by
  funext a b c d
  unfold rotPass1
  simp only [mul_sum]
  rw [sum_comm]
  have : ∀ g, ∑ x, R a x * (S x g * G g b c d) = (1 : Matrix (Fin n) (Fin n) K) a g * G g b c d := by
    intro g
    rw [← h, Matrix.mul_apply, sum_mul]
    exact sum_congr rfl fun x _ => by ring
  rw [sum_congr rfl fun g _ => this g]
  simp [Matrix.one_apply]

omit [StarRing K] in
theorem rotPass3_inv {R S : Matrix (Fin n) (Fin n) K} (h : R * S = 1) (G : T4 n K) :
    rotPass3 R (rotPass3 S G) = G := by
  funext a b c d
  exact congrFun (congrFun (congrFun (congrFun
    (rotPass1_inv h fun x _ _ _ => G a b x d) c) a) a) a

theorem star_pass {R S : Matrix (Fin n) (Fin n) K} (h : R * S = 1) :
    R.map star * S.map star = 1 := by
  ext i j
  have := congrArg star (congrFun (congrFun h i) j)
  rw [Matrix.mul_apply, star_sum] at this
  rw [Matrix.mul_apply]
  simp only [Matrix.map_apply]
  simp only [star_mul'] at this
  rw [this, Matrix.one_apply]
  split <;> simp

theorem rotPass2_inv {R S : Matrix (Fin n) (Fin n) K} (h : R * S = 1) (G : T4 n K) :
    rotPass2 R (rotPass2 S G) = G := by
  funext a b c d
  exact congrFun (congrFun (congrFun (congrFun
    (rotPass1_inv (star_pass h) fun x _ _ _ => G a x c d) b) a) a) a

theorem rotPass4_inv {R S : Matrix (Fin n) (Fin n) K} (h : R * S = 1) (G : T4 n K) :
    rotPass4 R (rotPass4 S G) = G := by
  funext a b c d
  exact congrFun (congrFun (congrFun (congrFun
    (rotPass1_inv (star_pass h) fun x _ _ _ => G a b c x) d) a) a) a

theorem rotPass12 (R S : Matrix (Fin n) (Fin n) K) (G : T4 n K) :
    rotPass1 R (rotPass2 S G) = rotPass2 S (rotPass1 R G) := by
  funext a b c d
  unfold rotPass1 rotPass2
  simp only [mul_sum]
  rw [sum_comm]
  exact sum_congr rfl fun x _ => sum_congr rfl fun y _ => by ring

omit [StarRing K] in
theorem rotPass13 (R S : Matrix (Fin n) (Fin n) K) (G : T4 n K) :
    rotPass1 R (rotPass3 S G) = rotPass3 S (rotPass1 R G) := by
  funext a b c d
  unfold rotPass1 rotPass3
  simp only [mul_sum]
  rw [sum_comm]
  exact sum_congr rfl fun x _ => sum_congr rfl fun y _ => by ring

theorem rotPass14 (R S : Matrix (Fin n) (Fin n) K) (G : T4 n K) :
    rotPass1 R (rotPass4 S G) = rotPass4 S (rotPass1 R G) := by
  funext a b c d
  unfold rotPass1 rotPass4
  simp only [mul_sum]
  rw [sum_comm]
  exact sum_congr rfl fun x _ => sum_congr rfl fun y _ => by ring

theorem rotPass23 (R S : Matrix (Fin n) (Fin n) K) (G : T4 n K) :
    rotPass2 R (rotPass3 S G) = rotPass3 S (rotPass2 R G) := by
  funext a b c d
  unfold rotPass2 rotPass3
  simp only [mul_sum]
  rw [sum_comm]
  exact sum_congr rfl fun x _ => sum_congr rfl fun y _ => by ring

theorem rotPass24 (R S : Matrix (Fin n) (Fin n) K) (G : T4 n K) :
    rotPass2 R (rotPass4 S G) = rotPass4 S (rotPass2 R G) := by
  funext a b c d
  unfold rotPass2 rotPass4
  simp only [mul_sum]
  rw [sum_comm]
  exact sum_congr rfl fun x _ => sum_congr rfl fun y _ => by ring

theorem rotPass34 (R S : Matrix (Fin n) (Fin n) K) (G : T4 n K) :
    rotPass3 R (rotPass4 S G) = rotPass4 S (rotPass3 R G) := by
  funext a b c d
  unfold rotPass3 rotPass4
  simp only [mul_sum]
  rw [sum_comm]
  exact sum_congr rfl fun x _ => sum_congr rfl fun y _ => by ring

theorem rotateBackG2_comp_inv {R S : Matrix (Fin n) (Fin n) K} (h : R * S = 1) (G : T4 n K) :
    rotateBackG2 R (rotateBackG2 S G) = G := by
  unfold rotateBackG2
  rw [rotPass14, rotPass13, rotPass12, rotPass1_inv h, rotPass24, rotPass23, rotPass2_inv h,
    rotPass34, rotPass3_inv h, rotPass4_inv h]

theorem toNewG2_eq (R : Matrix (Fin n) (Fin n) K) (G : T4 n K) : toNewG2 R G = rotateBackG2 Rᴴ G := by
  funext a b c d
  rw [rotateBackG2_eq]
  unfold toNewG2
  simp only [conjTranspose_apply, star_star]

/-- **C44.** Rotating back is the exact inverse of the rotation to the new basis, two-particle
objects, both orders. -/
theorem C44_g2_inverse {R : Matrix (Fin n) (Fin n) K} (hR : R * Rᴴ = 1) (G : T4 n K) :
    rotateBackG2 R (toNewG2 R G) = G ∧ toNewG2 R (rotateBackG2 R G) = G := by
  rw [toNewG2_eq, toNewG2_eq]
  exact ⟨rotateBackG2_comp_inv hR G, rotateBackG2_comp_inv (mul_eq_one_comm.1 hR) G⟩

/-! ### C44: products -/

/-- **C44.** The rotation of a product of one-particle objects is the product of the rotated
one-particle objects: direct and exchange pairing of the four operators. -/
theorem C44_product {R : Matrix (Fin n) (Fin n) K} (hR : R * Rᴴ = 1) (A B : Matrix (Fin n) (Fin n) K) :
    rotateBackG2 R (fun a b c d => A a b * B c d) =
      (fun i j k l => rotateG1 R A i j * rotateG1 R B k l) ∧
    rotateBackG2 R (fun a b c d => A a d * B c b) =
      (fun i j k l => rotateG1 R A i l * rotateG1 R B k j) := by
  constructor
  · funext i j k l
    rw [rotateBackG2_eq, rotateG1_eq hR, rotateG1_eq hR, prod_sum2]
    exact sum_congr rfl fun a _ => sum_congr rfl fun b _ => sum_congr rfl fun c _ =>
      sum_congr rfl fun d _ => by ring
  · funext i j k l
    rw [rotateBackG2_eq, rotateG1_eq hR, rotateG1_eq hR, sum_mul]
    refine sum_congr rfl fun a _ => ?_
    simp only [sum_mul, mul_sum]
    rw [sum_comm]
    exact sum_congr rfl fun b _ => sum_congr rfl fun c _ =>
      sum_congr rfl fun d _ => by ring

/-- **C44.** The same rules for the equal-time objects: inverse, and products. -/
theorem C44_equal_time {R : Matrix (Fin n) (Fin n) K} (hR : R * Rᴴ = 1) (A B : Matrix (Fin n) (Fin n) K)
    (G : T4 n K) :
    rotateEqG1 R Aᵀ = (rotateG1 R A)ᵀ ∧
    rotateEqG2 R (fun a b c d => A a b * B c d) =
      (fun i j k l => rotateEqG1 R A i j * rotateEqG1 R B k l) ∧
    rotateEqG2 R (fun a b c d => A a d * B c b) =
      (fun i j k l => rotateEqG1 R A i l * rotateEqG1 R B k j) ∧
    rotateEqG2 R (fun a b c d => G b a d c) = fun i j k l => rotateBackG2 R G j i l k := by
  refine ⟨?_, ?_, ?_, ?_⟩
  · ext i j
    rw [transpose_apply, rotateG1_eq hR]
    unfold rotateEqG1
    rw [sum_comm]
    simp only [transpose_apply]
    exact sum_congr rfl fun a _ => sum_congr rfl fun b _ => by ring
  · funext i j k l
    unfold rotateEqG2 rotateEqG1
    rw [prod_sum2]
    exact sum_congr rfl fun a _ => sum_congr rfl fun b _ => sum_congr rfl fun c _ =>
      sum_congr rfl fun d _ => by ring
  · funext i j k l
    unfold rotateEqG2 rotateEqG1
    rw [sum_mul]
    refine sum_congr rfl fun a _ => ?_
    simp only [sum_mul, mul_sum]
    rw [sum_comm]
    exact sum_congr rfl fun b _ => sum_congr rfl fun c _ =>
      sum_congr rfl fun d _ => by ring
  · funext i j k l
    rw [rotateBackG2_eq]
    unfold rotateEqG2
    rw [sum_comm]
    refine sum_congr rfl fun a _ => sum_congr rfl fun b _ => ?_
    rw [sum_comm]
    exact sum_congr rfl fun c _ => sum_congr rfl fun d _ => by ring

/-! ### C44: the Hamiltonian and the hybridization function in the new basis -/

theorem bilinear_rot {A : Type} [Ring A] [Algebra K A] {R : Matrix (Fin n) (Fin n) K}
    {c cd c' cd' : Fin n → A} (hc : BasisChange R c cd c' cd') (t : Matrix (Fin n) (Fin n) K) :
    ∑ i, ∑ j, t i j • (cd i * c j) = ∑ a, ∑ b, hoppingRot R t a b • (cd' a * c' b) := by
  have h1 : ∀ i j, t i j • (cd i * c j) = ∑ a, ∑ b, (star (R i a) * t i j * R j b) • (cd' a * c' b) := by
    intro i j
    rw [hc.cre, hc.ann, sum_mul_sum, smul_sum]
    refine sum_congr rfl fun a _ => ?_
    rw [smul_sum]
    refine sum_congr rfl fun b _ => ?_
    rw [smul_mul_smul_comm, smul_smul]
    congr 1
    ring
  simp only [h1]
  have h2 : ∀ a b, hoppingRot R t a b = ∑ i, ∑ j, star (R i a) * t i j * R j b := fun a b => by
    have := congrFun (congrFun (toNewG1_eq R t) a) b
    exact this.symm
  simp only [h2, sum_smul]
  rw [sum4_rev, sum_comm]
  rw [sum_congr rfl fun a _ => sum_congr rfl fun b _ => sum_comm]

theorem uTensorRot_cons (R : Matrix (Fin n) (Fin n) K) (us : List (UElem n K)) (f0 f1 f2 f3 : Fin n) :
    uTensorRot R us f0 f1 f2 f3 =
      (us.map fun e => e.val * star (R e.a f0) * star (R e.b f1) * R e.ap f2 * R e.bp f3).sum := by
  have gen : ∀ (us : List (UElem n K)) (U : T4 n K),
      us.foldl (fun U e => fun f0 f1 f2 f3 => U f0 f1 f2 f3 +
        e.val * star (R.transpose f0 e.a) * star (R.transpose f1 e.b) * R.transpose f2 e.ap *
          R.transpose f3 e.bp) U f0 f1 f2 f3 =
      U f0 f1 f2 f3 +
        (us.map fun e => e.val * star (R e.a f0) * star (R e.b f1) * R e.ap f2 * R e.bp f3).sum := by
    intro us
    induction us with
    | nil => simp
    | cons e us ih =>
      intro U
      rw [List.foldl_cons, ih, List.map_cons, List.sum_cons]
      simp only [transpose_apply]
      ring
  unfold uTensorRot
  rw [gen, zero_add]

theorem quad_rot {A : Type} [Ring A] [Algebra K A] {R : Matrix (Fin n) (Fin n) K}
    {c cd c' cd' : Fin n → A} (hc : BasisChange R c cd c' cd') (us : List (UElem n K)) :
    (us.map fun e => e.val • (cd e.a * cd e.b * c e.ap * c e.bp)).sum =
      ∑ f1, ∑ f2, ∑ f3, ∑ f4, uTensorRot R us f1 f2 f3 f4 • (cd' f1 * cd' f2 * c' f3 * c' f4) := by
  simp only [uTensorRot_cons]
  induction us with
  | nil => simp
  | cons e us ih =>
    simp only [List.map_cons, List.sum_cons, add_smul, sum_add_distrib]
    rw [ih]
    congr 1
    rw [hc.cre e.a, hc.cre e.b, hc.ann e.ap, hc.ann e.bp]
    rw [prod_sum4]
    simp only [smul_sum, smul_mul_smul_comm, smul_smul]
    exact sum_congr rfl fun a _ => sum_congr rfl fun b _ => sum_congr rfl fun c _ =>
      sum_congr rfl fun d _ => by congr 1; ring

/-- **C44.** The Hamiltonian does not depend on the basis: the operator built from the Coulomb and
hopping elements with the operators of the original basis is the one which the code builds from the
rotated elements with the operators of the new basis, in every algebra. -/
theorem C44_hamiltonian {A : Type} [Ring A] [Algebra K A] {R : Matrix (Fin n) (Fin n) K}
    {c cd c' cd' : Fin n → A} (hc : BasisChange R c cd c' cd') (us : List (UElem n K))
    (t : Matrix (Fin n) (Fin n) K) :
    (us.map fun e => e.val • (cd e.a * cd e.b * c e.ap * c e.bp)).sum + ∑ i, ∑ j, t i j • (cd i * c j) =
      (∑ f1, ∑ f2, ∑ f3, ∑ f4, uTensorRot R us f1 f2 f3 f4 • (cd' f1 * cd' f2 * c' f3 * c' f4)) +
        ∑ f1, ∑ f2, hoppingRot R t f1 f2 • (cd' f1 * c' f2) := by
  rw [quad_rot hc, bilinear_rot hc]

/-- The operators of the original basis in terms of the matrices of the code. -/
noncomputable def orgC (R : Matrix (Fin n) (Fin n) K) (i : Fin n) : Matrix (Fin (2 ^ n)) (Fin (2 ^ n)) K :=
  ∑ a, R i a • (cOp n a).map (Int.cast : ℤ → K)

/-- The creation operators of the original basis. -/
noncomputable def orgCd (R : Matrix (Fin n) (Fin n) K) (i : Fin n) : Matrix (Fin (2 ^ n)) (Fin (2 ^ n)) K :=
  ∑ a, star (R i a) • (cdagOp n a).map (Int.cast : ℤ → K)

omit [StarRing K] in
/-- Elements with different indices are all present, each once. -/
theorem hoppingOrg_sum {A : Type} [AddCommGroup A] [Module K A] (ts : List (Fin n × Fin n × K))
    (hts : (ts.map fun e => (e.1, e.2.1)).Nodup) (X : Fin n → Fin n → A) :
    ∑ i, ∑ j, hoppingOrg ts i j • X i j = (ts.map fun e => e.2.2 • X e.1 e.2.1).sum := by
  have gen : ∀ (ts : List (Fin n × Fin n × K)) (t r : Fin n → Fin n → K),
      (ts.map fun e => (e.1, e.2.1)).Nodup → (∀ e ∈ ts, t e.1 e.2.1 = 0) →
      r = ts.foldl (fun t e => fun i j => if i = e.1 ∧ j = e.2.1 then e.2.2 else t i j) t →
      ∑ i, ∑ j, r i j • X i j =
        ∑ i, ∑ j, t i j • X i j + (ts.map fun e => e.2.2 • X e.1 e.2.1).sum := by
    intro ts
    induction ts with
    | nil => rintro t r - - rfl; simp
    | cons e ts ih =>
      intro t r hnd h0 hr
      rw [List.map_cons, List.nodup_cons] at hnd
      rw [List.foldl_cons] at hr
      rw [ih _ r hnd.2 ?_ hr, List.map_cons, List.sum_cons, ← add_assoc]
      · congr 1
        have hz : t e.1 e.2.1 = 0 := h0 e (by simp)
        have : ∀ i j, (if i = e.1 ∧ j = e.2.1 then e.2.2 else t i j) • X i j =
            t i j • X i j + if i = e.1 then (if j = e.2.1 then e.2.2 • X i j else 0) else 0 := by
          intro i j
          by_cases hi : i = e.1
          · by_cases hj : j = e.2.1
            · subst hi hj; simp [hz]
            · simp [hj]
          · simp [hi]
        simp only [this, sum_add_distrib]
        congr 1
        simp
      · intro e' he'
        rw [if_neg, h0 e' (by simp [he'])]
        rintro ⟨h1, h2⟩
        exact hnd.1 (List.mem_map.2 ⟨e', he', by rw [h1, h2]⟩)
  have := gen ts (fun _ _ => 0) (hoppingOrg ts) hts (fun _ _ => rfl) rfl
  simpa using this

omit [StarRing K] in
/-- **C44.** Two elements with the same indices: the later one counts. -/
theorem C44_hopping_overwrite (ts : List (Fin n × Fin n × K)) (i j : Fin n) (v : K) :
    hoppingOrg (ts ++ [(i, j, v)]) i j = v := by
  have h := List.foldl_append (f := fun (t : Fin n → Fin n → K) (e : Fin n × Fin n × K) =>
    fun i j => if i = e.1 ∧ j = e.2.1 then e.2.2 else t i j) (b := fun _ _ => 0) (l := ts)
    (l' := [(i, j, v)])
  refine (congrFun (congrFun h i) j).trans ?_
  simp

/-- **C44.** The matrix built by `hilbert_space_partioning` is the Hamiltonian of the original basis,
if no element of the rotated tensors is cut off although it is not zero. -/
theorem C44_ham_matrix (big : K → Bool) (R : Matrix (Fin n) (Fin n) K) (us : List (UElem n K))
    (ts : List (Fin n × Fin n × K))
    (hU : ∀ a b c d, big (uTensorRot R us a b c d) = false → uTensorRot R us a b c d = 0)
    (ht : ∀ a b, big (hoppingRot R (hoppingOrg ts) a b) = false → hoppingRot R (hoppingOrg ts) a b = 0) :
    hamOf big R us ts =
      (us.map fun e => e.val • (orgCd R e.a * orgCd R e.b * orgC R e.ap * orgC R e.bp)).sum +
        ∑ i, ∑ j, hoppingOrg ts i j • (orgCd R i * orgC R j) := by
  have hc : BasisChange R (orgC R) (orgCd R) (fun a => (cOp n a).map (Int.cast : ℤ → K))
      (fun a => (cdagOp n a).map (Int.cast : ℤ → K)) := ⟨fun _ => rfl, fun _ => rfl⟩
  rw [C44_hamiltonian hc]
  unfold hamOf hamMatrix
  simp only
  refine congrArg₂ (· + ·) ?_ ?_
  · refine sum_congr rfl fun a _ => sum_congr rfl fun b _ => sum_congr rfl fun c _ =>
      sum_congr rfl fun d _ => ?_
    split
    · rfl
    · next h => rw [hU _ _ _ _ (by simpa using h), zero_smul]
  · rw [sum_comm]
    refine sum_congr rfl fun a _ => sum_congr rfl fun b _ => ?_
    split
    · rfl
    · next h => rw [ht _ _ (by simpa using h), zero_smul]

/-- **C44.** The same for a list of hopping elements with different indices: the matrix is the sum over
the elements read. -/
theorem C44_ham_matrix_list (big : K → Bool) (R : Matrix (Fin n) (Fin n) K) (us : List (UElem n K))
    (ts : List (Fin n × Fin n × K)) (hts : (ts.map fun e => (e.1, e.2.1)).Nodup)
    (hu : ∀ a b c d, big (uTensorRot R us a b c d) = false → uTensorRot R us a b c d = 0)
    (ht : ∀ a b, big (hoppingRot R (hoppingOrg ts) a b) = false → hoppingRot R (hoppingOrg ts) a b = 0) :
    hamOf big R us ts =
      (us.map fun e => e.val • (orgCd R e.a * orgCd R e.b * orgC R e.ap * orgC R e.bp)).sum +
        (ts.map fun e => e.2.2 • (orgCd R e.1 * orgC R e.2.1)).sum := by
  rw [C44_ham_matrix big R us ts hu ht, hoppingOrg_sum ts hts]

/-- **C44.** For a unitary rotation the operators of the original basis satisfy the canonical
anticommutation relations. -/
theorem C44_car {R : Matrix (Fin n) (Fin n) K} (hR : R * Rᴴ = 1) : CAR (orgC R) (orgCd R) := by
  have h := C30_car_ring n K
  have gen : ∀ (x y : Fin n → K) (u v : Fin n → Matrix (Fin (2 ^ n)) (Fin (2 ^ n)) K)
      (z : Fin n → Fin n → Matrix (Fin (2 ^ n)) (Fin (2 ^ n)) K),
      (∀ a b, u a * v b + v b * u a = z a b) →
      (∑ a, x a • u a) * (∑ b, y b • v b) + (∑ b, y b • v b) * (∑ a, x a • u a) =
        ∑ a, ∑ b, (x a * y b) • z a b := by
    intro x y u v z hz
    rw [sum_mul_sum, sum_mul_sum, sum_comm (γ := Fin n) (s := univ) (t := univ)
      (f := fun b a => y b • v b * x a • u a), ← sum_add_distrib]
    refine sum_congr rfl fun a _ => ?_
    rw [← sum_add_distrib]
    refine sum_congr rfl fun b _ => ?_
    rw [← hz, smul_mul_smul_comm, smul_mul_smul_comm, mul_comm (y b), smul_add]
  refine ⟨fun i j => ?_, fun i j => ?_, fun i j => ?_⟩
  · unfold orgC
    rw [gen _ _ _ _ (fun _ _ => 0) h.cc]
    simp
  · unfold orgCd
    rw [gen _ _ _ _ (fun _ _ => 0) h.dd]
    simp
  · unfold orgC orgCd
    rw [gen _ _ _ _ (fun a b => if a = b then 1 else 0) h.cd]
    simp only [smul_ite, smul_zero, sum_ite_eq, mem_univ, if_true]
    rw [← sum_smul]
    have := congrFun (congrFun hR i) j
    rw [Matrix.mul_apply] at this
    simp only [conjTranspose_apply] at this
    rw [this, Matrix.one_apply]
    split <;> simp

/-- **C44.** The rotated hybridization function is the one of the new basis: if
`F_ij = -Delta_ji` (at the reflected time) then the rotated `F` belongs in the same way to the
`Delta` of the new basis; the rotation matrix for `F` is the conjugate of the one for `Delta`. -/
theorem C44_hybridization {R : Matrix (Fin n) (Fin n) K} (hR : R * Rᴴ = 1) (D : Matrix (Fin n) (Fin n) K) :
    rotateF (R.map star) (-Dᵀ) = -(toNewG1 R D)ᵀ := by
  have hinv : (R.map star)⁻¹ = Rᵀ := by
    apply Matrix.inv_eq_left_inv
    have : Rᴴ * R = 1 := mul_eq_one_comm.1 hR
    rw [← transpose_one, ← this, transpose_mul]
    rfl
  unfold rotateF
  rw [hinv, toNewG1_eq, transpose_mul, transpose_mul, neg_mul, mul_neg]
  rfl

/-- **C44.** The bath term `sum_ij c_i^dagger Delta_ij c_j` is the same operator in both bases. -/
theorem C44_bath_term {A : Type} [Ring A] [Algebra K A] {R : Matrix (Fin n) (Fin n) K}
    {c cd c' cd' : Fin n → A} (hc : BasisChange R c cd c' cd') (D : Matrix (Fin n) (Fin n) K) :
    ∑ i, ∑ j, D i j • (cd i * c j) = ∑ a, ∑ b, toNewG1 R D a b • (cd' a * c' b) := by
  rw [bilinear_rot hc, toNewG1_eq]
  rfl

end

/-! ### C44: reading the rotation matrix -/

theorem colNorm2_pos {n : ℕ} {M : Matrix (Fin n) (Fin n) ℂ} {j : Fin n} (h : colNorm2 M j ≠ 0) :
    0 < colNorm2 M j :=
  lt_of_le_of_ne (sum_nonneg fun _ _ => mul_self_nonneg _) (Ne.symm h)

theorem normalised_column {n : ℕ} (M : Matrix (Fin n) (Fin n) ℂ) (j : Fin n) (h : colNorm2 M j ≠ 0) :
    ∑ k, star (normaliseCols M k j) * normaliseCols M k j = 1 := by
  have hp := colNorm2_pos h
  have e : ∀ k, star (normaliseCols M k j) * normaliseCols M k j =
      ((‖M k j‖ * ‖M k j‖ * (1 / colNorm2 M j) : ℝ) : ℂ) := by
    intro k
    unfold normaliseCols
    have hs : Real.sqrt (colNorm2 M j) * Real.sqrt (colNorm2 M j) = colNorm2 M j := Real.mul_self_sqrt hp.le
    have hs' : ((1 / Real.sqrt (colNorm2 M j) : ℝ) : ℂ) * ((1 / Real.sqrt (colNorm2 M j) : ℝ) : ℂ) =
        ((1 / colNorm2 M j : ℝ) : ℂ) := by
      rw [← Complex.ofReal_mul, div_mul_div_comm, one_mul, hs]
    have hm : star (M k j) * M k j = ((‖M k j‖ * ‖M k j‖ : ℝ) : ℂ) := by
      rw [Complex.norm_mul_self_eq_normSq]
      exact Complex.normSq_eq_conj_mul_self.symm
    rw [star_mul']
    have hr : star ((1 / Real.sqrt (colNorm2 M j) : ℝ) : ℂ) = ((1 / Real.sqrt (colNorm2 M j) : ℝ) : ℂ) :=
      Complex.conj_ofReal _
    rw [hr]
    calc _ = (star (M k j) * M k j) * (((1 / Real.sqrt (colNorm2 M j) : ℝ) : ℂ) *
          ((1 / Real.sqrt (colNorm2 M j) : ℝ) : ℂ)) := by ring
      _ = _ := by rw [hm, hs']; push_cast; ring
  rw [sum_congr rfl fun k _ => e k, ← Complex.ofReal_sum, ← sum_mul]
  have : (∑ i, ‖M i j‖ * ‖M i j‖) * (1 / colNorm2 M j) = 1 := mul_one_div_cancel h
  rw [this, Complex.ofReal_one]

/-- **C44.** What the test of the input guarantees: an accepted matrix has normalised columns, the
products of different columns are within the tolerance, no column of the input was zero, and the
columns of the input were only scaled. -/
theorem C44_read {n : ℕ} (tol : ℝ) (M RF : Matrix (Fin n) (Fin n) ℂ)
    (h : checkRotation tol M = .accepted RF) :
    (∀ j, (RFᴴ * RF) j j = 1) ∧ (∀ i j, i ≠ j → ‖(RFᴴ * RF) i j‖ ≤ tol) ∧
      (∀ j, ∃ s : ℝ, 0 < s ∧ ∀ i, RF i j = M i j * (s : ℂ)) := by
  unfold checkRotation at h
  simp only at h
  split at h
  · cases h
  · next h1 =>
    split at h
    · cases h
    · next h2 =>
      injection h with h
      subst h
      have hz : ∀ j, colNorm2 M j ≠ 0 := fun j hj => h2 ⟨j, hj⟩
      have e : ∀ i j, ((normaliseCols M)ᴴ * normaliseCols M) i j =
          ∑ k, star (normaliseCols M k i) * normaliseCols M k j := fun i j => by
        rw [Matrix.mul_apply]; rfl
      have lower : ∀ i j, j < i → ‖∑ k, star (normaliseCols M k i) * normaliseCols M k j‖ ≤ tol := by
        intro i j hij
        by_contra hc
        exact h1 ⟨i, j, hij, hz i, hz j, not_le.1 hc⟩
      refine ⟨fun j => by rw [e, normalised_column M j (hz j)], fun i j hij => ?_, fun j => ?_⟩
      · rw [e]
        rcases lt_or_gt_of_ne hij with h | h
        · have := lower j i h
          rw [← norm_star, star_sum] at this
          simp only [star_mul', star_star] at this
          have e3 : ∑ k, normaliseCols M k j * star (normaliseCols M k i) =
              ∑ k, star (normaliseCols M k i) * normaliseCols M k j :=
            sum_congr rfl fun k _ => mul_comm _ _
          rwa [e3] at this
        · exact lower i j h
      · exact ⟨_, one_div_pos.2 (Real.sqrt_pos.2 (colNorm2_pos (hz j))), fun i => rfl⟩

/-- **C44.** The matrix which rotates `Delta` and the measured functions is the one of the input file
up to the normalisation of the columns: its entries have the real and imaginary parts read. -/
theorem C44_read_delta {n : ℕ} (tol : ℝ) (inp : Matrix (Fin n) (Fin n) (ℝ × ℝ))
    (RF : Matrix (Fin n) (Fin n) ℂ) (h : checkRotation tol (readEntries inp) = .accepted RF) (j : Fin n) :
    ∃ s : ℝ, 0 < s ∧ ∀ i, (rotDelta RF i j).re = s * (inp i j).1 ∧ (rotDelta RF i j).im = s * (inp i j).2 := by
  obtain ⟨-, -, h3⟩ := C44_read tol _ RF h
  obtain ⟨s, hs, hi⟩ := h3 j
  refine ⟨s, hs, fun i => ?_⟩
  unfold rotDelta
  rw [Matrix.map_apply, hi]
  simp [readEntries, mul_comm]

/-- **C44.** With tolerance 0 an accepted matrix is unitary, and so is its conjugate `rotmat_Delta`. -/
theorem C44_read_unitary {n : ℕ} (M RF : Matrix (Fin n) (Fin n) ℂ) (h : checkRotation 0 M = .accepted RF) :
    RF * RFᴴ = 1 ∧ rotDelta RF * (rotDelta RF)ᴴ = 1 := by
  obtain ⟨h1, h2, -⟩ := C44_read 0 M RF h
  have hu : RFᴴ * RF = 1 := by
    ext i j
    by_cases hij : i = j
    · subst hij; rw [h1, Matrix.one_apply_eq]
    · rw [Matrix.one_apply_ne hij]
      exact norm_le_zero_iff.1 (h2 i j hij)
  have hu' : RF * RFᴴ = 1 := mul_eq_one_comm.1 hu
  refine ⟨hu', ?_⟩
  exact star_pass hu'

/-- **C44.** With a tolerance below `1/n` (the code uses `1e-8`) an accepted matrix is invertible, so
that `inverse()` is defined. -/
theorem C44_read_invertible {n : ℕ} (tol : ℝ) (htol : tol * n < 1) (M RF : Matrix (Fin n) (Fin n) ℂ)
    (h : checkRotation tol M = .accepted RF) : IsUnit RF.det := by
  obtain ⟨h1, h2, -⟩ := C44_read tol M RF h
  have hd : (RFᴴ * RF).det ≠ 0 := by
    apply det_ne_zero_of_sum_row_lt_diag
    intro k
    rw [h1, norm_one]
    calc ∑ j ∈ univ.erase k, ‖(RFᴴ * RF) k j‖ ≤ ∑ j ∈ univ.erase k, tol :=
          sum_le_sum fun j hj => h2 k j (Finset.ne_of_mem_erase hj).symm
      _ = ((n : ℝ) - 1) * tol := by
          have : 1 ≤ n := k.pos
          rw [sum_const, card_erase_of_mem (mem_univ _), card_univ, Fintype.card_fin, nsmul_eq_mul,
            Nat.cast_sub this, Nat.cast_one]
      _ < 1 := by
          by_cases ht : 0 ≤ tol
          · nlinarith
          · have : (1 : ℝ) ≤ n := by exact_mod_cast k.pos
            nlinarith
  rw [det_mul] at hd
  exact (isUnit_iff_ne_zero).2 (right_ne_zero_of_mul hd)

/-- **C44.** Completeness: if the columns of the input are not zero and exactly orthogonal, the input
is accepted. -/
theorem C44_read_accepts {n : ℕ} (tol : ℝ) (htol : 0 ≤ tol) (M : Matrix (Fin n) (Fin n) ℂ)
    (hz : ∀ j, ∃ i, M i j ≠ 0) (ho : ∀ i j, i ≠ j → ∑ k, star (M k i) * M k j = 0) :
    ∃ RF, checkRotation tol M = .accepted RF := by
  have hz' : ∀ j, colNorm2 M j ≠ 0 := by
    intro j hj
    obtain ⟨i, hi⟩ := hz j
    have := (sum_eq_zero_iff_of_nonneg fun i _ => mul_self_nonneg ‖M i j‖).1 hj i (mem_univ _)
    exact hi (norm_eq_zero.1 (mul_self_eq_zero.1 this))
  refine ⟨normaliseCols M, ?_⟩
  unfold checkRotation
  simp only
  rw [if_neg, if_neg]
  · rintro ⟨j, hj⟩; exact hz' j hj
  · rintro ⟨i, j, hij, -, -, hlt⟩
    have : ∑ k, star (normaliseCols M k i) * normaliseCols M k j =
        (star ((1 / Real.sqrt (colNorm2 M i) : ℝ) : ℂ) * ((1 / Real.sqrt (colNorm2 M j) : ℝ) : ℂ)) *
          ∑ k, star (M k i) * M k j := by
      rw [mul_sum]
      refine sum_congr rfl fun k _ => ?_
      unfold normaliseCols
      rw [star_mul']
      ring
    rw [this, ho i j hij.ne', mul_zero, norm_zero] at hlt
    exact absurd hlt (not_lt.2 htol)

/-- **C44, violated for zero columns.** A matrix with a zero column has no inverse, but it is not
rejected: the run goes on with entries which are not numbers. -/
theorem C44_zero_column_violated {n : ℕ} (tol : ℝ) (j : Fin n) :
    ∃ M : Matrix (Fin n) (Fin n) ℂ, (∀ i, M i j = 0) ∧ checkRotation tol M = .notNumbers := by
  refine ⟨0, fun _ => rfl, ?_⟩
  unfold checkRotation
  simp only
  have hz : ∀ j : Fin n, colNorm2 (0 : Matrix (Fin n) (Fin n) ℂ) j = 0 := fun j => by simp [colNorm2]
  rw [if_neg, if_pos ⟨j, hz j⟩]
  rintro ⟨i, k, -, h, -⟩
  exact h (hz i)

/-! ### C55: the parameter `onsite_U` -/

section Onsite

variable {K : Type} [Field K] [StarRing K]

/-- Specification: the operator of the number of particles with flavor `f`. -/
noncomputable def numOp (K : Type) [Field K] {n : ℕ} (f : Fin n) : Matrix (Fin (2 ^ n)) (Fin (2 ^ n)) K :=
  (cdagOp n f).map (Int.cast : ℤ → K) * (cOp n f).map (Int.cast : ℤ → K)

/-- Specification: the interaction of the Hubbard model, `U` times the number of doubly occupied
sites. -/
noncomputable def hubbard (sites : ℕ) (U : K) :
    Matrix (Fin (2 ^ (sites * 2))) (Fin (2 ^ (sites * 2))) K :=
  ∑ s : Fin sites, U • (numOp K (n := sites * 2) ⟨2 * s.val, by omega⟩ *
    numOp K (n := sites * 2) ⟨2 * s.val + 1, by omega⟩)

omit [StarRing K] in
theorem normal_order {n d : ℕ} {c cd : Fin n → Matrix (Fin d) (Fin d) K} (h : CAR c cd) {a b : Fin n}
    (hab : a ≠ b) : cd a * cd b * c b * c a = (cd a * c a) * (cd b * c b) := by
  have h1 : c b * c a = -(c a * c b) := eq_neg_of_add_eq_zero_left (h.cc b a)
  have h2 : cd b * c a = -(c a * cd b) := by
    have := h.cd a b
    rw [if_neg hab] at this
    exact eq_neg_of_add_eq_zero_right this
  calc cd a * cd b * c b * c a = cd a * cd b * (c b * c a) := by simp only [mul_assoc]
    _ = -(cd a * (cd b * c a) * c b) := by rw [h1, mul_neg]; simp only [mul_assoc]
    _ = _ := by rw [h2, mul_neg, neg_mul, neg_neg]; simp only [mul_assoc]

omit [StarRing K] in
theorem orgC_one {n : ℕ} (i : Fin n) : orgC (1 : Matrix (Fin n) (Fin n) K) i = (cOp n i).map (Int.cast : ℤ → K) := by
  unfold orgC
  simp [Matrix.one_apply]

theorem orgCd_one {n : ℕ} (i : Fin n) : orgCd (1 : Matrix (Fin n) (Fin n) K) i = (cdagOp n i).map (Int.cast : ℤ → K) := by
  unfold orgCd
  have : ∀ a, star ((1 : Matrix (Fin n) (Fin n) K) i a) = if i = a then 1 else 0 := fun a => by
    rw [Matrix.one_apply]; split <;> simp
  simp [this]

/-- **C55 (partial).** The Hamiltonian which the parameter `onsite_U` gives is the interaction of the
Hubbard model with the parameter `half * U`; the factor `half` is the factor 1/2 which the other ways
of input need because they list every pair of flavours twice. -/
theorem C55_onsite_partial (big : K → Bool) (sites : ℕ) (half U : K)
    (hU : ∀ a b c d, big (uTensorRot (1 : Matrix (Fin (sites * 2)) (Fin (sites * 2)) K) (onsiteU sites half U) a b c d) = false →
      uTensorRot 1 (onsiteU sites half U) a b c d = 0) :
    hamOf big 1 (onsiteU sites half U) [] = hubbard sites (half * U) := by
  have h0 : hoppingOrg ([] : List (Fin (sites * 2) × Fin (sites * 2) × K)) = 0 := rfl
  rw [C44_ham_matrix big 1 _ _ hU (by intro a b _; rw [h0]; simp [hoppingRot]), h0]
  simp only [Matrix.zero_apply, zero_smul, sum_const_zero, add_zero, orgC_one, orgCd_one]
  unfold onsiteU hubbard numOp
  rw [List.map_map, ← List.sum_ofFn, List.ofFn_eq_map]
  congr 1
  refine List.map_congr_left fun s _ => ?_
  simp only [Function.comp]
  exact congrArg _ (normal_order (C30_car_ring (sites * 2) K) (a := ⟨2 * s.val, by omega⟩)
    (b := ⟨2 * s.val + 1, by omega⟩) (by simp))

/-- **C55, violated.** With the factor 1/2 of the code the parameter `onsite_U` does not give the
interaction of the Hubbard model with this parameter but with half of it. -/
theorem C55_onsite_violated [CharZero K] (big : K → Bool) (hbig : ∀ x, big x = false → x = 0)
    {sites : ℕ} (hs : 0 < sites) {U : K} (hU : U ≠ 0) :
    hamOf big 1 (onsiteU sites (1 / 2) U) [] = hubbard sites (U / 2) ∧
      hamOf big 1 (onsiteU sites (1 / 2) U) [] ≠ hubbard sites U := by
  have h := C55_onsite_partial big sites (1 / 2 : K) U fun _ _ _ _ => hbig _
  have h' : hamOf big 1 (onsiteU sites (1 / 2) U) [] = hubbard sites (U / 2) := by
    rw [h, one_div_mul_eq_div]
  refine ⟨h', fun e => ?_⟩
  rw [h'] at e
  have val : ∀ V : K, hubbard sites V 0 0 = sites * V := by
    intro V
    unfold hubbard
    rw [Matrix.sum_apply]
    have hn : ∀ f : Fin (sites * 2), numOp K f = Matrix.diagonal
        fun s => ((if s.val.testBit f then (0 : ℤ) else 1 : ℤ) : K) := by
      intro f
      unfold numOp
      have := (Matrix.map_mul (f := Int.castRingHom K) (L := cdagOp (sites * 2) f) (M := cOp (sites * 2) f)).symm
      refine this.trans ?_
      rw [C30_number]
      exact Matrix.diagonal_map (Int.cast_zero)
    have : ∀ s : Fin sites, (V • (numOp K (n := sites * 2) ⟨2 * s.val, by omega⟩ *
        numOp K (n := sites * 2) ⟨2 * s.val + 1, by omega⟩)) 0 0 = V := by
      intro s
      rw [hn, hn, Matrix.diagonal_mul_diagonal, Matrix.smul_apply, Matrix.diagonal_apply_eq]
      simp
    rw [sum_congr rfl fun s _ => this s]
    simp
  have e0 := congrFun (congrFun e 0) 0
  rw [val, val] at e0
  have hs' : (sites : K) ≠ 0 := by exact_mod_cast hs.ne'
  have := mul_left_cancel₀ hs' e0
  have h2 : (2 : K) ≠ 0 := two_ne_zero
  rw [div_eq_iff h2] at this
  have : U = 0 := by linear_combination -this
  exact hU this

end Onsite

/-! ### Examples -/

/-- A unitary rotation which is not the unit matrix. -/
example : (!![3 / 5, 4 / 5; -(4 / 5), 3 / 5] : Matrix (Fin 2) (Fin 2) ℚ) *
    (!![3 / 5, 4 / 5; -(4 / 5), 3 / 5])ᴴ = 1 := by
  ext i j
  fin_cases i <;> fin_cases j <;> simp [Matrix.mul_apply, Fin.sum_univ_two] <;> norm_num

/-- The rotation of the code is not trivial for it. -/
example : toNewG1 (!![3 / 5, 4 / 5; -(4 / 5), 3 / 5] : Matrix (Fin 2) (Fin 2) ℚ) !![1, 0; 0, 0] =
    !![9 / 25, 12 / 25; 12 / 25, 16 / 25] := by
  ext i j
  fin_cases i <;> fin_cases j <;> simp [toNewG1, Fin.sum_univ_two] <;> norm_num

/-- A matrix with orthogonal columns which are not normalised is accepted. -/
example : ∃ RF, checkRotation 0 (!![3, 4; -4, 3] : Matrix (Fin 2) (Fin 2) ℂ) = .accepted RF := by
  refine C44_read_accepts 0 le_rfl _ (fun j => ⟨j, ?_⟩) (fun i j hij => ?_)
  · fin_cases j <;> simp
  · fin_cases i <;> fin_cases j <;> simp [Fin.sum_univ_two, map_ofNat] at hij ⊢ <;> norm_num [map_ofNat]

/-- Two columns which are not orthogonal are rejected. -/
example : checkRotation 0 (!![1, 1; 0, 1] : Matrix (Fin 2) (Fin 2) ℂ) = .rejected := by
  unfold checkRotation
  simp only
  rw [if_pos]
  refine ⟨1, 0, by decide, ?_, ?_, ?_⟩
  · simp [colNorm2, Fin.sum_univ_two]
  · simp [colNorm2, Fin.sum_univ_two]
  · simp [normaliseCols, colNorm2, Fin.sum_univ_two]

/-- The hypotheses on the cut-off hold if only zeros are dropped. -/
example : hamOf (fun x : ℚ => x != 0) (n := 2) 1 (onsiteU 1 (1 / 2) 4) [] = hubbard 1 2 := by
  have := C55_onsite_partial (K := ℚ) (fun x => x != 0) 1 (1 / 2) 4 (by simp)
  rw [this]
  norm_num

end CTHyb
