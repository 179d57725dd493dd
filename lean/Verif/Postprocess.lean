import Verif.Legendre
import Verif.Sectors
import Mathlib.Analysis.Real.Sqrt
import Mathlib.Analysis.Real.Pi.Bounds
import Mathlib.Data.Complex.Basic
import Mathlib.LinearAlgebra.Matrix.ConjTranspose
import Mathlib.LinearAlgebra.Matrix.NonsingularInverse
import Mathlib.Analysis.Complex.Norm

/-!
Model of the post-processing (src/postprocess.hpp) and of the rotation of the single-particle basis
(src/model/model.ipp: read_rotation_hybridization_function, first part of hilbert_space_partioning).

Simplifications: exact real and complex numbers; `Eigen`'s `inverse()` is the inverse matrix; a
`boost::multi_array` indexed by flavours is a function of `Fin n`, the index over Legendre orders is
a list position.  The loading of means from the accumulators and the containers of `alps::gf` are not
modelled.
-/

namespace CTHyb

/-! ### Tail correction -/

/-- `tl1` (postprocess.hpp:83-85). -/
noncomputable def tl1 (l : ℕ) : ℝ := if l % 2 = 0 then -2 * Real.sqrt (2 * l + 1) else 0

/-- First loop over `l` of `correct_G1_tail` (postprocess.hpp:98-103): `diff` and `sum_t2`. -/
noncomputable def tailSums (beta c1 : ℝ) (g : List ℂ) : ℂ × ℂ :=
  g.zipIdx.foldl (fun s p => (s.1 - (tl1 p.2 : ℂ) * p.1, s.2 + (tl1 p.2 : ℂ) * (tl1 p.2 : ℂ)))
    ((beta * c1 : ℝ), 0)

/-- The body for one pair of flavours (postprocess.hpp:96-107). -/
noncomputable def correctRow (beta c1 : ℝ) (g : List ℂ) : List ℂ :=
  let s := tailSums beta c1 g
  g.zipIdx.map fun p => p.1 + (s.1 / s.2) * (tl1 p.2 : ℂ)

/-- `correct_G1_tail` (postprocess.hpp:90-110). -/
noncomputable def correctTail {n : ℕ} (beta : ℝ) (G : Fin n → Fin n → List ℂ) :
    Fin n → Fin n → List ℂ :=
  fun f1 f2 => correctRow beta (if f1 = f2 then 1 else 0) (G f1 f2)

/-- `sqrt_2l_1[l]` (legendre.cpp:15-20; the first element is written as `1.0`). -/
noncomputable def sqrt2l1 (l : ℕ) : ℝ := if l = 0 then 1 else Real.sqrt (2 * l + 1)

/-- One element of `itime_gf` of `compute_G1` (postprocess.hpp:176-193), `itau` from 0 to `nTau`. -/
noncomputable def gtau (beta : ℝ) (nTau : ℕ) (g : List ℂ) (itau : ℕ) : ℂ :=
  let tau := itau * (beta / nTau)
  let x := 2 * tau / beta - 1
  let P := computeLegendre g.length x
  g.zipIdx.foldl (fun s p => s + ((P.getD p.2 0 : ℝ) : ℂ) * p.1 * (sqrt2l1 p.2 : ℂ) * ((1 / beta : ℝ) : ℂ)) 0

/-- `Tnl_(im, il)` (legendre.cpp:6-14): `sign_tmp` changes its sign with every `im`, `ztmp` starts at
`i` and is multiplied by `i` with every `il`.  `j` stands for `boost::math::sph_bessel`. -/
noncomputable def tnl (j : ℕ → ℝ → ℝ) (im il : ℕ) : ℂ :=
  let sign := (List.range im).foldl (fun s _ => s * -1) (1 : ℂ)
  let ztmp := (List.range il).foldl (fun z _ => z * Complex.I) Complex.I
  sign * ztmp * (Real.sqrt (2 * il + 1) : ℂ) * (j il (0.5 * (2 * im + 1) * Real.pi) : ℂ)

/-- One element of `gomega` in `compute_G1` (postprocess.hpp:205-221): the product of `Tnl` and the
vector of coefficients. -/
noncomputable def gomega (j : ℕ → ℝ → ℝ) (g : List ℂ) (im : ℕ) : ℂ :=
  g.zipIdx.foldl (fun s p => s + tnl j im p.2 * p.1) 0

/-! ### Rotations -/

section Rot

variable {K : Type} [Field K] [StarRing K] {n : ℕ}

/-- Rotation of the one-particle object for one Legendre order in `compute_G1`
(postprocess.hpp:145-158). -/
noncomputable def rotateG1 (R G : Matrix (Fin n) (Fin n) K) : Matrix (Fin n) (Fin n) K := R * G * R⁻¹

/-- `compute_G1` up to the tail correction (postprocess.hpp:131-162): scaling with `coeff`, rotation
for every Legendre order `l < nl`, then `correct_G1_tail`. -/
noncomputable def computeG1 (beta coeff : ℝ) (nl : ℕ) (R : Matrix (Fin n) (Fin n) ℂ)
    (data : ℕ → Matrix (Fin n) (Fin n) ℂ) : Fin n → Fin n → List ℂ :=
  correctTail beta fun f1 f2 => (List.range nl).map fun l => rotateG1 R ((coeff : ℂ) • data l) f1 f2

/-- A four-index array. -/
abbrev T4 (n : ℕ) (K : Type) := Fin n → Fin n → Fin n → Fin n → K

/-- The first pass of `rotate_back_G2` (postprocess.hpp:236-249). -/
def rotPass1 (R : Matrix (Fin n) (Fin n) K) (G : T4 n K) : T4 n K :=
  fun f1 f2 f3 f4 => ∑ g1, R f1 g1 * G g1 f2 f3 f4

/-- The second pass (postprocess.hpp:251-264). -/
def rotPass2 (R : Matrix (Fin n) (Fin n) K) (G : T4 n K) : T4 n K :=
  fun f1 f2 f3 f4 => ∑ g2, star (R f2 g2) * G f1 g2 f3 f4

/-- The third pass (postprocess.hpp:266-279). -/
def rotPass3 (R : Matrix (Fin n) (Fin n) K) (G : T4 n K) : T4 n K :=
  fun f1 f2 f3 f4 => ∑ g3, R f3 g3 * G f1 f2 g3 f4

/-- The fourth pass (postprocess.hpp:281-294). -/
def rotPass4 (R : Matrix (Fin n) (Fin n) K) (G : T4 n K) : T4 n K :=
  fun f1 f2 f3 f4 => ∑ g4, star (R f4 g4) * G f1 f2 f3 g4

/-- `rotate_back_G2` (postprocess.hpp:229-295). -/
def rotateBackG2 (R : Matrix (Fin n) (Fin n) K) (G : T4 n K) : T4 n K :=
  rotPass4 R (rotPass3 R (rotPass2 R (rotPass1 R G)))

/-- The rotation in `compute_euqal_time_G1` (postprocess.hpp:381-390). -/
def rotateEqG1 (R data : Matrix (Fin n) (Fin n) K) : Matrix (Fin n) (Fin n) K :=
  fun f0 f1 => ∑ g0, ∑ g1, data g0 g1 * star (R f0 g0) * R f1 g1

/-- The rotation in `compute_euqal_time_G2` (postprocess.hpp:427-447) and, for one Legendre order, in
`compute_two_time_G2` (postprocess.hpp:57-77). -/
def rotateEqG2 (R : Matrix (Fin n) (Fin n) K) (data : T4 n K) : T4 n K :=
  fun f0 f1 f2 f3 => ∑ g0, ∑ g1, ∑ g2, ∑ g3,
    data g0 g1 g2 g3 * star (R f0 g0) * R f1 g1 * star (R f2 g2) * R f3 g3

/-- An element of `nonzero_U_vals`: four flavours and the value (already multiplied by 1/2 where the
input is read, model.ipp:117, 165, 172). -/
structure UElem (n : ℕ) (K : Type) where
  a : Fin n
  b : Fin n
  ap : Fin n
  bp : Fin n
  val : K

/-- `U_tensor_rot` (model.ipp:513-540). -/
def uTensorRot (R : Matrix (Fin n) (Fin n) K) (us : List (UElem n K)) : T4 n K :=
  us.foldl (fun U e => fun f0 f1 f2 f3 => U f0 f1 f2 f3 +
    e.val * star (R.transpose f0 e.a) * star (R.transpose f1 e.b) * R.transpose f2 e.ap *
      R.transpose f3 e.bp) fun _ _ _ _ => 0

/-- `hopping_org_basis` (model.ipp:543-550): a later element overwrites an earlier one. -/
def hoppingOrg (ts : List (Fin n × Fin n × K)) : Matrix (Fin n) (Fin n) K :=
  ts.foldl (fun t e => fun i j => if i = e.1 ∧ j = e.2.1 then e.2.2 else t i j) fun _ _ => 0

/-- `hopping_rot` (model.ipp:558). -/
def hoppingRot (R t : Matrix (Fin n) (Fin n) K) : Matrix (Fin n) (Fin n) K := R.conjTranspose * t * R

/-- The Hamiltonian matrix before pruning (model.ipp:508-598). -/
def hamOf (big : K → Bool) (R : Matrix (Fin n) (Fin n) K) (us : List (UElem n K))
    (ts : List (Fin n × Fin n × K)) : Matrix (Fin (2 ^ n)) (Fin (2 ^ n)) K :=
  hamMatrix big (uTensorRot R us) (hoppingRot R (hoppingOrg ts))

/-- The elements written by `read_U_tensor` for the parameter `model.onsite_U` with two spins
(model.ipp:168-175). -/
def onsiteU (sites : ℕ) (half U : K) : List (UElem (sites * 2) K) :=
  (List.finRange sites).map fun s =>
    { a := ⟨2 * s.val, by omega⟩, b := ⟨2 * s.val + 1, by omega⟩, ap := ⟨2 * s.val + 1, by omega⟩,
      bp := ⟨2 * s.val, by omega⟩, val := half * U }

/-- The rotation of the hybridization function for one time (model.ipp:413-430). -/
noncomputable def rotateF (RF F : Matrix (Fin n) (Fin n) K) : Matrix (Fin n) (Fin n) K :=
  RF⁻¹ * (F * RF)

end Rot

/-! ### Reading the rotation matrix -/

/-- Outcome of reading the rotation matrix. -/
inductive RotRes (n : ℕ) where
  /-- `exit(1)`: the columns are not orthogonal -/
  | rejected
  /-- the run goes on with entries which are not numbers -/
  | notNumbers
  /-- the run goes on with `rotmat_F` -/
  | accepted (RF : Matrix (Fin n) (Fin n) ℂ)

/-- Entries of `rotmat_F` read from the file (model.ipp:330-343): the conjugate of the input. -/
def readEntries {n : ℕ} (inp : Matrix (Fin n) (Fin n) (ℝ × ℝ)) : Matrix (Fin n) (Fin n) ℂ :=
  fun i j => ⟨(inp i j).1, -(inp i j).2⟩

/-- Sum of the squared absolute values of a column (model.ipp:355-358). -/
noncomputable def colNorm2 {n : ℕ} (M : Matrix (Fin n) (Fin n) ℂ) (j : Fin n) : ℝ :=
  ∑ i, ‖M i j‖ * ‖M i j‖

/-- Normalisation of the columns (model.ipp:354-363), for columns which are not zero. -/
noncomputable def normaliseCols {n : ℕ} (M : Matrix (Fin n) (Fin n) ℂ) : Matrix (Fin n) (Fin n) ℂ :=
  fun i j => M i j * ((1 / Real.sqrt (colNorm2 M j) : ℝ) : ℂ)

open Classical in
/-- Normalisation and test of the rotation matrix (model.ipp:353-388).  A zero column is multiplied
by `1/0`; its entries are then not numbers and every comparison with them is false, so that only
pairs of other columns can be rejected.  The loop over `j < i` tests every pair once. -/
noncomputable def checkRotation {n : ℕ} (tol : ℝ) (M : Matrix (Fin n) (Fin n) ℂ) : RotRes n :=
  let N := normaliseCols M
  let zero := fun j => colNorm2 M j = 0
  if ∃ i j : Fin n, j < i ∧ ¬ zero i ∧ ¬ zero j ∧ tol < ‖∑ k, star (N k i) * N k j‖ then .rejected
  else if ∃ j, zero j then .notNumbers
  else .accepted N

/-- `rotmat_Delta` (model.ipp:394). -/
def rotDelta {n : ℕ} (RF : Matrix (Fin n) (Fin n) ℂ) : Matrix (Fin n) (Fin n) ℂ := RF.map star

end CTHyb
