import Verif.FastUpdate
import Verif.TimeDet
import Verif.Selection
import Mathlib.Algebra.Order.AbsoluteValue.Basic

/-!
Measurement of the one- and two-particle Green's functions in the worm spaces by reconnecting the
hybridization lines: `GMeasurement::measure_via_hyb` (src/measurement/measurement.ipp:148-310) and
`MeasureGHelper<1>`, `MeasureGHelper<2>` (322-383, 387-535).

Positions of rows and columns: `inl i` is the bath operator `i`, `inr i` the operator of the worm with
number `i`; in the enlarged matrix `inr (inl i)` is the worm and `inr (inr i)` the auxiliary line `i`.
Scalars are elements of a field, `abv` is `std::abs`.
-/

namespace CTHyb

open Matrix

variable {T K R : Type} [Field K]
variable {n r : ℕ}

/-- `B` (measurement.ipp:174, 178-182): bath annihilation operators and worm creation operators; zero for
the auxiliary lines. -/
def gB (G : Psi T → Psi T → K) (c : Fin n ⊕ Fin r → Psi T) (cd : Fin n ⊕ Fin r → Psi T) :
    Matrix (Fin n) (Fin r ⊕ Fin r) K :=
  of fun i j => j.elim (fun j => G (c (.inl i)) (cd (.inr j))) (fun _ => 0)

/-- `C` (measurement.ipp:175, 183-187). -/
def gC (G : Psi T → Psi T → K) (c : Fin n ⊕ Fin r → Psi T) (cd : Fin n ⊕ Fin r → Psi T) :
    Matrix (Fin r ⊕ Fin r) (Fin n) K :=
  of fun i j => i.elim (fun i => G (c (.inr i)) (cd (.inl j))) (fun _ => 0)

/-- `D` (measurement.ipp:188-197); `aux` are the values `eps * random()`. -/
def gD (G : Psi T → Psi T → K) (c : Fin n ⊕ Fin r → Psi T) (cd : Fin n ⊕ Fin r → Psi T)
    (aux : Fin r ⊕ Fin r → Fin r ⊕ Fin r → K) : Matrix (Fin r ⊕ Fin r) (Fin r ⊕ Fin r) K :=
  of fun i j =>
    match i, j with
    | .inl i', .inl j' => G (c (.inr i')) (cd (.inr j'))
    | _, _ => aux i j

/-- The result of the first part of `measure_via_hyb` (measurement.ipp:199-205): `det_rat` and the
enlarged inverse matrix `M`; `invA` is the inverse matrix of the bath, composed of the blocks (163-173,
see `PM.inverse`).  `none`: the intermediate state has no weight and nothing is measured. -/
noncomputable def gEnlarge [DecidableEq K] (G : Psi T → Psi T → K) (c cd : Fin n ⊕ Fin r → Psi T)
    (aux : Fin r ⊕ Fin r → Fin r ⊕ Fin r → K) (invA : Matrix (Fin n) (Fin n) K) :
    Option (K × Matrix (Fin n ⊕ (Fin r ⊕ Fin r)) (Fin n ⊕ (Fin r ⊕ Fin r)) K) :=
  let d := detRatioUp (gB G c cd) (gC G c cd) (gD G c cd aux) invA
  if d = 0 then none else some (d, inverseUp (gB G c cd) (gC G c cd) (gD G c cd aux) invA)

/-- Place of a bath or worm operator in the enlarged matrix. -/
def gPos : Fin n ⊕ Fin r → Fin n ⊕ (Fin r ⊕ Fin r) := Sum.map id .inl

/-- The rows (or columns) kept when the matrix is reduced (measurement.ipp:216-272): those of the bath
where `mask` is true, and all those of the worm.  `mask` is the shuffled part of `is_row_active`. -/
def gActive (n r : ℕ) (mask : List Bool) : List (Fin n ⊕ Fin r) :=
  ((List.finRange n).filter fun i => mask.getD i.1 false).map .inl ++ (List.finRange r).map .inr

/-- The shuffled mask (measurement.ipp:219-233): the first `max_num_ops - Rank` of `pert_order` entries are
true, then `std::random_shuffle` with the results `js` of the generator (see `shuffleFrom`). -/
def gMask (n r maxOps : ℕ) (js : List ℕ) : List Bool :=
  shuffleFrom 1 js ((List.range n).map fun i => decide (i < maxOps - r))

/-- `if (pert_order + Rank > max_num_ops)` (measurement.ipp:216). -/
def gRows (n r maxOps : ℕ) (js : List ℕ) : List (Fin n ⊕ Fin r) :=
  if maxOps < n + r then gActive n r (gMask n r maxOps js)
  else (List.finRange n).map .inl ++ (List.finRange r).map .inr

/-- "drop small values" (measurement.ipp:276-284); `cutoff` is `1e-10` times the largest element. -/
def gDrop [Field R] [LinearOrder R] (abv : K → R) (cutoff : R) {ι : Type} (M : Matrix ι ι K) : Matrix ι ι K :=
  of fun i j => if abv (M i j) < cutoff then 0 else M i j

/-! ### One particle -/

/-- `coeffs[k][l]` (measurement.ipp:347-359) without `bubble_sign * sign`; `k` is the annihilation, `l` the
creation operator.  A vanishing element `M(l, k)` gives 0. -/
def g1Coeff [DecidableEq K] (d : K) (M : Matrix (Fin n ⊕ (Fin 1 ⊕ Fin 1)) (Fin n ⊕ (Fin 1 ⊕ Fin 1)) K)
    (k l : Fin n ⊕ Fin 1) : K :=
  if M (gPos l) (gPos k) = 0 then 0
  else (M (gPos l) (gPos k) * M (.inr (.inr 0)) (.inr (.inr 0))
    - M (gPos l) (.inr (.inr 0)) * M (.inr (.inr 0)) (gPos k)) * d

/-- `bubble_sign` (measurement.ipp:355); `tv` is the conversion of an operator time to a number. -/
def bubbleSign [Field R] [LinearOrder R] (tv : T → R) (c cd : Psi T) : ℤ :=
  if 0 < tv c.time - tv cd.time then 1 else -1

/-- `norm` (measurement.ipp:341, 359). -/
def g1Norm [DecidableEq K] [Field R] [LinearOrder R] (abv : K → R) (tv : T → R)
    (c cd : Fin n ⊕ Fin 1 → Psi T) (sign d : K)
    (M : Matrix (Fin n ⊕ (Fin 1 ⊕ Fin 1)) (Fin n ⊕ (Fin 1 ⊕ Fin 1)) K) (cols rows : List (Fin n ⊕ Fin 1)) : R :=
  (cols.map fun k => (rows.map fun l =>
    abv (g1Coeff d M k l * (bubbleSign tv (c k) (cd l) : K) * sign)).sum).sum

/-- The loop of measurement.ipp:363-383: contributions as operators `k`, `l` and the value
`scale_fact * coeffs[k][l]`, to be multiplied by the Legendre polynomials of the time difference. -/
def g1Data [DecidableEq K] [Field R] [LinearOrder R] [Algebra R K]
    (abv : K → R) (tv : T → R) (beta : R) (c cd : Fin n ⊕ Fin 1 → Psi T) (sign d : K)
    (M : Matrix (Fin n ⊕ (Fin 1 ⊕ Fin 1)) (Fin n ⊕ (Fin 1 ⊕ Fin 1)) K) (cols rows : List (Fin n ⊕ Fin 1)) :
    List ((Fin n ⊕ Fin 1) × (Fin n ⊕ Fin 1) × K) :=
  let scale : R := -1 / (g1Norm abv tv c cd sign d M cols rows * beta)
  cols.flatMap fun k => (rows.filter fun l => decide (M (gPos l) (gPos k) ≠ 0)).map fun l =>
    (k, l, algebraMap R K scale * (g1Coeff d M k l * (bubbleSign tv (c k) (cd l) : K) * sign))

/-- `argument` (measurement.ipp:369-372). -/
def g1Arg [Field R] [LinearOrder R] (tv : T → R) (beta : R) (c cd : Psi T) : R :=
  if tv c.time - tv cd.time < 0 then tv c.time - tv cd.time + beta else tv c.time - tv cd.time

/-! ### Two particles -/

/-- `coeffs[a][b][c][d]` (measurement.ipp:470-497) without `sign`: `a`, `c'` annihilation, `b`, `d'`
creation operators. -/
def g2Coeff (d : K) (M : Matrix (Fin n ⊕ (Fin 2 ⊕ Fin 2)) (Fin n ⊕ (Fin 2 ⊕ Fin 2)) K)
    (a b c' d' : Fin n ⊕ Fin 2) : K :=
  d * (M.submatrix ![gPos b, gPos d', .inr (.inr 0), .inr (.inr 1)]
    ![gPos a, gPos c', .inr (.inr 0), .inr (.inr 1)]).det

/-- The quadruples of the loops (measurement.ipp:470-480), without equal indices. -/
def g2Quads (cols rows : List (Fin n ⊕ Fin 2)) :
    List ((Fin n ⊕ Fin 2) × (Fin n ⊕ Fin 2) × (Fin n ⊕ Fin 2) × (Fin n ⊕ Fin 2)) :=
  cols.flatMap fun a => rows.flatMap fun b => (cols.filter fun c' => decide (a ≠ c')).flatMap fun c' =>
    (rows.filter fun d' => decide (b ≠ d')).map fun d' => (a, b, c', d')

/-- `norm` (measurement.ipp:469, 494). -/
def g2Norm [Field R] (abv : K → R) (sign d : K)
    (M : Matrix (Fin n ⊕ (Fin 2 ⊕ Fin 2)) (Fin n ⊕ (Fin 2 ⊕ Fin 2)) K) (cols rows : List (Fin n ⊕ Fin 2)) : R :=
  ((g2Quads cols rows).map fun q => abv (sign * g2Coeff d M q.1 q.2.1 q.2.2.1 q.2.2.2)).sum

/-- `coeffs[a][b][c][d] * scale_fact` (measurement.ipp:501-522). -/
def g2Data [Field R] [Algebra R K] (abv : K → R) (beta : R) (sign d : K)
    (M : Matrix (Fin n ⊕ (Fin 2 ⊕ Fin 2)) (Fin n ⊕ (Fin 2 ⊕ Fin 2)) K) (cols rows : List (Fin n ⊕ Fin 2)) :
    List (((Fin n ⊕ Fin 2) × (Fin n ⊕ Fin 2) × (Fin n ⊕ Fin 2) × (Fin n ⊕ Fin 2)) × K) :=
  let scale : R := 1 / (g2Norm abv sign d M cols rows * beta)
  (g2Quads cols rows).map fun q => (q, sign * g2Coeff d M q.1 q.2.1 q.2.2.1 q.2.2.2 * algebraMap R K scale)

/-! ### The measurement -/

/-- `measure_via_hyb` for `Rank = 1` (measurement.ipp:148-297); `jr`, `jc` are the results of the generator
for the rows and columns kept; `none`: nothing is measured. -/
noncomputable def measureG1 [DecidableEq K] [Field R] [LinearOrder R]
    [Algebra R K] (abv : K → R) (tv : T → R) (beta : R) (G : Psi T → Psi T → K) (c cd : Fin n ⊕ Fin 1 → Psi T)
    (aux : Fin 1 ⊕ Fin 1 → Fin 1 ⊕ Fin 1 → K) (invA : Matrix (Fin n) (Fin n) K) (sign : K)
    (maxOps : ℕ) (jr jc : List ℕ) (cutoff : R) : Option (List ((Fin n ⊕ Fin 1) × (Fin n ⊕ Fin 1) × K)) :=
  (gEnlarge G c cd aux invA).map fun dM =>
    g1Data abv tv beta c cd sign dM.1 (gDrop abv cutoff dM.2) (gRows n 1 maxOps jc) (gRows n 1 maxOps jr)

/-- `measure_via_hyb` for `Rank = 2`. -/
noncomputable def measureG2 [DecidableEq K] [Field R] [LinearOrder R]
    [Algebra R K] (abv : K → R) (beta : R) (G : Psi T → Psi T → K) (c cd : Fin n ⊕ Fin 2 → Psi T)
    (aux : Fin 2 ⊕ Fin 2 → Fin 2 ⊕ Fin 2 → K) (invA : Matrix (Fin n) (Fin n) K) (sign : K)
    (maxOps : ℕ) (jr jc : List ℕ) (cutoff : R) :
    Option (List (((Fin n ⊕ Fin 2) × (Fin n ⊕ Fin 2) × (Fin n ⊕ Fin 2) × (Fin n ⊕ Fin 2)) × K)) :=
  (gEnlarge G c cd aux invA).map fun dM =>
    g2Data abv beta sign dM.1 (gDrop abv cutoff dM.2) (gRows n 2 maxOps jc) (gRows n 2 maxOps jr)

/-- The members `data_` (one element) and `num_data_` of `GMeasurement`, and the values passed to the
accumulators so far. -/
structure GAcc (K : Type) where
  data : K
  num : ℕ
  out : List K

/-- The end of `measure_via_hyb` (measurement.ipp:297-309) after `perform` added `x`. -/
def GAcc.step (maxNum : ℕ) (s : GAcc K) (x : K) : GAcc K :=
  let d := s.data + x
  if s.num + 1 = maxNum then ⟨0, 0, s.out ++ [d / (maxNum : K)]⟩ else ⟨d, s.num + 1, s.out⟩

end CTHyb
