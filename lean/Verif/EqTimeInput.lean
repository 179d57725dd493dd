import Verif.NNCorr

/-!
Model of the definitions of equal-time two-particle Green's functions (src/impurity_init.ipp:354-398, called in the
constructor, impurity.ipp:160).

Files are lists of tokens as in `ModelInput`.  Not modelled: the existence of the file (`exit(1)`), log output.
-/

namespace CTHyb

/-- `EqualTimeOperator<2>` (operator.hpp:319-344): four flavors.  The time is `-1.0` for all operators made here and is left
out. -/
structure EqTime2 where
  f0 : ℕ
  f1 : ℕ
  f2 : ℕ
  f3 : ℕ
  deriving DecidableEq

/-- The loop over the elements (impurity_init.ipp:381-397): `i` is `i_elem`, the next argument the number of elements left. -/
def readEqTimeLoop (n : ℕ) : ℕ → ℕ → List Tok → InRes (List EqTime2)
  | _, 0, _ => .ok []
  | i, k + 1, ts =>
    useInt ts fun l ts => if l ≠ i then .throws else
    useFlavor n ts fun a ts => useFlavor n ts fun b ts => useFlavor n ts fun c ts => useFlavor n ts fun d ts =>
      (readEqTimeLoop n (i + 1) k ts).map (⟨a, b, c, d⟩ :: ·)

/-- `read_eq_time_two_particle_greens_meas` (impurity_init.ipp:354-398); `none` for a parameter which is not defined.  For a
negative number the exception in line 373 is made but not thrown; the exception comes from `reserve` (380), since the
number becomes larger than `max_size`. -/
def readEqTime (n : ℕ) : Option (List Tok) → InRes (List EqTime2)
  | none => .ok []
  | some ts => useInt ts fun m ts => if m < 0 then .throws else readEqTimeLoop n 0 m.toNat ts

end CTHyb
