import Mathlib.Analysis.SpecialFunctions.Log.Basic

/-!
Model of `FlatHistogram` (src/wang_landau.hpp) and its use (src/impurity.ipp:782-797, 862-888),
over the real numbers.  `has_guess_` is always true, `max_index_` always equals `max_val_`.
-/

namespace CTHyb

/-- Members of `FlatHistogram` (wang_landau.hpp:195-210).  Vectors are functions of the index; only
indices up to `maxVal` are meaningful. -/
structure WL where
  maxVal : ℕ
  target : ℕ → ℝ
  logLambda : ℝ
  logF : ℕ → ℝ
  counter : ℕ → ℝ
  done : Bool
  numUpdates : ℕ

/-- `init_log_lambda_` (wang_landau.hpp:23). -/
noncomputable def initLogLambda : ℝ := 0.993251773010283

/-- `min_log_lambda_` (wang_landau.hpp:24). -/
noncomputable def minLogLambda : ℝ := 0.000099995000334

/-- Constructor (wang_landau.hpp:39-58), for a vector of fractions of the right size. -/
noncomputable def WL.init (maxVal : ℕ) (target : ℕ → ℝ) : WL :=
  ⟨maxVal, target, initLogLambda, fun _ => 0, fun _ => 0, false, 0⟩

/-- `max_element(log_f_)`. -/
noncomputable def maxUpTo (n : ℕ) (f : ℕ → ℝ) : ℝ :=
  (Finset.range (n + 1)).sup' ⟨0, by simp⟩ f

/-- `min_element(counter_)`. -/
noncomputable def minUpTo (n : ℕ) (f : ℕ → ℝ) : ℝ :=
  (Finset.range (n + 1)).inf' ⟨0, by simp⟩ f

/-- `rescale_f` (wang_landau.hpp:218-222). -/
noncomputable def WL.rescale (s : WL) : WL :=
  { s with logF := fun i => if i < s.maxVal + 1 then s.logF i - maxUpTo s.maxVal s.logF else s.logF i }

/-- `log_weight` (wang_landau.hpp:225-234); `none` is the exception. -/
noncomputable def WL.logWeight (s : WL) (v : ℕ) : Option ℝ := if v ≤ s.maxVal then some (-s.logF v) else none

/-- The constant `log(1E+50)` of the code (wang_landau.hpp:67). -/
noncomputable def maxLogVal : ℝ := 115.1292546497023

/-- `weight_ratio` (wang_landau.hpp:62-79). -/
noncomputable def WL.weightRatio (s : WL) (vNew vOld : ℕ) : Option ℝ :=
  if vNew > s.maxVal then some 0
  else
    (s.logWeight vNew).bind fun a => (s.logWeight vOld).map fun b =>
      if a - b > maxLogVal then 10 ^ 50
      else if a - b < -maxLogVal then (10 ^ 50)⁻¹
      else Real.exp (a - b)

/-- `measure` (wang_landau.hpp:99-108). -/
noncomputable def WL.measure (s : WL) (v : ℕ) : Option WL :=
  if s.done then some s
  else if v > s.maxVal then none
  else some { s with
    logF := Function.update s.logF v (s.logF v + s.logLambda / s.target v)
    counter := Function.update s.counter v (s.counter v + 1 / s.target v) }

/-- `flat_enough` (wang_landau.hpp:113-120). -/
noncomputable def WL.flatEnough (s : WL) : Prop :=
  ¬ minUpTo s.maxVal s.counter < max 10 (1 / ((1 - 0.8) * (1 - 0.8))) ∧
  minUpTo s.maxVal s.counter / ((∑ i ∈ Finset.range (s.maxVal + 1), s.counter i) / (s.maxVal + 1)) > 0.8

/-- `update_lambda` (wang_landau.hpp:126-152). -/
noncomputable def WL.updateLambda (s : WL) : WL :=
  if s.done then s
  else
    { WL.rescale { s with
        logLambda := max (-2 * Real.log ((s.numUpdates + 1 : ℕ) : ℝ))
          (max (0.5 * s.logLambda) minLogLambda)
        numUpdates := s.numUpdates + 1 } with counter := fun _ => 0 }

/-- `converged` (wang_landau.hpp:164-166). -/
noncomputable def WL.converged (s : WL) : Prop := s.logLambda < 1.01 * minLogLambda

/-- `finish_learning` (wang_landau.hpp:193-203). -/
noncomputable def WL.finish (s : WL) : WL :=
  { WL.rescale { s with done := true } with counter := fun _ => 0 }

/-- `synchronize` (wang_landau.hpp:171-188) seen by all `p` ranks at once; `none` if a rank throws
because its learning is done. -/
noncomputable def syncAll {p : ℕ} (s : Fin p → WL) : Option (Fin p → WL) :=
  if ∃ r, (s r).done = true then none
  else some fun r => { s r with logF := fun i => (∑ q, (s q).logF i) / p }

open Classical in
/-- `adjust_worm_space_weight` (impurity.ipp:865-888) without the copy of the ratios. -/
noncomputable def WL.adjust (s : WL) (v : ℕ) : Option WL :=
  (s.measure v).map fun s1 => if s1.flatEnough then s1.updateLambda else s1

end CTHyb
