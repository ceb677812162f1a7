import Verif.Model.Recorder
import Mathlib.Data.Real.Basic

/-!
# Finite differences

Model of `gradients.py`.  Floats are real numbers.  The function may have effects and may raise; it gets fresh copies of the parameters.
-/

namespace ZQ.Gradient

open ZQ.History

variable {W E : Type}

/-- `values[idx] += d` on a copy. -/
def shifted (p : List ℝ) (i : ℕ) (d : ℝ) : List ℝ := p.modify i (· + d)

/-- gradients.py:22-31, the loop over the indices; `zeroDivision` is raised by a division by zero. -/
noncomputable def gradientLoop (zeroDivision : E) (f : Target W E (List ℝ) ℝ) (step : ℝ) (p : List ℝ) :
    List ℕ → List ℝ → W → Except E (List ℝ) × W
  | [], acc, w => (.ok acc, w)
  | i :: is, acc, w =>
    match f w (shifted p i step) with
    | (.error e, w) => (.error e, w)
    | (.ok plus, w) =>
      match f w (shifted p i (-step)) with
      | (.error e, w) => (.error e, w)
      | (.ok minus, w) =>
        if 2 * step = 0 then (.error zeroDivision, w)
        else gradientLoop zeroDivision f step p is (acc ++ [(plus - minus) / (2 * step)]) w

/-- gradients.py:8-33 `finite_differences_gradient(function, step)(parameters)`. -/
noncomputable def finiteDifferences (zeroDivision : E) (f : Target W E (List ℝ) ℝ) (step : ℝ) (p : List ℝ) (w : W) : Except E (List ℝ) × W :=
  gradientLoop zeroDivision f step p (List.range p.length) [] w

end ZQ.Gradient
