import Verif.Model.CostFunction
import Verif.Model.Gradient

/-!
# The gradient of a cost function
-/

namespace ZQ.Cost

open ZQ.History

variable {W : Type}

/-- utils.py:239-257 `ValueEstimate` is a `float`: differences and quotients of estimates are those of their values. -/
def asNumber {E : Type} (f : Target W E (List ℝ) Estimate) : Target W E (List ℝ) ℝ := fun w p => ((f w p).1.map Estimate.value, (f w p).2)

/-- cost_function.py:343-406 with `gradient_function = finite_differences_gradient`: the `gradient` of the cost function.  The step is that of
`finite_differences_gradient(function, finite_diff_step_size)`, `1e-5` by default (gradients.py:8). -/
noncomputable def costGradient (method : Target W Err (List Est.Task) (List Values)) (factory : Target W Err (List ℝ) (List Est.Task))
    (preprocessors : List (Target W Err (List ℝ) (List ℝ))) (step : ℝ) (p : List ℝ) (w : W) : Except Err (List ℝ) × W :=
  Gradient.finiteDifferences .zeroDivision (asNumber (createCostFunction method factory preprocessors)) step p w

end ZQ.Cost
