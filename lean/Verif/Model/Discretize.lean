import Verif.Model.Measurement

/-! Model of `scale_and_discretize`. -/

namespace ZQ.Disc

open ZQ

/-- utils.py:593-594: `result[i] += 1`. -/
def bump (l : List ℤ) (i : ℕ) : List ℤ := l.modify i (· + 1)

/-- utils.py:576-606 `scale_and_discretize` on a list of floats (idealised as reals; numpy's `nan`/`inf` for a zero sum is modelled as Python's
`ZeroDivisionError`). `argsort` is numpy's function: an ordering of the indices by increasing value, ties in unspecified order. -/
noncomputable def scaleAndDiscretize (argsort : List ℝ → List ℕ) (values : List ℝ) (total : ℤ) : Except Err (List ℤ) :=
  open Classical in
  if values.sum = 0 then .error .zeroDivision
  else
    let scale := (total : ℝ) / values.sum
    let result := values.map fun v => ⌊v * scale⌋
    let remainders := values.map fun v => v * scale - ⌊v * scale⌋
    let order := (argsort remainders).reverse
    let m := (Meas.pyRound ((total : ℝ) - (result.sum : ℤ))).toNat
    if order.length < m then .error .indexError
    else
      let result := (order.take m).foldl bump result
      if result.sum = total then .ok result else .error .assertionError

end ZQ.Disc
