import Mathlib.Analysis.SpecialFunctions.Log.Basic
import Mathlib.Algebra.BigOperators.Group.List.Basic

/-! Specification of outcome distributions and of the distances between them. -/

namespace ZQ.Dist

/-- Probability of the outcome `k` according to the table `d`: the sum of the entries listed for `k`. -/
noncomputable def pmf (d : List (List ℤ × ℝ)) (k : List ℤ) : ℝ :=
  (d.map fun kv => if kv.1 = k then kv.2 else 0).sum

/-- The outcomes listed in a table. -/
def outcomes (d : List (List ℤ × ℝ)) : Finset (List ℤ) := (d.map Prod.fst).toFinset

/-- The total of a table. -/
def total (d : List (List ℤ × ℝ)) : ℝ := (d.map Prod.snd).sum

/-- Negative log likelihood of `t` under `m` with probabilities below `eps` replaced by `eps`. -/
noncomputable def specNLL (t m : List (List ℤ × ℝ)) (eps : ℝ) : ℝ :=
  -∑ k ∈ outcomes t ∪ outcomes m, pmf t k * Real.log (max eps (pmf m k))

/-- The number whose binary digits, most significant first, are the entries of the tuple. -/
def binValue (k : List ℤ) : ℤ := k.foldl (fun acc b => 2 * acc + b) 0

/-- Squared maximum mean discrepancy for a kernel `K` on the binary values of the outcomes. -/
noncomputable def specMMD (K : ℤ → ℤ → ℝ) (t m : List (List ℤ × ℝ)) : ℝ :=
  ∑ a ∈ outcomes t ∪ outcomes m, ∑ b ∈ outcomes t ∪ outcomes m,
    (pmf t a - pmf m a) * K (binValue a) (binValue b) * (pmf t b - pmf m b)

/-- The Gaussian kernel of bandwidth `sigma`. -/
noncomputable def gauss (sigma : ℝ) (x y : ℤ) : ℝ := Real.exp (-((x : ℝ) - y) ^ 2 / (2 * sigma))

end ZQ.Dist
