import Mathlib.Data.Nat.Notation

/-! Specification-level notions about bits, independent of the model. -/

namespace ZQ.Bits

/-- The `w` low bits of `i`, most significant first (specification-level). -/
def toBits : ℕ → ℕ → List ℕ
  | 0, _ => []
  | w + 1, i => toBits w (i / 2) ++ [i % 2]

/-- Number of one bits (specification). -/
def popcount (n : ℕ) : ℕ := if _h : n = 0 then 0 else n % 2 + popcount (n / 2)
termination_by n
decreasing_by omega

end ZQ.Bits
