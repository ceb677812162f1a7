import Verif.Props.BravyiKitaev

/-! Products of `X` and of `Z` over sets of qubits. -/

namespace ZQ.Op

open PyDict

/-- `X` on every qubit of a set. -/
def xOn (S : Finset ℕ) : Module.End ℂ State := termAction pauliAction (lettersOn .X S)

/-- `Z` on every qubit of a set. -/
def zOn (S : Finset ℕ) : Module.End ℂ State := termAction pauliAction (lettersOn .Z S)

theorem xOn_apply (S : Finset ℕ) (ψ : State) (s : ℕ → Bool) : xOn S ψ s = ψ (flipOn S s) := lettersX_action S ψ s

theorem zOn_apply (S : Finset ℕ) (ψ : State) (s : ℕ → Bool) : zOn S ψ s = (∏ i ∈ S, bitSign s i) * ψ s := lettersZ_action S ψ s

theorem xOn_mul (S T : Finset ℕ) : xOn S * xOn T = xOn (symmDiff S T) := by
  apply LinearMap.ext; intro ψ; funext s
  rw [Module.End.mul_apply, xOn_apply, xOn_apply, xOn_apply]
  congr 1
  funext i
  simp only [flipOn, Finset.mem_symmDiff]
  by_cases h1 : i ∈ S <;> by_cases h2 : i ∈ T <;> simp [h1, h2]

theorem zOn_mul (S T : Finset ℕ) : zOn S * zOn T = zOn (symmDiff S T) := by
  apply LinearMap.ext; intro ψ; funext s
  rw [Module.End.mul_apply, zOn_apply, zOn_apply, zOn_apply, prod_symmDiff (bitSign_sq s), mul_assoc]

theorem zOn_comm (S T : Finset ℕ) : zOn S * zOn T = zOn T * zOn S := by rw [zOn_mul, zOn_mul, symmDiff_comm]

/-- Disjoint sets commute. -/
theorem zOn_xOn {S T : Finset ℕ} (h : ∀ i ∈ S, i ∉ T) : zOn S * xOn T = xOn T * zOn S := by
  apply LinearMap.ext; intro ψ; funext s
  rw [Module.End.mul_apply, Module.End.mul_apply, xOn_apply, zOn_apply, xOn_apply, zOn_apply, prod_flip_disjoint h]

theorem lettersOn_empty (l : Letter) : lettersOn l ∅ = [] := by simp [lettersOn]

theorem xOn_empty : xOn ∅ = 1 := by rw [xOn, lettersOn_empty, termAction_nil]

theorem zOn_empty : zOn ∅ = 1 := by rw [zOn, lettersOn_empty, termAction_nil]

theorem lettersOn_singleton (l : Letter) (a : ℕ) : lettersOn l {a} = [(a, l)] := by rw [lettersOn, Finset.sort_singleton, List.map_singleton]

theorem pauli_X (q : ℕ) : pauliAction (q, .X) = xOn {q} := by rw [xOn, lettersOn_singleton, termAction_cons, termAction_nil, mul_one]

theorem pauli_Z (q : ℕ) : pauliAction (q, .Z) = zOn {q} := by rw [zOn, lettersOn_singleton, termAction_cons, termAction_nil, mul_one]

theorem pauli_Y (q : ℕ) : pauliAction (q, .Y) = Complex.I • (xOn {q} * zOn {q}) := by
  apply LinearMap.ext; intro ψ; funext s
  rw [LinearMap.smul_apply, Module.End.mul_apply, Pi.smul_apply, xOn_apply, zOn_apply, pauliAction, atQubit_apply, Finset.prod_singleton, bitSign]
  have e : flipOn {q} s = Function.update s q (!(s q)) := by
    funext i
    by_cases h : i = q
    · subst h; simp [flipOn]
    · simp [flipOn, h]
  rw [e, Function.update_self]
  cases s q <;> simp [letterMatrix, pauliY]

/-- A product of `X`s followed by a product of `Z`s. -/
def xzOn (A B : Finset ℕ) : Module.End ℂ State := xOn A * zOn B

theorem xzOn_mul {A B A' B' : Finset ℕ} (h : ∀ i ∈ B, i ∉ A') : xzOn A B * xzOn A' B' = xzOn (symmDiff A A') (symmDiff B B') := by
  rw [xzOn, xzOn, xzOn, mul_assoc, ← mul_assoc (zOn B), zOn_xOn h, mul_assoc, zOn_mul, ← mul_assoc, xOn_mul]

theorem xzOn_empty : xzOn ∅ ∅ = 1 := by rw [xzOn, xOn_empty, zOn_empty, mul_one]

theorem xOn_eq (A : Finset ℕ) : xOn A = xzOn A ∅ := by rw [xzOn, zOn_empty, mul_one]

theorem zOn_eq (B : Finset ℕ) : zOn B = xzOn ∅ B := by rw [xzOn, xOn_empty, one_mul]

end ZQ.Op
