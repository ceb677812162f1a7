import Verif.Spec.PolyTensor
import Verif.Spec.FermionTools
import Verif.Spec.Adjoint

/-!
# Specification: reduced density matrices

A quantum state, pure or mixed, gives each operator its expectation value: a linear functional.  The one- and two-body reduced density matrices hold the
expectation values of products of two and four ladder operators.
-/

namespace ZQ.Rdm

open ZQ.Op ZQ.PolyT ZQ.FTools

/-- The expectation value of each operator. -/
abbrev Expect := Module.End ℂ State →ₗ[ℂ] ℂ

/-- The arrays are the reduced density matrices of the state: `⟨a†_p a_q⟩` and `⟨a†_p a†_q a_r a_s⟩`. -/
def Represents (R : PolyTensor) (φ : Expect) : Prop :=
  (∃ one, PyDict.get? R.tensors [true, false] = some one ∧ ∀ p < R.n, ∀ q < R.n, one [p, q] = φ (ladderAction (p, true) * ladderAction (q, false))) ∧
  ∃ two, PyDict.get? R.tensors [true, true, false, false] = some two ∧ ∀ p < R.n, ∀ q < R.n, ∀ r < R.n, ∀ s < R.n,
    two [p, q, r, s] = φ (ladderAction (p, true) * ladderAction (q, true) * ladderAction (r, false) * ladderAction (s, false))

/-- The state has a definite number of particles (or is a mixture of such states): products that create more particles than they remove, or fewer, have no
expectation value. -/
def Conserving (φ : Expect) : Prop := ∀ t : Term Bool, countOps t true (fun _ => true) ≠ countOps t false (fun _ => true) → φ (termAction ladderAction t) = 0

/-- Pauli strings have real expectation values between -1 and 1, as they do in any state. -/
def Physical (φ : Expect) : Prop := ∀ t : Term Letter, Canonical t → (φ (termAction pauliAction t)).im = 0 ∧ |(φ (termAction pauliAction t)).re| ≤ 1

/-- A product is normal ordered: creation operators first, modes decreasing in each part. -/
def Ordered (t : Term Bool) : Prop := t.Pairwise fun l r => (l.2 = true ∧ r.2 = false) ∨ (l.2 = r.2 ∧ r.1 < l.1)

/-- The operator is a combination of normal ordered products of at most four ladder operators. -/
def TwoBody (A : Module.End ℂ State) : Prop := ∃ o : Terms Bool, (PyDict.keys o).Nodup ∧ (∀ t ∈ PyDict.keys o, Ordered t ∧ t.length ≤ 4) ∧ action ladderAction o = A

/-- The expectation values in the basis state `s`. -/
noncomputable def basisExpect (s : ℕ → Bool) : Expect where
  toFun A := A (basisState s) s
  map_add' A B := rfl
  map_smul' c A := rfl

/-- The occupation of the Hartree-Fock state: the lowest `nAlpha` even modes and the lowest `nBeta` odd modes are filled. -/
def hartreeFock (nAlpha nBeta : ℕ) (i : ℕ) : Bool := if i % 2 = 0 then decide (i / 2 < nAlpha) else decide (i / 2 < nBeta)

end ZQ.Rdm
