import Verif.Spec.Rdm
import Verif.Spec.Elements
import Mathlib.LinearAlgebra.Matrix.Hermitian
import Mathlib.Analysis.Complex.Basic

/-!
# Specification: states with a definite number of particles, lowest eigenvalues
-/

namespace ZQ.Ground

open ZQ.Op ZQ.Rdm Matrix

/-- The number of occupied modes. -/
def occupied {n : ℕ} (x : Fin n → Bool) : ℕ := (Finset.univ.filter fun q => x q = true).card

/-- The state has `k` particles. -/
def HasParticles {n : ℕ} (k : ℕ) (ψ : (Fin n → Bool) → ℂ) : Prop := ∀ x, ψ x ≠ 0 → occupied x = k

/-- `⟨φ|ψ⟩`. -/
def inner {ι : Type} [Fintype ι] (φ ψ : ι → ℂ) : ℂ := star φ ⬝ᵥ ψ

/-- `v` is a unit eigenvector of `A` for `e`, and no eigenvalue of `A` is smaller. -/
def Lowest {ι : Type} [Fintype ι] (A : Matrix ι ι ℂ) (e : ℝ) (v : ι → ℂ) : Prop :=
  A *ᵥ v = (e : ℂ) • v ∧ inner v v = 1 ∧ ∀ (μ : ℝ) (w : ι → ℂ), w ≠ 0 → A *ᵥ w = (μ : ℂ) • w → e ≤ μ

/-- Among the states with `k` particles, `ψ` is a state of lowest energy, and `e` is its energy. -/
structure GroundState {n : ℕ} (A : Matrix (Fin n → Bool) (Fin n → Bool) ℂ) (k : ℕ) (e : ℝ) (ψ : (Fin n → Bool) → ℂ) : Prop where
  particles : HasParticles k ψ
  unit : inner ψ ψ = 1
  energy : inner ψ (A *ᵥ ψ) = e
  lowest : ∀ φ, HasParticles k φ → e * (inner φ φ).re ≤ (inner φ (A *ᵥ φ)).re

/-- The operator does not connect states with different numbers of particles. -/
def Conserves {n : ℕ} (A : Matrix (Fin n → Bool) (Fin n → Bool) ℂ) : Prop := ∀ x y, A x y ≠ 0 → occupied x = occupied y

/-- The expectation values in the state `ψ` of `n` modes (all other modes are empty). -/
noncomputable def stateExpect (n : ℕ) (ψ : (Fin n → Bool) → ℂ) : Expect where
  toFun A := inner ψ (matrixOf n A *ᵥ ψ)
  map_add' A B := by
    show inner ψ ((matrixOf n A + matrixOf n B) *ᵥ ψ) = _
    unfold inner
    rw [Matrix.add_mulVec, dotProduct_add]
  map_smul' c A := by
    show inner ψ ((c • matrixOf n A) *ᵥ ψ) = _
    unfold inner
    rw [Matrix.smul_mulVec, dotProduct_smul]; rfl

end ZQ.Ground
