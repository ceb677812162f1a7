import Verif.Spec.PauliMatrix
import Verif.Spec.Decompositions
import Verif.Lemmas.PauliIndep
import Mathlib.LinearAlgebra.Matrix.ConjTranspose
import Mathlib.Algebra.BigOperators.Ring.Finset

/-! Tensor products of one-qubit matrices, and gates on one qubit as tensor products. -/

namespace ZQ.Op

open scoped BigOperators Matrix
open ZQ ZQ.PyDict ZQ.Circuits

variable {n : ℕ}

theorem tensor_mul (A B : Fin n → Matrix Bool Bool ℂ) : tensor A * tensor B = tensor fun q => A q * B q := by
  ext x z
  simp only [tensor, Matrix.mul_apply, ← Finset.prod_mul_distrib]
  rw [Finset.prod_univ_sum]
  simp only [Fintype.piFinset_univ]

theorem tensor_one : tensor (fun _ : Fin n => (1 : Matrix Bool Bool ℂ)) = 1 := by
  ext x y
  rw [tensor]
  by_cases h : x = y
  · subst h; simp
  · rw [Matrix.one_apply_ne h]
    obtain ⟨q, hq⟩ := Function.ne_iff.1 h
    exact Finset.prod_eq_zero (Finset.mem_univ q) (Matrix.one_apply_ne hq)

theorem tensor_conjTranspose (A : Fin n → Matrix Bool Bool ℂ) : (tensor A)ᴴ = tensor fun q => (A q)ᴴ := by
  ext x y
  simp only [tensor, Matrix.conjTranspose_apply, star_prod]

/-- A one-qubit matrix on one qubit of the register. -/
theorem actOn_single (A : Matrix Bool Bool ℂ) (q : Fin n) : actOn (fun _ : Fin 1 => q) (onOne A) = tensor (Function.update (fun _ => 1) q A) := by
  ext x y
  rw [actOn, tensor]
  by_cases h : ∀ p, (∀ _ : Fin 1, q ≠ p) → x p = y p
  · rw [if_pos h, ← Finset.mul_prod_erase _ _ (Finset.mem_univ q), Function.update_self, Finset.prod_eq_one, mul_one]
    · rfl
    · intro p hp
      have hp := (Finset.mem_erase.1 hp).1
      rw [Function.update_of_ne hp, h p (fun _ => hp.symm), Matrix.one_apply_eq]
  · rw [if_neg h]
    push Not at h
    obtain ⟨p, hp, hne⟩ := h
    have hp : p ≠ q := (hp 0).symm
    refine (Finset.prod_eq_zero (Finset.mem_univ p) ?_).symm
    rw [Function.update_of_ne hp, Matrix.one_apply_ne hne]

/-- The operator of a one-qubit gate. -/
theorem operator_single (ρ : String → ℂ) (g : Gates.Gate) (q : ℕ) (hq : q < n) {A : Matrix Bool Bool ℂ} (hA : (g.matrix ρ).onBits 1 = onOne A) :
    GateOp.operator n ρ ⟨g, [q]⟩ = tensor (Function.update (fun _ => 1) ⟨q, hq⟩ A) := by
  rw [GateOp.operator, dif_pos (by simpa using hq), ← actOn_single, ← hA]
  congr 1
  funext i
  apply Fin.ext
  obtain ⟨i, hi⟩ := i
  have : i = 0 := by simpa using hi
  subst this
  rfl

end ZQ.Op
