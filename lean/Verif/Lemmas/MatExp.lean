import Mathlib.Analysis.Normed.Algebra.MatrixExponential
import Mathlib.Analysis.SpecialFunctions.Exponential
import Mathlib.Analysis.Complex.Trigonometric
import Mathlib.Tactic.LinearCombination
import Mathlib.Tactic.NoncommRing

/-! # Exponentials of matrices `B` with `B * B * B = B` (Pauli strings and their relatives) -/

namespace ZQ

open Matrix NormedSpace

section algebra

variable {A : Type*} [NormedRing A] [NormedAlgebra ℂ A] [CompleteSpace A]

theorem exp_smul_idem (e : A) (he : e * e = e) (z : ℂ) : exp (z • e) = 1 + (Complex.exp z - 1) • e := by
  have h1 : HasSum (fun n : ℕ => ((n.factorial : ℂ)⁻¹) • (z • e) ^ n) (exp (z • e)) := exp_series_hasSum_exp' (𝕂 := ℂ) (z • e)
  have h2 : HasSum (fun n : ℕ => ((n.factorial : ℂ)⁻¹) • z ^ n) (exp z) := exp_series_hasSum_exp' (𝕂 := ℂ) z
  rw [← Complex.exp_eq_exp_ℂ] at h2
  have h3 : HasSum (fun n : ℕ => (((n.factorial : ℂ)⁻¹) • z ^ n) • e) (Complex.exp z • e) := h2.smul_const e
  have h4 : HasSum (fun n : ℕ => if n = 0 then (1 - e) else 0) (1 - e) := hasSum_ite_eq 0 (1 - e)
  have h5 := h3.add h4
  have hp : ∀ n : ℕ, e ^ (n + 1) = e := by
    intro n
    induction n with
    | zero => simp
    | succ n ih => rw [pow_succ, ih, he]
  have h6 : (fun n : ℕ => ((n.factorial : ℂ)⁻¹) • (z • e) ^ n) =
      fun n : ℕ => (((n.factorial : ℂ)⁻¹) • z ^ n) • e + if n = 0 then (1 - e) else 0 := by
    funext n
    cases n with
    | zero => simp
    | succ n =>
      rw [if_neg (by omega), add_zero, smul_pow, hp, smul_smul, smul_eq_mul]
  rw [h6] at h1
  rw [h1.unique h5, sub_smul, one_smul]
  abel

theorem exp_smul_cube (B : A) (hB : B * B * B = B) (z : ℂ) :
    exp (z • B) = 1 + Complex.sinh z • B + (Complex.cosh z - 1) • (B * B) := by
  set P := (1 / 2 : ℂ) • (B * B + B) with hP
  set Q := (1 / 2 : ℂ) • (B * B - B) with hQ
  have h4 : B * B * (B * B) = B * B := by rw [← mul_assoc, hB]
  have h3 : B * (B * B) = B := by rw [← mul_assoc, hB]
  have idP : P * P = P := by
    rw [hP, smul_mul_smul_comm, add_mul, mul_add, mul_add, h4, hB, h3]
    rw [show B * B + B + (B + B * B) = (2 : ℂ) • (B * B + B) by rw [two_smul]; abel, smul_smul]
    norm_num
  have idQ : Q * Q = Q := by
    rw [hQ, smul_mul_smul_comm, sub_mul, mul_sub, mul_sub, h4, hB, h3]
    rw [show B * B - B - (B - B * B) = (2 : ℂ) • (B * B - B) by rw [two_smul]; abel, smul_smul]
    norm_num
  have pq : P * Q = 0 := by
    rw [hP, hQ, smul_mul_smul_comm, add_mul, mul_sub, mul_sub, h4, hB, h3]
    simp
  have qp : Q * P = 0 := by
    rw [hP, hQ, smul_mul_smul_comm, sub_mul, mul_add, mul_add, h4, hB, h3, add_comm B, sub_self, smul_zero]
  have hPQ : P - Q = B := by
    rw [hP, hQ, ← smul_sub, show B * B + B - (B * B - B) = (2 : ℂ) • B by rw [two_smul]; abel, smul_smul]
    norm_num
  have hs : z • B = z • P + (-z) • Q := by rw [← hPQ, smul_sub, neg_smul, sub_eq_add_neg]
  have hc : Commute (z • P) ((-z) • Q) := by
    unfold Commute SemiconjBy
    rw [smul_mul_assoc, mul_smul_comm, pq, smul_mul_assoc, mul_smul_comm, qp]
    simp
  haveI : NormedAlgebra ℚ A := NormedAlgebra.restrictScalars ℚ ℂ A
  rw [hs, exp_add_of_commute hc, exp_smul_idem P idP, exp_smul_idem Q idQ]
  rw [add_mul, mul_add, mul_add, one_mul, one_mul, mul_one, smul_mul_smul_comm, pq, smul_zero, add_zero]
  rw [hP, hQ, Complex.sinh, Complex.cosh]
  module

end algebra

attribute [local instance] Matrix.linftyOpNormedRing Matrix.linftyOpNormedAlgebra Matrix.linftyOpNormedSpace Matrix.linftyOpNormedAddCommGroup

/-- `exp (z B) = 1 + sinh z B + (cosh z - 1) B²` for a matrix with `B³ = B`. -/
theorem matrix_exp_cube {m : Type} [Fintype m] [DecidableEq m] (B : Matrix m m ℂ) (hB : B * B * B = B) (z : ℂ) :
    exp (z • B) = 1 + Complex.sinh z • B + (Complex.cosh z - 1) • (B * B) := exp_smul_cube B hB z

/-- `exp (z P) = cosh z + sinh z P` for a matrix with `P² = 1`. -/
theorem matrix_exp_involution {m : Type} [Fintype m] [DecidableEq m] (P : Matrix m m ℂ) (hP : P * P = 1) (z : ℂ) :
    exp (z • P) = Complex.cosh z • 1 + Complex.sinh z • P := by
  rw [matrix_exp_cube P (by rw [hP, one_mul]) z, hP, sub_smul, one_smul]
  abel

/-- `exp (-i t P) = cos t - i sin t P` for a matrix with `P² = 1`. -/
theorem matrix_exp_I {m : Type} [Fintype m] [DecidableEq m] (P : Matrix m m ℂ) (hP : P * P = 1) (t : ℂ) :
    exp (-(Complex.I * t) • P) = Complex.cos t • 1 - (Complex.I * Complex.sin t) • P := by
  rw [matrix_exp_involution P hP]
  rw [Complex.cosh_neg, Complex.sinh_neg, mul_comm, Complex.cosh_mul_I, Complex.sinh_mul_I, neg_smul, ← sub_eq_add_neg, mul_comm]

end ZQ
