import Verif.Model.Gates
import Verif.Lemmas.ActOn
import Mathlib.Tactic.IntervalCases
import Mathlib.Tactic.LinearCombination

/-! Helpers about gate matrices. -/

namespace ZQ

open Matrix Complex

theorem onBits_unitary_of_entries (A : Mat ℂ) (n : ℕ)
    (h : ∀ i < 2 ^ n, ∀ j < 2 ^ n, ∑ k ∈ Finset.range (2 ^ n), A.e i k * (starRingEnd ℂ) (A.e j k) = if i = j then 1 else 0) :
    A.onBits n ∈ Matrix.unitaryGroup (Fin n → Bool) ℂ := by
  rw [Matrix.mem_unitaryGroup_iff]
  ext x y
  rw [Matrix.mul_apply]
  simp only [Matrix.star_apply, Mat.onBits]
  rw [← sum_range_eq_sum_bits n (fun k => A.e (basisIndex x) k * star (A.e (basisIndex y) k))]
  have := h (basisIndex x) (basisIndex_lt x) (basisIndex y) (basisIndex_lt y)
  rw [show (∑ k ∈ Finset.range (2 ^ n), A.e (basisIndex x) k * star (A.e (basisIndex y) k)) = _ from this]
  rw [Matrix.one_apply]
  by_cases hxy : x = y
  · simp [hxy]
  · rw [if_neg hxy, if_neg (fun e => hxy (basisIndex_injective e))]

theorem conj_cos_half (r : ℝ) : (starRingEnd ℂ) (cos ((r : ℂ) / 2)) = cos ((r : ℂ) / 2) := by
  have : (r : ℂ) / 2 = ((r / 2 : ℝ) : ℂ) := by push_cast; rfl
  rw [this, ← cos_conj, conj_ofReal]

theorem conj_sin_half (r : ℝ) : (starRingEnd ℂ) (sin ((r : ℂ) / 2)) = sin ((r : ℂ) / 2) := by
  have : (r : ℂ) / 2 = ((r / 2 : ℝ) : ℂ) := by push_cast; rfl
  rw [this, ← sin_conj, conj_ofReal]

theorem exp_mul_conj_exp {z : ℂ} (h : z.re = 0) : exp z * (starRingEnd ℂ) (exp z) = 1 := by
  rw [← exp_conj, ← exp_add]
  have : z + (starRingEnd ℂ) z = 0 := by
    rw [add_conj, h]; simp
  rw [this, exp_zero]

theorem smul_onBits_unitary (A : Mat ℂ) (n : ℕ) (c : ℂ) (hc : c * (starRingEnd ℂ) c = 1)
    (hA : A.onBits n ∈ Matrix.unitaryGroup (Fin n → Bool) ℂ) :
    (A.smul c).onBits n ∈ Matrix.unitaryGroup (Fin n → Bool) ℂ := by
  rw [onBits_smul]
  rw [Matrix.mem_unitaryGroup_iff] at *
  rw [star_smul, Matrix.smul_mul, Matrix.mul_smul, hA, smul_smul]
  rw [show c * star c = 1 from hc, one_smul]

theorem mul_onBits_unitary (A B : Mat ℂ) (n : ℕ) (hc : A.cols = 2 ^ n)
    (hA : A.onBits n ∈ Matrix.unitaryGroup (Fin n → Bool) ℂ)
    (hB : B.onBits n ∈ Matrix.unitaryGroup (Fin n → Bool) ℂ) :
    (A.mul B).onBits n ∈ Matrix.unitaryGroup (Fin n → Bool) ℂ := by
  rw [onBits_mul A B n hc]
  exact mul_mem hA hB

theorem sqrt2_inv_sq : ((√2 : ℝ) : ℂ)⁻¹ * ((√2 : ℝ) : ℂ)⁻¹ = 1 / 2 := by
  rw [← mul_inv, ← ofReal_mul, Real.mul_self_sqrt (by norm_num)]
  norm_num

end ZQ
