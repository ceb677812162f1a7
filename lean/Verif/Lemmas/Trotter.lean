import Mathlib.Analysis.Normed.Algebra.Exponential
import Mathlib.Analysis.Normed.Algebra.MatrixExponential
import Mathlib.Analysis.SpecialFunctions.Exponential
import Mathlib.Analysis.CStarAlgebra.Matrix

/-!
# Product formulas in Banach algebras
-/

namespace ZQ.Trotter

variable {𝔸 : Type*} [NormedRing 𝔸] [NormedAlgebra ℂ 𝔸] [CompleteSpace 𝔸] [NormOneClass 𝔸]

theorem exp_sub_series (a : 𝔸) : HasSum (fun n => ((n + 2).factorial⁻¹ : ℂ) • a ^ (n + 2)) (NormedSpace.exp a - 1 - a) := by
  have h := (hasSum_nat_add_iff' 2).2 (NormedSpace.exp_series_hasSum_exp' (𝕂 := ℂ) a)
  simpa [Finset.sum_range_succ, sub_sub] using h

theorem real_exp_sub_series (x : ℝ) : HasSum (fun n => ((n + 2).factorial⁻¹ : ℝ) * x ^ (n + 2)) (Real.exp x - 1 - x) := by
  have h := (hasSum_nat_add_iff' 2).2 (NormedSpace.exp_series_hasSum_exp' (𝕂 := ℝ) x)
  rw [← Real.exp_eq_exp_ℝ] at h
  simpa [Finset.sum_range_succ, sub_sub] using h

theorem exp_sub_le {a : 𝔸} {x : ℝ} (h : ‖a‖ ≤ x) : ‖NormedSpace.exp a - 1 - a‖ ≤ Real.exp x - 1 - x := by
  refine (exp_sub_series a).norm_le_of_bounded (real_exp_sub_series x) fun n => ?_
  rw [norm_smul]
  have h1 : ‖((n + 2).factorial⁻¹ : ℂ)‖ = ((n + 2).factorial⁻¹ : ℝ) := by simp
  rw [h1]
  exact mul_le_mul_of_nonneg_left ((norm_pow_le a _).trans (pow_le_pow_left₀ (norm_nonneg _) h _)) (by positivity)

theorem real_exp_sub_le {x : ℝ} (hx : 0 ≤ x) : Real.exp x - 1 - x ≤ x ^ 2 / 2 * Real.exp x := by
  have h2 := (NormedSpace.exp_series_hasSum_exp' (𝕂 := ℝ) x).mul_left (x ^ 2 / 2)
  rw [← Real.exp_eq_exp_ℝ] at h2
  refine hasSum_le (fun n => ?_) (real_exp_sub_series x) h2
  have h3 : (2 : ℝ) * n.factorial ≤ (n + 2).factorial := by
    have : 2 * n.factorial ≤ (n + 2).factorial := by
      rw [Nat.factorial_succ, Nat.factorial_succ, ← mul_assoc]
      exact Nat.mul_le_mul_right _ (by nlinarith)
    exact_mod_cast this
  have h4 : (0 : ℝ) < n.factorial := by exact_mod_cast Nat.factorial_pos n
  have h5 : (((n + 2).factorial : ℝ))⁻¹ ≤ (2 * n.factorial : ℝ)⁻¹ := by
    rw [inv_le_inv₀ (by positivity) (by positivity)]; exact h3
  calc ((n + 2).factorial : ℝ)⁻¹ * x ^ (n + 2) ≤ (2 * n.factorial : ℝ)⁻¹ * x ^ (n + 2) := mul_le_mul_of_nonneg_right h5 (by positivity)
    _ = x ^ 2 / 2 * ((n.factorial : ℝ)⁻¹ • x ^ n) := by rw [smul_eq_mul, mul_inv]; ring

theorem exp_sub_one_le {a : 𝔸} {x : ℝ} (h : ‖a‖ ≤ x) : ‖NormedSpace.exp a - 1‖ ≤ Real.exp x - 1 := by
  have : NormedSpace.exp a - 1 = (NormedSpace.exp a - 1 - a) + a := by abel
  rw [this]
  refine (norm_add_le _ _).trans ?_
  linarith [exp_sub_le h]

/-- The product of exponentials agrees with `1 + Σ a` up to second order. -/
theorem prod_exp_sub_le : ∀ (l : List (𝔸 × ℝ)), (∀ p ∈ l, ‖p.1‖ ≤ p.2) →
    ‖(l.map fun p => NormedSpace.exp p.1).prod - 1 - (l.map Prod.fst).sum‖ ≤ Real.exp (l.map Prod.snd).sum - 1 - (l.map Prod.snd).sum ∧
    ‖(l.map fun p => NormedSpace.exp p.1).prod - 1‖ ≤ Real.exp (l.map Prod.snd).sum - 1 := by
  intro l
  induction l with
  | nil => intro _; simp
  | cons p l ih =>
    intro h
    obtain ⟨i1, i2⟩ := ih fun q hq => h q (by simp [hq])
    have hp := h p (by simp)
    have e1 := exp_sub_le hp
    have e2 := exp_sub_one_le hp
    set E := NormedSpace.exp p.1
    set R := (l.map fun p => NormedSpace.exp p.1).prod
    set S := (l.map Prod.fst).sum
    set X := (l.map Prod.snd).sum
    have hexp : Real.exp (p.2 + X) = Real.exp p.2 * Real.exp X := Real.exp_add _ _
    have hm : ‖(E - 1) * (R - 1)‖ ≤ (Real.exp p.2 - 1) * (Real.exp X - 1) :=
      (norm_mul_le _ _).trans (mul_le_mul e2 i2 (norm_nonneg _) ((norm_nonneg _).trans e2))
    simp only [List.map_cons, List.prod_cons, List.sum_cons]
    constructor
    · have : E * R - 1 - (p.1 + S) = (E - 1) * (R - 1) + (E - 1 - p.1) + (R - 1 - S) := by noncomm_ring
      rw [this, hexp]
      refine (norm_add_le _ _).trans ((add_le_add ((norm_add_le _ _).trans (add_le_add hm e1)) i1).trans (le_of_eq ?_))
      ring
    · have : E * R - 1 = (E - 1) * (R - 1) + (E - 1) + (R - 1) := by noncomm_ring
      rw [this, hexp]
      refine (norm_add_le _ _).trans ((add_le_add ((norm_add_le _ _).trans (add_le_add hm e2)) i2).trans (le_of_eq ?_))
      ring

/-- The product of exponentials and the exponential of the sum differ by at most `x² eˣ`. -/
theorem prod_exp_sub_exp_le (l : List (𝔸 × ℝ)) (h : ∀ p ∈ l, ‖p.1‖ ≤ p.2) :
    ‖(l.map fun p => NormedSpace.exp p.1).prod - NormedSpace.exp (l.map Prod.fst).sum‖ ≤
      (l.map Prod.snd).sum ^ 2 * Real.exp (l.map Prod.snd).sum := by
  have h0 : ‖(l.map Prod.fst).sum‖ ≤ (l.map Prod.snd).sum := by
    induction l with
    | nil => simp
    | cons p l ih =>
      simp only [List.map_cons, List.sum_cons]
      exact (norm_add_le _ _).trans (add_le_add (h p (by simp)) (ih fun q hq => h q (by simp [hq])))
  have h1 := (prod_exp_sub_le l h).1
  have h2 := exp_sub_le h0
  have h3 := real_exp_sub_le ((norm_nonneg _).trans h0)
  set S := (l.map Prod.fst).sum
  set P := (l.map fun p => NormedSpace.exp p.1).prod
  have : P - NormedSpace.exp S = (P - 1 - S) - (NormedSpace.exp S - 1 - S) := by abel
  rw [this]
  refine (norm_sub_le _ _).trans ?_
  linarith

/-- Powers of contractions differ at most linearly. -/
theorem pow_sub_pow_le {P Q : 𝔸} (hP : ‖P‖ ≤ 1) (hQ : ‖Q‖ ≤ 1) (k : ℕ) : ‖P ^ k - Q ^ k‖ ≤ k * ‖P - Q‖ := by
  induction k with
  | zero => simp
  | succ k ih =>
    have : P ^ (k + 1) - Q ^ (k + 1) = P * (P ^ k - Q ^ k) + (P - Q) * Q ^ k := by rw [pow_succ', pow_succ']; noncomm_ring
    rw [this]
    have h1 : ‖P * (P ^ k - Q ^ k)‖ ≤ k * ‖P - Q‖ := by
      refine (norm_mul_le _ _).trans ?_
      calc ‖P‖ * ‖P ^ k - Q ^ k‖ ≤ 1 * ‖P ^ k - Q ^ k‖ := mul_le_mul_of_nonneg_right hP (norm_nonneg _)
        _ ≤ k * ‖P - Q‖ := by rw [one_mul]; exact ih
    have h2 : ‖(P - Q) * Q ^ k‖ ≤ ‖P - Q‖ := by
      refine (norm_mul_le _ _).trans ?_
      have : ‖Q ^ k‖ ≤ 1 := (norm_pow_le Q k).trans (pow_le_one₀ (norm_nonneg _) hQ)
      calc ‖P - Q‖ * ‖Q ^ k‖ ≤ ‖P - Q‖ * 1 := mul_le_mul_of_nonneg_left this (norm_nonneg _)
        _ = ‖P - Q‖ := mul_one _
    refine (norm_add_le _ _).trans ((add_le_add h1 h2).trans (le_of_eq ?_))
    push_cast
    ring

end ZQ.Trotter
