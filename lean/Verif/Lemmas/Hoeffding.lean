import Verif.Lemmas.Frequencies
import Mathlib.Probability.Moments.SubGaussian

/-! Hoeffding's inequality for sums of functions of independent draws from finite sets. -/

namespace ZQ.Stat

open MeasureTheory ProbabilityTheory

variable {Ω : Type} [MeasurableSpace Ω] {P : Measure Ω} [IsProbabilityMeasure P]

/-- A sum of functions of independent draws, each function with values in an interval, is off from its mean by `δ` or more with probability at most `2 exp (-2 δ² / ∑ (b - a)²)`. -/
theorem hoeffding_draws {κ : Type} [Fintype κ] {O : κ → Type} [∀ k, Fintype (O k)] [∀ k, MeasurableSpace (O k)] [∀ k, MeasurableSingletonClass (O k)]
    {S : ∀ k, Ω → O k} (hS : ∀ k, Measurable (S k)) (hind : iIndepFun S P) (g : ∀ k, O k → ℝ) (c : ℝ) (a b : κ → ℝ) (hab : ∀ k x, a k ≤ g k x ∧ g k x ≤ b k) {δ : ℝ} (hδ : 0 ≤ δ) :
    P.real {ω | δ ≤ |(c + ∑ k, g k (S k ω)) - ∫ ω, (c + ∑ k, g k (S k ω)) ∂P|} ≤ 2 * Real.exp (-(2 * δ ^ 2) / ∑ k, (b k - a k) ^ 2) := by
  have hm : ∀ k, Measurable fun ω => g k (S k ω) := fun k => (Measurable.of_discrete (f := g k)).comp (hS k)
  have hint : ∀ k, Integrable (fun ω => g k (S k ω)) P := fun k => (memLp_draw (P := P) (hS k) (g k)).integrable (by norm_num)
  have hmean : ∫ ω, (c + ∑ k, g k (S k ω)) ∂P = c + ∑ k, ∫ ω, g k (S k ω) ∂P := by
    rw [integral_add (integrable_const c) (integrable_finsetSum _ fun k _ => hint k), integral_const, probReal_univ, one_smul, integral_finsetSum _ fun k _ => hint k]
  have hsub : ∀ k, HasSubgaussianMGF (fun ω => g k (S k ω) - ∫ ω, g k (S k ω) ∂P) ((‖b k - a k‖₊ / 2) ^ 2) P := fun k =>
    hasSubgaussianMGF_of_mem_Icc (hm k).aemeasurable (Filter.Eventually.of_forall fun ω => hab k (S k ω))
  have hi : iIndepFun (fun k ω => g k (S k ω) - ∫ ω, g k (S k ω) ∂P) P :=
    hind.comp (γ := fun _ => ℝ) (fun k x => g k x - ∫ ω, g k (S k ω) ∂P) fun k => Measurable.of_discrete
  have hi' : iIndepFun (fun k ω => -(g k (S k ω) - ∫ ω, g k (S k ω) ∂P)) P :=
    hind.comp (γ := fun _ => ℝ) (fun k x => -(g k x - ∫ ω, g k (S k ω) ∂P)) fun k => Measurable.of_discrete
  have h1 := HasSubgaussianMGF.measure_sum_ge_le_of_iIndepFun hi (s := Finset.univ) (fun k _ => hsub k) hδ
  have h2 := HasSubgaussianMGF.measure_sum_ge_le_of_iIndepFun hi' (s := Finset.univ) (fun k _ => (hsub k).neg) hδ
  have hexp : Real.exp (-δ ^ 2 / (2 * ((∑ k, (‖b k - a k‖₊ / 2) ^ 2 : NNReal) : ℝ))) = Real.exp (-(2 * δ ^ 2) / ∑ k, (b k - a k) ^ 2) := by
    congr 1
    have : ((∑ k, (‖b k - a k‖₊ / 2) ^ 2 : NNReal) : ℝ) = (∑ k, (b k - a k) ^ 2) / 4 := by
      push_cast
      rw [Finset.sum_div]
      refine Finset.sum_congr rfl fun k _ => ?_
      rw [div_pow, Real.norm_eq_abs, sq_abs]
      norm_num
    rw [this]
    by_cases h0 : ∑ k, (b k - a k) ^ 2 = 0
    · simp [h0]
    · field_simp
      ring
  rw [hexp] at h1 h2
  refine (measureReal_mono ?_).trans ((measureReal_union_le _ _).trans ((add_le_add h1 h2).trans (le_of_eq (by ring))))
  intro ω hω
  have hω' : δ ≤ |(c + ∑ k, g k (S k ω)) - ∫ ω, (c + ∑ k, g k (S k ω)) ∂P| := hω
  have e : (c + ∑ k, g k (S k ω)) - ∫ ω, (c + ∑ k, g k (S k ω)) ∂P = ∑ k, (g k (S k ω) - ∫ ω, g k (S k ω) ∂P) := by
    rw [hmean, Finset.sum_sub_distrib]; ring
  rw [e] at hω'
  rcases le_abs.1 hω' with h | h
  · exact Or.inl h
  · refine Or.inr ?_
    show δ ≤ ∑ k, -(g k (S k ω) - ∫ ω, g k (S k ω) ∂P)
    rw [Finset.sum_neg_distrib]
    exact h

end ZQ.Stat
