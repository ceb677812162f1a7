import Mathlib.Probability.Moments.Variance
import Mathlib.Probability.Independence.Basic
import Mathlib.MeasureTheory.Integral.Bochner.SumMeasure

/-! Mean and variance of sums of functions of independent draws from finite sets. -/

namespace ZQ.Stat

open MeasureTheory ProbabilityTheory

variable {Ω : Type} [MeasurableSpace Ω] {P : Measure Ω} [IsProbabilityMeasure P]

theorem integral_draw {O : Type} [Fintype O] [MeasurableSpace O] [MeasurableSingletonClass O] {S : Ω → O} (hS : Measurable S) {p : O → ℝ}
    (law : ∀ x, P.real {ω | S ω = x} = p x) (f : O → ℝ) : ∫ ω, f (S ω) ∂P = ∑ x, p x * f x := by
  have := Measure.isProbabilityMeasure_map (μ := P) hS.aemeasurable
  rw [← integral_map (f := f) hS.aemeasurable (Measurable.of_discrete).aestronglyMeasurable, integral_fintype Integrable.of_finite]
  refine Finset.sum_congr rfl fun x _ => ?_
  rw [smul_eq_mul, ← law x, map_measureReal_apply hS (measurableSet_singleton x)]
  rfl

theorem memLp_draw {O : Type} [Fintype O] [MeasurableSpace O] [MeasurableSingletonClass O] {S : Ω → O} (hS : Measurable S) (f : O → ℝ) :
    MemLp (fun ω => f (S ω)) 2 P := by
  refine MemLp.of_bound ((Measurable.of_discrete (f := f)).comp hS).aestronglyMeasurable (∑ x, |f x|) (Filter.Eventually.of_forall fun ω => ?_)
  exact Finset.single_le_sum (f := fun x => |f x|) (fun x _ => abs_nonneg _) (Finset.mem_univ (S ω))

/-- Mean and variance of the sum of a function of each of finitely many independent draws. -/
theorem sum_draws {κ : Type} [Fintype κ] {O : κ → Type} [∀ k, Fintype (O k)] [∀ k, MeasurableSpace (O k)] [∀ k, MeasurableSingletonClass (O k)]
    {S : ∀ k, Ω → O k} (hS : ∀ k, Measurable (S k)) (hind : iIndepFun S P) {p : ∀ k, O k → ℝ} (law : ∀ k x, P.real {ω | S k ω = x} = p k x)
    (g : ∀ k, O k → ℝ) (c : ℝ) :
    MemLp (fun ω => c + ∑ k, g k (S k ω)) 2 P ∧
    ∫ ω, (c + ∑ k, g k (S k ω)) ∂P = c + ∑ k, ∑ x, p k x * g k x ∧
    Var[fun ω => c + ∑ k, g k (S k ω); P] = ∑ k, (∑ x, p k x * g k x ^ 2 - (∑ x, p k x * g k x) ^ 2) := by
  have hL : ∀ k, MemLp (fun ω => g k (S k ω)) 2 P := fun k => memLp_draw (hS k) (g k)
  have hsumL : MemLp (fun ω => ∑ k, g k (S k ω)) 2 P := memLp_finsetSum _ fun k _ => hL k
  refine ⟨(memLp_const c).add hsumL, ?_, ?_⟩
  · rw [integral_add (integrable_const c) (hsumL.integrable (by norm_num)), integral_const, probReal_univ, one_smul,
      integral_finsetSum _ fun k _ => (hL k).integrable (by norm_num)]
    congr 1
    exact Finset.sum_congr rfl fun k _ => integral_draw (hS k) (law k) (g k)
  · rw [variance_const_add hsumL.aestronglyMeasurable]
    have h1 : (fun ω => ∑ k, g k (S k ω)) = ∑ k, fun ω => g k (S k ω) := by ext ω; simp
    rw [h1, IndepFun.variance_sum (fun k _ => hL k) (by
      intro i _ j _ hij
      exact (hind.comp (γ := fun _ => ℝ) g fun k => Measurable.of_discrete).indepFun hij)]
    refine Finset.sum_congr rfl fun k _ => ?_
    rw [variance_eq_sub (hL k)]
    congr 1
    · exact integral_draw (hS k) (law k) fun x => g k x ^ 2
    · exact congrArg (· ^ 2) (integral_draw (hS k) (law k) (g k))

end ZQ.Stat
