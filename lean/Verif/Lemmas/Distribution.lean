import Verif.Model.Distribution
import Verif.Spec.Distribution
import Verif.Lemmas.PyDict
import Verif.Lemmas.ExceptList
import Verif.Props.Bits
import Mathlib.Analysis.SpecialFunctions.Exponential
import Mathlib.LinearAlgebra.Vandermonde

/-! Lemmas about outcome distributions. -/

namespace ZQ.Dist

theorem pmf_not_mem {d : DDict} {k : List ℤ} (h : k ∉ PyDict.keys d) : pmf d k = 0 := by
  induction d with
  | nil => rfl
  | cons p d ih =>
    have e : PyDict.keys (p :: d) = p.1 :: PyDict.keys d := rfl
    rw [e, List.mem_cons, not_or] at h
    have := ih h.2
    simp only [pmf, List.map_cons, List.sum_cons] at this ⊢
    rw [this, if_neg (Ne.symm h.1), add_zero]

theorem prob_eq_pmf {d : DDict} (hd : (PyDict.keys d).Nodup) (k : List ℤ) : prob d k = pmf d k := by
  induction d with
  | nil => rfl
  | cons p d ih =>
    obtain ⟨k₀, v₀⟩ := p
    have e : PyDict.keys ((k₀, v₀) :: d) = k₀ :: PyDict.keys d := rfl
    rw [e, List.nodup_cons] at hd
    have ih := ih hd.2
    rw [prob, PyDict.get?]
    by_cases h : k₀ = k
    · subst h
      have := pmf_not_mem hd.1
      simp only [pmf, List.map_cons, List.sum_cons] at this ⊢
      rw [this]; simp
    · rw [if_neg h]
      rw [prob] at ih
      rw [ih]; simp [pmf, h]

theorem total_eq_norm (d : DDict) : norm d = total d := rfl

theorem exp_hasSum_real (t : ℝ) : HasSum (fun n : ℕ => t ^ n / n.factorial) (Real.exp t) := by
  have := NormedSpace.expSeries_div_hasSum_exp t
  rwa [← Real.exp_eq_exp_ℝ] at this

theorem exp_form_hasSum {ι : Type} (s : Finset ι) (x a : ι → ℝ) (c : ℝ) :
    HasSum (fun n : ℕ => c ^ n / n.factorial * (∑ i ∈ s, a i * x i ^ n) ^ 2)
      (∑ i ∈ s, ∑ j ∈ s, a i * a j * Real.exp (c * (x i * x j))) := by
  have h2 : ∀ i j, HasSum (fun n : ℕ => a i * a j * ((c * (x i * x j)) ^ n / n.factorial))
      (a i * a j * Real.exp (c * (x i * x j))) :=
    fun i j => (exp_hasSum_real (c * (x i * x j))).mul_left _
  have h3 : HasSum (fun n : ℕ => ∑ i ∈ s, ∑ j ∈ s, a i * a j * ((c * (x i * x j)) ^ n / n.factorial))
      (∑ i ∈ s, ∑ j ∈ s, a i * a j * Real.exp (c * (x i * x j))) :=
    hasSum_sum fun i _ => hasSum_sum fun j _ => h2 i j
  refine h3.congr_fun ?_
  intro n
  rw [sq, Finset.sum_mul_sum, Finset.mul_sum]
  refine Finset.sum_congr rfl fun i _ => ?_
  rw [Finset.mul_sum]
  refine Finset.sum_congr rfl fun j _ => ?_
  rw [mul_pow c, mul_pow]
  ring

/-- The Gaussian quadratic form is a convergent sum of squares with positive weights. -/
theorem gauss_form_hasSum {ι : Type} (s : Finset ι) (x d : ι → ℝ) (γ : ℝ) :
    HasSum (fun n : ℕ => (2 * γ) ^ n / n.factorial *
        (∑ i ∈ s, d i * Real.exp (-γ * x i ^ 2) * x i ^ n) ^ 2)
      (∑ i ∈ s, ∑ j ∈ s, d i * Real.exp (-γ * (x i - x j) ^ 2) * d j) := by
  have h1 : (∑ i ∈ s, ∑ j ∈ s, d i * Real.exp (-γ * (x i - x j) ^ 2) * d j)
      = ∑ i ∈ s, ∑ j ∈ s, (d i * Real.exp (-γ * x i ^ 2)) * (d j * Real.exp (-γ * x j ^ 2))
          * Real.exp (2 * γ * (x i * x j)) := by
    refine Finset.sum_congr rfl fun i _ => Finset.sum_congr rfl fun j _ => ?_
    have : Real.exp (-γ * (x i - x j) ^ 2)
        = Real.exp (-γ * x i ^ 2) * Real.exp (-γ * x j ^ 2) * Real.exp (2 * γ * (x i * x j)) := by
      rw [← Real.exp_add, ← Real.exp_add]; congr 1; ring
    rw [this]; ring
  rw [h1]
  exact exp_form_hasSum s x (fun i => d i * Real.exp (-γ * x i ^ 2)) (2 * γ)

theorem gauss_form_nonneg {ι : Type} (s : Finset ι) (x d : ι → ℝ) {γ : ℝ} (hγ : 0 ≤ γ) :
    0 ≤ ∑ i ∈ s, ∑ j ∈ s, d i * Real.exp (-γ * (x i - x j) ^ 2) * d j :=
  (gauss_form_hasSum s x d γ).nonneg fun n => by positivity

/-- The Gaussian kernel is strictly positive definite on distinct points. -/
theorem gauss_form_eq_zero {ι : Type} (s : Finset ι) (x d : ι → ℝ) {γ : ℝ} (hγ : 0 < γ)
    (hx : Set.InjOn x s)
    (h : ∑ i ∈ s, ∑ j ∈ s, d i * Real.exp (-γ * (x i - x j) ^ 2) * d j = 0) : ∀ i ∈ s, d i = 0 := by
  have hs := gauss_form_hasSum s x d γ
  rw [h] at hs
  have hz := (hasSum_zero_iff_of_nonneg (fun n => by positivity)).1 hs
  have hn : ∀ n : ℕ, ∑ i ∈ s, d i * Real.exp (-γ * x i ^ 2) * x i ^ n = 0 := by
    intro n
    have := congrFun hz n
    simp only [Pi.zero_apply, mul_eq_zero, pow_eq_zero_iff, ne_eq, OfNat.ofNat_ne_zero,
      not_false_eq_true] at this
    rcases this with h | h
    · have : (2 * γ) ^ n / (n.factorial : ℝ) ≠ 0 := by positivity
      exact absurd h this
    · exact h
  -- index the points by `Fin`
  let e := s.equivFin
  let y : Fin s.card → ℝ := fun k => x (e.symm k)
  let a : Fin s.card → ℝ := fun k => d (e.symm k) * Real.exp (-γ * x (e.symm k) ^ 2)
  have hy : Function.Injective y := by
    intro k l hkl
    have := hx (e.symm k).2 (e.symm l).2 hkl
    exact e.symm.injective (Subtype.ext this)
  have hdet : (Matrix.vandermonde y).det ≠ 0 := (Matrix.det_vandermonde_ne_zero_iff).2 hy
  have hvec : Matrix.vecMul a (Matrix.vandermonde y) = 0 := by
    funext n
    have h0 := hn n
    rw [← Finset.sum_coe_sort, ← e.symm.sum_comp] at h0
    simp only [Matrix.vecMul, dotProduct, Matrix.vandermonde_apply, Pi.zero_apply]
    exact h0
  have ha : a = 0 := Matrix.eq_zero_of_vecMul_eq_zero hdet hvec
  intro i hi
  have h1 := congrFun ha (e ⟨i, hi⟩)
  simp only [a, Equiv.symm_apply_apply, Pi.zero_apply, mul_eq_zero] at h1
  rcases h1 with h1 | h1
  · exact h1
  · exact absurd h1 (Real.exp_ne_zero _)

end ZQ.Dist
