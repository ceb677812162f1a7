import Verif.Lemmas.SampleMean
import Mathlib.Probability.Moments.Covariance

/-! Relative frequencies of independent draws from a finite set: means, covariances and quadratic forms. -/

namespace ZQ.Stat

open MeasureTheory ProbabilityTheory

variable {Ω : Type} [MeasurableSpace Ω] {P : Measure Ω} [IsProbabilityMeasure P]
variable {O : Type} [Fintype O] [DecidableEq O] [MeasurableSpace O] [MeasurableSingletonClass O]

/-- The relative frequency of `x` among the draws. -/
noncomputable def freq {s : ℕ} (S : Fin s → Ω → O) (x : O) (ω : Ω) : ℝ := ∑ j, (if S j ω = x then 1 else 0) / (s : ℝ)

theorem freq_memLp {s : ℕ} {S : Fin s → Ω → O} (hS : ∀ j, Measurable (S j)) (x : O) : MemLp (freq S x) 2 P :=
  memLp_finsetSum _ fun j _ => memLp_draw (hS j) fun y => (if y = x then 1 else 0) / (s : ℝ)

theorem freq_mean {s : ℕ} (hs : 0 < s) {S : Fin s → Ω → O} (hS : ∀ j, Measurable (S j)) {p : O → ℝ} (law : ∀ j x, P.real {ω | S j ω = x} = p x) (x : O) :
    ∫ ω, freq S x ω ∂P = p x := by
  have hs' : (s : ℝ) ≠ 0 := by exact_mod_cast hs.ne'
  show ∫ ω, ∑ j, (if S j ω = x then 1 else 0) / (s : ℝ) ∂P = p x
  rw [integral_finsetSum _ fun j _ => (memLp_draw (P := P) (hS j) fun y => (if y = x then 1 else 0) / (s : ℝ)).integrable (by norm_num)]
  have h : ∀ j, ∫ ω, (if S j ω = x then 1 else 0) / (s : ℝ) ∂P = p x / s := by
    intro j
    rw [integral_draw (hS j) (law j) fun y => (if y = x then 1 else 0) / (s : ℝ), Finset.sum_eq_single x]
    · simp [div_eq_mul_inv]
    · intro y _ hy; simp [hy]
    · simp
  rw [Finset.sum_congr rfl fun j _ => h j]
  simp
  field_simp

theorem freq_covariance {s : ℕ} (hs : 0 < s) {S : Fin s → Ω → O} (hS : ∀ j, Measurable (S j)) (hind : iIndepFun S P) {p : O → ℝ}
    (law : ∀ j x, P.real {ω | S j ω = x} = p x) (x y : O) :
    cov[freq S x, freq S y; P] = ((if x = y then p x else 0) - p x * p y) / s := by
  have hs' : (s : ℝ) ≠ 0 := by exact_mod_cast hs.ne'
  let I : O → O → ℝ := fun x z => (if z = x then 1 else 0) / (s : ℝ)
  have hL : ∀ x j, MemLp (fun ω => I x (S j ω)) 2 P := fun x j => memLp_draw (hS j) (I x)
  have hI : ∀ x j, ∫ ω, I x (S j ω) ∂P = p x / s := by
    intro x j
    rw [integral_draw (hS j) (law j) (I x), Finset.sum_eq_single x]
    · simp [I, div_eq_mul_inv]
    · intro y _ hy; simp [I, hy]
    · simp
  have hII : ∀ j, ∫ ω, I x (S j ω) * I y (S j ω) ∂P = (if x = y then p x else 0) / (s : ℝ) ^ 2 := by
    intro j
    rw [integral_draw (hS j) (law j) fun z => I x z * I y z, Finset.sum_eq_single x]
    · by_cases hxy : x = y
      · simp [I, hxy]; field_simp
      · simp [I, hxy]
    · intro z _ hz; simp [I, hz]
    · simp
  have e : cov[freq S x, freq S y; P] = ∑ i, ∑ j, cov[fun ω => I x (S i ω), fun ω => I y (S j ω); P] :=
    covariance_fun_sum_fun_sum (fun i => hL x i) (fun j => hL y j)
  rw [e]
  have hij : ∀ i j, cov[fun ω => I x (S i ω), fun ω => I y (S j ω); P] = if i = j then ((if x = y then p x else 0) - p x * p y) / (s : ℝ) ^ 2 else 0 := by
    intro i j
    by_cases h : i = j
    · subst h
      rw [if_pos rfl, covariance_eq_sub (hL x i) (hL y i)]
      have : (P[(fun ω => I x (S i ω)) * fun ω => I y (S i ω)]) = ∫ ω, I x (S i ω) * I y (S i ω) ∂P := rfl
      rw [this, hII, hI, hI]
      field_simp
    · rw [if_neg h]
      exact ((hind.indepFun h).comp (Measurable.of_discrete (f := I x)) (Measurable.of_discrete (f := I y))).covariance_eq_zero (hL x i) (hL y j)
  simp only [hij, Finset.sum_ite_eq, Finset.mem_univ, if_true, Finset.sum_const, Finset.card_univ, Fintype.card_fin, nsmul_eq_mul]
  field_simp

/-- The mean of a quadratic form in the differences between the probabilities and the frequencies. -/
theorem freq_quadratic {s : ℕ} (hs : 0 < s) {S : Fin s → Ω → O} (hS : ∀ j, Measurable (S j)) (hind : iIndepFun S P) {p : O → ℝ}
    (law : ∀ j x, P.real {ω | S j ω = x} = p x) (K : O → O → ℝ) :
    Integrable (fun ω => ∑ x, ∑ y, (p x - freq S x ω) * K x y * (p y - freq S y ω)) P ∧
      ∫ ω, (∑ x, ∑ y, (p x - freq S x ω) * K x y * (p y - freq S y ω)) ∂P = (∑ x, p x * K x x - ∑ x, ∑ y, p x * p y * K x y) / s := by
  have hc : ∀ x, MemLp (fun ω => freq S x ω - p x) 2 P := fun x => (freq_memLp hS x).sub (memLp_const (p x))
  have hint : ∀ x y, Integrable (fun ω => (p x - freq S x ω) * K x y * (p y - freq S y ω)) P := by
    intro x y
    have h := ((hc x).integrable_mul (hc y)).mul_const (K x y)
    refine h.congr (Filter.Eventually.of_forall fun ω => ?_)
    show (freq S x ω - p x) * (freq S y ω - p y) * K x y = _
    ring
  refine ⟨integrable_finsetSum _ fun x _ => integrable_finsetSum _ fun y _ => hint x y, ?_⟩
  rw [integral_finsetSum _ fun x _ => integrable_finsetSum _ fun y _ => hint x y]
  have hxy : ∀ x y, ∫ ω, (p x - freq S x ω) * K x y * (p y - freq S y ω) ∂P = ((if x = y then p x else 0) - p x * p y) / s * K x y := by
    intro x y
    rw [← freq_covariance hs hS hind law x y, covariance, freq_mean hs hS law, freq_mean hs hS law, ← integral_mul_const]
    refine integral_congr_ae (Filter.Eventually.of_forall fun ω => ?_)
    show (p x - freq S x ω) * K x y * (p y - freq S y ω) = (freq S x ω - p x) * (freq S y ω - p y) * K x y
    ring
  have h2 : ∀ x, ∫ ω, (∑ y, (p x - freq S x ω) * K x y * (p y - freq S y ω)) ∂P = ∑ y, ((if x = y then p x else 0) - p x * p y) / s * K x y := by
    intro x
    rw [integral_finsetSum _ fun y _ => hint x y]
    exact Finset.sum_congr rfl fun y _ => hxy x y
  rw [Finset.sum_congr rfl fun x _ => h2 x, sub_div, Finset.sum_div, Finset.sum_div, ← Finset.sum_sub_distrib]
  refine Finset.sum_congr rfl fun x _ => ?_
  rw [Finset.sum_div]
  have : ∀ y, ((if x = y then p x else 0) - p x * p y) / s * K x y = (if x = y then p x * K x y / s else 0) - p x * p y * K x y / s := by
    intro y
    by_cases h : x = y <;> simp [h] <;> ring
  rw [Finset.sum_congr rfl fun y _ => this y, Finset.sum_sub_distrib]
  simp

end ZQ.Stat
