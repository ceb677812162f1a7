import Verif.Props.OutcomeDistribution
import Verif.Props.DistanceMinimum
import Verif.Props.Contract

/-!
# C133: likelihoods and divergences of measured distributions
-/

namespace ZQ.Stat

open ZQ ZQ.Circuits ZQ.Est ZQ.Expect ZQ.Backend MeasureTheory ProbabilityTheory

variable {Ω : Type} [MeasurableSpace Ω]

/-! ### Auxiliary facts -/

theorem log_clip {eps a b : ℝ} (he : 0 < eps) : |Real.log (max eps a) - Real.log (max eps b)| ≤ |a - b| / eps := by
  have key : ∀ a b : ℝ, Real.log (max eps a) - Real.log (max eps b) ≤ |a - b| / eps := by
    intro a b
    have hA : 0 < max eps a := lt_max_of_lt_left he
    have hB : 0 < max eps b := lt_max_of_lt_left he
    have h1 : Real.log (max eps a) - Real.log (max eps b) ≤ max eps a / max eps b - 1 := by
      rw [← Real.log_div hA.ne' hB.ne']
      exact Real.log_le_sub_one_of_pos (div_pos hA hB)
    have h2 : max eps a - max eps b ≤ |a - b| := by
      refine (le_abs_self _).trans ?_
      have := abs_max_sub_max_le_abs a b eps
      rwa [max_comm a, max_comm b] at this
    have h3 : max eps a / max eps b - 1 = (max eps a - max eps b) / max eps b := by field_simp
    rw [h3] at h1
    refine h1.trans ?_
    rw [div_le_div_iff₀ hB he]
    have : (max eps a - max eps b) * eps ≤ |a - b| * eps := mul_le_mul_of_nonneg_right h2 he.le
    exact this.trans (mul_le_mul_of_nonneg_left (le_max_left _ _) (abs_nonneg _))
  rw [abs_le]
  refine ⟨?_, key a b⟩
  have := key b a
  rw [abs_sub_comm] at this
  linarith

/-- The tail of a variable with a known mean square error. -/
theorem tail_bound (P : Measure Ω) [IsProbabilityMeasure P] {V : Ω → ℝ} {v B : ℝ} (hint : Integrable (fun ω => (V ω - v) ^ 2) P) (h : ∫ ω, (V ω - v) ^ 2 ∂P ≤ B) {δ : ℝ} (hδ : 0 < δ) :
    P {ω | δ ≤ |V ω - v|} ≤ ENNReal.ofReal (B / δ ^ 2) := by
  have hm := mul_meas_ge_le_integral_of_nonneg (μ := P) (f := fun ω => (V ω - v) ^ 2) (Filter.Eventually.of_forall fun ω => sq_nonneg _) hint (δ ^ 2)
  have hset : {ω | δ ^ 2 ≤ (V ω - v) ^ 2} = {ω | δ ≤ |V ω - v|} := by
    ext ω
    show δ ^ 2 ≤ (V ω - v) ^ 2 ↔ _
    rw [sq_le_sq, abs_of_pos hδ]
    rfl
  rw [hset] at hm
  have hreal : P.real {ω | δ ≤ |V ω - v|} ≤ B / δ ^ 2 := by
    rw [le_div_iff₀ (by positivity), mul_comm]
    exact hm.trans h
  rw [measureReal_def] at hreal
  refine (ENNReal.le_ofReal_iff_toReal_le (measure_ne_top _ _) ?_).2 hreal
  exact ENNReal.toReal_nonneg.trans hreal

theorem OfOutcomes.outcomes_subset {n : ℕ} {d : Dist.DDict} (h : OfOutcomes n d) : Dist.outcomes d ⊆ (Finset.univ : Finset (Fin n → Bool)).image outcomeKey := by
  intro k hk
  obtain ⟨a, ha, rfl⟩ := List.mem_map.1 (List.mem_toFinset.1 hk)
  obtain ⟨x, e⟩ := h.keys a ha
  exact Finset.mem_image.2 ⟨x, Finset.mem_univ _, e.symm⟩

theorem specNLL_outcomes {n : ℕ} {t m : Dist.DDict} (ht : OfOutcomes n t) (eps : ℝ) :
    Dist.specNLL t m eps = -∑ x : Fin n → Bool, Dist.pmf t (outcomeKey x) * Real.log (max eps (Dist.pmf m (outcomeKey x))) := by
  rw [Dist.specNLL_on _ ht.outcomes_subset, Finset.sum_image fun x _ y _ e => outcomeKey_injective n e]

theorem pmf_le_one {d : Dist.DDict} (hv : Dist.Valid d) (h1 : Dist.total d = 1) (k : List ℤ) : Dist.pmf d k ≤ 1 := by
  rw [← h1, ← Dist.sum_pmf d (insert k (Dist.outcomes d)) (Finset.subset_insert _ _)]
  exact Finset.single_le_sum (f := Dist.pmf d) (fun k _ => Dist.pmf_nonneg' hv k) (Finset.mem_insert_self _ _)

theorem born_nonneg (ρ : String → ℂ) (c : Circuit) (x : Fin c.n → Bool) : 0 ≤ born ρ c x := Complex.normSq_nonneg _

theorem born_le_one {ρ : String → ℂ} {c : Circuit} (hc : Unitary ρ c) (x : Fin c.n → Bool) : born ρ c x ≤ 1 := by
  have h : ∑ x, born ρ c x = 1 := output_normalised hc
  rw [← h]
  exact Finset.single_le_sum (f := born ρ c) (fun k _ => born_nonneg ρ c k) (Finset.mem_univ x)

theorem log_clip_range {eps a : ℝ} (he : 0 < eps) (he1 : eps ≤ 1) (ha : a ≤ 1) : Real.log eps ≤ Real.log (max eps a) ∧ Real.log (max eps a) ≤ 0 :=
  ⟨Real.log_le_log he (le_max_left _ _), Real.log_nonpos (he.le.trans (le_max_left _ _)) (max_le he1 ha)⟩

theorem mean_sq_le {K : Type} (A : Finset K) (t f : K → ℝ) (ht : ∀ k, 0 ≤ t k) (ht1 : ∑ k ∈ A, t k = 1) : (∑ k ∈ A, t k * f k) ^ 2 ≤ ∑ k ∈ A, t k * f k ^ 2 := by
  have e : ∀ μ : ℝ, ∑ k ∈ A, t k * (f k - μ) ^ 2 = ∑ k ∈ A, t k * f k ^ 2 - 2 * μ * ∑ k ∈ A, t k * f k + μ ^ 2 * ∑ k ∈ A, t k := by
    intro μ
    rw [Finset.mul_sum, Finset.mul_sum, ← Finset.sum_sub_distrib, ← Finset.sum_add_distrib]
    exact Finset.sum_congr rfl fun k _ => by ring
  have h : 0 ≤ ∑ k ∈ A, t k * (f k - ∑ k ∈ A, t k * f k) ^ 2 := Finset.sum_nonneg fun k _ => mul_nonneg (ht k) (sq_nonneg _)
  rw [e, ht1] at h
  nlinarith

/-- The mean square error of a linear form in the frequencies. -/
theorem freq_linear {O : Type} [Fintype O] [DecidableEq O] [MeasurableSpace O] [MeasurableSingletonClass O] (P : Measure Ω) [IsProbabilityMeasure P] {s : ℕ} (hs : 0 < s) {S : Fin s → Ω → O}
    (hS : ∀ j, Measurable (S j)) (hI : iIndepFun S P) {p : O → ℝ} (hp : ∀ x, 0 ≤ p x) (hp1 : ∑ x, p x = 1) (law : ∀ j x, P.real {ω | S j ω = x} = p x) (f : O → ℝ) {L : ℝ} (hf : ∀ x, L ≤ f x ∧ f x ≤ 0) :
    MemLp (fun ω => -∑ x, freq S x ω * f x) 2 P ∧ ∫ ω, (-∑ x, freq S x ω * f x) ∂P = -∑ x, p x * f x ∧
      Var[fun ω => -∑ x, freq S x ω * f x; P] = (∑ x, p x * f x ^ 2 - (∑ x, p x * f x) ^ 2) / s ∧ Var[fun ω => -∑ x, freq S x ω * f x; P] ≤ L ^ 2 / (4 * s) := by
  have hs' : (0 : ℝ) < s := by exact_mod_cast hs
  have hform : (fun ω => -∑ x, freq S x ω * f x) = fun ω => 0 + ∑ j, (fun y => -(f y / s)) (S j ω) := by
    funext ω
    unfold freq
    simp only [Finset.sum_mul, zero_add]
    rw [Finset.sum_comm, Finset.sum_neg_distrib]
    congr 1
    refine Finset.sum_congr rfl fun j _ => ?_
    rw [Finset.sum_eq_single (S j ω)]
    · simp only [if_true]; ring
    · intro x _ hx; rw [if_neg hx.symm]; ring
    · intro h; exact absurd (Finset.mem_univ _) h
  obtain ⟨h1, h2, h3⟩ := sum_draws hS hI (p := fun _ => p) law (fun _ y => -(f y / s)) 0
  have hsum1 : ∑ x, p x * -(f x / s) = -(∑ x, p x * f x) / s := by
    rw [neg_div, Finset.sum_div, ← Finset.sum_neg_distrib]
    exact Finset.sum_congr rfl fun x _ => by ring
  have hsum2 : ∑ x, p x * (-(f x / s)) ^ 2 = (∑ x, p x * f x ^ 2) / s ^ 2 := by
    rw [Finset.sum_div]
    exact Finset.sum_congr rfl fun x _ => by ring
  have hvar : Var[fun ω => -∑ x, freq S x ω * f x; P] = (∑ x, p x * f x ^ 2 - (∑ x, p x * f x) ^ 2) / s := by
    rw [hform, h3]
    simp only [hsum1, hsum2, Finset.sum_const, Finset.card_univ, Fintype.card_fin, nsmul_eq_mul]
    field_simp
  refine ⟨hform ▸ h1, ?_, hvar, ?_⟩
  · rw [hform, h2]
    simp only [hsum1, Finset.sum_const, Finset.card_univ, Fintype.card_fin, nsmul_eq_mul]
    field_simp
    ring
  · rw [hvar, div_le_div_iff₀ hs' (by positivity)]
    have hsq : ∑ x, p x * f x ^ 2 ≤ L * ∑ x, p x * f x := by
      rw [Finset.mul_sum]
      refine Finset.sum_le_sum fun x _ => ?_
      have : f x ^ 2 ≤ L * f x := by nlinarith [hf x]
      nlinarith [hp x]
    have : ∑ x, p x * f x ^ 2 - (∑ x, p x * f x) ^ 2 ≤ L ^ 2 / 4 := by nlinarith [sq_nonneg (L / 2 - ∑ x, p x * f x)]
    nlinarith

/-- The mean square error of a mean of clipped logarithms of frequencies. -/
theorem freq_log (P : Measure Ω) [IsProbabilityMeasure P] {K : Type} (A : Finset K) (t : K → ℝ) (ht : ∀ k, 0 ≤ t k) (ht1 : ∑ k ∈ A, t k = 1) (F : K → Ω → ℝ) (q : K → ℝ) {eps B : ℝ} (he : 0 < eps)
    (hF : ∀ k, MemLp (F k) 2 P ∧ ∫ ω, (F k ω - q k) ^ 2 ∂P ≤ B) :
    Integrable (fun ω => (-∑ k ∈ A, t k * Real.log (max eps (F k ω)) - -∑ k ∈ A, t k * Real.log (max eps (q k))) ^ 2) P ∧
      ∫ ω, (-∑ k ∈ A, t k * Real.log (max eps (F k ω)) - -∑ k ∈ A, t k * Real.log (max eps (q k))) ^ 2 ∂P ≤ B / eps ^ 2 := by
  have hint : ∀ k, Integrable (fun ω => (F k ω - q k) ^ 2) P := fun k => ((hF k).1.sub (memLp_const (q k))).integrable_sq
  have hI : Integrable (fun ω => ∑ k ∈ A, t k * ((F k ω - q k) ^ 2 / eps ^ 2)) P := integrable_finsetSum _ fun k _ => ((hint k).div_const _).const_mul _
  have hle : ∀ ω, (-∑ k ∈ A, t k * Real.log (max eps (F k ω)) - -∑ k ∈ A, t k * Real.log (max eps (q k))) ^ 2 ≤ ∑ k ∈ A, t k * ((F k ω - q k) ^ 2 / eps ^ 2) := by
    intro ω
    have e : (-∑ k ∈ A, t k * Real.log (max eps (F k ω)) - -∑ k ∈ A, t k * Real.log (max eps (q k))) ^ 2 = (∑ k ∈ A, t k * (Real.log (max eps (F k ω)) - Real.log (max eps (q k)))) ^ 2 := by
      simp only [mul_sub, Finset.sum_sub_distrib]
      ring
    rw [e]
    have h1 := mean_sq_le A t (fun k => Real.log (max eps (F k ω)) - Real.log (max eps (q k))) ht ht1
    refine h1.trans (Finset.sum_le_sum fun k _ => mul_le_mul_of_nonneg_left ?_ (ht k))
    rw [← div_pow, ← sq_abs, ← sq_abs ((F k ω - q k) / eps), abs_div, abs_of_pos he]
    exact pow_le_pow_left₀ (abs_nonneg _) (log_clip he) 2
  have hmeas : AEStronglyMeasurable (fun ω => (-∑ k ∈ A, t k * Real.log (max eps (F k ω)) - -∑ k ∈ A, t k * Real.log (max eps (q k))) ^ 2) P := by
    have h : ∀ k, AEMeasurable (fun ω => t k * Real.log (max eps (F k ω))) P := fun k =>
      (Real.measurable_log.comp_aemeasurable (aemeasurable_const.max (hF k).1.aestronglyMeasurable.aemeasurable)).const_mul _
    have hs := Finset.aemeasurable_fun_sum A fun k _ => h k
    exact ((hs.neg.sub_const _).pow_const 2).aestronglyMeasurable
  have hint2 := hI.mono' hmeas (Filter.Eventually.of_forall fun ω => by rw [Real.norm_eq_abs, abs_of_nonneg (sq_nonneg _)]; exact hle ω)
  refine ⟨hint2, (integral_mono hint2 hI hle).trans ?_⟩
  rw [integral_finsetSum _ fun k _ => ((hint k).div_const _).const_mul _]
  calc ∑ k ∈ A, ∫ ω, t k * ((F k ω - q k) ^ 2 / eps ^ 2) ∂P ≤ ∑ k ∈ A, t k * (B / eps ^ 2) := by
        refine Finset.sum_le_sum fun k _ => ?_
        rw [integral_const_mul, integral_div]
        exact mul_le_mul_of_nonneg_left (div_le_div_of_nonneg_right (hF k).2 (by positivity)) (ht k)
    _ = B / eps ^ 2 := by rw [← Finset.sum_mul, ht1, one_mul]

/-- What the measured distribution says about one outcome. -/
theorem measured_entry (P : Measure Ω) [IsProbabilityMeasure P] {ρ : String → ℂ} {c : Circuit} (hc : Unitary ρ c) {s : ℕ} (hs : 0 < s) {S : Fin s → Ω → (Fin c.n → Bool)} {D : Ω → Dist.DDict} {E : Dist.DDict}
    (hS : ∀ j, Measurable (S j)) (hI : iIndepFun S P) (hlaw : ∀ j x, P.real {ω | S j ω = x} = born ρ c x) (hD : ∀ ω, OfOutcomes c.n (D ω)) (hf : ∀ ω x, Dist.pmf (D ω) (outcomeKey x) = freq S x ω)
    (hE : OfOutcomes c.n E) (he : ∀ x, Dist.pmf E (outcomeKey x) = born ρ c x) (k : List ℤ) :
    MemLp (fun ω => Dist.pmf (D ω) k) 2 P ∧ ∫ ω, (Dist.pmf (D ω) k - Dist.pmf E k) ^ 2 ∂P ≤ 1 / (4 * s) := by
  have hs' : (0 : ℝ) < s := by exact_mod_cast hs
  by_cases hk : ∃ x : Fin c.n → Bool, k = outcomeKey x
  · obtain ⟨x, rfl⟩ := hk
    simp only [hf, he]
    refine ⟨freq_memLp hS x, ?_⟩
    have hm := (freq_memLp (P := P) hS x).aestronglyMeasurable.aemeasurable
    have hv := variance_eq_integral hm
    rw [freq_mean hs hS hlaw x, ← covariance_self hm, freq_covariance hs hS hI hlaw, if_pos rfl] at hv
    rw [← hv, div_le_div_iff₀ hs' (by positivity)]
    nlinarith [sq_nonneg (born ρ c x - 1 / 2)]
  · have hz : ∀ d, OfOutcomes c.n d → Dist.pmf d k = 0 := by
      intro d hd
      refine Dist.pmf_eq_zero fun h => hk ?_
      obtain ⟨x, -, e⟩ := Finset.mem_image.1 (hd.outcomes_subset h)
      exact ⟨x, e.symm⟩
    simp only [hz _ (hD _), hz _ hE]
    refine ⟨memLp_const 0, ?_⟩
    simp

theorem isClose_of_one {d : Dist.DDict} (h : Dist.total d = 1) : Dist.IsClose (Dist.total d) 1 := by rw [h]; exact Dist.isClose_one_one

theorem OfOutcomes.lengths {n : ℕ} {d : Dist.DDict} (h : OfOutcomes n d) : ∀ a ∈ d, a.1.length = n := by
  intro a ha
  obtain ⟨x, e⟩ := h.keys a ha
  rw [e]
  simp [outcomeKey]

theorem evaluate_ok {n : ℕ} {t m : Dist.DDict} (ht : Dist.Valid t) (hm : Dist.Valid m) (tl : ∀ a ∈ t, a.1.length = n) (ml : ∀ a ∈ m, a.1.length = n) (tc : Dist.IsClose (Dist.total t) 1)
    (mc : Dist.IsClose (Dist.total m) 1) (f : Dist.DDict → Dist.DDict → Except Err ℝ) : Dist.evaluateDistance t m f = f t m :=
  (Dist.evaluateDistance_spec t m ht hm f).2.1 (fun a ha b hb => by rw [tl a ha, ml b hb]) ⟨fun _ => mc, fun _ => tc⟩

/-! ### C133 -/

/-- C133. The measured distribution as the target: for each distribution `m` over tuples of as many bits, the clipped negative log likelihood of the measured distribution under `m` is defined, on average
exactly that of the exact distribution, with variance at most `log(eps)² / (4 s)`. -/
theorem likelihood_of_measured (P : Measure Ω) [IsProbabilityMeasure P] {r : Ω → Randomness} {seed : Option ℕ} (hr : Promised P r seed) {ρ : String → ℂ} {c : Circuit} (hc : Unitary ρ c)
    (hn : 0 < c.n) {s : ℕ} (hs : 0 < s) (st st' : St ℕ) (m : List (List ℤ × ℝ)) (hm : Dist.Valid m) (hml : ∀ a ∈ m, a.1.length = c.n) (hm1 : Dist.total m = 1) {eps : ℝ} (he : 0 < eps) (he1 : eps ≤ 1) :
    ∃ (E : List (List ℤ × ℝ)) (D : Ω → List (List ℤ × ℝ)) (V : Ω → ℝ) (v : ℝ),
      (∀ r', (outcomeDistribution r' seed ρ c none st').1 = .ok E) ∧ (∀ ω, (outcomeDistribution (r ω) seed ρ c (some (s : ℤ)) st).1 = .ok (D ω)) ∧
      (∀ ω keys, Dist.Enumerates keys (D ω) m → Dist.evaluateDistance (D ω) m (fun t m => Dist.clippedNLL keys t m eps) = .ok (V ω)) ∧
      (∀ keys, Dist.Enumerates keys E m → Dist.evaluateDistance E m (fun t m => Dist.clippedNLL keys t m eps) = .ok v) ∧
      MemLp V 2 P ∧ P[V] = v ∧ Var[V; P] ≤ Real.log eps ^ 2 / (4 * s) ∧
      ∀ δ, 0 < δ → P {ω | δ ≤ |V ω - v|} ≤ ENNReal.ofReal (Real.log eps ^ 2 / (4 * s) / δ ^ 2) := by
  obtain ⟨S, D, hS, hI, hlaw, hD⟩ := measured_outcomes P hr hc hn hs st
  obtain ⟨E, e1, e2, e3⟩ := exact_outcomes hc st'
  have hlog : ∀ x : Fin c.n → Bool, Real.log eps ≤ Real.log (max eps (Dist.pmf m (outcomeKey x))) ∧ Real.log (max eps (Dist.pmf m (outcomeKey x))) ≤ 0 :=
    fun x => log_clip_range he he1 (pmf_le_one hm hm1 _)
  obtain ⟨h1, h2, -, h3⟩ := freq_linear P hs hS hI (born_nonneg ρ c) (output_normalised hc) hlaw (fun x => Real.log (max eps (Dist.pmf m (outcomeKey x)))) hlog
  have hV : (fun ω => Dist.specNLL (D ω) m eps) = fun ω => -∑ x, freq S x ω * Real.log (max eps (Dist.pmf m (outcomeKey x))) := by
    funext ω
    rw [specNLL_outcomes (hD ω).2.1]
    simp only [(hD ω).2.2.2]
  have hv : Dist.specNLL E m eps = -∑ x, born ρ c x * Real.log (max eps (Dist.pmf m (outcomeKey x))) := by
    rw [specNLL_outcomes e2]
    simp only [e3]
  rw [← hV] at h1 h2 h3
  rw [← hv] at h2
  refine ⟨E, D, fun ω => Dist.specNLL (D ω) m eps, Dist.specNLL E m eps, fun _ => e1, fun ω => (hD ω).1, fun ω keys hk => ?_, fun keys hk => ?_, h1, h2, h3, fun δ hδ => ?_⟩
  · rw [evaluate_ok (hD ω).2.1.valid hm (hD ω).2.1.lengths hml (hD ω).2.1.close (isClose_of_one hm1)]
    exact Dist.clippedNLL_spec _ _ (hD ω).2.1.valid.distinct hm.distinct eps he keys hk
  · rw [evaluate_ok e2.valid hm e2.lengths hml e2.close (isClose_of_one hm1)]
    exact Dist.clippedNLL_spec _ _ e2.valid.distinct hm.distinct eps he keys hk
  · have hvar := variance_eq_integral h1.aestronglyMeasurable.aemeasurable
    rw [h2] at hvar
    exact tail_bound P (h1.sub (memLp_const _)).integrable_sq (hvar ▸ h3) hδ

/-- C133. The measured distribution as the model of a fixed target `t`: the clipped negative log likelihood of `t` under the measured distribution is defined and its mean square distance from the one under
the exact distribution is at most `1 / (4 eps² s)`. -/
theorem likelihood_under_measured (P : Measure Ω) [IsProbabilityMeasure P] {r : Ω → Randomness} {seed : Option ℕ} (hr : Promised P r seed) {ρ : String → ℂ} {c : Circuit} (hc : Unitary ρ c)
    (hn : 0 < c.n) {s : ℕ} (hs : 0 < s) (st st' : St ℕ) (t : List (List ℤ × ℝ)) (ht : Dist.Valid t) (htl : ∀ a ∈ t, a.1.length = c.n) (ht1 : Dist.total t = 1) {eps : ℝ} (he : 0 < eps) :
    ∃ (E : List (List ℤ × ℝ)) (D : Ω → List (List ℤ × ℝ)) (V : Ω → ℝ) (v : ℝ),
      (∀ r', (outcomeDistribution r' seed ρ c none st').1 = .ok E) ∧ (∀ ω, (outcomeDistribution (r ω) seed ρ c (some (s : ℤ)) st).1 = .ok (D ω)) ∧
      (∀ ω keys, Dist.Enumerates keys t (D ω) → Dist.evaluateDistance t (D ω) (fun t m => Dist.clippedNLL keys t m eps) = .ok (V ω)) ∧
      (∀ keys, Dist.Enumerates keys t E → Dist.evaluateDistance t E (fun t m => Dist.clippedNLL keys t m eps) = .ok v) ∧
      Integrable (fun ω => (V ω - v) ^ 2) P ∧ ∫ ω, (V ω - v) ^ 2 ∂P ≤ 1 / (4 * eps ^ 2 * s) ∧
      ∀ δ, 0 < δ → P {ω | δ ≤ |V ω - v|} ≤ ENNReal.ofReal (1 / (4 * eps ^ 2 * s) / δ ^ 2) := by
  obtain ⟨S, D, hS, hI, hlaw, hD⟩ := measured_outcomes P hr hc hn hs st
  obtain ⟨E, e1, e2, e3⟩ := exact_outcomes hc st'
  obtain ⟨h1, h2⟩ := freq_log P (Dist.outcomes t) (Dist.pmf t) (Dist.pmf_nonneg' ht) (by rw [Dist.sum_pmf t _ subset_rfl, ht1]) (fun k ω => Dist.pmf (D ω) k) (Dist.pmf E) he
    fun k => measured_entry P hc hs hS hI hlaw (fun ω => (hD ω).2.1) (fun ω => (hD ω).2.2.2) e2 e3 k
  have hb : 1 / (4 * (s : ℝ)) / eps ^ 2 = 1 / (4 * eps ^ 2 * s) := by field_simp
  rw [hb] at h2
  simp only [← Dist.specNLL_on (Dist.outcomes t) subset_rfl] at h1 h2
  refine ⟨E, D, fun ω => Dist.specNLL t (D ω) eps, Dist.specNLL t E eps, fun _ => e1, fun ω => (hD ω).1, fun ω keys hk => ?_, fun keys hk => ?_, h1, h2, fun δ hδ => tail_bound P h1 h2 hδ⟩
  · rw [evaluate_ok ht (hD ω).2.1.valid htl (hD ω).2.1.lengths (isClose_of_one ht1) (hD ω).2.1.close]
    exact Dist.clippedNLL_spec _ _ ht.distinct (hD ω).2.1.valid.distinct eps he keys hk
  · rw [evaluate_ok ht e2.valid htl e2.lengths (isClose_of_one ht1) e2.close]
    exact Dist.clippedNLL_spec _ _ ht.distinct e2.valid.distinct eps he keys hk

/-- Specification: the entropy of the outcomes of `c`, with probabilities below `eps` replaced by `eps` inside the logarithm. -/
noncomputable def clippedEntropy (ρ : String → ℂ) (c : Circuit) (eps : ℝ) : ℝ := -∑ x, born ρ c x * Real.log (max eps (born ρ c x))

/-- C133. The clipped entropy is zero exactly if one outcome is certain. -/
theorem clippedEntropy_eq_zero {ρ : String → ℂ} {c : Circuit} (hc : Unitary ρ c) {eps : ℝ} (he : 0 < eps) (he1 : eps < 1) :
    0 ≤ clippedEntropy ρ c eps ∧ (clippedEntropy ρ c eps = 0 ↔ ∃ x, born ρ c x = 1) := by
  have hterm : ∀ x, 0 ≤ -(born ρ c x * Real.log (max eps (born ρ c x))) := by
    intro x
    have := (log_clip_range he he1.le (born_le_one hc x)).2
    nlinarith [born_nonneg ρ c x]
  have hsum : ∑ x, born ρ c x = 1 := output_normalised hc
  unfold clippedEntropy
  rw [← Finset.sum_neg_distrib]
  refine ⟨Finset.sum_nonneg fun x _ => hterm x, ?_⟩
  rw [Finset.sum_eq_zero_iff_of_nonneg fun x _ => hterm x]
  have hz : ∀ x, -(born ρ c x * Real.log (max eps (born ρ c x))) = 0 ↔ born ρ c x = 0 ∨ born ρ c x = 1 := by
    intro x
    rw [neg_eq_zero, mul_eq_zero]
    refine or_congr Iff.rfl ⟨fun h => ?_, fun h => by rw [h, max_eq_right he1.le, Real.log_one]⟩
    by_contra hne
    have hlt : max eps (born ρ c x) < 1 := max_lt he1 (lt_of_le_of_ne (born_le_one hc x) hne)
    have := Real.log_neg (he.trans_le (le_max_left _ _)) hlt
    linarith
  constructor
  · intro h
    by_contra hne
    push Not at hne
    have : ∑ x, born ρ c x = 0 := Finset.sum_eq_zero fun x hx => ((hz x).1 (h x hx)).resolve_right (hne x)
    linarith
  · rintro ⟨x, hx⟩ y -
    refine (hz y).2 ?_
    by_cases e : y = x
    · exact Or.inr (e ▸ hx)
    · left
      have h2 : born ρ c x + born ρ c y ≤ ∑ z, born ρ c z := by
        rw [← Finset.sum_pair (f := born ρ c) (Ne.symm e)]
        exact Finset.sum_le_sum_of_subset_of_nonneg (Finset.subset_univ _) fun z _ _ => born_nonneg ρ c z
      have := born_nonneg ρ c y
      linarith

/-- C133. The Jensen-Shannon divergence between the exact and a measured distribution is defined, and its mean square distance from the clipped entropy of the circuit, which is also its value for the exact
distribution and itself, is at most `(1 / eps² + log(eps)²) / (8 s)`. -/
theorem divergence_of_measured (P : Measure Ω) [IsProbabilityMeasure P] {r : Ω → Randomness} {seed : Option ℕ} (hr : Promised P r seed) {ρ : String → ℂ} {c : Circuit} (hc : Unitary ρ c)
    (hn : 0 < c.n) {s : ℕ} (hs : 0 < s) (st st' : St ℕ) {eps : ℝ} (he : 0 < eps) (he1 : eps ≤ 1) :
    ∃ (E : List (List ℤ × ℝ)) (D : Ω → List (List ℤ × ℝ)) (V : Ω → ℝ),
      (∀ r', (outcomeDistribution r' seed ρ c none st').1 = .ok E) ∧ (∀ ω, (outcomeDistribution (r ω) seed ρ c (some (s : ℤ)) st).1 = .ok (D ω)) ∧
      (∀ ω k₁ k₂, Dist.Enumerates k₁ E (D ω) → Dist.Enumerates k₂ (D ω) E → Dist.evaluateDistance E (D ω) (fun t m => Dist.jensenShannon k₁ k₂ t m eps) = .ok (V ω)) ∧
      (∀ k₁ k₂, Dist.Enumerates k₁ E E → Dist.Enumerates k₂ E E → Dist.evaluateDistance E E (fun t m => Dist.jensenShannon k₁ k₂ t m eps) = .ok (clippedEntropy ρ c eps)) ∧
      Integrable (fun ω => (V ω - clippedEntropy ρ c eps) ^ 2) P ∧ ∫ ω, (V ω - clippedEntropy ρ c eps) ^ 2 ∂P ≤ (1 / eps ^ 2 + Real.log eps ^ 2) / (8 * s) ∧
      ∀ δ, 0 < δ → P {ω | δ ≤ |V ω - clippedEntropy ρ c eps|} ≤ ENNReal.ofReal ((1 / eps ^ 2 + Real.log eps ^ 2) / (8 * s) / δ ^ 2) := by
  obtain ⟨S, D, hS, hI, hlaw, hD⟩ := measured_outcomes P hr hc hn hs st
  obtain ⟨E, e1, e2, e3⟩ := exact_outcomes hc st'
  have hE1 : Dist.total E = 1 := by
    rw [← Dist.sum_pmf E _ e2.outcomes_subset, Finset.sum_image fun x _ y _ e => outcomeKey_injective c.n e]
    simp only [e3]
    exact output_normalised hc
  have hH : Dist.specNLL E E eps = clippedEntropy ρ c eps := by
    rw [specNLL_outcomes e2]
    simp only [e3]
    rfl
  obtain ⟨a1, a2⟩ := freq_log P (Dist.outcomes E) (Dist.pmf E) (Dist.pmf_nonneg' e2.valid) (by rw [Dist.sum_pmf E _ subset_rfl, hE1]) (fun k ω => Dist.pmf (D ω) k) (Dist.pmf E) he
    fun k => measured_entry P hc hs hS hI hlaw (fun ω => (hD ω).2.1) (fun ω => (hD ω).2.2.2) e2 e3 k
  simp only [← Dist.specNLL_on (Dist.outcomes E) subset_rfl, hH] at a1 a2
  obtain ⟨b1, b2, -, b3⟩ := freq_linear P hs hS hI (born_nonneg ρ c) (output_normalised hc) hlaw (fun x => Real.log (max eps (born ρ c x))) fun x => log_clip_range he he1 (born_le_one hc x)
  have hV : (fun ω => Dist.specNLL (D ω) E eps) = fun ω => -∑ x, freq S x ω * Real.log (max eps (born ρ c x)) := by
    funext ω
    rw [specNLL_outcomes (hD ω).2.1]
    simp only [(hD ω).2.2.2, e3]
  rw [← hV] at b1 b2 b3
  have hvar := variance_eq_integral b1.aestronglyMeasurable.aemeasurable
  rw [b2] at hvar
  change _ = ∫ ω, (Dist.specNLL (D ω) E eps - clippedEntropy ρ c eps) ^ 2 ∂P at hvar
  rw [hvar] at b3
  have b4 : Integrable (fun ω => (Dist.specNLL (D ω) E eps - clippedEntropy ρ c eps) ^ 2) P := (b1.sub (memLp_const _)).integrable_sq
  have hle : ∀ ω, (Dist.specNLL E (D ω) eps / 2 + Dist.specNLL (D ω) E eps / 2 - clippedEntropy ρ c eps) ^ 2 ≤
      (Dist.specNLL E (D ω) eps - clippedEntropy ρ c eps) ^ 2 / 2 + (Dist.specNLL (D ω) E eps - clippedEntropy ρ c eps) ^ 2 / 2 := by
    intro ω
    nlinarith [sq_nonneg (Dist.specNLL E (D ω) eps - Dist.specNLL (D ω) E eps)]
  have hmeas : AEStronglyMeasurable (fun ω => (Dist.specNLL E (D ω) eps / 2 + Dist.specNLL (D ω) E eps / 2 - clippedEntropy ρ c eps) ^ 2) P := by
    have h : ∀ k, AEMeasurable (fun ω => Dist.pmf E k * Real.log (max eps (Dist.pmf (D ω) k))) P := fun k =>
      (Real.measurable_log.comp_aemeasurable (aemeasurable_const.max
        (measured_entry P hc hs hS hI hlaw (fun ω => (hD ω).2.1) (fun ω => (hD ω).2.2.2) e2 e3 k).1.aestronglyMeasurable.aemeasurable)).const_mul _
    have hm1 : AEMeasurable (fun ω => Dist.specNLL E (D ω) eps) P := by
      simp only [Dist.specNLL_on (Dist.outcomes E) subset_rfl]
      exact (Finset.aemeasurable_fun_sum _ fun k _ => h k).neg
    exact ((((hm1.div_const 2).add (b1.aestronglyMeasurable.aemeasurable.div_const 2)).sub_const _).pow_const 2).aestronglyMeasurable
  have hI2 := (a1.div_const 2).add (b4.div_const 2)
  have hint : Integrable (fun ω => (Dist.specNLL E (D ω) eps / 2 + Dist.specNLL (D ω) E eps / 2 - clippedEntropy ρ c eps) ^ 2) P :=
    hI2.mono' hmeas (Filter.Eventually.of_forall fun ω => by rw [Real.norm_eq_abs, abs_of_nonneg (sq_nonneg _)]; exact hle ω)
  have hbound : ∫ ω, (Dist.specNLL E (D ω) eps / 2 + Dist.specNLL (D ω) E eps / 2 - clippedEntropy ρ c eps) ^ 2 ∂P ≤ (1 / eps ^ 2 + Real.log eps ^ 2) / (8 * s) := by
    refine (integral_mono hint hI2 hle).trans ?_
    have hadd := integral_add (a1.div_const 2) (b4.div_const 2)
    refine (le_of_eq hadd).trans ?_
    rw [integral_div, integral_div]
    have hs' : (0 : ℝ) < s := by exact_mod_cast hs
    have : (1 / eps ^ 2 + Real.log eps ^ 2) / (8 * s) = 1 / (4 * (s : ℝ)) / eps ^ 2 / 2 + Real.log eps ^ 2 / (4 * s) / 2 := by
      field_simp
      ring
    rw [this]
    exact add_le_add (div_le_div_of_nonneg_right a2 (by norm_num)) (div_le_div_of_nonneg_right b3 (by norm_num))
  refine ⟨E, D, fun ω => Dist.specNLL E (D ω) eps / 2 + Dist.specNLL (D ω) E eps / 2, fun _ => e1, fun ω => (hD ω).1, fun ω k₁ k₂ h₁ h₂ => ?_, fun k₁ k₂ h₁ h₂ => ?_, hint, hbound,
    fun δ hδ => tail_bound P hint hbound hδ⟩
  · rw [evaluate_ok e2.valid (hD ω).2.1.valid e2.lengths (hD ω).2.1.lengths e2.close (hD ω).2.1.close]
    unfold Dist.jensenShannon
    rw [Dist.clippedNLL_spec _ _ e2.valid.distinct (hD ω).2.1.valid.distinct eps he k₁ h₁, Dist.clippedNLL_spec _ _ (hD ω).2.1.valid.distinct e2.valid.distinct eps he k₂ h₂]
    rfl
  · rw [evaluate_ok e2.valid e2.valid e2.lengths e2.lengths e2.close e2.close]
    unfold Dist.jensenShannon
    rw [Dist.clippedNLL_spec _ _ e2.valid.distinct e2.valid.distinct eps he k₁ h₁, Dist.clippedNLL_spec _ _ e2.valid.distinct e2.valid.distinct eps he k₂ h₂, hH]
    show Except.ok _ = _
    rw [add_halves]

/-- The circuit with one Hadamard gate on one qubit. -/
noncomputable def coin : Circuit := ⟨[Contract.hOp 0], 1⟩

/-- C133, counterexample: a small divergence is not a sign of agreement. For a qubit after a Hadamard gate and each clipping parameter up to one half, the divergence between the exact distribution and the
distribution measured with ever more samples tends to `log 2`: the probability that it is below `log 2 - δ` tends to zero. -/
theorem divergence_limit_counterexample (P : Measure Ω) [IsProbabilityMeasure P] {r : Ω → Randomness} {seed : Option ℕ} (hr : Promised P r seed) (ρ : String → ℂ) (st st' : St ℕ)
    {eps : ℝ} (he : 0 < eps) (he2 : eps ≤ 1 / 2) {δ : ℝ} (hδ : 0 < δ) {s : ℕ} (hs : 0 < s) :
    ∃ (E : List (List ℤ × ℝ)) (D : Ω → List (List ℤ × ℝ)) (V : Ω → ℝ),
      (∀ r', (outcomeDistribution r' seed ρ coin none st').1 = .ok E) ∧ (∀ ω, (outcomeDistribution (r ω) seed ρ coin (some (s : ℤ)) st).1 = .ok (D ω)) ∧
      (∀ ω k₁ k₂, Dist.Enumerates k₁ E (D ω) → Dist.Enumerates k₂ (D ω) E → Dist.evaluateDistance E (D ω) (fun t m => Dist.jensenShannon k₁ k₂ t m eps) = .ok (V ω)) ∧
      P {ω | V ω ≤ Real.log 2 - δ} ≤ ENNReal.ofReal ((1 / eps ^ 2 + Real.log eps ^ 2) / (8 * s) / δ ^ 2) := by
  have hu : Unitary ρ coin := Contract.circuit_unitary ρ _ _ (by norm_num) (by
    intro op ho
    rw [List.mem_singleton.1 ho]
    exact Contract.hOp_ok ρ (by norm_num))
  obtain ⟨E, D, V, h1, h2, h3, -, -, -, h4⟩ := divergence_of_measured P hr hu (by norm_num [coin]) hs st st' he (he2.trans (by norm_num))
  have hb : ∀ x, born ρ coin x = 1 / 2 := by
    intro x
    have e : outputState ρ coin x = Contract.hBit (x (0 : Fin 1)) false := Contract.one_state ρ _ (Contract.h_gate ρ) x
    unfold born
    rw [e, ← Contract.h_half]
    unfold Contract.hBit
    simp
  have hH : clippedEntropy ρ coin eps = Real.log 2 := by
    unfold clippedEntropy
    simp only [hb, max_eq_right he2]
    rw [Finset.sum_const, show (Finset.univ : Finset (Fin coin.n → Bool)).card = 2 from by rw [Finset.card_univ]; rfl]
    rw [one_div, Real.log_inv, nsmul_eq_mul]
    push_cast
    ring
  refine ⟨E, D, V, h1, h2, h3, (measure_mono ?_).trans (h4 δ hδ)⟩
  intro ω hω
  have hω : V ω ≤ Real.log 2 - δ := hω
  show δ ≤ |V ω - clippedEntropy ρ coin eps|
  rw [hH, abs_sub_comm]
  exact (by linarith : δ ≤ Real.log 2 - V ω).trans (le_abs_self _)

/-- Non-vacuity: a fixed distribution over tuples of one bit. -/
example : Dist.Valid [([0], 1 / 4), ([1], 3 / 4)] ∧ (∀ a ∈ ([([0], 1 / 4), ([1], 3 / 4)] : List (List ℤ × ℝ)), a.1.length = coin.n) ∧ Dist.total [([0], 1 / 4), ([1], 3 / 4)] = 1 := by
  refine ⟨⟨by simp, by simp, ?_, ?_, ?_⟩, ?_, by norm_num [Dist.total]⟩
  all_goals simp [coin]
  all_goals norm_num

end ZQ.Stat
