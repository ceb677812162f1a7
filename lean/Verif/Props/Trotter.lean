import Verif.Props.Evolution
import Verif.Props.EvolutionDerivatives
import Verif.Lemmas.Trotter

/-!
# C102: the error of Trotterised evolution
-/

namespace ZQ.Evol

open ZQ ZQ.Op ZQ.Circuits ZQ.Gates PyDict
open scoped Matrix.Norms.L2Operator Matrix

variable {n : ℕ}

/-- The sum of the moduli of the coefficients. -/
noncomputable def weight (o : Terms Letter) : ℝ := (o.map fun kv => ‖kv.2‖).sum

theorem weight_nonneg (o : Terms Letter) : 0 ≤ weight o := List.sum_nonneg fun x hx => by
  obtain ⟨kv, -, rfl⟩ := List.mem_map.1 hx
  exact norm_nonneg _

theorem pauliString_unitary (t : Term Letter) : pauliString n t ∈ unitary (Matrix (Fin n → Bool) (Fin n → Bool) ℂ) := by
  rw [Unitary.mem_iff]
  have h : star (pauliString n t) = pauliString n t := pauliString_hermitian t
  rw [h]
  exact ⟨pauliString_sq t, pauliString_sq t⟩

theorem generator_norm (τ : ℝ) (kv : Term Letter × ℂ) : ‖-(Complex.I * ((τ : ℂ) * kv.2)) • pauliString n kv.1‖ ≤ |τ| * ‖kv.2‖ := by
  rw [norm_smul, CStarRing.norm_of_mem_unitary (pauliString_unitary kv.1)]
  simp

theorem generator_skew (τ : ℝ) (kv : Term Letter × ℂ) (h : kv.2.im = 0) :
    -(Complex.I * ((τ : ℂ) * kv.2)) • pauliString n kv.1 ∈ skewAdjoint (Matrix (Fin n → Bool) (Fin n → Bool) ℂ) := by
  rw [skewAdjoint.mem_iff, star_smul]
  have hp : star (pauliString n kv.1) = pauliString n kv.1 := pauliString_hermitian kv.1
  have hc : star kv.2 = kv.2 := Complex.conj_eq_iff_im.2 h
  rw [hp, ← neg_smul]
  congr 1
  simp [hc]

theorem exp_unitary {A : Matrix (Fin n → Bool) (Fin n → Bool) ℂ} (h : A ∈ skewAdjoint (Matrix (Fin n → Bool) (Fin n → Bool) ℂ)) :
    NormedSpace.exp A ∈ unitary (Matrix (Fin n → Bool) (Fin n → Bool) ℂ) := by
  letI : NormedAlgebra ℚ (Matrix (Fin n → Bool) (Fin n → Bool) ℂ) := NormedAlgebra.restrictScalars ℚ ℂ _
  exact NormedSpace.exp_mem_unitary_of_mem_skewAdjoint h

theorem trotterStep_phase (n : ℕ) (τ : ℂ) : ∀ (o : Terms Letter), WF o →
    trotterStep n τ o = Complex.exp (Complex.I * (τ * coeff o [])) •
      (o.reverse.map fun kv => NormedSpace.exp (-(Complex.I * (τ * kv.2)) • pauliString n kv.1)).prod := by
  intro o
  induction o with
  | nil =>
    intro _
    rw [coeff_of_not_mem (by simp [keys])]
    simp [trotterStep]
  | cons kv o ih =>
    intro hw
    obtain ⟨t, c⟩ := kv
    have hw' : t ∉ keys o ∧ WF o := by rw [WF, keys, List.map_cons, List.nodup_cons] at hw; exact hw
    rw [trotterStep_cons, ih hw'.2, termFactor_exp, smul_mul_smul_comm]
    have hp : ((((t, c) :: o).reverse.map fun kv => NormedSpace.exp (-(Complex.I * (τ * kv.2)) • pauliString n kv.1)).prod) =
        (o.reverse.map fun kv => NormedSpace.exp (-(Complex.I * (τ * kv.2)) • pauliString n kv.1)).prod *
          NormedSpace.exp (-(Complex.I * (τ * c)) • pauliString n t) := by simp
    rw [hp]
    congr 1
    rw [coeff_cons]
    by_cases ht : t = []
    · subst ht
      rw [if_pos rfl, if_pos rfl, coeff_of_not_mem hw'.1]
      simp
    · rw [if_neg ht, if_neg ht, mul_one]

theorem generator_sum (τ : ℂ) (o : Terms Letter) :
    (o.reverse.map fun kv => -(Complex.I * (τ * kv.2)) • pauliString n kv.1).sum = -(Complex.I * τ) • opMatrix n o := by
  rw [List.map_reverse, List.sum_reverse, opMatrix, List.smul_sum, List.map_map]
  refine congrArg List.sum (List.map_congr_left fun kv _ => ?_)
  show _ = -(Complex.I * τ) • (kv.2 • pauliString n kv.1)
  rw [smul_smul]
  congr 1
  ring

/-- The bound on the error: `(|t| Λ)² / k · exp(|t| Λ / k)` with `Λ` the sum of the moduli of the coefficients. -/
noncomputable def trotterBound (o : Terms Letter) (time : ℝ) (k : ℕ) : ℝ := (|time| * weight o) ^ 2 / k * Real.exp (|time| * weight o / k)

theorem prod_unitary {o : Terms Letter} (hreal : ∀ kv ∈ o, kv.2.im = 0) (τ : ℝ) :
    (o.reverse.map fun kv => NormedSpace.exp (-(Complex.I * ((τ : ℂ) * kv.2)) • pauliString n kv.1)).prod ∈
      unitary (Matrix (Fin n → Bool) (Fin n → Bool) ℂ) := by
  refine Submonoid.list_prod_mem _ fun x hx => ?_
  obtain ⟨kv, hkv, rfl⟩ := List.mem_map.1 hx
  exact exp_unitary (generator_skew τ kv (hreal kv (List.mem_reverse.1 hkv)))

theorem exact_skew {o : Terms Letter} (hreal : ∀ kv ∈ o, kv.2.im = 0) (τ : ℝ) :
    -(Complex.I * (τ : ℂ)) • opMatrix n o ∈ skewAdjoint (Matrix (Fin n → Bool) (Fin n → Bool) ℂ) := by
  rw [← generator_sum]
  refine AddSubgroup.list_sum_mem _ fun x hx => ?_
  obtain ⟨kv, hkv, rfl⟩ := List.mem_map.1 hx
  exact generator_skew τ kv (hreal kv (List.mem_reverse.1 hkv))

theorem step_error {o : Terms Letter} (hreal : ∀ kv ∈ o, kv.2.im = 0) (time : ℝ) (k : ℕ) (hk : 0 < k) :
    ‖(o.reverse.map fun kv => NormedSpace.exp (-(Complex.I * (((time / k : ℝ) : ℂ) * kv.2)) • pauliString n kv.1)).prod ^ k -
      NormedSpace.exp (-(Complex.I * (time : ℂ)) • opMatrix n o)‖ ≤ trotterBound o time k := by
  have hk0 : (k : ℝ) ≠ 0 := by exact_mod_cast hk.ne'
  have hkc : (k : ℂ) ≠ 0 := by exact_mod_cast hk.ne'
  set τ : ℝ := time / k with hτ
  set X : Term Letter × ℂ → Matrix (Fin n → Bool) (Fin n → Bool) ℂ := fun kv => -(Complex.I * ((τ : ℂ) * kv.2)) • pauliString n kv.1 with hX
  set l : List (Matrix (Fin n → Bool) (Fin n → Bool) ℂ × ℝ) := o.reverse.map fun kv => (X kv, |τ| * ‖kv.2‖) with hl
  have h1 := Trotter.prod_exp_sub_exp_le l (by
    intro p hp
    obtain ⟨kv, -, rfl⟩ := List.mem_map.1 hp
    exact generator_norm τ kv)
  have e1 : (l.map fun p => NormedSpace.exp p.1) = o.reverse.map fun kv => NormedSpace.exp (X kv) := by rw [hl, List.map_map]; rfl
  have e2 : (l.map Prod.fst).sum = -(Complex.I * (τ : ℂ)) • opMatrix n o := by
    rw [hl, List.map_map, ← generator_sum]; rfl
  have e3 : (l.map Prod.snd).sum = |time| * weight o / k := by
    rw [hl, List.map_map, show (Prod.snd ∘ fun kv : Term Letter × ℂ => (X kv, |τ| * ‖kv.2‖)) = fun kv => |τ| * ‖kv.2‖ from rfl, List.map_reverse,
      List.sum_reverse, List.sum_map_mul_left, hτ, abs_div, weight, Nat.abs_cast]
    ring
  rw [e1, e2, e3] at h1
  have hskew := exact_skew (n := n) hreal τ
  have hP := prod_unitary (n := n) hreal τ
  have hQ : NormedSpace.exp (-(Complex.I * (time : ℂ)) • opMatrix n o) = NormedSpace.exp (-(Complex.I * (τ : ℂ)) • opMatrix n o) ^ k := by
    rw [← Matrix.exp_nsmul, ← Nat.cast_smul_eq_nsmul ℂ, smul_smul]
    congr 2
    rw [hτ]
    push_cast
    field_simp
  rw [hQ]
  refine (Trotter.pow_sub_pow_le (CStarRing.norm_of_mem_unitary hP).le (CStarRing.norm_of_mem_unitary (exp_unitary hskew)).le k).trans ?_
  refine (mul_le_mul_of_nonneg_left h1 (Nat.cast_nonneg k)).trans (le_of_eq ?_)
  rw [trotterBound]
  field_simp

theorem coeff_real {o : Terms Letter} (hw : WF o) (hreal : ∀ kv ∈ o, kv.2.im = 0) : (coeff o []).im = 0 := by
  by_cases hm : [] ∈ keys o
  · obtain ⟨kv, hkv, e⟩ := List.mem_map.1 hm
    have := coeff_of_mem hw (show (kv.1, kv.2) ∈ o from hkv)
    rw [← e, this]
    exact hreal kv hkv
  · rw [coeff_of_not_mem hm]; rfl

/-- C102. For a real operator and time, the circuit of order `k` differs from `exp(-i t H)`, times a phase (1 if `H` has no constant term), by at most
`trotterBound` in the operator norm. -/
theorem timeEvolution_error {o : Terms Letter} (h : CanonicalOp o) (hne : o ≠ []) (hreal : ∀ kv ∈ o, kv.2.im = 0) (time : ℝ) (k : ℕ) (hk : 0 < k) :
    ∃ circ, timeEvolution o (.num time) "Trotter" k = .ok circ ∧ ∀ (n : ℕ) (ρ : String → ℂ), Below n o →
      opsOperator n ρ circ.ops ∈ unitary (Matrix (Fin n → Bool) (Fin n → Bool) ℂ) ∧ ∃ z : ℂ, ‖z‖ = 1 ∧ (coeff o [] = 0 → z = 1) ∧
        ‖opsOperator n ρ circ.ops - z • NormedSpace.exp (-(Complex.I * (time : ℂ)) • opMatrix n o)‖ ≤ trotterBound o time k := by
  obtain ⟨circ, h1, -, h2⟩ := timeEvolution_spec h hne (.num time) k hk
  have hz : ‖Complex.exp (Complex.I * (((time / k : ℝ) : ℂ) * coeff o [])) ^ k‖ = 1 := by
    have : coeff o [] = ((coeff o []).re : ℂ) := Complex.ext rfl (by simp [coeff_real h.1 hreal])
    rw [norm_pow, this, show Complex.I * (((time / k : ℝ) : ℂ) * ((coeff o []).re : ℂ)) = ((time / k * (coeff o []).re : ℝ) : ℂ) * Complex.I by push_cast; ring,
      Complex.norm_exp_ofReal_mul_I, one_pow]
  refine ⟨circ, h1, fun n ρ hb => ?_⟩
  have ht : (Expr.num (time : ℂ)).eval ρ / (k : ℂ) = ((time / k : ℝ) : ℂ) := by
    show (time : ℂ) / k = _
    push_cast
    rfl
  rw [h2 n ρ hb, ht, trotterStep_phase n _ o h.1, smul_pow]
  refine ⟨?_, _, hz, fun h0 => by simp [h0], ?_⟩
  · have hzu : Complex.exp (Complex.I * (((time / k : ℝ) : ℂ) * coeff o [])) ^ k ∈ unitary ℂ := by
      rw [Unitary.mem_iff_star_mul_self]
      have : star (Complex.exp (Complex.I * (((time / k : ℝ) : ℂ) * coeff o [])) ^ k) * Complex.exp (Complex.I * (((time / k : ℝ) : ℂ) * coeff o [])) ^ k = 1 := by
        have := Complex.conj_mul' (Complex.exp (Complex.I * (((time / k : ℝ) : ℂ) * coeff o [])) ^ k)
        rw [hz] at this
        simpa using this
      exact this
    exact Unitary.smul_mem_of_mem hzu (pow_mem (prod_unitary hreal _) k)
  · rw [← smul_sub, norm_smul, hz, one_mul]
    exact step_error hreal time k hk

/-- The norm of a state. -/
noncomputable def stateNorm (ψ : (Fin n → Bool) → ℂ) : ℝ := Real.sqrt (∑ x, ‖ψ x‖ ^ 2)

theorem entry_le_stateNorm (ψ : (Fin n → Bool) → ℂ) (x : Fin n → Bool) : ‖ψ x‖ ≤ stateNorm ψ :=
  Real.le_sqrt_of_sq_le (Finset.single_le_sum (f := fun x => ‖ψ x‖ ^ 2) (fun _ _ => by positivity) (Finset.mem_univ x))

theorem stateNorm_mulVec (A : Matrix (Fin n → Bool) (Fin n → Bool) ℂ) (ψ : (Fin n → Bool) → ℂ) : stateNorm (A *ᵥ ψ) ≤ ‖A‖ * stateNorm ψ := by
  have := Matrix.l2_opNorm_mulVec A (WithLp.toLp 2 ψ)
  simpa [EuclideanSpace.norm_eq, stateNorm] using this

/-- C102. Started in the same state, the circuit and the exact evolution give every outcome with the same probability, up to twice the bound. -/
theorem timeEvolution_probability {o : Terms Letter} (h : CanonicalOp o) (hne : o ≠ []) (hreal : ∀ kv ∈ o, kv.2.im = 0) (time : ℝ) (k : ℕ) (hk : 0 < k) :
    ∃ circ, timeEvolution o (.num time) "Trotter" k = .ok circ ∧ ∀ (n : ℕ) (ρ : String → ℂ), Below n o →
      ∀ ψ : (Fin n → Bool) → ℂ, ∑ x, ‖ψ x‖ ^ 2 = 1 → ∀ x,
        |‖(opsOperator n ρ circ.ops *ᵥ ψ) x‖ ^ 2 - ‖(NormedSpace.exp (-(Complex.I * (time : ℂ)) • opMatrix n o) *ᵥ ψ) x‖ ^ 2| ≤ 2 * trotterBound o time k := by
  obtain ⟨circ, h1, h2⟩ := timeEvolution_error h hne hreal time k hk
  refine ⟨circ, h1, fun n ρ hb ψ hψ x => ?_⟩
  obtain ⟨hu, z, hz, -, h3⟩ := h2 n ρ hb
  have hs : stateNorm ψ = 1 := by rw [stateNorm, hψ, Real.sqrt_one]
  set U := opsOperator n ρ circ.ops with hU
  set V := NormedSpace.exp (-(Complex.I * (time : ℂ)) • opMatrix n o) with hV
  have hVn : ‖V‖ = 1 := CStarRing.norm_of_mem_unitary (exp_unitary (exact_skew hreal time))
  have ha : ‖(U *ᵥ ψ) x‖ ≤ 1 := by
    refine (entry_le_stateNorm _ x).trans ((stateNorm_mulVec U ψ).trans (le_of_eq ?_))
    rw [hs, mul_one, CStarRing.norm_of_mem_unitary hu]
  have hb' : ‖(V *ᵥ ψ) x‖ ≤ 1 := by
    refine (entry_le_stateNorm _ x).trans ((stateNorm_mulVec V ψ).trans (le_of_eq ?_))
    rw [hs, mul_one, hVn]
  have hd : ‖(U *ᵥ ψ) x - z * (V *ᵥ ψ) x‖ ≤ trotterBound o time k := by
    have e : (U *ᵥ ψ) x - z * (V *ᵥ ψ) x = ((U - z • V) *ᵥ ψ) x := by simp [Matrix.sub_mulVec, Matrix.smul_mulVec]
    rw [e]
    refine (entry_le_stateNorm _ x).trans ((stateNorm_mulVec _ ψ).trans ?_)
    rw [hs, mul_one]
    exact h3
  have hzv : ‖z * (V *ᵥ ψ) x‖ = ‖(V *ᵥ ψ) x‖ := by rw [norm_mul, hz, one_mul]
  rw [sq_sub_sq, abs_mul, abs_of_nonneg (by positivity)]
  have h5 : |‖(U *ᵥ ψ) x‖ - ‖(V *ᵥ ψ) x‖| ≤ trotterBound o time k := by
    rw [← hzv]
    exact (abs_norm_sub_norm_le _ _).trans hd
  exact mul_le_mul (by linarith) h5 (abs_nonneg _) (by norm_num)

/-- C102. Every accuracy is reached by every large enough order. -/
theorem timeEvolution_converges {o : Terms Letter} (h : CanonicalOp o) (hne : o ≠ []) (hreal : ∀ kv ∈ o, kv.2.im = 0) (time : ℝ) {ε : ℝ} (hε : 0 < ε) :
    ∃ K : ℕ, ∀ k ≥ K, ∃ circ, timeEvolution o (.num time) "Trotter" k = .ok circ ∧ ∀ (n : ℕ) (ρ : String → ℂ), Below n o →
      ∀ ψ : (Fin n → Bool) → ℂ, ∑ x, ‖ψ x‖ ^ 2 = 1 → ∀ x,
        |‖(opsOperator n ρ circ.ops *ᵥ ψ) x‖ ^ 2 - ‖(NormedSpace.exp (-(Complex.I * (time : ℂ)) • opMatrix n o) *ᵥ ψ) x‖ ^ 2| ≤ ε := by
  set L := |time| * weight o with hL
  have hL0 : 0 ≤ L := mul_nonneg (abs_nonneg _) (weight_nonneg o)
  obtain ⟨K, hK⟩ := exists_nat_ge (max 1 (2 * L ^ 2 * Real.exp L / ε))
  refine ⟨K, fun k hk => ?_⟩
  have hk1 : (1 : ℝ) ≤ k := (le_max_left _ _).trans (hK.trans (by exact_mod_cast hk))
  have hk2 : 2 * L ^ 2 * Real.exp L / ε ≤ k := (le_max_right _ _).trans (hK.trans (by exact_mod_cast hk))
  have hk0 : 0 < k := by exact_mod_cast (lt_of_lt_of_le zero_lt_one hk1)
  obtain ⟨circ, h1, h2⟩ := timeEvolution_probability h hne hreal time k hk0
  refine ⟨circ, h1, fun n ρ hb ψ hψ x => (h2 n ρ hb ψ hψ x).trans ?_⟩
  have h3 : Real.exp (L / k) ≤ Real.exp L := Real.exp_le_exp.2 (div_le_self hL0 hk1)
  have hkp : (0 : ℝ) < k := by linarith
  rw [trotterBound, ← hL]
  calc 2 * (L ^ 2 / k * Real.exp (L / k)) ≤ 2 * (L ^ 2 / k * Real.exp L) := by
        exact mul_le_mul_of_nonneg_left (mul_le_mul_of_nonneg_left h3 (by positivity)) (by norm_num)
    _ = (2 * L ^ 2 * Real.exp L) / k := by ring
    _ ≤ ε := by
        rw [div_le_iff₀ hkp]
        rw [div_le_iff₀ hε] at hk2
        linarith

/-- `X0 + 2 Z0`, whose terms do not commute, is such an operator. -/
example : let o : Terms Letter := [([(0, .X)], 1), ([(0, .Z)], 2)]
    CanonicalOp o ∧ o ≠ [] ∧ (∀ kv ∈ o, kv.2.im = 0) ∧ Below 1 o := by
  refine ⟨⟨?_, ?_⟩, by simp, by simp, by simp [Below]⟩
  · simp [WF, keys]
  · intro t ht
    simp [keys] at ht
    rcases ht with rfl | rfl <;> refine ⟨by simp, ?_⟩ <;> simp

end ZQ.Evol
