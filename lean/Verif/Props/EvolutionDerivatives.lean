import Verif.Props.Evolution
import Mathlib.Analysis.Calculus.Deriv.Mul
import Mathlib.Analysis.Calculus.Deriv.Comp
import Mathlib.Analysis.Calculus.Deriv.Add
import Mathlib.Analysis.SpecialFunctions.Trigonometric.Deriv
import Mathlib.Analysis.Normed.Algebra.MatrixExponential
import Mathlib.Topology.Algebra.Module.FiniteDimension

/-!
# C40: derivatives of time evolution circuits
-/

namespace ZQ.Evol

open scoped BigOperators Matrix
open ZQ ZQ.PyDict ZQ.Op ZQ.Circuits ZQ.Gates ZQ.Est

/-- The expectation of `O` in the state `U ψ`. -/
noncomputable def expectation {n : ℕ} (O U : Matrix (Fin n → Bool) (Fin n → Bool) ℂ) (ψ : (Fin n → Bool) → ℂ) : ℂ :=
  star (U.mulVec ψ) ⬝ᵥ O.mulVec (U.mulVec ψ)

/-- The step in which the term at index `i` is evolved for time `τ'` and all others for time `τ`. -/
noncomputable def shiftStep (n : ℕ) (τ' τ : ℂ) : Terms Letter → ℕ → Matrix (Fin n → Bool) (Fin n → Bool) ℂ
  | [], _ => 1
  | kv :: o, 0 => trotterStep n τ o * termFactor n τ' kv
  | kv :: o, i + 1 => shiftStep n τ' τ o i * termFactor n τ kv

theorem zipIdx_unshifted (n : ℕ) (τ' τ : ℂ) (o : Terms Letter) : ∀ k i : ℕ, i < k →
    ((o.zipIdx k).reverse.map fun p => termFactor n (if i = p.2 then τ' else τ) p.1).prod = trotterStep n τ o := by
  induction o with
  | nil => intro k i _; simp [trotterStep]
  | cons kv o ih =>
    intro k i h
    rw [List.zipIdx_cons, List.reverse_cons, List.map_append, List.prod_append, ih (k + 1) i (by omega), trotterStep_cons]
    simp [show i ≠ k by omega]

theorem zipIdx_shifted (n : ℕ) (τ' τ : ℂ) (o : Terms Letter) : ∀ k i : ℕ,
    ((o.zipIdx k).reverse.map fun p => termFactor n (if i + k = p.2 then τ' else τ) p.1).prod = shiftStep n τ' τ o i := by
  induction o with
  | nil => intro k i; simp [shiftStep]
  | cons kv o ih =>
    intro k i
    rw [List.zipIdx_cons, List.reverse_cons, List.map_append, List.prod_append]
    cases i with
    | zero =>
      rw [zipIdx_unshifted n τ' τ o (k + 1) (0 + k) (by omega), shiftStep]
      simp
    | succ i =>
      have := ih (k + 1) i
      rw [show i + (k + 1) = i + 1 + k by omega] at this
      rw [this, shiftStep]
      simp

theorem shiftedEvolution_spec {o : Terms Letter} (h : ∀ kv ∈ o, Canonical kv.1) (i : ℕ) (shifted step : Expr) :
    ∃ circ, shiftedEvolution (o.map fun kv => [kv]) i shifted step = .ok circ ∧ circ.Inv ∧
      ∀ (n : ℕ) (ρ : String → ℂ), Below n o → opsOperator n ρ circ.ops = shiftStep n (shifted.eval ρ) (step.eval ρ) o i := by
  have hmem : ∀ p ∈ o.zipIdx, p.1 ∈ o := fun p hp => by
    obtain ⟨a, j⟩ := p
    exact (List.mem_zipIdx hp).2.2 ▸ List.getElem_mem _
  obtain ⟨circ, h1, h2, h3⟩ := evolve_fold (o.zipIdx.map fun p => (p.1, if i = p.2 then shifted else step)) ⟨[], 0⟩ (fun _ => rfl) (by
    intro p hp
    obtain ⟨q, hq, rfl⟩ := List.mem_map.1 hp
    exact h q.1 (hmem q hq))
  refine ⟨circ, ?_, h2, ?_⟩
  · rw [shiftedEvolution]
    show ((o.map fun kv => [kv]).zipIdx).foldlM _ (⟨[], 0⟩ : Circuit) = _
    rw [← h1, List.zipIdx_map, List.foldlM_map, List.foldlM_map]
    rfl
  · intro n ρ hb
    rw [h3 n ρ (by
      intro p hp
      obtain ⟨q, hq, rfl⟩ := List.mem_map.1 hp
      exact hb q.1 (hmem q hq)), opsOperator_nil, mul_one, ← zipIdx_shifted n _ _ o 0 i, ← List.map_reverse, List.map_map]
    congr 1
    refine List.map_congr_left fun p _ => ?_
    show termFactor n (Expr.eval ρ (if i = p.2 then shifted else step)) p.1 = _
    rw [add_zero]
    split <;> rfl

/-- What the code computes for the term at index `i` and a sign. -/
def IsShifted (o : Terms Letter) (time : Expr) (k : ℕ) (x : ((Term Letter × ℂ) × ℕ) × ℂ) (r : Circuit × ℂ) : Prop :=
  r.2 = x.1.1.2 / k * x.2 ∧ r.1.Inv ∧
    ∀ (n : ℕ) (ρ : String → ℂ), Below n o → opsOperator n ρ r.1.ops =
      shiftStep n ((time.eval ρ) / k + x.2 * (Real.pi / (4 * x.1.1.2))) (time.eval ρ / k) o x.1.2

/-- Terms with their index and the two signs. -/
def signedTerms (o : Terms Letter) : List (((Term Letter × ℂ) × ℕ) × ℂ) := o.zipIdx.flatMap fun p => [(p, 1), (p, -1)]

theorem single_spec {o : Terms Letter} (h : ∀ kv ∈ o, Canonical kv.1) (hnz : ∀ kv ∈ o, kv.2 ≠ 0) (time : Expr) (k : ℕ) (hk : 0 < k) :
    ∃ single, ((getOperators qubit o).zipIdx.flatMap fun ti => [(ti, (1 : ℂ)), (ti, -1)]).mapM (fun tif =>
        shiftedPair (getOperators qubit o) time k tif.1.2 (firstCoefficient tif.1.1) tif.2) = .ok single ∧
      List.Forall₂ (IsShifted o time k) (signedTerms o) single := by
  have hkC : (k : ℂ) ≠ 0 := by exact_mod_cast hk.ne'
  rw [getOperators_canonical h]
  have hmem : ∀ x ∈ signedTerms o, x.1.1 ∈ o := by
    intro x hx
    obtain ⟨p, hp, hx⟩ := List.mem_flatMap.1 hx
    have hp' : p.1 ∈ o := by
      obtain ⟨a, j⟩ := p
      exact (List.mem_zipIdx hp).2.2 ▸ List.getElem_mem _
    simp only [List.mem_cons, List.not_mem_nil, or_false] at hx
    rcases hx with rfl | rfl <;> exact hp'
  have hlist : ((o.map fun kv => [kv]).zipIdx.flatMap fun ti => [(ti, (1 : ℂ)), (ti, -1)]) = (signedTerms o).map fun x => (([x.1.1], x.1.2), x.2) := by
    rw [signedTerms, List.zipIdx_map, List.flatMap_map, List.map_flatMap]
    rfl
  rw [hlist, List.mapM_map]
  have key : ∀ M : List (((Term Letter × ℂ) × ℕ) × ℂ), (∀ x ∈ M, x.1.1 ∈ o) → ∃ single, M.mapM (fun x =>
      shiftedPair (o.map fun kv => [kv]) time k x.1.2 x.1.1.2 x.2) = .ok single ∧ List.Forall₂ (IsShifted o time k) M single := by
    intro M
    induction M with
    | nil => intro _; exact ⟨[], rfl, .nil⟩
    | cons x M ih =>
      intro hM
      obtain ⟨single, h1, h2⟩ := ih (fun y hy => hM y (by simp [hy]))
      have hc : x.1.1.2 ≠ 0 := hnz _ (hM x (by simp))
      have hr : x.1.1.2 / ((k : ℤ) : ℂ) ≠ 0 := div_ne_zero hc (by push_cast; exact hkC)
      obtain ⟨circ, h3, h4, h5⟩ := shiftedEvolution_spec h x.1.2
        (binE (· / ·) (binE (· + ·) time (.num (x.2 * ((Real.pi : ℂ) / (4 * (x.1.1.2 / ((k : ℤ) : ℂ))))))) (.num ((k : ℤ) : ℂ)))
        (binE (· / ·) time (.num ((k : ℤ) : ℂ)))
      have hp : shiftedPair (o.map fun kv => [kv]) time k x.1.2 x.1.1.2 x.2 = .ok (circ, x.1.1.2 / ((k : ℤ) : ℂ) * x.2) := by
        rw [shiftedPair, if_neg (by omega)]
        show (if x.1.1.2 / ((k : ℤ) : ℂ) = 0 then _ else _) = _
        rw [if_neg hr]
        dsimp only
        rw [h3]
        rfl
      refine ⟨(circ, x.1.1.2 / ((k : ℤ) : ℂ) * x.2) :: single, ?_, .cons ⟨?_, h4, ?_⟩ h2⟩
      · rw [List.mapM_cons, hp, h1]; rfl
      · show x.1.1.2 / ((k : ℤ) : ℂ) * x.2 = _
        push_cast; rfl
      · intro n ρ hb
        show opsOperator n ρ circ.ops = _
        rw [h5 n ρ hb, binE_eval, binE_eval, binE_eval]
        show shiftStep n ((time.eval ρ + x.2 * ((Real.pi : ℂ) / (4 * (x.1.1.2 / ((k : ℤ) : ℂ))))) / ((k : ℤ) : ℂ)) (time.eval ρ / ((k : ℤ) : ℂ)) o x.1.2 = _
        push_cast
        congr 1
        field_simp
  exact key _ hmem

/-! ### The shift rule -/

section shift

attribute [local instance] Matrix.linftyOpNormedRing Matrix.linftyOpNormedAlgebra Matrix.linftyOpNormedSpace Matrix.linftyOpNormedAddCommGroup

variable {n : ℕ}

/-- Heisenberg picture: `U† O U`. -/
noncomputable def pullback (O U : Matrix (Fin n → Bool) (Fin n → Bool) ℂ) : Matrix (Fin n → Bool) (Fin n → Bool) ℂ := Uᴴ * O * U

theorem pullback_mul (O U V : Matrix (Fin n → Bool) (Fin n → Bool) ℂ) : pullback O (U * V) = pullback (pullback O U) V := by
  simp only [pullback, Matrix.conjTranspose_mul, mul_assoc]

theorem letterMatrix_hermitian (a : Letter) : (letterMatrix a)ᴴ = letterMatrix a := by
  cases a
  · exact Matrix.conjTranspose_one
  all_goals
    ext i j
    cases i <;> cases j <;> simp [letterMatrix, pauliX, pauliY, pauliZ]

theorem pauliString_hermitian (t : Term Letter) : (pauliString n t)ᴴ = pauliString n t := by
  rw [pauliString, tensor_conjTranspose]
  congr 1
  funext q
  exact letterMatrix_hermitian _

theorem pullback_factor (W : Matrix (Fin n → Bool) (Fin n → Bool) ℂ) {t : Term Letter} (ht : t ≠ []) (c s : ℝ) :
    pullback W (termFactor n (s : ℂ) (t, (c : ℂ))) =
      ((Real.cos (s * c) ^ 2 : ℝ) : ℂ) • W + (Complex.I * ((Real.sin (s * c) * Real.cos (s * c) : ℝ) : ℂ)) • (pauliString n t * W - W * pauliString n t) +
        ((Real.sin (s * c) ^ 2 : ℝ) : ℂ) • (pauliString n t * W * pauliString n t) := by
  rw [pullback, termFactor, if_neg ht, matrix_exp_I _ (pauliString_sq t)]
  have e : (s : ℂ) * (t, (c : ℂ)).2 = ((s * c : ℝ) : ℂ) := by push_cast; rfl
  rw [e, ← Complex.ofReal_cos, ← Complex.ofReal_sin]
  set C := Real.cos (s * c)
  set S := Real.sin (s * c)
  rw [Matrix.conjTranspose_sub, Matrix.conjTranspose_smul, Matrix.conjTranspose_smul, Matrix.conjTranspose_one, pauliString_hermitian]
  have h1 : star (C : ℂ) = C := Complex.conj_ofReal _
  have h2 : star (Complex.I * (S : ℂ)) = -(Complex.I * S) := by
    rw [StarMul.star_mul]
    show (starRingEnd ℂ) (S : ℂ) * (starRingEnd ℂ) Complex.I = _
    rw [Complex.conj_ofReal, Complex.conj_I]; ring
  rw [h1, h2]
  simp only [sub_mul, mul_sub, Matrix.smul_mul, Matrix.mul_smul, one_mul, mul_one, neg_smul, neg_mul, smul_sub, smul_smul, smul_neg]
  have hI : Complex.I * (S : ℂ) * (Complex.I * S) = -((S ^ 2 : ℝ) : ℂ) := by
    push_cast
    linear_combination (S : ℂ) ^ 2 * Complex.I_mul_I
  rw [hI]
  push_cast
  module

theorem pullback_shift {W : ℝ → Matrix (Fin n → Bool) (Fin n → Bool) ℂ} {W' : Matrix (Fin n → Bool) (Fin n → Bool) ℂ} {s : ℝ} (hW : HasDerivAt W W' s)
    (t : Term Letter) {c : ℝ} (hc : c ≠ 0) :
    HasDerivAt (fun s : ℝ => pullback (W s) (termFactor n (s : ℂ) (t, (c : ℂ))))
      ((c : ℂ) • (pullback (W s) (termFactor n ((s + Real.pi / (4 * c) : ℝ) : ℂ) (t, (c : ℂ))) -
        pullback (W s) (termFactor n ((s - Real.pi / (4 * c) : ℝ) : ℂ) (t, (c : ℂ)))) + pullback W' (termFactor n (s : ℂ) (t, (c : ℂ)))) s := by
  by_cases ht : t = []
  · subst ht
    simp only [termFactor, if_true, pullback, Matrix.conjTranspose_one, one_mul, mul_one, sub_self, smul_zero, zero_add]
    exact hW
  · simp only [pullback_factor _ ht]
    have hcos : HasDerivAt (fun s : ℝ => Real.cos (s * c)) (-Real.sin (s * c) * c) s := by
      have h0 : HasDerivAt (fun s : ℝ => s * c) c s := by simpa using (hasDerivAt_id s).mul_const c
      exact (Real.hasDerivAt_cos (s * c)).comp s h0
    have hsin : HasDerivAt (fun s : ℝ => Real.sin (s * c)) (Real.cos (s * c) * c) s := by
      have h0 : HasDerivAt (fun s : ℝ => s * c) c s := by simpa using (hasDerivAt_id s).mul_const c
      exact (Real.hasDerivAt_sin (s * c)).comp s h0
    have d1 := ((hcos.pow 2).ofReal_comp).smul hW
    have d2 := (((hsin.mul hcos).ofReal_comp).const_mul Complex.I).smul ((hW.const_mul (pauliString n t)).sub (hW.mul_const (pauliString n t)))
    have d3 := ((hsin.pow 2).ofReal_comp).smul ((hW.const_mul (pauliString n t)).mul_const (pauliString n t))
    have d := (d1.add d2).add d3
    refine HasDerivAt.congr_deriv (f := _) d ?_
    simp only [Pi.pow_apply, Pi.mul_apply, Pi.sub_apply]
    have a1 : (s + Real.pi / (4 * c)) * c = s * c + Real.pi / 4 := by field_simp
    have a2 : (s - Real.pi / (4 * c)) * c = s * c - Real.pi / 4 := by field_simp
    rw [a1, a2, Real.cos_add, Real.cos_sub, Real.sin_add, Real.sin_sub, Real.cos_pi_div_four, Real.sin_pi_div_four]
    set C := Real.cos (s * c)
    set S := Real.sin (s * c)
    have h2 : (√2 / 2 : ℝ) * (√2 / 2) = 1 / 2 := by
      rw [show (√2 / 2 : ℝ) * (√2 / 2) = (√2 * √2) / 4 by ring, Real.mul_self_sqrt (by norm_num)]; norm_num
    set w : ℝ := √2 / 2
    have e1 : (C * w - S * w) ^ 2 = (C ^ 2 - 2 * S * C + S ^ 2) / 2 := by linear_combination (C - S) ^ 2 * h2
    have e2 : (C * w + S * w) ^ 2 = (C ^ 2 + 2 * S * C + S ^ 2) / 2 := by linear_combination (C + S) ^ 2 * h2
    have e3 : (S * w + C * w) * (C * w - S * w) = (C ^ 2 - S ^ 2) / 2 := by linear_combination (C ^ 2 - S ^ 2) * h2
    have e4 : (S * w - C * w) * (C * w + S * w) = (S ^ 2 - C ^ 2) / 2 := by linear_combination (S ^ 2 - C ^ 2) * h2
    have e5 : (S * w + C * w) ^ 2 = (C ^ 2 + 2 * S * C + S ^ 2) / 2 := by linear_combination (C + S) ^ 2 * h2
    have e6 : (S * w - C * w) ^ 2 = (C ^ 2 - 2 * S * C + S ^ 2) / 2 := by linear_combination (C - S) ^ 2 * h2
    rw [e1, e2, e3, e4, e5, e6]
    push_cast
    module

/-- The shift rule sum, unfolded along the operator. -/
noncomputable def shiftSum (O : Matrix (Fin n → Bool) (Fin n → Bool) ℂ) (τ : ℝ) : Terms Letter → Matrix (Fin n → Bool) (Fin n → Bool) ℂ
  | [] => 0
  | kv :: o => kv.2 • (pullback (pullback O (trotterStep n (τ : ℂ) o)) (termFactor n ((τ : ℂ) + Real.pi / (4 * kv.2)) kv) -
      pullback (pullback O (trotterStep n (τ : ℂ) o)) (termFactor n ((τ : ℂ) - Real.pi / (4 * kv.2)) kv)) +
      pullback (shiftSum O τ o) (termFactor n (τ : ℂ) kv)

theorem trotterStep_deriv (O : Matrix (Fin n → Bool) (Fin n → Bool) ℂ) (τ : ℝ) (o : Terms Letter) (hreal : ∀ kv ∈ o, kv.2.im = 0) (hnz : ∀ kv ∈ o, kv.2 ≠ 0) :
    HasDerivAt (fun s : ℝ => pullback O (trotterStep n (s : ℂ) o)) (shiftSum O τ o) τ := by
  induction o with
  | nil =>
    simp only [trotterStep, List.reverse_nil, List.map_nil, List.prod_nil]
    exact hasDerivAt_const τ _
  | cons kv o ih =>
    obtain ⟨t, c⟩ := kv
    have hc : c = ((c.re : ℝ) : ℂ) := Complex.ext rfl (by simpa using hreal (t, c) (by simp))
    have hc0 : c.re ≠ 0 := by
      intro h
      apply hnz (t, c) (by simp)
      show c = 0
      rw [hc, h]; rfl
    have := pullback_shift (ih (fun kv hkv => hreal kv (by simp [hkv])) (fun kv hkv => hnz kv (by simp [hkv]))) t hc0
    rw [← hc] at this
    simp only [trotterStep_cons, pullback_mul]
    rw [shiftSum]
    have e1 : ((τ + Real.pi / (4 * c.re) : ℝ) : ℂ) = (τ : ℂ) + Real.pi / (4 * c) := by rw [hc]; push_cast; rfl
    have e2 : ((τ - Real.pi / (4 * c.re) : ℝ) : ℂ) = (τ : ℂ) - Real.pi / (4 * c) := by rw [hc]; push_cast; rfl
    rw [e1, e2] at this
    exact this

theorem shiftSum_eq (O : Matrix (Fin n → Bool) (Fin n → Bool) ℂ) (τ : ℝ) (o : Terms Letter) :
    shiftSum O τ o = (o.zipIdx.map fun p => p.1.2 • (pullback O (shiftStep n ((τ : ℂ) + Real.pi / (4 * p.1.2)) τ o p.2) -
      pullback O (shiftStep n ((τ : ℂ) - Real.pi / (4 * p.1.2)) τ o p.2))).sum := by
  induction o with
  | nil => rfl
  | cons kv o ih =>
    rw [shiftSum, List.zipIdx_cons', List.map_cons, List.sum_cons, ih]
    congr 1
    · rw [shiftStep, shiftStep, pullback_mul, pullback_mul]
    · rw [List.map_map]
      generalize o.zipIdx = M
      induction M with
      | nil => simp [pullback]
      | cons p M ihM =>
        rw [List.map_cons, List.sum_cons, List.map_cons, List.sum_cons, ← ihM]
        simp only [Function.comp, Prod.map_fst, Prod.map_snd, id, shiftStep, pullback_mul]
        simp only [pullback, mul_add, add_mul, Matrix.mul_smul, Matrix.smul_mul, mul_sub, sub_mul]

/-- `⟨ψ| M |ψ⟩` as a linear map. -/
noncomputable def braket (ψ : (Fin n → Bool) → ℂ) : Matrix (Fin n → Bool) (Fin n → Bool) ℂ →ₗ[ℝ] ℂ where
  toFun M := star ψ ⬝ᵥ M.mulVec ψ
  map_add' A B := by rw [Matrix.add_mulVec, dotProduct_add]
  map_smul' r A := by
    rw [Matrix.smul_mulVec, dotProduct_smul]; rfl

theorem expectation_eq (O U : Matrix (Fin n → Bool) (Fin n → Bool) ℂ) (ψ : (Fin n → Bool) → ℂ) : expectation O U ψ = braket ψ (pullback O U) := by
  show _ = star ψ ⬝ᵥ (Uᴴ * O * U).mulVec ψ
  rw [expectation, Matrix.star_mulVec, mul_assoc, ← Matrix.mulVec_mulVec, ← Matrix.mulVec_mulVec, ← Matrix.dotProduct_mulVec]

theorem expectation_deriv (O : Matrix (Fin n → Bool) (Fin n → Bool) ℂ) (ψ : (Fin n → Bool) → ℂ) (τ : ℝ) (o : Terms Letter) (hreal : ∀ kv ∈ o, kv.2.im = 0)
    (hnz : ∀ kv ∈ o, kv.2 ≠ 0) :
    HasDerivAt (fun s : ℝ => expectation O (trotterStep n (s : ℂ) o) ψ)
      ((o.zipIdx.map fun p => p.1.2 * (expectation O (shiftStep n ((τ : ℂ) + Real.pi / (4 * p.1.2)) τ o p.2) ψ -
        expectation O (shiftStep n ((τ : ℂ) - Real.pi / (4 * p.1.2)) τ o p.2) ψ)).sum) τ := by
  have h := trotterStep_deriv O τ o hreal hnz
  have h2 := (LinearMap.toContinuousLinearMap (braket ψ)).hasFDerivAt.comp_hasDerivAt τ h
  have h3 : (LinearMap.toContinuousLinearMap (braket ψ)) (shiftSum O τ o) = (o.zipIdx.map fun p => p.1.2 * (expectation O (shiftStep n ((τ : ℂ) + Real.pi / (4 * p.1.2)) τ o p.2) ψ -
        expectation O (shiftStep n ((τ : ℂ) - Real.pi / (4 * p.1.2)) τ o p.2) ψ)).sum := by
    show braket ψ _ = _
    rw [shiftSum_eq, map_list_sum, List.map_map]
    congr 1
    refine List.map_congr_left fun p _ => ?_
    show star ψ ⬝ᵥ (p.1.2 • _ : Matrix (Fin n → Bool) (Fin n → Bool) ℂ).mulVec ψ = _
    rw [Matrix.smul_mulVec, dotProduct_smul, Matrix.sub_mulVec, dotProduct_sub, expectation_eq, expectation_eq]
    rfl
  have h4 : (fun s : ℝ => expectation O (trotterStep n (s : ℂ) o) ψ) = (LinearMap.toContinuousLinearMap (braket ψ)) ∘ fun s : ℝ => pullback O (trotterStep n (s : ℂ) o) := by
    funext s
    exact expectation_eq _ _ _
  rw [h4]
  exact h2.congr_deriv h3

end shift

/-- The sum over the returned circuits of factor times expectation. -/
noncomputable def shiftRule {n : ℕ} (ρ : String → ℂ) (O : Matrix (Fin n → Bool) (Fin n → Bool) ℂ) (ψ : (Fin n → Bool) → ℂ) (circs : List Circuit)
    (factors : List ℂ) : ℂ := ((circs.zip factors).map fun cf => cf.2 * expectation O (opsOperator n ρ cf.1.ops) ψ).sum

/-- C40, restricted to order 1: for real non-zero coefficients, every observable and every state, the derivative with respect to time of the expectation
after the evolution circuit is the sum of the factors times the expectations after the returned circuits.
Missing: larger orders, where the claim fails (`evolutionDerivatives_counterexample`). -/
theorem evolutionDerivatives_partial {o : Terms Letter} (h : CanonicalOp o) (hreal : ∀ kv ∈ o, kv.2.im = 0) (hnz : ∀ kv ∈ o, kv.2 ≠ 0) (time : ℝ) :
    ∃ circs factors, evolutionDerivatives o (.num time) "Trotter" 1 = .ok (circs, factors) ∧ circs.length = 2 * o.length ∧ factors.length = circs.length ∧
      ∀ (n : ℕ) (ρ : String → ℂ), Below n o → ∀ (O : Matrix (Fin n → Bool) (Fin n → Bool) ℂ) (ψ : (Fin n → Bool) → ℂ) (C : ℝ → Circuit),
        (∀ s : ℝ, timeEvolution o (.num s) "Trotter" 1 = .ok (C s)) →
        HasDerivAt (fun s : ℝ => expectation O (opsOperator n ρ (C s).ops) ψ) (shiftRule ρ O ψ circs factors) time := by
  have hcan : ∀ kv ∈ o, Canonical kv.1 := fun kv hkv => h.2 kv.1 (List.mem_map_of_mem hkv)
  obtain ⟨single, h1, h2⟩ := single_spec hcan hnz (.num time) 1 (by norm_num)
  have hlen : single.length = 2 * o.length := by
    rw [← h2.length_eq, signedTerms, List.length_flatMap]
    simp
    ring
  refine ⟨single.map Prod.fst, single.map Prod.snd, ?_, by rw [List.length_map, hlen], by simp, ?_⟩
  · rw [evolutionDerivatives, if_neg (by simp)]
    have h1 : ((getOperators qubit o).zipIdx.flatMap fun ti => [(ti, (1 : ℂ)), (ti, -1)]).mapM (fun tif =>
        shiftedPair (getOperators qubit o) (.num time) 1 tif.1.2 (firstCoefficient tif.1.1) tif.2) = .ok single := h1
    simp only [h1, bind, Except.bind]
    rfl
  · intro n ρ hb O ψ C hC
    have hCop : ∀ s : ℝ, opsOperator n ρ (C s).ops = trotterStep n (s : ℂ) o := by
      intro s
      have hne : o ≠ [] := by
        rintro rfl
        have := (timeEvolution_rejects [] (.num (s : ℂ)) "Trotter" 1).2 (.inl rfl)
        rw [hC s] at this
        cases this
      obtain ⟨c, h3, -, h4⟩ := timeEvolution_spec h hne (.num s) 1 (by norm_num)
      have h3 : timeEvolution o (.num s) "Trotter" 1 = .ok c := h3
      rw [hC s] at h3
      cases h3
      rw [h4 n ρ hb, pow_one]
      congr 1
      show (s : ℂ) / ((1 : ℕ) : ℂ) = s
      simp
    have hsum : shiftRule ρ O ψ (single.map Prod.fst) (single.map Prod.snd) =
        (o.zipIdx.map fun p => p.1.2 * (expectation O (shiftStep n ((time : ℂ) + Real.pi / (4 * p.1.2)) time o p.2) ψ -
          expectation O (shiftStep n ((time : ℂ) - Real.pi / (4 * p.1.2)) time o p.2) ψ)).sum := by
      have hz : (single.map Prod.fst).zip (single.map Prod.snd) = single := (List.zip_of_prod rfl rfl).symm
      rw [shiftRule, hz]
      rw [signedTerms] at h2
      have key : ∀ (M : List ((Term Letter × ℂ) × ℕ)) (S : List (Circuit × ℂ)),
          List.Forall₂ (IsShifted o (.num time) 1) (M.flatMap fun p => [(p, 1), (p, -1)]) S →
          (S.map fun cf => cf.2 * expectation O (opsOperator n ρ cf.1.ops) ψ).sum =
            (M.map fun p => p.1.2 * (expectation O (shiftStep n ((time : ℂ) + Real.pi / (4 * p.1.2)) time o p.2) ψ -
              expectation O (shiftStep n ((time : ℂ) - Real.pi / (4 * p.1.2)) time o p.2) ψ)).sum := by
        intro M
        induction M with
        | nil => intro S hS; cases hS; rfl
        | cons p M ih =>
          intro S hS
          rw [List.flatMap_cons] at hS
          cases hS with
          | cons a1 hS =>
            cases hS with
            | cons a2 hS =>
              rw [List.map_cons, List.sum_cons, List.map_cons, List.sum_cons, List.map_cons, List.sum_cons, ih _ hS]
              obtain ⟨e1, -, e2⟩ := a1
              obtain ⟨f1, -, f2⟩ := a2
              rw [e1, f1, e2 n ρ hb, f2 n ρ hb]
              have t1 : Expr.eval ρ (.num (time : ℂ)) / ((1 : ℕ) : ℂ) = (time : ℂ) := by
                show (time : ℂ) / ((1 : ℕ) : ℂ) = _
                simp
              simp only [t1]
              rw [Nat.cast_one, div_one, one_mul, neg_one_mul, ← sub_eq_add_neg]
              ring
      exact key _ _ h2
    simp only [hCop]
    rw [hsum]
    exact expectation_deriv O ψ time o hreal hnz

/-- Zero coefficients make the call fail. -/
theorem evolutionDerivatives_zero (t : Term Letter) (ht : Canonical t) (o : Terms Letter) (time : Expr) (order : ℤ) :
    evolutionDerivatives ((t, 0) :: o) time "Trotter" order = .error .zeroDivision := by
  rw [evolutionDerivatives, if_neg (by simp)]
  have hget : getOperators qubit ((t, (0 : ℂ)) :: o) = [(t, 0)] :: getOperators qubit o := by
    rw [getOperators, List.map_cons, getOperators]
    congr 1
    show [((qubitSimplify t 0).2, (qubitSimplify t 0).1)] = _
    rw [qubitSimplify_of_canonical ht]
  have : ∀ terms time i f, shiftedPair terms time order i 0 f = .error .zeroDivision := by
    intro terms time i f
    rw [shiftedPair]
    split
    · rfl
    · show (if (0 : ℂ) / order = 0 then _ else _) = _
      rw [if_pos (by simp)]
  have hm : ((getOperators qubit ((t, (0 : ℂ)) :: o)).zipIdx.flatMap fun ti => [(ti, (1 : ℂ)), (ti, -1)]).mapM (fun tif =>
        shiftedPair (getOperators qubit ((t, (0 : ℂ)) :: o)) time order tif.1.2 (firstCoefficient tif.1.1) tif.2) = .error .zeroDivision := by
    rw [hget, List.zipIdx_cons, List.flatMap_cons, List.cons_append, List.mapM_cons]
    show (shiftedPair _ time order 0 0 1 >>= _) = _
    rw [this]
    rfl
  simp only [hm, bind, Except.bind]

/-! ### Orders above 1 -/

/-- Every operation acts on some qubit. -/
def Touching (c : Circuit) : Prop := ∀ op ∈ c.ops, op.qubits ≠ []

theorem evolveTerm_touching {t : Term Letter} {c : ℂ} {time : Expr} {circ : Circuit} (h : evolveTerm [(t, c)] time = .ok circ) : Touching circ := by
  have key : ∀ (ops : List GateOp) (c c' : Circuit), (∀ op ∈ ops, op.qubits ≠ []) → Touching c → appendOps c ops = .ok c' → Touching c' := by
    intro ops c c' h1 h2 h3
    obtain ⟨d, h4, h5⟩ := appendOps_spec ops c h1
    rw [h3] at h4
    cases h4
    intro op hop
    rw [h5] at hop
    rcases List.mem_append.1 hop with hop | hop
    · exact h2 op hop
    · exact h1 op hop
  rw [evolveTerm] at h
  by_cases ht : t = []
  · subst ht
    have h : Except.ok (⟨[], 0⟩ : Circuit) = .ok circ := h
    cases h
    intro op hop; simp at hop
  · set e := binE (· * ·) (binE (· * ·) (.num 2) time) (.num c)
    have hq := termOps_qubits t e
    refine key (termOps t e) ⟨[], 0⟩ circ (fun op hop => (hq op hop).1) (by intro op hop; simp at hop) ?_
    rw [← h, termOps, appendOps_append, appendOps_append, appendOps_append, appendOps_append]
    simp only [Except.bind, bind]
    symm
    show (if t = [] then _ else _) = _
    rw [if_neg ht]
    cases appendOps ⟨[], 0⟩ (t.flatMap baseChange) with
    | error _ => rfl
    | ok c1 =>
      dsimp only
      cases appendOps c1 (cnots t) with
      | error _ => rfl
      | ok c2 =>
        dsimp only
        cases appendOps c2 (central e t) with
        | error _ => rfl
        | ok c3 => dsimp only

theorem range_flatMap_operator (n : ℕ) (ρ : String → ℂ) (ops : List GateOp) : ∀ l : List ℕ,
    opsOperator n ρ (l.flatMap fun _ => ops) = opsOperator n ρ ops ^ l.length := by
  intro l
  induction l with
  | nil => simp [opsOperator_nil]
  | cons a l ih => rw [List.flatMap_cons, opsOperator_append, ih, List.length_cons, pow_succ]

/-- The joined circuit is `length` circuits in a row, the one at `position` being the different one. -/
theorem circuitSequence_spec {repeated different : Circuit} (hr : Touching repeated) (hd : Touching different) (length position : ℕ) :
    (position < length → ∃ circ, circuitSequence repeated different length position = .ok circ ∧
      ∀ (n : ℕ) (ρ : String → ℂ), opsOperator n ρ circ.ops =
        opsOperator n ρ repeated.ops ^ (length - 1 - position) * opsOperator n ρ different.ops * opsOperator n ρ repeated.ops ^ position) ∧
    (length ≤ position → circuitSequence repeated different length position = .error .valueError) := by
  refine ⟨fun h => ?_, fun h => by rw [circuitSequence, if_pos h]⟩
  set ops := (List.range length).flatMap fun i => if i ≠ position then repeated.ops else different.ops with hops
  have htouch : ∀ op ∈ ops, op.qubits ≠ [] := by
    intro op hop
    obtain ⟨i, _, hop⟩ := List.mem_flatMap.1 hop
    split at hop
    · exact hr op hop
    · exact hd op hop
  obtain ⟨circ, hc⟩ : ∃ circ, Circuit.make ops none = .ok circ := by
    show ∃ circ, (sizeByOperations ops).map (fun n => (⟨ops, n⟩ : Circuit)) = .ok circ
    rw [sizeByOperations]
    cases ho : ops with
    | nil => exact ⟨_, rfl⟩
    | cons o os =>
      simp only [List.isEmpty_cons, Bool.false_eq_true, ↓reduceIte]
      cases hm : ((o :: os).flatMap GateOp.qubits).max? with
      | none =>
        rw [List.max?_eq_none_iff, List.flatMap_cons, List.append_eq_nil_iff] at hm
        exact absurd hm.1 (htouch o (by rw [ho]; simp))
      | some m => exact ⟨_, rfl⟩
  refine ⟨circ, by rw [circuitSequence, if_neg (by omega)]; exact hc, ?_⟩
  intro n ρ
  have hsplit : List.range length = List.range position ++ (position :: (List.range (length - 1 - position)).map fun i => position + 1 + i) := by
    conv_lhs => rw [show length = position + (1 + (length - 1 - position)) by omega, List.range_add, List.range_add]
    simp [Function.comp_def, Nat.add_assoc]
  rw [(make_default ops circ hc).1, hops, hsplit, List.flatMap_append, List.flatMap_cons, opsOperator_append, opsOperator_append]
  congr 2
  · rw [List.flatMap_map]
    have := range_flatMap_operator n ρ repeated.ops (List.range (length - 1 - position))
    rw [List.length_range] at this
    rw [← this]
    congr 1
    refine List.flatMap_congr fun i _ => ?_
    rw [if_pos (by omega)]
  · rw [if_neg (by simp)]
  · have := range_flatMap_operator n ρ repeated.ops (List.range position)
    rw [List.length_range] at this
    rw [← this]
    congr 1
    refine List.flatMap_congr fun i hi => ?_
    rw [if_pos (by rw [List.mem_range] at hi; omega)]

theorem forall₂_mem_right {A B : Type*} {R : A → B → Prop} {l : List A} {m : List B} (h : List.Forall₂ R l m) {b : B} (hb : b ∈ m) :
    ∃ a ∈ l, R a b := by
  induction h with
  | nil => simp at hb
  | cons r _ ih =>
    rcases List.mem_cons.1 hb with rfl | hb
    · exact ⟨_, by simp, r⟩
    · obtain ⟨a, ha, h⟩ := ih hb
      exact ⟨a, by simp [ha], h⟩

theorem append_touching {a b c : Circuit} (ha : Touching a) (hb : Touching b) (h : append a (.circuit b) = .ok c) : Touching c := by
  intro op hop
  have h : Circuit.make (a.ops ++ b.ops) (some ((max a.n b.n : ℕ) : ℚ)) = .ok c := h
  rw [make_ops h] at hop
  rcases List.mem_append.1 hop with hop | hop
  · exact ha op hop
  · exact hb op hop

theorem evolveTerm_touching' {o : Terms Letter} {time : Expr} {circ : Circuit} (h : evolveTerm o time = .ok circ) : Touching circ := by
  match o, h with
  | [(t, c)], h => exact evolveTerm_touching h
  | [], h => cases h
  | _ :: _ :: _, h => cases h

theorem shiftedEvolution_touching {terms : List (Terms Letter)} {i : ℕ} {shifted step : Expr} {circ : Circuit}
    (h : shiftedEvolution terms i shifted step = .ok circ) : Touching circ := by
  have key : ∀ (L : List (Terms Letter × ℕ)) (acc circ : Circuit), Touching acc → L.foldlM (fun (acc : Circuit) (tj : Terms Letter × ℕ) => do
      let d ← evolveTerm tj.1 (if i = tj.2 then shifted else step)
      append acc (.circuit d)) acc = .ok circ → Touching circ := by
    intro L
    induction L with
    | nil => intro acc circ ha h; cases h; exact ha
    | cons p L ih =>
      intro acc circ ha h
      rw [List.foldlM_cons] at h
      cases h1 : evolveTerm p.1 (if i = p.2 then shifted else step) with
      | error e => rw [h1] at h; cases h
      | ok d =>
        rw [h1] at h
        have h : (append acc (.circuit d) >>= _) = _ := h
        cases h2 : append acc (.circuit d) with
        | error e => rw [h2] at h; cases h
        | ok acc' =>
          rw [h2] at h
          exact ih acc' circ (append_touching ha (evolveTerm_touching' h1) h2) h
  exact key _ ⟨[], 0⟩ circ (by intro op hop; simp at hop) h

theorem shiftedPair_touching {terms : List (Terms Letter)} {time : Expr} {order : ℤ} {i : ℕ} {c f : ℂ} {r : Circuit × ℂ}
    (h : shiftedPair terms time order i c f = .ok r) : Touching r.1 := by
  rw [shiftedPair] at h
  split at h
  · cases h
  · have h : (if c / order = 0 then (.error .zeroDivision : Except Err (Circuit × ℂ)) else _) = .ok r := h
    split at h
    · cases h
    · dsimp only at h
      cases h2 : shiftedEvolution terms i (binE (· / ·) (binE (· + ·) time (.num (f * ((Real.pi : ℂ) / (4 * (c / order)))))) (.num order))
          (binE (· / ·) time (.num order)) with
      | error e => rw [h2] at h; cases h
      | ok out =>
        rw [h2] at h
        cases h
        exact shiftedEvolution_touching h2

theorem timeEvolution_touching {o : Terms Letter} {time : Expr} {method : String} {order : ℤ} {circ : Circuit}
    (h : timeEvolution o time method order = .ok circ) : Touching circ := by
  have fold : ∀ (L : List Circuit) (acc circ : Circuit), Touching acc → (∀ c ∈ L, Touching c) →
      L.foldlM (fun acc d => append acc (.circuit d)) acc = .ok circ → Touching circ := by
    intro L
    induction L with
    | nil => intro acc circ ha _ h; cases h; exact ha
    | cons p L ih =>
      intro acc circ ha hL h
      rw [List.foldlM_cons] at h
      cases h2 : append acc (.circuit p) with
      | error e => rw [h2] at h; cases h
      | ok acc' =>
        rw [h2] at h
        exact ih acc' circ (append_touching ha (hL p (by simp)) h2) (fun c hc => hL c (by simp [hc])) h
  rw [timeEvolution] at h
  split at h
  · cases h
  · cases h1 : ((List.range order.toNat).flatMap fun _ => getOperators qubit o).mapM fun term => evolveTerm term (binE (· / ·) time (.num order)) with
    | error e => simp only [h1, bind, Except.bind] at h; cases h
    | ok cs =>
      simp only [h1, bind, Except.bind] at h
      have hcs : ∀ c ∈ cs, Touching c := by
        intro c hc
        obtain ⟨t, _, ht⟩ := forall₂_mem_right ((ZQ.mapM_ok_iff _ _ _).1 h1) hc
        exact evolveTerm_touching' ht
      cases cs with
      | nil => cases h
      | cons c cs => exact fold cs c circ (hcs c (by simp)) (fun d hd => hcs d (by simp [hd])) h

/-- What the code returns for order `k > 1`, at `position`, for a term and a sign: the circuit with the shifted step at `position`, all other steps being
evolutions for the **full** time. -/
def IsSequence (o : Terms Letter) (time : Expr) (k : ℕ) (px : ℕ × (((Term Letter × ℂ) × ℕ) × ℂ)) (r : Circuit × ℂ) : Prop :=
  r.2 = px.2.1.1.2 / k * px.2.2 ∧
    ∀ (n : ℕ) (ρ : String → ℂ), Below n o → opsOperator n ρ r.1.ops =
      trotterStep n (time.eval ρ) o ^ (k - 1 - px.1) *
        shiftStep n ((time.eval ρ) / k + px.2.2 * (Real.pi / (4 * px.2.1.1.2))) (time.eval ρ / k) o px.2.1.2 *
        trotterStep n (time.eval ρ) o ^ px.1

/-- The exact result of the derivative function for every order above 1: `k` groups, one for each position, of two circuits for each term. -/
theorem evolutionDerivatives_order {o : Terms Letter} (h : CanonicalOp o) (hne : o ≠ []) (hnz : ∀ kv ∈ o, kv.2 ≠ 0) (time : Expr) (k : ℕ) (hk : 1 < k) :
    ∃ circs factors, evolutionDerivatives o time "Trotter" k = .ok (circs, factors) ∧ factors.length = circs.length ∧
      List.Forall₂ (IsSequence o time k) ((List.range k).flatMap fun position => (signedTerms o).map fun x => (position, x)) (circs.zip factors) := by
  have hcan : ∀ kv ∈ o, Canonical kv.1 := fun kv hkv => h.2 kv.1 (List.mem_map_of_mem hkv)
  obtain ⟨single, h1, h2⟩ := single_spec hcan hnz time k (by omega)
  obtain ⟨rep, h3, -, h4⟩ := timeEvolution_spec h hne time 1 (by norm_num)
  have h3 : timeEvolution o time "Trotter" 1 = .ok rep := h3
  have hrt := timeEvolution_touching h3
  have hst : ∀ cf ∈ single, Touching cf.1 := by
    intro cf hcf
    obtain ⟨t, _, ht⟩ := forall₂_mem_right ((ZQ.mapM_ok_iff _ _ _).1 h1) hcf
    exact shiftedPair_touching ht
  have inner : ∀ position, position < k → ∀ (X : List (((Term Letter × ℂ) × ℕ) × ℂ)) (S : List (Circuit × ℂ)), (∀ cf ∈ S, Touching cf.1) →
      List.Forall₂ (IsShifted o time k) X S →
      ∃ out, (S.map fun cf => (position, cf)).mapM (fun (pcf : ℕ × (Circuit × ℂ)) => do
        let s ← circuitSequence rep pcf.2.1 (k : ℤ).toNat pcf.1
        return (s, pcf.2.2)) = .ok out ∧ List.Forall₂ (IsSequence o time k) (X.map fun x => (position, x)) out := by
    intro position hp X S hS hXS
    induction hXS with
    | nil => exact ⟨[], rfl, .nil⟩
    | @cons x cf X S r _ ih =>
      obtain ⟨out, e1, e2⟩ := ih (fun c hc => hS c (by simp [hc]))
      obtain ⟨circ, e3, e4⟩ := (circuitSequence_spec hrt (hS cf (by simp)) k position).1 hp
      refine ⟨(circ, cf.2) :: out, ?_, .cons ⟨r.1, ?_⟩ e2⟩
      · rw [List.map_cons, List.mapM_cons, e1]
        have e3 : circuitSequence rep cf.1 (k : ℤ).toNat position = .ok circ := e3
        show ((circuitSequence rep cf.1 (k : ℤ).toNat position >>= _) >>= _) = _
        rw [e3]
        rfl
      · intro n ρ hb
        show opsOperator n ρ circ.ops = _
        rw [e4 n ρ, h4 n ρ hb, r.2.2 n ρ hb, pow_one, Nat.cast_one, div_one]
  have outer : ∀ L : List ℕ, (∀ p ∈ L, p < k) → ∃ out, (L.flatMap fun position => single.map fun cf => (position, cf)).mapM
      (fun (pcf : ℕ × (Circuit × ℂ)) => do
        let s ← circuitSequence rep pcf.2.1 (k : ℤ).toNat pcf.1
        return (s, pcf.2.2)) = .ok out ∧
      List.Forall₂ (IsSequence o time k) (L.flatMap fun position => (signedTerms o).map fun x => (position, x)) out := by
    intro L
    induction L with
    | nil => intro _; exact ⟨[], rfl, .nil⟩
    | cons p L ih =>
      intro hL
      obtain ⟨out, e1, e2⟩ := ih (fun q hq => hL q (by simp [hq]))
      obtain ⟨out', f1, f2⟩ := inner p (hL p (by simp)) (signedTerms o) single hst h2
      refine ⟨out' ++ out, ?_, ?_⟩
      · rw [List.flatMap_cons, List.mapM_append, f1, e1]; rfl
      · rw [List.flatMap_cons]
        exact List.rel_append f2 e2
  obtain ⟨out, e1, e2⟩ := outer (List.range k) (fun p hp => List.mem_range.1 hp)
  refine ⟨out.map Prod.fst, out.map Prod.snd, ?_, by simp, ?_⟩
  · rw [evolutionDerivatives, if_neg (by simp)]
    have h1 : ((getOperators qubit o).zipIdx.flatMap fun ti => [(ti, (1 : ℂ)), (ti, -1)]).mapM (fun tif =>
        shiftedPair (getOperators qubit o) time (k : ℤ) tif.1.2 (firstCoefficient tif.1.1) tif.2) = .ok single := h1
    have e1 : ((List.range (k : ℤ).toNat).flatMap fun position => single.map fun cf => (position, cf)).mapM
      (fun (pcf : ℕ × (Circuit × ℂ)) => do
        let s ← circuitSequence rep pcf.2.1 (k : ℤ).toNat pcf.1
        return (s, pcf.2.2)) = .ok out := e1
    simp only [h1, bind, Except.bind]
    rw [if_pos (by omega)]
    simp only [h3]
    simp only [bind, Except.bind] at e1
    simp only [e1]
    rfl
  · have hz : (out.map Prod.fst).zip (out.map Prod.snd) = out := (List.zip_of_prod rfl rfl).symm
    rw [hz]
    exact e2

theorem expectation_x (s : ℝ) : expectation (pauliString 1 [(0, .Z)]) (termFactor 1 (s : ℂ) ([(0, .X)], 1)) (Pi.single (fun _ => false) 1) =
    ((Real.cos (2 * s) : ℝ) : ℂ) := by
  have h := pullback_factor (n := 1) (pauliString 1 [(0, .Z)]) (t := [(0, Letter.X)]) (by simp) 1 s
  rw [Complex.ofReal_one] at h
  have hb : ∀ M : Matrix (Fin 1 → Bool) (Fin 1 → Bool) ℂ, braket (Pi.single (fun _ => false) 1) M = M (fun _ => false) (fun _ => false) := by
    intro M
    show star (Pi.single (fun _ => false) (1 : ℂ)) ⬝ᵥ M.mulVec (Pi.single (fun _ => false) 1) = _
    rw [Matrix.mulVec_single_one, ← Pi.single_star, star_one, single_one_dotProduct]
    rfl
  rw [expectation_eq, hb, h]
  have e : ∀ A B : Term Letter, pauliString 1 A * pauliString 1 B = tensor fun q => letterMatrix (letterAt A q) * letterMatrix (letterAt B q) :=
    fun A B => tensor_mul _ _
  have e1 : (pauliString 1 [(0, .Z)] : Matrix (Fin 1 → Bool) (Fin 1 → Bool) ℂ) (fun _ => false) (fun _ => false) = 1 := by
    simp [pauliString, tensor, letterAt, letterMatrix, pauliZ]
  have e2 : (pauliString 1 [(0, .X)] * pauliString 1 [(0, .Z)]) (fun _ => false) (fun _ => false) = 0 := by
    rw [e]
    simp [tensor, letterAt, letterMatrix, pauliZ, pauliX, Matrix.mul_apply]
  have e3 : (pauliString 1 [(0, .Z)] * pauliString 1 [(0, .X)]) (fun _ => false) (fun _ => false) = 0 := by
    rw [e]
    simp [tensor, letterAt, letterMatrix, pauliZ, pauliX, Matrix.mul_apply]
  have e4 : (pauliString 1 [(0, .X)] * pauliString 1 [(0, .Z)] * pauliString 1 [(0, .X)]) (fun _ => false) (fun _ => false) = -1 := by
    rw [e, pauliString, tensor_mul]
    simp [tensor, letterAt, letterMatrix, pauliZ, pauliX, Matrix.mul_apply]
  simp only [Matrix.add_apply, Matrix.smul_apply, Matrix.sub_apply, e1, e2, e3, e4, smul_eq_mul, mul_one, sub_zero, mul_zero, add_zero, mul_neg]
  rw [Real.cos_two_mul, ← Complex.ofReal_neg, ← Complex.ofReal_add]
  congr 1
  have := Real.sin_sq_add_cos_sq s
  linarith

/-- The operator of the counterexample. -/
def xOp : Terms Letter := [([(0, .X)], 1)]

theorem xOp_canonical : CanonicalOp xOp := by
  refine ⟨by simp [xOp, WF, keys], fun k hk => ?_⟩
  simp only [xOp, keys, List.map_cons, List.map_nil, List.mem_singleton] at hk
  subst hk
  exact ⟨by simp, by simp⟩

theorem trotterStep_x (τ : ℂ) : trotterStep 1 τ xOp = termFactor 1 τ ([(0, .X)], 1) := by
  simp [trotterStep, xOp]

theorem termFactor_add (n : ℕ) (τ τ' : ℂ) (kv : Term Letter × ℂ) : termFactor n τ kv * termFactor n τ' kv = termFactor n (τ + τ') kv := by
  rw [termFactor, termFactor, termFactor]
  split
  · rw [one_mul]
  · rw [← Matrix.exp_add_of_commute]
    · congr 1
      rw [← add_smul]
      congr 1
      ring
    · exact ((Commute.refl _).smul_left _).smul_right _

/-- The full claim of C40 fails for order 2 (evolution.py:151-166 repeats the evolution for the full time instead of `time / trotter_order`): for the
operator `X0`, the observable `Z0`, the state `|0⟩` and time `π/2` the derivative of the expectation is 0 and the returned circuits and factors give 2. -/
theorem evolutionDerivatives_counterexample : ∃ (C : ℝ → Circuit) (circs : List Circuit) (factors : List ℂ),
    (∀ s : ℝ, timeEvolution xOp (.num s) "Trotter" 2 = .ok (C s)) ∧
    evolutionDerivatives xOp (.num ((Real.pi / 2 : ℝ) : ℂ)) "Trotter" 2 = .ok (circs, factors) ∧
    HasDerivAt (fun s : ℝ => expectation (pauliString 1 [(0, .Z)]) (opsOperator 1 (fun _ => 0) (C s).ops) (Pi.single (fun _ => false) 1)) 0 (Real.pi / 2) ∧
    shiftRule (fun _ => 0) (pauliString 1 [(0, .Z)]) (Pi.single (fun _ => false) 1) circs factors = 2 := by
  have hb : Below 1 xOp := by
    intro kv hkv f hf
    simp only [xOp, List.mem_singleton] at hkv
    subst hkv
    simp only [List.mem_singleton] at hf
    subst hf
    exact Nat.one_pos
  have hex := fun s : ℝ => timeEvolution_spec xOp_canonical (by simp [xOp]) (.num (s : ℂ)) 2 (by norm_num)
  choose C h1 _ h2 using hex
  obtain ⟨circs, factors, h3, -, h4⟩ := evolutionDerivatives_order xOp_canonical (by simp [xOp]) (by simp [xOp]) (.num ((Real.pi / 2 : ℝ) : ℂ)) 2 (by norm_num)
  refine ⟨C, circs, factors, h1, h3, ?_, ?_⟩
  · have hop : ∀ s : ℝ, opsOperator 1 (fun _ => 0) (C s).ops = termFactor 1 (s : ℂ) ([(0, .X)], 1) := by
      intro s
      rw [h2 s 1 _ hb, trotterStep_x, pow_two, termFactor_add]
      congr 1
      show (s : ℂ) / ((2 : ℕ) : ℂ) + (s : ℂ) / ((2 : ℕ) : ℂ) = s
      push_cast; ring
    simp only [hop, expectation_x]
    have hd : HasDerivAt (fun s : ℝ => Real.cos (2 * s)) (-Real.sin (2 * (Real.pi / 2)) * (2 * 1)) (Real.pi / 2) :=
      ((hasDerivAt_id (Real.pi / 2)).const_mul 2).cos
    have h0 : -Real.sin (2 * (Real.pi / 2)) * (2 * 1) = 0 := by
      rw [show 2 * (Real.pi / 2) = Real.pi by ring, Real.sin_pi]; ring
    rw [h0] at hd
    simpa using hd.ofReal_comp
  · have hlist : (List.range 2).flatMap (fun position => (signedTerms xOp).map fun x => (position, x)) =
        [(0, ((([(0, .X)], 1), 0), 1)), (0, ((([(0, .X)], 1), 0), -1)), (1, ((([(0, .X)], 1), 0), 1)), (1, ((([(0, .X)], 1), 0), -1))] := rfl
    rw [hlist] at h4
    rw [shiftRule]
    generalize circs.zip factors = z at h4
    cases h4 with
    | cons a h4 =>
    cases h4 with
    | cons b h4 =>
    cases h4 with
    | cons c h4 =>
    cases h4 with
    | cons d h4 =>
    cases h4
    have step : ∀ τ' τ : ℂ, shiftStep 1 τ' τ xOp 0 = termFactor 1 τ' ([(0, .X)], 1) := by
      intro τ' τ
      show trotterStep 1 τ [] * termFactor 1 τ' _ = _
      simp [trotterStep]
    have val : ∀ (p : ℕ) (hp : p < 2) (f : ℂ) (σ : ℝ) (hf : f = (σ : ℂ)) (r : Circuit × ℂ),
        IsSequence xOp (.num ((Real.pi / 2 : ℝ) : ℂ)) 2 (p, ((([(0, .X)], 1), 0), f)) r →
        r.2 * expectation (pauliString 1 [(0, .Z)]) (opsOperator 1 (fun _ => 0) r.1.ops) (Pi.single (fun _ => false) 1) =
          ((σ / 2 * Real.cos (2 * (Real.pi / 2 + (Real.pi / 4 + σ * (Real.pi / 4)))) : ℝ) : ℂ) := by
      intro p hp f σ hf r hr
      subst hf
      rw [hr.1, hr.2 1 _ hb, trotterStep_x, step]
      have ev : Expr.eval (fun _ => 0) (.num ((Real.pi / 2 : ℝ) : ℂ)) = ((Real.pi / 2 : ℝ) : ℂ) := rfl
      rw [ev]
      have hτ : ((Real.pi / 2 : ℝ) : ℂ) / ((2 : ℕ) : ℂ) + ((σ : ℝ) : ℂ) * ((Real.pi : ℂ) / (4 * 1)) = ((Real.pi / 4 + σ * (Real.pi / 4) : ℝ) : ℂ) := by
        push_cast; ring
      have hprod : termFactor 1 ((Real.pi / 2 : ℝ) : ℂ) ([(0, .X)], 1) ^ (2 - 1 - p) * termFactor 1 ((Real.pi / 4 + σ * (Real.pi / 4) : ℝ) : ℂ) ([(0, .X)], 1) *
          termFactor 1 ((Real.pi / 2 : ℝ) : ℂ) ([(0, .X)], 1) ^ p =
          termFactor 1 ((Real.pi / 2 + (Real.pi / 4 + σ * (Real.pi / 4)) : ℝ) : ℂ) ([(0, .X)], 1) := by
        rw [Complex.ofReal_add (Real.pi / 2)]
        rcases (show p = 0 ∨ p = 1 by omega) with rfl | rfl
        · rw [pow_zero, mul_one, show 2 - 1 - 0 = 1 from rfl, pow_one, termFactor_add]
        · rw [show 2 - 1 - 1 = 0 from rfl, pow_zero, one_mul, pow_one, termFactor_add, add_comm]
      rw [hτ, hprod, expectation_x]
      push_cast
      ring
    simp only [List.map_cons, List.map_nil, List.sum_cons, List.sum_nil, add_zero]
    rw [val 0 (by norm_num) 1 1 (by simp) _ a, val 0 (by norm_num) (-1) (-1) (by simp) _ b, val 1 (by norm_num) 1 1 (by simp) _ c,
      val 1 (by norm_num) (-1) (-1) (by simp) _ d]
    have c1 : Real.cos (2 * (Real.pi / 2 + (Real.pi / 4 + 1 * (Real.pi / 4)))) = 1 := by
      rw [show 2 * (Real.pi / 2 + (Real.pi / 4 + 1 * (Real.pi / 4))) = 2 * Real.pi by ring, Real.cos_two_pi]
    have c2 : Real.cos (2 * (Real.pi / 2 + (Real.pi / 4 + -1 * (Real.pi / 4)))) = -1 := by
      rw [show 2 * (Real.pi / 2 + (Real.pi / 4 + -1 * (Real.pi / 4))) = Real.pi by ring, Real.cos_pi]
    rw [c1, c2]
    push_cast
    norm_num

/-- A method other than Trotter is rejected. -/
theorem evolutionDerivatives_method (o : Terms Letter) (time : Expr) (method : String) (order : ℤ) (h : method ≠ "Trotter") :
    evolutionDerivatives o time method order = .error .valueError := by
  rw [evolutionDerivatives, if_pos h]

/-- An operator that meets the hypotheses: `X0 Y2 / 2 + Z1`. -/
example : CanonicalOp [([(0, Letter.X), (2, .Y)], 1 / 2), ([(1, .Z)], 1)] ∧
    (∀ kv ∈ ([([(0, Letter.X), (2, .Y)], 1 / 2), ([(1, .Z)], 1)] : Terms Letter), kv.2.im = 0 ∧ kv.2 ≠ 0) ∧
    Below 3 [([(0, Letter.X), (2, .Y)], 1 / 2), ([(1, .Z)], 1)] := by
  refine ⟨⟨by simp [WF, keys], fun k hk => ?_⟩, ?_, ?_⟩
  · simp only [keys, List.map_cons, List.map_nil, List.mem_cons, List.not_mem_nil, or_false] at hk
    rcases hk with rfl | rfl
    · refine ⟨by simp, fun f hf => ?_⟩
      simp at hf; rcases hf with rfl | rfl <;> simp
    · exact ⟨by simp, by simp⟩
  · intro kv hkv
    simp only [List.mem_cons, List.not_mem_nil, or_false] at hkv
    rcases hkv with rfl | rfl <;> simp
  · intro kv hkv f hf
    simp only [List.mem_cons, List.not_mem_nil, or_false] at hkv
    rcases hkv with rfl | rfl
    · simp at hf; rcases hf with rfl | rfl <;> norm_num
    · simp at hf; subst hf; norm_num

end ZQ.Evol
