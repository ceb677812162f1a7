import Verif.Props.EnergyGradient
import Verif.Props.Budget

/-! C138: the error of the gradients of circuits whose symbols occur in several gates. -/

namespace ZQ.EnergyGradient

open ZQ ZQ.Op ZQ.Gates ZQ.Circuits ZQ.Expect ZQ.Gradient ZQ.Backend ZQ.Est Matrix

/-- Specification: wherever the symbol occurs, it is the angle of a turning gate. -/
def OnlyTurns (c : Circuit) (s : String) : Prop := ∀ op ∈ c.ops, Turns s op.gate ∨ s ∉ op.freeSymbols

/-- Specification: the number of operations with the symbol. -/
def occurrences (c : Circuit) (s : String) : ℕ := c.ops.countP fun op => s ∈ op.freeSymbols

/-- Specification: the sum of the absolute values of the coefficients. -/
noncomputable def weight (H : Terms Letter) : ℝ := (H.map fun kv => |kv.2.re|).sum

/-! ## Functions of several angles -/

variable {N : ℕ}

/-- In each of the angles a combination of 1, cos and sin; constant in the angles that are not in `T`. -/
def Waves (T : Finset (Fin N)) (G : (Fin N → ℝ) → ℝ) : Prop :=
  (∀ j θ, ∃ a b d : ℝ, ∀ t, G (Function.update θ j t) = a + b * Real.cos t + d * Real.sin t) ∧ ∀ j, j ∉ T → ∀ θ t, G (Function.update θ j t) = G θ

/-- The derivative in one angle, by the parameter shift rule. -/
noncomputable def shift (j : Fin N) (G : (Fin N → ℝ) → ℝ) (θ : Fin N → ℝ) : ℝ :=
  (G (Function.update θ j (θ j + Real.pi / 2)) - G (Function.update θ j (θ j - Real.pi / 2))) / 2

theorem Waves.shift {T : Finset (Fin N)} {G : (Fin N → ℝ) → ℝ} (h : Waves T G) (i : Fin N) : Waves T (shift i G) := by
  refine ⟨fun j θ => ?_, fun j hj θ t => ?_⟩
  · by_cases hij : j = i
    · subst hij
      obtain ⟨a, b, d, he⟩ := h.1 j θ
      refine ⟨0, d, -b, fun t => ?_⟩
      unfold EnergyGradient.shift
      simp only [Function.update_self, Function.update_idem]
      rw [he, he, Real.cos_add_pi_div_two, Real.sin_add_pi_div_two, Real.cos_sub_pi_div_two, Real.sin_sub_pi_div_two]
      ring
    · obtain ⟨a, b, d, he⟩ := h.1 j (Function.update θ i (θ i + Real.pi / 2))
      obtain ⟨a', b', d', he'⟩ := h.1 j (Function.update θ i (θ i - Real.pi / 2))
      refine ⟨(a - a') / 2, (b - b') / 2, (d - d') / 2, fun t => ?_⟩
      unfold EnergyGradient.shift
      rw [Function.update_of_ne (Ne.symm hij), Function.update_comm hij, Function.update_comm hij, he, he']
      ring
  · unfold EnergyGradient.shift
    by_cases hij : j = i
    · subst hij
      simp only [h.2 j hj]
    · rw [Function.update_of_ne (Ne.symm hij), Function.update_comm hij, Function.update_comm hij, h.2 j hj, h.2 j hj]

theorem shift_bound {G : (Fin N → ℝ) → ℝ} {B : ℝ} (h : ∀ θ, |G θ| ≤ B) (i : Fin N) (θ : Fin N → ℝ) : |shift i G θ| ≤ B := by
  unfold shift
  have h1 := abs_le.1 (h (Function.update θ i (θ i + Real.pi / 2)))
  have h2 := abs_le.1 (h (Function.update θ i (θ i - Real.pi / 2)))
  rw [abs_le]
  constructor <;> linarith [h1.1, h1.2, h2.1, h2.2]

/-- A combination of 1, cos and sin from its values at 0, `π/2` and `π`. -/
theorem interpolate {f : ℝ → ℝ} (h : ∃ a b d : ℝ, ∀ t, f t = a + b * Real.cos t + d * Real.sin t) (t : ℝ) :
    f t = (1 + Real.cos t - Real.sin t) / 2 * f 0 + Real.sin t * f (Real.pi / 2) + (1 - Real.cos t - Real.sin t) / 2 * f Real.pi := by
  obtain ⟨a, b, d, he⟩ := h
  rw [he, he, he, he, Real.cos_zero, Real.sin_zero, Real.cos_pi_div_two, Real.sin_pi_div_two, Real.cos_pi, Real.sin_pi]
  ring

/-- The same angle in the places of `S`. -/
def fill (S : Finset (Fin N)) (θ : Fin N → ℝ) (t : ℝ) : Fin N → ℝ := fun j => if j ∈ S then t else θ j

theorem fill_insert (S : Finset (Fin N)) (i : Fin N) (hi : i ∉ S) (θ : Fin N → ℝ) (t : ℝ) : fill (insert i S) θ t = Function.update (fill S θ t) i t := by
  funext j
  by_cases hj : j = i
  · subst hj; simp [fill]
  · simp [fill, hj]

theorem fill_update (S : Finset (Fin N)) (i : Fin N) (hi : i ∉ S) (θ : Fin N → ℝ) (t x : ℝ) : fill S (Function.update θ i x) t = Function.update (fill S θ t) i x := by
  funext j
  by_cases hj : j = i
  · subst hj; simp [fill, hi]
  · simp [fill, hj]

/-- The derivative along equal angles is the sum of the shifts. -/
theorem fill_derivative {T : Finset (Fin N)} (S : Finset (Fin N)) : ∀ {G : (Fin N → ℝ) → ℝ}, Waves T G → ∀ (θ : Fin N → ℝ) (t : ℝ),
    HasDerivAt (fun t => G (fill S θ t)) (∑ j ∈ S, shift j G (fill S θ t)) t := by
  induction S using Finset.induction_on with
  | empty =>
    intro G hG θ t
    have e : (fun t => G (fill ∅ θ t)) = fun _ => G θ := by
      funext t
      congr 1
    rw [e, Finset.sum_empty]
    exact hasDerivAt_const t (G θ)
  | insert i S hi ih =>
    intro G hG θ t
    have hfun : (fun t => G (fill (insert i S) θ t)) = fun t => (1 + Real.cos t - Real.sin t) / 2 * G (fill S (Function.update θ i 0) t) +
        Real.sin t * G (fill S (Function.update θ i (Real.pi / 2)) t) + (1 - Real.cos t - Real.sin t) / 2 * G (fill S (Function.update θ i Real.pi) t) := by
      funext t
      rw [fill_insert S i hi, fill_update S i hi, fill_update S i hi, fill_update S i hi]
      exact interpolate (hG.1 i _) t
    rw [hfun]
    have c0 : HasDerivAt (fun t => (1 + Real.cos t - Real.sin t) / 2) ((-Real.sin t - Real.cos t) / 2) t :=
      (((Real.hasDerivAt_cos t).const_add 1).sub (Real.hasDerivAt_sin t)).div_const 2
    have c2 : HasDerivAt (fun t => (1 - Real.cos t - Real.sin t) / 2) ((- -Real.sin t - Real.cos t) / 2) t :=
      (((Real.hasDerivAt_cos t).const_sub 1).sub (Real.hasDerivAt_sin t)).div_const 2
    have h := ((c0.mul (ih hG (Function.update θ i 0) t)).add ((Real.hasDerivAt_sin t).mul (ih hG (Function.update θ i (Real.pi / 2)) t))).add
      (c2.mul (ih hG (Function.update θ i Real.pi) t))
    refine h.congr_deriv ?_
    rw [Finset.sum_insert hi]
    have hsum : ∑ j ∈ S, shift j G (fill (insert i S) θ t) = (1 + Real.cos t - Real.sin t) / 2 * ∑ j ∈ S, shift j G (fill S (Function.update θ i 0) t) +
        Real.sin t * ∑ j ∈ S, shift j G (fill S (Function.update θ i (Real.pi / 2)) t) +
        (1 - Real.cos t - Real.sin t) / 2 * ∑ j ∈ S, shift j G (fill S (Function.update θ i Real.pi) t) := by
      rw [Finset.mul_sum, Finset.mul_sum, Finset.mul_sum, ← Finset.sum_add_distrib, ← Finset.sum_add_distrib]
      refine Finset.sum_congr rfl fun j _ => ?_
      rw [fill_insert S i hi, fill_update S i hi, fill_update S i hi, fill_update S i hi]
      exact interpolate ((hG.shift j).1 i _) t
    have hi' : shift i G (fill (insert i S) θ t) = (-Real.sin t - Real.cos t) / 2 * G (fill S (Function.update θ i 0) t) +
        Real.cos t * G (fill S (Function.update θ i (Real.pi / 2)) t) + (- -Real.sin t - Real.cos t) / 2 * G (fill S (Function.update θ i Real.pi) t) := by
      obtain ⟨a, b, d, he⟩ := hG.1 i (fill S θ t)
      rw [fill_insert S i hi, fill_update S i hi, fill_update S i hi, fill_update S i hi]
      unfold shift
      simp only [Function.update_self, Function.update_idem]
      rw [he, he, he, he, he, Real.cos_add_pi_div_two, Real.sin_add_pi_div_two, Real.cos_sub_pi_div_two, Real.sin_sub_pi_div_two, Real.cos_zero, Real.sin_zero,
        Real.cos_pi_div_two, Real.sin_pi_div_two, Real.cos_pi, Real.sin_pi]
      ring
    rw [hsum, hi']
    ring

theorem equal_derivative {T : Finset (Fin N)} {G : (Fin N → ℝ) → ℝ} (hG : Waves T G) (t : ℝ) :
    HasDerivAt (fun t => G fun _ => t) (∑ j ∈ T, shift j G fun _ => t) t := by
  have h := fill_derivative Finset.univ hG (fun _ => 0) t
  have e : ∀ t : ℝ, fill (Finset.univ : Finset (Fin N)) (fun _ => 0) t = fun _ => t := fun t => by funext j; simp [fill]
  simp only [e] at h
  refine h.congr_deriv ?_
  refine (Finset.sum_subset (Finset.subset_univ T) fun j _ hj => ?_).symm
  unfold shift
  rw [hG.2 j hj, hG.2 j hj, sub_self, zero_div]

theorem sum_bound {T : Finset (Fin N)} {f : Fin N → ℝ} {B : ℝ} (h : ∀ j, |f j| ≤ B) : |∑ j ∈ T, f j| ≤ T.card * B := by
  refine (Finset.abs_sum_le_sum_abs _ _).trans ((Finset.sum_le_sum fun j _ => h j).trans (le_of_eq ?_))
  rw [Finset.sum_const, nsmul_eq_mul]

theorem Waves.sum {T S : Finset (Fin N)} {G : Fin N → (Fin N → ℝ) → ℝ} (h : ∀ j, Waves T (G j)) : Waves T fun θ => ∑ j ∈ S, G j θ := by
  refine ⟨fun i θ => ?_, fun i hi θ t => Finset.sum_congr rfl fun j _ => (h j).2 i hi θ t⟩
  choose a b d he using fun j => (h j).1 i θ
  refine ⟨∑ j ∈ S, a j, ∑ j ∈ S, b j, ∑ j ∈ S, d j, fun t => ?_⟩
  rw [Finset.sum_mul, Finset.sum_mul, ← Finset.sum_add_distrib, ← Finset.sum_add_distrib]
  exact Finset.sum_congr rfl fun j _ => he j t

/-- The central difference along equal angles. -/
theorem equal_difference {T : Finset (Fin N)} {G : (Fin N → ℝ) → ℝ} (hG : Waves T G) {B : ℝ} (hB : ∀ θ, |G θ| ≤ B) (p h : ℝ) (hh : 0 < h) :
    |((G fun _ => p + h) - (G fun _ => p - h)) / (2 * h) - ∑ j ∈ T, shift j G fun _ => p| ≤ (T.card * (T.card * (T.card * B))) * h ^ 2 / 6 := by
  set G1 : (Fin N → ℝ) → ℝ := fun θ => ∑ j ∈ T, shift j G θ with hG1
  set G2 : (Fin N → ℝ) → ℝ := fun θ => ∑ j ∈ T, shift j G1 θ with hG2
  set G3 : (Fin N → ℝ) → ℝ := fun θ => ∑ j ∈ T, shift j G2 θ with hG3
  have w1 : Waves T G1 := Waves.sum fun j => hG.shift j
  have w2 : Waves T G2 := Waves.sum fun j => w1.shift j
  have b1 : ∀ θ, |G1 θ| ≤ T.card * B := fun θ => sum_bound fun j => shift_bound hB j θ
  have b2 : ∀ θ, |G2 θ| ≤ T.card * (T.card * B) := fun θ => sum_bound fun j => shift_bound b1 j θ
  have b3 : ∀ θ, |G3 θ| ≤ T.card * (T.card * (T.card * B)) := fun θ => sum_bound fun j => shift_bound b2 j θ
  have hsh : ∀ {f f' : ℝ → ℝ}, (∀ t, HasDerivAt f (f' t) t) → ∀ t, HasDerivAt (fun t => f (p + t)) (f' (p + t)) t :=
    fun hf t => (hf (p + t)).comp_const_add p t
  have key := finiteDifferences_error (n := 1) (fun x => G fun _ => x 0) (fun _ => p) 0 (fun t => G1 fun _ => p + t) (fun t => G2 fun _ => p + t)
    (fun t => G3 fun _ => p + t) (T.card * (T.card * (T.card * B))) h hh (fun t => by
      have := hsh (f := fun t => G fun _ => t) (f' := fun t => G1 fun _ => t) (fun t => equal_derivative hG t) t
      simpa [Gradient.unit] using this)
    (hsh (f := fun t => G1 fun _ => t) (f' := fun t => G2 fun _ => t) fun t => equal_derivative w1 t)
    (hsh (f := fun t => G2 fun _ => t) (f' := fun t => G3 fun _ => t) fun t => equal_derivative w2 t) fun t _ => b3 _
  simpa [Gradient.unit] using key

/-! ## Circuits -/

theorem prod_set {M : Type} [Monoid M] (l : List M) (j : ℕ) (hj : j < l.length) : ∃ L R : M, ∀ X, ((l.set j X).reverse).prod = L * X * R := by
  induction l generalizing j with
  | nil => simp at hj
  | cons a l ih =>
    cases j with
    | zero => exact ⟨l.reverse.prod, 1, fun X => by simp⟩
    | succ j =>
      obtain ⟨L, R, h⟩ := ih j (by simpa using hj)
      exact ⟨L, R * a, fun X => by simp [h, mul_assoc]⟩

/-- The energy with an angle of its own for each operation. -/
noncomputable def spread (c : Circuit) (A : Matrix (Fin c.n → Bool) (Fin c.n → Bool) ℂ) (ρ : String → ℂ) (s : String) (θ : Fin c.ops.length → ℝ) : ℝ :=
  (braket (((List.ofFn fun j : Fin c.ops.length => (c.ops[j]).operator c.n (Function.update ρ s (θ j : ℂ))).reverse).prod *ᵥ Pi.single (fun _ => false) 1) A).re

theorem spread_equal (c : Circuit) (A : Matrix (Fin c.n → Bool) (Fin c.n → Bool) ℂ) (ρ : String → ℂ) (s : String) (t : ℝ) :
    spread c A ρ s (fun _ => t) = energy c A (Function.update ρ s (t : ℂ)) := by
  unfold spread energy outputState
  congr 4
  rw [← List.map_reverse.symm.trans rfl]
  congr 1
  apply List.ext_getElem <;> simp

theorem spread_waves (c : Circuit) (hb : Ansatz.Bindable c) (s : String) (hs : OnlyTurns c s) (A : Matrix (Fin c.n → Bool) (Fin c.n → Bool) ℂ) (ρ : String → ℂ) :
    Waves (Finset.univ.filter fun j : Fin c.ops.length => s ∈ (c.ops[j]).freeSymbols) (spread c A ρ s) := by
  have hv : ∀ o ∈ c.ops, o.gate.AllBase fun b ps => b.ByValue ps := fun o ho =>
    Ansatz.allBase_and (fun b ps h _ => h.1) o.gate ((hb.2 o ho).2.2 []) ((hb.2 o ho).2.2 [])
  have hfree : ∀ o ∈ c.ops, s ∉ o.freeSymbols → ∀ v : ℂ, o.operator c.n (Function.update ρ s v) = o.operator c.n ρ := by
    intro o ho h v
    unfold GateOp.operator
    rw [matrix_free o.gate (hv o ho) s h]
  have hset : ∀ (θ : Fin c.ops.length → ℝ) (j : Fin c.ops.length) (t : ℝ),
      (List.ofFn fun i : Fin c.ops.length => (c.ops[i]).operator c.n (Function.update ρ s (Function.update θ j t i : ℂ))) =
      (List.ofFn fun i : Fin c.ops.length => (c.ops[i]).operator c.n (Function.update ρ s (θ i : ℂ))).set j ((c.ops[j]).operator c.n (Function.update ρ s (t : ℂ))) := by
    intro θ j t
    apply List.ext_getElem
    · simp
    · intro i h1 h2
      rw [List.getElem_set, List.getElem_ofFn, List.getElem_ofFn]
      by_cases hij : (j : ℕ) = i
      · subst hij; simp
      · have : (⟨i, by simpa using h1⟩ : Fin c.ops.length) ≠ j := fun e => hij (by rw [← e])
        rw [if_neg hij, Function.update_of_ne this]
  refine ⟨fun j θ => ?_, fun j hj θ t => ?_⟩
  · obtain ⟨L, R, hLR⟩ := prod_set (List.ofFn fun i : Fin c.ops.length => (c.ops[i]).operator c.n (Function.update ρ s (θ i : ℂ))) j (by simp)
    have hw : Wave fun t : ℝ => (c.ops[j]).operator c.n (Function.update ρ s (t : ℂ)) := by
      rcases hs c.ops[j] (List.getElem_mem _) with h | h
      · exact turns_wave _ s h ρ
      · exact ⟨fun _ => 1, (c.ops[j]).operator c.n ρ, 0, by simp, fun t => by simp [hfree _ (List.getElem_mem _) h]⟩
    obtain ⟨a, b, d, he⟩ := wave_energy (hw.mul L R) (Pi.single (fun _ => false) 1) A
    refine ⟨a, b, d, fun t => ?_⟩
    rw [← he t]
    unfold spread
    rw [hset, hLR]
  · have hj' : s ∉ (c.ops[j]).freeSymbols := by simpa using hj
    unfold spread
    rw [hset, show (c.ops[j]).operator c.n (Function.update ρ s (t : ℂ)) = (c.ops[j]).operator c.n ρ from hfree _ (List.getElem_mem _) hj' t]
    have : (List.ofFn fun i : Fin c.ops.length => (c.ops[i]).operator c.n (Function.update ρ s (θ i : ℂ))).set j ((c.ops[j]).operator c.n ρ) =
        List.ofFn fun i : Fin c.ops.length => (c.ops[i]).operator c.n (Function.update ρ s (θ i : ℂ)) := by
      rw [show (c.ops[j]).operator c.n ρ = (c.ops[j]).operator c.n (Function.update ρ s (θ j : ℂ)) from (hfree _ (List.getElem_mem _) hj' _).symm,
        ← hset θ j (θ j), Function.update_eq_self]
    rw [this]

theorem energy_bound {n : ℕ} {ψ : (Fin n → Bool) → ℂ} (hn : ∑ x, Complex.normSq (ψ x) = 1) (H : Terms Letter) : |(braket ψ (opMatrix n H)).re| ≤ weight H := by
  induction H with
  | nil => simp [opMatrix, weight, braket]
  | cons kv H ih =>
    have e : opMatrix n (kv :: H) = kv.2 • pauliString n kv.1 + opMatrix n H := by simp [opMatrix]
    have hw : weight (kv :: H) = |kv.2.re| + weight H := by simp [weight]
    have hb : braket ψ (kv.2 • pauliString n kv.1 + opMatrix n H) = kv.2 * braket ψ (pauliString n kv.1) + braket ψ (opMatrix n H) := by
      unfold braket
      rw [add_mulVec, smul_mulVec, dotProduct_add, dotProduct_smul, smul_eq_mul]
    have him : (braket ψ (pauliString n kv.1)).im = 0 := braket_real ψ _ (Evol.pauliString_hermitian kv.1)
    have h1 : |(braket ψ (pauliString n kv.1)).re| ≤ 1 := by
      have := Stat.pauli_bound hn kv.1
      exact abs_le_one_iff_mul_self_le_one.2 (by rw [← sq]; exact this)
    rw [e, hb, hw, Complex.add_re, Complex.mul_re, him, mul_zero, sub_zero]
    refine (abs_add_le _ _).trans (add_le_add ?_ ih)
    rw [abs_mul]
    exact mul_le_of_le_one_right (abs_nonneg _) h1

theorem spread_bound (c : Circuit) (s : String) (ρ : String → ℂ) (hu : ∀ t : ℝ, Unitary (Function.update ρ s (t : ℂ)) c) (H : Terms Letter) (θ : Fin c.ops.length → ℝ) :
    |spread c (opMatrix c.n H) ρ s θ| ≤ weight H := by
  refine energy_bound ?_ H
  have hU : ((List.ofFn fun j : Fin c.ops.length => (c.ops[j]).operator c.n (Function.update ρ s (θ j : ℂ))).reverse).prod ∈ unitaryGroup (Fin c.n → Bool) ℂ := by
    refine Submonoid.list_prod_mem _ fun M hM => ?_
    obtain ⟨j, rfl⟩ := (List.mem_ofFn' _ _).1 (List.mem_reverse.1 hM)
    obtain ⟨-, h2, h3⟩ := hu (θ j)
    exact operator_unitary c.n _ (h2 _ (List.getElem_mem _)) _ (h3 _ (List.getElem_mem _))
  rw [sum_normSq_unitary hU]
  simp [Pi.single_apply, apply_ite Complex.normSq]

theorem occurrences_card (c : Circuit) (s : String) :
    (Finset.univ.filter fun j : Fin c.ops.length => s ∈ (c.ops[j]).freeSymbols).card = occurrences c s := by
  have key : ∀ l : List GateOp, (Finset.univ.filter fun j : Fin l.length => s ∈ (l[j]).freeSymbols).card = l.countP fun op => s ∈ op.freeSymbols := by
    intro l
    rw [Finset.card_filter]
    refine (Fin.sum_univ_fun_getElem l fun op => if s ∈ op.freeSymbols then 1 else 0).trans ?_
    induction l with
    | nil => rfl
    | cons a l ih =>
      rw [List.map_cons, List.sum_cons, List.countP_cons, ih, add_comm]
      simp
  exact key c.ops

/-- C138: the central difference of the energy in a symbol that is the angle of `k` turning gates is off by at most `k³ w h² / 6`, where `w` is the sum of the absolute
values of the operator's coefficients; the derivative is at most `k w`. -/
theorem difference_bound (c : Circuit) (hb : Ansatz.Bindable c) (s : String) (hs : OnlyTurns c s) (ρ : String → ℂ)
    (hu : ∀ t : ℝ, Unitary (Function.update ρ s (t : ℂ)) c) (H : Terms Letter) (p : ℝ) :
    ∃ D : ℝ, HasDerivAt (fun t : ℝ => energy c (opMatrix c.n H) (Function.update ρ s (t : ℂ))) D p ∧ |D| ≤ occurrences c s * weight H ∧ ∀ h : ℝ, 0 < h →
      |(energy c (opMatrix c.n H) (Function.update ρ s ((p + h : ℝ) : ℂ)) - energy c (opMatrix c.n H) (Function.update ρ s ((p - h : ℝ) : ℂ))) / (2 * h) - D| ≤
        (occurrences c s : ℝ) ^ 3 * weight H * h ^ 2 / 6 := by
  have hw := spread_waves c hb s hs (opMatrix c.n H) ρ
  have hB := spread_bound c s ρ hu H
  refine ⟨∑ j with s ∈ (c.ops[j]).freeSymbols, shift j (spread c (opMatrix c.n H) ρ s) fun _ => p, ?_, ?_, fun h hh => ?_⟩
  · have := equal_derivative hw p
    simpa only [spread_equal] using this
  · rw [← occurrences_card]
    exact sum_bound fun j => shift_bound hB j _
  · have := equal_difference hw hB p h hh
    rw [spread_equal, spread_equal, occurrences_card] at this
    refine this.trans (le_of_eq ?_)
    ring

/-- C138: the gradient of the cost function of a simulator, for circuits in which every symbol is only the angle of turning gates.  Entry `i` is within
`k³ w h² / 6` of the partial derivative, where `k` is the number of operations with symbol `i` and `w` the sum of the absolute values of the coefficients. -/
theorem gradient_bound (sim : Simulator W) (ρ : String → ℂ) (hsim : Correct sim ρ) (order : List String → List String) (ho : Cost.IsSetOrder order)
    (key : List Char → List Sorting.Item) (hk : ∀ x, Sorting.Alternating (key x)) {H : Terms Letter} (hH : CanonicalOp H) (c : Circuit) (hb : Below c.n H)
    (hbind : Ansatz.Bindable c) (hturn : ∀ s ∈ c.freeSymbols, OnlyTurns c s) (st : St W) :
    ∃ symbols, Cost.prepare order key H c [] st () = (.ok ([⟨H, c, none⟩], symbols), st) ∧ symbols.Nodup ∧ (∀ s, s ∈ symbols ↔ s ∈ c.freeSymbols) ∧
      ∀ (h : ℝ), 0 < h → ∀ (ps : List ℝ) (ρ' : String → ℂ), symbols.length = ps.length → Assigns symbols ps ρ ρ' →
        (∀ ps' : List ℝ, ps'.length = ps.length → ∀ ρ'', Assigns symbols ps' ρ ρ'' → Unitary ρ'' c) → ∀ st' : St W,
        ∃ g : List ℝ, (Cost.costGradient (exactMethod sim ρ false) (Cost.expectationValueFactory ([⟨H, c, none⟩], symbols)) [] h ps st').1 = .ok g ∧
          g.length = ps.length ∧
          ∀ (i : ℕ) s p, symbols[i]? = some s → ps[i]? = some p → ∃ v D : ℝ, g[i]? = some v ∧
            HasDerivAt (fun t : ℝ => energy c (opMatrix c.n H) (Function.update ρ' s (t : ℂ))) D p ∧ |D| ≤ occurrences c s * weight H ∧
            |v - D| ≤ (occurrences c s : ℝ) ^ 3 * weight H * h ^ 2 / 6 := by
  obtain ⟨symbols, h1, h2, h3, h4⟩ := gradient_spec sim ρ hsim order ho key hk hH c hb hbind st
  refine ⟨symbols, h1, h2, h3, fun h hh ps ρ' hl ha hu st' => ?_⟩
  obtain ⟨g, g1, g2, g3⟩ := h4 h hh.ne' ps ρ' hl ha hu st'
  refine ⟨g, g1, g2, fun i s p hs hp => ?_⟩
  obtain ⟨hi, hi'⟩ := List.getElem?_eq_some_iff.1 hp
  have hmem : s ∈ symbols := List.mem_of_getElem? hs
  obtain ⟨D, d1, d2, d3⟩ := difference_bound c hbind s (hturn s ((h3 s).1 hmem)) ρ' (fun t => by
    have := assigns_shift h2 ha hs hp (t - p)
    rw [add_sub_cancel] at this
    exact hu _ (by simp [shifted]) _ this) H p
  exact ⟨_, D, g3 i s p hs hp, d1, d2, d3 h hh⟩

/-- The circuit `RX(t) RX(t)` satisfies the hypotheses, with two occurrences. -/
example : Ansatz.Bindable twice ∧ (∀ s ∈ twice.freeSymbols, OnlyTurns twice s) ∧ occurrences twice "t" = 2 ∧
    (∀ (ρ : String → ℂ) (t : ℝ), Unitary (Function.update ρ "t" (t : ℂ)) twice) ∧ weight [([(0, .Z)], 1), ([], -2)] = 3 := by
  refine ⟨twice_bindable, fun s hs op hop => ?_, by decide +kernel, fun ρ t => twice_unitary _ (by simp), by norm_num [weight]⟩
  have hf : twice.freeSymbols = ["t"] := by decide +kernel
  rw [hf, List.mem_singleton] at hs
  subst hs
  left
  have : op = ⟨Est.rxGate (.sym "t"), [0]⟩ := by simpa [twice] using hop
  rw [this]
  exact ⟨_, ⟨by simp [parametricGates], by simp⟩, .inl rfl⟩

end ZQ.EnergyGradient
