import Verif.Props.GradientBound

/-! C143: the error of the gradients of circuits whose angles are affine functions of the symbols, with controlled gates, XY and U3. -/

namespace ZQ.AngleBound

open ZQ ZQ.Op ZQ.Gates ZQ.Circuits ZQ.Expect ZQ.Gradient ZQ.Backend ZQ.Est ZQ.EnergyGradient Matrix

/-- Specification: as a function of the symbol the angle is `a t + β`, where `a` and `β` are real. -/
def Affine (s : String) (ρ : String → ℂ) (p : Expr) : Prop := ∃ a β : ℝ, ∀ t : ℝ, p.eval (Function.update ρ s (t : ℂ)) = ((a * t + β : ℝ) : ℂ)

/-- Specification: by how much the angle changes when the symbol changes from 0 to 1. -/
noncomputable def slope (s : String) (ρ : String → ℂ) (p : Expr) : ℝ :=
  (p.eval (Function.update ρ s 1)).re - (p.eval (Function.update ρ s 0)).re

/-- Specification: a gate without the symbol, or one made by controls and daggers from a parametric built-in gate whose parameters are affine in the symbol. -/
def Moves (s : String) (ρ : String → ℂ) (g : Gate) : Prop :=
  s ∉ g.freeSymbols ∨ ((g.AllBase fun b _ => b ∈ parametricGates) ∧ ∀ p ∈ g.params, Affine s ρ p)

/-- Specification: the sum of the absolute slopes of all parameters of all operations. -/
noncomputable def speed (c : Circuit) (s : String) (ρ : String → ℂ) : ℝ :=
  (c.ops.map fun op => (op.gate.params.map fun p => |slope s ρ p|).sum).sum

/-! ## Functions of one angle -/

/-- Combinations of 1 and the cosines and sines of the angle and of half the angle. -/
def Trig (f : ℝ → ℝ) : Prop :=
  ∃ a b d e g : ℝ, ∀ t, f t = a + b * Real.cos (t / 2) + d * Real.sin (t / 2) + e * Real.cos t + g * Real.sin t

/-- The derivative of such a function, as a combination of four of its values whose weights have the absolute sum 1. -/
noncomputable def bend (f : ℝ → ℝ) (t : ℝ) : ℝ :=
  (2 + √2) / 8 * (f (t + Real.pi / 2) - f (t - Real.pi / 2)) - (2 - √2) / 8 * (f (t + 3 * (Real.pi / 2)) - f (t - 3 * (Real.pi / 2)))

theorem bend_eq {f : ℝ → ℝ} {a b d e g : ℝ} (h : ∀ t, f t = a + b * Real.cos (t / 2) + d * Real.sin (t / 2) + e * Real.cos t + g * Real.sin t) (t : ℝ) :
    bend f t = -(b / 2) * Real.sin (t / 2) + d / 2 * Real.cos (t / 2) - e * Real.sin t + g * Real.cos t := by
  have h2 : √2 * √2 = 2 := Real.mul_self_sqrt (by norm_num)
  have c1 : Real.cos (3 * (Real.pi / 2)) = 0 := by
    rw [show 3 * (Real.pi / 2) = Real.pi / 2 + Real.pi by ring, Real.cos_add_pi, Real.cos_pi_div_two, neg_zero]
  have s1 : Real.sin (3 * (Real.pi / 2)) = -1 := by
    rw [show 3 * (Real.pi / 2) = Real.pi / 2 + Real.pi by ring, Real.sin_add_pi, Real.sin_pi_div_two]
  have c2 : Real.cos (3 * (Real.pi / 4)) = -(√2 / 2) := by
    rw [show 3 * (Real.pi / 4) = Real.pi - Real.pi / 4 by ring, Real.cos_pi_sub, Real.cos_pi_div_four]
  have s2 : Real.sin (3 * (Real.pi / 4)) = √2 / 2 := by
    rw [show 3 * (Real.pi / 4) = Real.pi - Real.pi / 4 by ring, Real.sin_pi_sub, Real.sin_pi_div_four]
  unfold bend
  rw [h, h, h, h, show (t + Real.pi / 2) / 2 = t / 2 + Real.pi / 4 by ring, show (t - Real.pi / 2) / 2 = t / 2 - Real.pi / 4 by ring,
    show (t + 3 * (Real.pi / 2)) / 2 = t / 2 + 3 * (Real.pi / 4) by ring, show (t - 3 * (Real.pi / 2)) / 2 = t / 2 - 3 * (Real.pi / 4) by ring]
  simp only [Real.cos_add, Real.cos_sub, Real.sin_add, Real.sin_sub, c1, s1, c2, s2, Real.cos_pi_div_two, Real.sin_pi_div_two, Real.cos_pi_div_four,
    Real.sin_pi_div_four]
  linear_combination (-(b / 4) * Real.sin (t / 2) + d / 4 * Real.cos (t / 2)) * h2

theorem Trig.derivative {f : ℝ → ℝ} (h : Trig f) (t : ℝ) : HasDerivAt f (bend f t) t := by
  obtain ⟨a, b, d, e, g, h⟩ := h
  rw [bend_eq h, show f = fun t => a + b * Real.cos (t / 2) + d * Real.sin (t / 2) + e * Real.cos t + g * Real.sin t from funext h]
  have hh : HasDerivAt (fun t : ℝ => t / 2) (1 / 2) t := (hasDerivAt_id t).div_const 2
  have := (((((hasDerivAt_const t a).add ((hh.cos).const_mul b)).add ((hh.sin).const_mul d)).add ((Real.hasDerivAt_cos t).const_mul e))).add
    ((Real.hasDerivAt_sin t).const_mul g)
  refine this.congr_deriv ?_
  ring

theorem Trig.bend {f : ℝ → ℝ} (h : Trig f) : Trig (bend f) := by
  obtain ⟨a, b, d, e, g, h⟩ := h
  exact ⟨0, d / 2, -(b / 2), g, -e, fun t => by rw [bend_eq h]; ring⟩

theorem Trig.add {f g : ℝ → ℝ} (hf : Trig f) (hg : Trig g) : Trig fun t => f t + g t := by
  obtain ⟨a, b, d, e, x, h⟩ := hf
  obtain ⟨a', b', d', e', x', h'⟩ := hg
  exact ⟨a + a', b + b', d + d', e + e', x + x', fun t => by dsimp only; rw [h, h']; ring⟩

theorem Trig.smul {f : ℝ → ℝ} (k : ℝ) (hf : Trig f) : Trig fun t => k * f t := by
  obtain ⟨a, b, d, e, x, h⟩ := hf
  exact ⟨k * a, k * b, k * d, k * e, k * x, fun t => by dsimp only; rw [h]; ring⟩

theorem Trig.sum {κ : Type} (S : Finset κ) {f : κ → ℝ → ℝ} (hf : ∀ k, Trig (f k)) : Trig fun t => ∑ k ∈ S, f k t := by
  choose a b d e x h using hf
  refine ⟨∑ k ∈ S, a k, ∑ k ∈ S, b k, ∑ k ∈ S, d k, ∑ k ∈ S, e k, ∑ k ∈ S, x k, fun t => ?_⟩
  simp only [Finset.sum_mul, ← Finset.sum_add_distrib]
  exact Finset.sum_congr rfl fun k _ => h k t

/-- These functions from their values at five angles. -/
theorem interpolation : ∃ (x : Fin 5 → ℝ) (L : Fin 5 → ℝ → ℝ), (∀ n, Trig (L n)) ∧ ∀ f, Trig f → ∀ t, f t = ∑ n, L n t * f (x n) := by
  refine ⟨![0, Real.pi, 2 * Real.pi, 3 * Real.pi, Real.pi / 2],
    ![fun t => 1 / 4 + 1 / 2 * Real.cos (t / 2) + 0 * Real.sin (t / 2) + 1 / 4 * Real.cos t + (-1 / 4 - √2 / 4) * Real.sin t,
      fun t => 1 / 4 + 0 * Real.cos (t / 2) + 1 / 2 * Real.sin (t / 2) + -1 / 4 * Real.cos t + (-1 / 4 - √2 / 4) * Real.sin t,
      fun t => 1 / 4 + -1 / 2 * Real.cos (t / 2) + 0 * Real.sin (t / 2) + 1 / 4 * Real.cos t + (-1 / 4 + √2 / 4) * Real.sin t,
      fun t => 1 / 4 + 0 * Real.cos (t / 2) + -1 / 2 * Real.sin (t / 2) + -1 / 4 * Real.cos t + (-1 / 4 + √2 / 4) * Real.sin t,
      fun t => 0 + 0 * Real.cos (t / 2) + 0 * Real.sin (t / 2) + 0 * Real.cos t + 1 * Real.sin t], ?_, ?_⟩
  · intro n
    fin_cases n <;> exact ⟨_, _, _, _, _, fun t => rfl⟩
  · rintro f ⟨a, b, d, e, g, h⟩ t
    have hc : Real.cos (3 * Real.pi) = -1 := by rw [show 3 * Real.pi = Real.pi + 2 * Real.pi by ring, Real.cos_add_two_pi, Real.cos_pi]
    have hs : Real.sin (3 * Real.pi) = 0 := by rw [show 3 * Real.pi = Real.pi + 2 * Real.pi by ring, Real.sin_add_two_pi, Real.sin_pi]
    have c1 : Real.cos (3 * Real.pi / 2) = 0 := by
      rw [show 3 * Real.pi / 2 = Real.pi / 2 + Real.pi by ring, Real.cos_add_pi, Real.cos_pi_div_two, neg_zero]
    have s1 : Real.sin (3 * Real.pi / 2) = -1 := by
      rw [show 3 * Real.pi / 2 = Real.pi / 2 + Real.pi by ring, Real.sin_add_pi, Real.sin_pi_div_two]
    have e2 : 2 * Real.pi / 2 = Real.pi := by ring
    have e4 : Real.pi / 2 / 2 = Real.pi / 4 := by ring
    simp only [Fin.sum_univ_five, Matrix.cons_val_zero, Matrix.cons_val_one, Matrix.cons_val]
    simp only [h, zero_div, Real.cos_zero, Real.sin_zero, Real.cos_pi, Real.sin_pi, Real.cos_pi_div_two, Real.sin_pi_div_two, Real.cos_two_pi, Real.sin_two_pi,
      hc, hs, c1, s1, e2, e4, Real.cos_pi_div_four, Real.sin_pi_div_four]
    ring

/-! ## Functions of several angles -/

variable {ι : Type} [DecidableEq ι]

/-- In each of the angles such a function. -/
def Waves (G : (ι → ℝ) → ℝ) : Prop := ∀ j θ, Trig fun t => G (Function.update θ j t)

/-- The derivative in one angle. -/
noncomputable def shift (j : ι) (G : (ι → ℝ) → ℝ) (θ : ι → ℝ) : ℝ := bend (fun x => G (Function.update θ j x)) (θ j)

theorem Waves.shift {G : (ι → ℝ) → ℝ} (h : Waves G) (i : ι) : Waves (shift i G) := by
  intro j θ
  by_cases hij : j = i
  · subst hij
    have e : (fun t => AngleBound.shift j G (Function.update θ j t)) = AngleBound.bend fun x => G (Function.update θ j x) := by
      funext t
      simp [AngleBound.shift]
    rw [e]
    exact (h j θ).bend
  · have e : (fun t => AngleBound.shift i G (Function.update θ j t)) = fun t =>
        ((2 + √2) / 8 * G (Function.update (Function.update θ i (θ i + Real.pi / 2)) j t) + -((2 + √2) / 8) * G (Function.update (Function.update θ i (θ i - Real.pi / 2)) j t)) +
        (-((2 - √2) / 8) * G (Function.update (Function.update θ i (θ i + 3 * (Real.pi / 2))) j t) +
          (2 - √2) / 8 * G (Function.update (Function.update θ i (θ i - 3 * (Real.pi / 2))) j t)) := by
      funext t
      unfold AngleBound.shift AngleBound.bend
      dsimp only
      rw [Function.update_of_ne (Ne.symm hij), Function.update_comm hij, Function.update_comm hij, Function.update_comm hij, Function.update_comm hij]
      ring
    rw [e]
    exact (((h j _).smul _).add ((h j _).smul _)).add (((h j _).smul _).add ((h j _).smul _))

theorem shift_bound {G : (ι → ℝ) → ℝ} {B : ℝ} (h : ∀ θ, |G θ| ≤ B) (i : ι) (θ : ι → ℝ) : |shift i G θ| ≤ B := by
  have h1 := abs_le.1 (h (Function.update θ i (θ i + Real.pi / 2)))
  have h2 := abs_le.1 (h (Function.update θ i (θ i - Real.pi / 2)))
  have h3 := abs_le.1 (h (Function.update θ i (θ i + 3 * (Real.pi / 2))))
  have h4 := abs_le.1 (h (Function.update θ i (θ i - 3 * (Real.pi / 2))))
  have hr : √2 ≤ 2 := by
    rw [Real.sqrt_le_left (by norm_num)]
    norm_num
  have hr0 : 0 ≤ √2 := Real.sqrt_nonneg 2
  have hp : 0 ≤ (2 + √2) / 8 := by positivity
  have hm : 0 ≤ (2 - √2) / 8 := by linarith
  unfold shift bend
  rw [abs_le]
  constructor
  · nlinarith [mul_le_mul_of_nonneg_left h1.1 hp, mul_le_mul_of_nonneg_left h2.2 hp, mul_le_mul_of_nonneg_left h3.2 hm, mul_le_mul_of_nonneg_left h4.1 hm]
  · nlinarith [mul_le_mul_of_nonneg_left h1.2 hp, mul_le_mul_of_nonneg_left h2.1 hp, mul_le_mul_of_nonneg_left h3.1 hm, mul_le_mul_of_nonneg_left h4.2 hm]

variable (a β : ι → ℝ)

/-- The angles in `S` move with `t`, the others stay. -/
def fill (S : Finset ι) (θ : ι → ℝ) (t : ℝ) : ι → ℝ := fun j => if j ∈ S then a j * t + β j else θ j

theorem fill_insert (S : Finset ι) (i : ι) (θ : ι → ℝ) (t : ℝ) : fill a β (insert i S) θ t = Function.update (fill a β S θ t) i (a i * t + β i) := by
  funext j
  by_cases hj : j = i
  · subst hj; simp [fill]
  · simp [fill, hj]

theorem fill_update (S : Finset ι) (i : ι) (hi : i ∉ S) (θ : ι → ℝ) (t x : ℝ) : fill a β S (Function.update θ i x) t = Function.update (fill a β S θ t) i x := by
  funext j
  by_cases hj : j = i
  · subst hj; simp [fill, hi]
  · simp [fill, hj]

/-- The derivative along moving angles. -/
theorem fill_derivative (S : Finset ι) : ∀ {G : (ι → ℝ) → ℝ}, Waves G → ∀ (θ : ι → ℝ) (t : ℝ),
    HasDerivAt (fun t => G (fill a β S θ t)) (∑ j ∈ S, a j * shift j G (fill a β S θ t)) t := by
  obtain ⟨x, L, hL, hI⟩ := interpolation
  induction S using Finset.induction_on with
  | empty =>
    intro G hG θ t
    have e : (fun t => G (fill a β ∅ θ t)) = fun _ => G θ := by
      funext t
      congr 1
    rw [e, Finset.sum_empty]
    exact hasDerivAt_const t (G θ)
  | insert i S hi ih =>
    intro G hG θ t
    have hfun : (fun t => G (fill a β (insert i S) θ t)) = fun t => ∑ n, L n (a i * t + β i) * G (fill a β S (Function.update θ i (x n)) t) := by
      funext t
      rw [fill_insert]
      simp only [fill_update a β S i hi]
      exact hI _ (hG i _) _
    rw [hfun]
    have hin : HasDerivAt (fun t : ℝ => a i * t + β i) (a i) t := by
      simpa using ((hasDerivAt_id t).const_mul (a i)).add_const (β i)
    have h := HasDerivAt.fun_sum (u := Finset.univ) fun (n : Fin 5) _ =>
      (((hL n).derivative (a i * t + β i)).comp t hin).mul (ih hG (Function.update θ i (x n)) t)
    refine h.congr_deriv ?_
    rw [Finset.sum_insert hi, Finset.sum_add_distrib]
    congr 1
    · have hs : shift i G (fill a β (insert i S) θ t) = ∑ n, bend (L n) (a i * t + β i) * G (fill a β S (Function.update θ i (x n)) t) := by
        have e : shift i G (fill a β (insert i S) θ t) = bend (fun y => G (Function.update (fill a β S θ t) i y)) (a i * t + β i) := by
          rw [fill_insert]
          simp [shift]
        rw [e]
        have d1 := (hG i (fill a β S θ t)).derivative (a i * t + β i)
        have d2 := HasDerivAt.fun_sum (u := Finset.univ) fun (n : Fin 5) _ =>
          ((hL n).derivative (a i * t + β i)).mul_const (G (Function.update (fill a β S θ t) i (x n)))
        have e2 : (fun y => G (Function.update (fill a β S θ t) i y)) = fun y => ∑ n, L n y * G (Function.update (fill a β S θ t) i (x n)) :=
          funext fun y => hI _ (hG i _) y
        rw [e2] at d1
        rw [e2, d1.unique d2]
        simp only [fill_update a β S i hi]
      rw [hs, Finset.mul_sum]
      refine Finset.sum_congr rfl fun n _ => ?_
      ring
    · simp only [Finset.mul_sum, Function.comp]
      rw [Finset.sum_comm]
      refine Finset.sum_congr rfl fun j _ => ?_
      rw [fill_insert, show shift j G (Function.update (fill a β S θ t) i (a i * t + β i)) = _ from hI _ ((hG.shift j) i (fill a β S θ t)) (a i * t + β i),
        Finset.mul_sum]
      refine Finset.sum_congr rfl fun n _ => ?_
      rw [fill_update a β S i hi]
      ring

variable [Fintype ι]

theorem path_derivative {G : (ι → ℝ) → ℝ} (hG : Waves G) (t : ℝ) :
    HasDerivAt (fun t => G fun j => a j * t + β j) (∑ j, a j * shift j G fun j => a j * t + β j) t := by
  have h := fill_derivative a β Finset.univ hG (fun _ => 0) t
  have e : ∀ t : ℝ, fill a β (Finset.univ : Finset ι) (fun _ => 0) t = fun j => a j * t + β j := fun t => by funext j; simp [fill]
  simpa only [e] using h

theorem sum_bound {f : ι → ℝ} {B : ℝ} (h : ∀ j, |f j| ≤ B) : |∑ j, a j * f j| ≤ (∑ j, |a j|) * B := by
  refine (Finset.abs_sum_le_sum_abs _ _).trans ?_
  rw [Finset.sum_mul]
  refine Finset.sum_le_sum fun j _ => ?_
  rw [abs_mul]
  exact mul_le_mul_of_nonneg_left (h j) (abs_nonneg _)

theorem Waves.sum {G : ι → (ι → ℝ) → ℝ} (h : ∀ j, Waves (G j)) : Waves fun θ => ∑ j, a j * G j θ :=
  fun i θ => Trig.sum Finset.univ fun j => (h j i θ).smul (a j)

/-- The central difference along moving angles. -/
theorem path_difference {G : (ι → ℝ) → ℝ} (hG : Waves G) {B : ℝ} (hB : ∀ θ, |G θ| ≤ B) (p h : ℝ) (hh : 0 < h) :
    |((G fun j => a j * (p + h) + β j) - (G fun j => a j * (p - h) + β j)) / (2 * h) - ∑ j, a j * shift j G fun j => a j * p + β j| ≤
      (∑ j, |a j|) ^ 3 * B * h ^ 2 / 6 := by
  set G1 : (ι → ℝ) → ℝ := fun θ => ∑ j, a j * shift j G θ with hG1
  set G2 : (ι → ℝ) → ℝ := fun θ => ∑ j, a j * shift j G1 θ with hG2
  set G3 : (ι → ℝ) → ℝ := fun θ => ∑ j, a j * shift j G2 θ with hG3
  have w1 : Waves G1 := Waves.sum a fun j => hG.shift j
  have w2 : Waves G2 := Waves.sum a fun j => w1.shift j
  have b1 : ∀ θ, |G1 θ| ≤ (∑ j, |a j|) * B := fun θ => sum_bound a fun j => shift_bound hB j θ
  have b2 : ∀ θ, |G2 θ| ≤ (∑ j, |a j|) * ((∑ j, |a j|) * B) := fun θ => sum_bound a fun j => shift_bound b1 j θ
  have b3 : ∀ θ, |G3 θ| ≤ (∑ j, |a j|) * ((∑ j, |a j|) * ((∑ j, |a j|) * B)) := fun θ => sum_bound a fun j => shift_bound b2 j θ
  have hsh : ∀ {f f' : ℝ → ℝ}, (∀ t, HasDerivAt f (f' t) t) → ∀ t, HasDerivAt (fun t => f (p + t)) (f' (p + t)) t :=
    fun hf t => (hf (p + t)).comp_const_add p t
  have key := finiteDifferences_error (n := 1) (fun x => G fun j => a j * x 0 + β j) (fun _ => p) 0 (fun t => G1 fun j => a j * (p + t) + β j)
    (fun t => G2 fun j => a j * (p + t) + β j) (fun t => G3 fun j => a j * (p + t) + β j) ((∑ j, |a j|) * ((∑ j, |a j|) * ((∑ j, |a j|) * B))) h hh (fun t => by
      have := hsh (f := fun t => G fun j => a j * t + β j) (f' := fun t => G1 fun j => a j * t + β j) (fun t => path_derivative a β hG t) t
      simpa [Gradient.unit] using this)
    (hsh (f := fun t => G1 fun j => a j * t + β j) (f' := fun t => G2 fun j => a j * t + β j) fun t => path_derivative a β w1 t)
    (hsh (f := fun t => G2 fun j => a j * t + β j) (f' := fun t => G3 fun j => a j * t + β j) fun t => path_derivative a β w2 t) fun t _ => b3 _
  have key' := key.trans (le_of_eq (show _ = (∑ j, |a j|) ^ 3 * B * h ^ 2 / 6 by ring))
  simpa [Gradient.unit] using key'

/-! ## Entries -/

/-- The phase `exp(i k t / 2)`. -/
noncomputable def phase (k : ℤ) (t : ℝ) : ℂ := Complex.exp (k * (t / 2) * Complex.I)

theorem phase_zero (t : ℝ) : phase 0 t = 1 := by simp [phase]

theorem phase_add (k l : ℤ) (t : ℝ) : phase (k + l) t = phase k t * phase l t := by
  unfold phase
  rw [← Complex.exp_add]
  congr 1
  push_cast
  ring

theorem phase_star (k : ℤ) (t : ℝ) : star (phase k t) = phase (-k) t := by
  unfold phase
  show (starRingEnd ℂ) _ = _
  rw [← Complex.exp_conj]
  congr 1
  have : ((t : ℂ) / 2) = ((t / 2 : ℝ) : ℂ) := by push_cast; rfl
  rw [this]
  simp only [map_mul, Complex.conj_ofReal, Complex.conj_I, map_intCast]
  push_cast
  ring

/-- A combination of the three phases around `phase m`. -/
def Freq (m : ℤ) (f : ℝ → ℂ) : Prop := ∃ x : Fin 3 → ℂ, ∀ t, f t = ∑ k : Fin 3, x k * phase (m + ((k : ℕ) : ℤ) - 1) t

theorem Freq.zero (m : ℤ) : Freq m fun _ => 0 := ⟨0, by simp⟩

theorem Freq.add {m : ℤ} {f g : ℝ → ℂ} (hf : Freq m f) (hg : Freq m g) : Freq m fun t => f t + g t := by
  obtain ⟨x, h⟩ := hf
  obtain ⟨y, h'⟩ := hg
  exact ⟨x + y, fun t => by dsimp only; rw [h, h', ← Finset.sum_add_distrib]; simp [add_mul]⟩

theorem Freq.smul {m : ℤ} {f : ℝ → ℂ} (z : ℂ) (hf : Freq m f) : Freq m fun t => z * f t := by
  obtain ⟨x, h⟩ := hf
  exact ⟨fun k => z * x k, fun t => by dsimp only; rw [h, Finset.mul_sum]; simp [mul_assoc]⟩

theorem Freq.sub {m : ℤ} {f g : ℝ → ℂ} (hf : Freq m f) (hg : Freq m g) : Freq m fun t => f t - g t := by
  have := hf.add (hg.smul (-1))
  simpa [sub_eq_add_neg] using this

theorem Freq.sum {m : ℤ} {κ : Type} (S : Finset κ) {f : κ → ℝ → ℂ} (hf : ∀ k, Freq m (f k)) : Freq m fun t => ∑ k ∈ S, f k t := by
  classical
  induction S using Finset.induction_on with
  | empty => simpa using Freq.zero m
  | insert k S hk ih =>
    simp only [Finset.sum_insert hk]
    exact (hf k).add ih

theorem Freq.times {m : ℤ} {f : ℝ → ℂ} (l : ℤ) (hf : Freq m f) : Freq (m + l) fun t => phase l t * f t := by
  obtain ⟨x, h⟩ := hf
  refine ⟨x, fun t => ?_⟩
  dsimp only
  rw [h, Finset.mul_sum]
  refine Finset.sum_congr rfl fun k _ => ?_
  rw [show m + l + ((k : ℕ) : ℤ) - 1 = l + (m + ((k : ℕ) : ℤ) - 1) by ring, phase_add]
  ring

theorem Freq.adjoint {m : ℤ} {f : ℝ → ℂ} (hf : Freq m f) : Freq (-m) fun t => star (f t) := by
  obtain ⟨x, h⟩ := hf
  refine ⟨![star (x 2), star (x 1), star (x 0)], fun t => ?_⟩
  dsimp only
  rw [h, Fin.sum_univ_three, Fin.sum_univ_three]
  simp only [star_add, star_mul', phase_star, Matrix.cons_val_zero, Matrix.cons_val_one, Matrix.cons_val, Fin.val_zero, Fin.val_one, Fin.val_two]
  rw [show -(m + ((0 : ℕ) : ℤ) - 1) = -m + ((2 : ℕ) : ℤ) - 1 by push_cast; ring, show -(m + ((1 : ℕ) : ℤ) - 1) = -m + ((1 : ℕ) : ℤ) - 1 by push_cast; ring,
    show -(m + ((2 : ℕ) : ℤ) - 1) = -m + ((0 : ℕ) : ℤ) - 1 by push_cast; ring]
  ring

theorem Freq.single (m : ℤ) (k : Fin 3) : Freq m (phase (m + ((k : ℕ) : ℤ) - 1)) :=
  ⟨Pi.single k 1, fun t => by rw [Finset.sum_eq_single k] <;> simp +contextual [Pi.single_apply]⟩

theorem Freq.of_phase {m l : ℤ} (h1 : m - 1 ≤ l) (h2 : l ≤ m + 1) : Freq m (phase l) := by
  obtain h | h | h : l = m - 1 ∨ l = m ∨ l = m + 1 := by omega
  · have := Freq.single m 0; rwa [show m + (((0 : Fin 3) : ℕ) : ℤ) - 1 = l by rw [h]; simp] at this
  · have := Freq.single m 1; rwa [show m + (((1 : Fin 3) : ℕ) : ℤ) - 1 = l by rw [h]; simp] at this
  · have := Freq.single m 2; rwa [show m + (((2 : Fin 3) : ℕ) : ℤ) - 1 = l by rw [h, Fin.val_two]; push_cast; ring] at this

theorem Freq.const {m : ℤ} (hm : |m| ≤ 1) (z : ℂ) : Freq m fun _ => z := by
  have h := abs_le.1 hm
  have := (Freq.of_phase (m := m) (l := 0) (by omega) (by omega)).smul z
  simpa [phase_zero] using this

theorem Freq.cos : Freq 0 fun t => Complex.cos (t / 2) := by
  have := ((Freq.of_phase (m := 0) (l := 1) (by omega) (by omega)).smul (1 / 2)).add ((Freq.of_phase (m := 0) (l := -1) (by omega) (by omega)).smul (1 / 2))
  refine (congrArg (Freq 0) (funext fun t => ?_)).mp this
  unfold phase Complex.cos
  push_cast
  rw [one_mul, show -1 * ((t : ℂ) / 2) * Complex.I = -(t / 2) * Complex.I by ring]
  ring

theorem Freq.sin : Freq 0 fun t => Complex.sin (t / 2) := by
  have := ((Freq.of_phase (m := 0) (l := -1) (by omega) (by omega)).smul (Complex.I / 2)).add
    ((Freq.of_phase (m := 0) (l := 1) (by omega) (by omega)).smul (-Complex.I / 2))
  refine (congrArg (Freq 0) (funext fun t => ?_)).mp this
  unfold phase Complex.sin
  push_cast
  rw [one_mul, show -1 * ((t : ℂ) / 2) * Complex.I = -(t / 2) * Complex.I by ring]
  ring

theorem Freq.minus : Freq 0 fun t => Complex.exp (-1 * Complex.I * t / 2) := by
  refine (congrArg (Freq 0) (funext fun t => ?_)).mp (Freq.of_phase (m := 0) (l := -1) (by omega) (by omega))
  unfold phase
  congr 1
  push_cast
  ring

theorem Freq.plus : Freq 0 fun t => Complex.exp (Complex.I * t / 2) := by
  refine (congrArg (Freq 0) (funext fun t => ?_)).mp (Freq.of_phase (m := 0) (l := 1) (by omega) (by omega))
  unfold phase
  congr 1
  push_cast
  ring

theorem Freq.full : Freq 1 fun t => Complex.exp (Complex.I * t) := by
  refine (congrArg (Freq 1) (funext fun t => ?_)).mp (Freq.of_phase (m := 1) (l := 2) (by omega) (by omega))
  unfold phase
  congr 1
  push_cast
  ring

/-- All entries of a matrix of a list of rows. -/
theorem Freq.rows {m : ℤ} (rows : ℝ → List (List ℂ)) (fs : List (List (ℝ → ℂ))) (h : ∀ t, rows t = fs.map fun l => l.map fun f => f t)
    (hf : ∀ l ∈ fs, ∀ f ∈ l, Freq m f) (i j : ℕ) : Freq m fun t => (Mat.ofRows (rows t)).e i j := by
  have e : (fun t => (Mat.ofRows (rows t)).e i j) = fun t => ((fs.getD i []).getD j fun _ => 0) t := by
    funext t
    show ((rows t).getD i []).getD j 0 = _
    rw [h]
    simp only [List.getD_eq_getElem?_getD, List.getElem?_map]
    cases fs[i]? with
    | none => simp
    | some l =>
      simp only [Option.map_some, Option.getD_some, List.getElem?_map]
      cases l[j]? <;> simp
  rw [e]
  have hz : ∀ l ∈ fs, Freq m (l.getD j fun _ => 0) := by
    intro l hl
    by_cases hj : j < l.length
    · rw [List.getD_eq_getElem _ _ hj]
      exact hf l hl _ (List.getElem_mem _)
    · rw [List.getD_eq_default _ _ (not_lt.1 hj)]
      exact Freq.zero m
  by_cases hi : i < fs.length
  · rw [List.getD_eq_getElem _ _ hi]
    exact hz _ (List.getElem_mem _)
  · rw [List.getD_eq_default _ _ (not_lt.1 hi)]
    exact Freq.zero m

theorem rx_freq (i j : ℕ) : Freq 0 fun t => (rxMatrix t).e i j := by
  refine Freq.rows _ [[_, _], [_, _]] (fun t => rfl) ?_ i j
  simp only [List.mem_cons, List.not_mem_nil, or_false, forall_eq_or_imp, forall_eq]
  exact ⟨⟨Freq.cos, Freq.sin.smul _⟩, Freq.sin.smul _, Freq.cos⟩

theorem ry_freq (i j : ℕ) : Freq 0 fun t => (ryMatrix t).e i j := by
  refine Freq.rows _ [[_, _], [_, _]] (fun t => rfl) ?_ i j
  simp only [List.mem_cons, List.not_mem_nil, or_false, forall_eq_or_imp, forall_eq]
  exact ⟨⟨Freq.cos, Freq.sin.smul _⟩, Freq.sin, Freq.cos⟩

theorem rz_freq (i j : ℕ) : Freq 0 fun t => (rzMatrix t).e i j := by
  refine Freq.rows _ [[_, _], [_, _]] (fun t => rfl) ?_ i j
  simp only [List.mem_cons, List.not_mem_nil, or_false, forall_eq_or_imp, forall_eq]
  exact ⟨⟨Freq.minus, Freq.zero _⟩, Freq.zero _, Freq.plus⟩

theorem rh_freq (i j : ℕ) : Freq 1 fun t => (rhMatrix t).e i j := by
  have hp : ∀ t : ℝ, (Complex.cos (t / 2) + Complex.I * Complex.sin (t / 2)) = phase 1 t := by
    intro t
    rw [phase, Int.cast_one, one_mul, Complex.exp_mul_I]
    ring
  have h := Freq.rows (m := 0) (fun t : ℝ => [[Complex.cos (t / 2) - Complex.I / (√2 : ℝ) * Complex.sin (t / 2), -Complex.I / (√2 : ℝ) * Complex.sin (t / 2)],
    [-Complex.I / (√2 : ℝ) * Complex.sin (t / 2), Complex.cos (t / 2) + Complex.I / (√2 : ℝ) * Complex.sin (t / 2)]]) [[_, _], [_, _]] (fun t => rfl) (by
      simp only [List.mem_cons, List.not_mem_nil, or_false, forall_eq_or_imp, forall_eq]
      exact ⟨⟨Freq.cos.sub (Freq.sin.smul _), Freq.sin.smul _⟩, Freq.sin.smul _, Freq.cos.add (Freq.sin.smul _)⟩) i j
  have h2 := h.times 1
  refine (congrArg (Freq _) (funext fun t => ?_)).mp h2
  rw [← hp]
  rfl

theorem phase_freq (i j : ℕ) : Freq 1 fun t => (phaseMatrix t).e i j := by
  refine Freq.rows _ [[_, _], [_, _]] (fun t => rfl) ?_ i j
  simp only [List.mem_cons, List.not_mem_nil, or_false, forall_eq_or_imp, forall_eq]
  exact ⟨⟨Freq.const (by simp) _, Freq.const (by simp) _⟩, Freq.const (by simp) _, Freq.full⟩

theorem cphase_freq (i j : ℕ) : Freq 1 fun t => (cphaseMatrix t).e i j := by
  refine Freq.rows _ [[_, _, _, _], [_, _, _, _], [_, _, _, _], [_, _, _, _]] (fun t => rfl) ?_ i j
  have hc : ∀ z : ℂ, Freq 1 fun _ => z := Freq.const (by simp)
  simp only [List.mem_cons, List.not_mem_nil, or_false, forall_eq_or_imp, forall_eq]
  exact ⟨⟨hc _, hc _, hc _, hc _⟩, ⟨hc _, hc _, hc _, hc _⟩, ⟨hc _, hc _, hc _, hc _⟩, hc _, hc _, hc _, Freq.full⟩

theorem xx_freq (i j : ℕ) : Freq 0 fun t => (xxMatrix t).e i j := by
  refine Freq.rows _ [[_, _, _, _], [_, _, _, _], [_, _, _, _], [_, _, _, _]] (fun t => rfl) ?_ i j
  simp only [List.mem_cons, List.not_mem_nil, or_false, forall_eq_or_imp, forall_eq]
  exact ⟨⟨Freq.cos, Freq.zero _, Freq.zero _, Freq.sin.smul _⟩, ⟨Freq.zero _, Freq.cos, Freq.sin.smul _, Freq.zero _⟩,
    ⟨Freq.zero _, Freq.sin.smul _, Freq.cos, Freq.zero _⟩, Freq.sin.smul _, Freq.zero _, Freq.zero _, Freq.cos⟩

theorem yy_freq (i j : ℕ) : Freq 0 fun t => (yyMatrix t).e i j := by
  refine Freq.rows _ [[_, _, _, _], [_, _, _, _], [_, _, _, _], [_, _, _, _]] (fun t => rfl) ?_ i j
  simp only [List.mem_cons, List.not_mem_nil, or_false, forall_eq_or_imp, forall_eq]
  exact ⟨⟨Freq.cos, Freq.zero _, Freq.zero _, Freq.sin.smul _⟩, ⟨Freq.zero _, Freq.cos, Freq.sin.smul _, Freq.zero _⟩,
    ⟨Freq.zero _, Freq.sin.smul _, Freq.cos, Freq.zero _⟩, Freq.sin.smul _, Freq.zero _, Freq.zero _, Freq.cos⟩

theorem zz_freq (i j : ℕ) : Freq 0 fun t => (zzMatrix t).e i j := by
  refine Freq.rows _ [[_, _, _, _], [_, _, _, _], [_, _, _, _], [_, _, _, _]] (fun t => rfl) ?_ i j
  simp only [List.mem_cons, List.not_mem_nil, or_false, forall_eq_or_imp, forall_eq]
  exact ⟨⟨Freq.cos.sub (Freq.sin.smul _), Freq.zero _, Freq.zero _, Freq.zero _⟩, ⟨Freq.zero _, Freq.cos.add (Freq.sin.smul _), Freq.zero _, Freq.zero _⟩,
    ⟨Freq.zero _, Freq.zero _, Freq.cos.add (Freq.sin.smul _), Freq.zero _⟩, Freq.zero _, Freq.zero _, Freq.zero _, Freq.cos.sub (Freq.sin.smul _)⟩

theorem xy_freq (i j : ℕ) : Freq 0 fun t => (xyMatrix t).e i j := by
  refine Freq.rows _ [[_, _, _, _], [_, _, _, _], [_, _, _, _], [_, _, _, _]] (fun t => rfl) ?_ i j
  have hc : ∀ z : ℂ, Freq 0 fun _ => z := Freq.const (by simp)
  simp only [List.mem_cons, List.not_mem_nil, or_false, forall_eq_or_imp, forall_eq]
  exact ⟨⟨hc _, hc _, hc _, hc _⟩, ⟨hc _, Freq.cos, Freq.sin.smul _, hc _⟩, ⟨hc _, Freq.sin.smul _, Freq.cos, hc _⟩, hc _, hc _, hc _, hc _⟩

theorem u3_theta (φ l : ℂ) (i j : ℕ) : Freq 0 fun t => (u3Matrix t φ l).e i j := by
  show Freq 0 fun t => (1 / Complex.exp (-0.5 * Complex.I * (φ + l))) *
    ∑ k ∈ Finset.range (ryMatrix t).cols, (∑ k' ∈ Finset.range (rzMatrix φ).cols, (rzMatrix φ).e i k' * (ryMatrix t).e k' k) * (rzMatrix l).e k j
  refine Freq.smul _ (Freq.sum (Finset.range 2) fun k => ?_)
  simp only [mul_comm _ ((rzMatrix l).e k j)]
  exact Freq.smul _ (Freq.sum (Finset.range 2) fun k' => (ry_freq k' k).smul _)

theorem phase_inv (t : ℝ) (l : ℂ) : 1 / Complex.exp (-0.5 * Complex.I * (t + l)) = Complex.exp (0.5 * Complex.I * l) * phase 1 t := by
  rw [one_div, ← Complex.exp_neg, phase, ← Complex.exp_add]
  congr 1
  push_cast
  ring

theorem u3_phi (θ l : ℂ) (i j : ℕ) : Freq 1 fun t => (u3Matrix θ t l).e i j := by
  show Freq 1 fun t : ℝ => (1 / Complex.exp (-0.5 * Complex.I * (t + l))) *
    ∑ k ∈ Finset.range (ryMatrix θ).cols, (∑ k' ∈ Finset.range (rzMatrix t).cols, (rzMatrix t).e i k' * (ryMatrix θ).e k' k) * (rzMatrix l).e k j
  simp only [phase_inv]
  simp only [mul_assoc (Complex.exp (0.5 * Complex.I * l))]
  refine Freq.smul _ ?_
  have : Freq 0 fun t : ℝ => ∑ k ∈ Finset.range 2, (∑ k' ∈ Finset.range 2, (rzMatrix t).e i k' * (ryMatrix θ).e k' k) * (rzMatrix l).e k j := by
    refine Freq.sum _ fun k => ?_
    simp only [mul_comm _ ((rzMatrix l).e k j)]
    refine Freq.smul _ (Freq.sum _ fun k' => ?_)
    simp only [mul_comm _ ((ryMatrix θ).e k' k)]
    exact (rz_freq i k').smul _
  exact this.times 1

theorem u3_lambda (θ φ : ℂ) (i j : ℕ) : Freq 1 fun t => (u3Matrix θ φ t).e i j := by
  show Freq 1 fun t : ℝ => (1 / Complex.exp (-0.5 * Complex.I * (φ + t))) *
    ∑ k ∈ Finset.range (ryMatrix θ).cols, (∑ k' ∈ Finset.range (rzMatrix φ).cols, (rzMatrix φ).e i k' * (ryMatrix θ).e k' k) * (rzMatrix t).e k j
  simp only [add_comm φ, phase_inv]
  simp only [mul_assoc (Complex.exp (0.5 * Complex.I * φ))]
  refine Freq.smul _ ?_
  have : Freq 0 fun t : ℝ => ∑ k ∈ Finset.range 2, (∑ k' ∈ Finset.range 2, (rzMatrix φ).e i k' * (ryMatrix θ).e k' k) * (rzMatrix t).e k j :=
    Freq.sum _ fun k => (rz_freq k j).smul _
  exact this.times 1

theorem getD_set (v : List ℂ) (k l : ℕ) (t : ℂ) : (v.set k t).getD l 0 = if k = l ∧ l < v.length then t else v.getD l 0 := by
  simp only [List.getD_eq_getElem?_getD, List.getElem?_set]
  by_cases h : k = l
  · subst h
    by_cases hk : k < v.length
    · simp [hk]
    · simp [hk, List.getElem?_eq_none (not_lt.1 hk)]
  · simp [h]

/-- The entries of the parametric gates as functions of one of the parameters. -/
theorem base_freq (b : Base) (hb : b ∈ parametricGates) (v : List ℝ) (k : ℕ) (ρ : String → ℂ) :
    ∃ m : ℤ, |m| ≤ 1 ∧ ∀ i j, Freq m fun t => (b.factory.matrix ((v.set k t).map fun x : ℝ => .num (x : ℂ)) ρ).e i j := by
  have hv : ∀ t : ℝ, (((v.set k t).map fun x : ℝ => Expr.num (x : ℂ)).map (Expr.eval ρ)) = (v.map fun x : ℝ => (x : ℂ)).set k t := by
    intro t
    rw [List.map_map, List.map_set]
    rfl
  have key : ∀ (F : ℂ → Mat ℂ) (m : ℤ), b.factory = param1 F → |m| ≤ 1 → (∀ i j, Freq m fun t => (F t).e i j) →
      ∃ m : ℤ, |m| ≤ 1 ∧ ∀ i j, Freq m fun t => (b.factory.matrix ((v.set k t).map fun x : ℝ => .num (x : ℂ)) ρ).e i j := by
    intro F m hF hm h
    refine ⟨m, hm, fun i j => ?_⟩
    rw [hF]
    show Freq m fun t => (F ((((v.set k t).map fun x : ℝ => Expr.num (x : ℂ)).map (Expr.eval ρ)).getD 0 0)).e i j
    simp only [hv, getD_set]
    split
    · exact h i j
    · exact Freq.const hm _
  simp only [parametricGates, List.mem_cons, List.not_mem_nil, or_false] at hb
  rcases hb with rfl | rfl | rfl | rfl | rfl | rfl | rfl | rfl | rfl | rfl | rfl
  · exact key _ 0 rfl (by simp) rx_freq
  · exact key _ 0 rfl (by simp) ry_freq
  · exact key _ 0 rfl (by simp) rz_freq
  · exact key _ 1 rfl (by simp) rh_freq
  · exact key _ 1 rfl (by simp) phase_freq
  · have e : ∀ t : ℝ, Factory.matrix (.builtin fun l => u3Matrix (l.getD 0 0) (l.getD 1 0) (l.getD 2 0)) ((v.set k t).map fun x : ℝ => .num (x : ℂ)) ρ =
        u3Matrix (((v.map fun x : ℝ => (x : ℂ)).set k t).getD 0 0) (((v.map fun x : ℝ => (x : ℂ)).set k t).getD 1 0) (((v.map fun x : ℝ => (x : ℂ)).set k t).getD 2 0) := by
      intro t
      rw [← hv]
      rfl
    simp only [e, getD_set]
    by_cases h0 : k = 0 ∧ 0 < (v.map fun x : ℝ => (x : ℂ)).length
    · have h1 : ¬ (k = 1 ∧ 1 < (v.map fun x : ℝ => (x : ℂ)).length) := by omega
      have h2 : ¬ (k = 2 ∧ 2 < (v.map fun x : ℝ => (x : ℂ)).length) := by omega
      simp only [if_pos h0, if_neg h1, if_neg h2]
      exact ⟨0, by simp, u3_theta _ _⟩
    · by_cases h1 : k = 1 ∧ 1 < (v.map fun x : ℝ => (x : ℂ)).length
      · have h2 : ¬ (k = 2 ∧ 2 < (v.map fun x : ℝ => (x : ℂ)).length) := by omega
        simp only [if_neg h0, if_pos h1, if_neg h2]
        exact ⟨1, by simp, u3_phi _ _⟩
      · by_cases h2 : k = 2 ∧ 2 < (v.map fun x : ℝ => (x : ℂ)).length
        · simp only [if_neg h0, if_neg h1, if_pos h2]
          exact ⟨1, by simp, u3_lambda _ _⟩
        · simp only [if_neg h0, if_neg h1, if_neg h2]
          exact ⟨0, by simp, fun i j => Freq.const (by simp) _⟩
  · exact key _ 1 rfl (by simp) cphase_freq
  · exact key _ 0 rfl (by simp) xx_freq
  · exact key _ 0 rfl (by simp) yy_freq
  · exact key _ 0 rfl (by simp) zz_freq
  · exact key _ 0 rfl (by simp) xy_freq

/-- The same for gates made of them by controls and daggers. -/
theorem gate_freq (g : Gate) (hg : g.AllBase fun b _ => b ∈ parametricGates) (v : List ℝ) (k : ℕ) (ρ : String → ℂ) :
    ∃ m : ℤ, |m| ≤ 1 ∧ ∀ i j, Freq m fun t => ((g.withParams ((v.set k t).map fun x : ℝ => .num (x : ℂ))).matrix ρ).e i j := by
  induction g with
  | factory b ps => exact base_freq b hg v k ρ
  | ctrl g c ih =>
    obtain ⟨m, hm, h⟩ := ih hg
    refine ⟨m, hm, fun i j => ?_⟩
    simp only [Gate.withParams, Gate.matrix, Gate.numQubits_withParams, Mat.diag, Mat.eye]
    split
    · exact Freq.const hm _
    · split
      · exact h _ _
      · exact Freq.zero m
  | dag g ih =>
    obtain ⟨m, hm, h⟩ := ih hg
    exact ⟨-m, by rwa [abs_neg], fun i j => (h j i).adjoint⟩

/-! ## Operators -/

/-- Matrices whose entries are such combinations. -/
def Wave {m : Type} (M : ℝ → Matrix m m ℂ) : Prop :=
  ∃ (r : ℤ) (X : Fin 3 → Matrix m m ℂ), ∀ t, M t = ∑ k : Fin 3, phase (r + ((k : ℕ) : ℤ) - 1) t • X k

theorem Wave.const {m : Type} (A : Matrix m m ℂ) : Wave fun _ => A :=
  ⟨0, ![0, A, 0], fun t => by simp [Fin.sum_univ_three, phase_zero]⟩

theorem operator_wave {n : ℕ} (g : Gate) (qs : List ℕ) (hg : g.AllBase fun b _ => b ∈ parametricGates) (v : List ℝ) (k : ℕ) (ρ : String → ℂ) :
    Wave fun t : ℝ => (⟨g.withParams ((v.set k t).map fun x : ℝ => .num (x : ℂ)), qs⟩ : GateOp).operator n ρ := by
  obtain ⟨r, -, h⟩ := gate_freq g hg v k ρ
  choose X hX using h
  by_cases hq : ∀ q ∈ qs, q < n
  · refine ⟨r, fun l => actOn (fun i : Fin qs.length => (⟨qs[i], hq _ (List.getElem_mem _)⟩ : Fin n)) (Matrix.of fun x y => X (basisIndex x) (basisIndex y) l), fun t => ?_⟩
    unfold GateOp.operator
    dsimp only
    rw [dif_pos hq]
    ext x y
    simp only [Matrix.sum_apply, Matrix.smul_apply, smul_eq_mul, actOn]
    by_cases hc : ∀ q, (∀ i : Fin qs.length, (⟨qs[i], hq _ (List.getElem_mem _)⟩ : Fin n) ≠ q) → x q = y q
    · simp only [if_pos hc]
      refine (hX _ _ t).trans (Finset.sum_congr rfl fun l _ => ?_)
      rw [mul_comm]
      rfl
    · simp only [if_neg hc, mul_zero, Finset.sum_const_zero]
  · refine ⟨0, 0, fun t => ?_⟩
    unfold GateOp.operator
    dsimp only
    rw [dif_neg hq]
    simp

theorem Wave.mul {m : Type} [Fintype m] {M : ℝ → Matrix m m ℂ} (h : Wave M) (L R : Matrix m m ℂ) : Wave fun t => L * M t * R := by
  obtain ⟨r, X, h⟩ := h
  refine ⟨r, fun k => L * X k * R, fun t => ?_⟩
  dsimp only
  rw [h, Finset.mul_sum, Finset.sum_mul]
  simp only [Matrix.mul_smul, Matrix.smul_mul]

theorem Trig.phase (z : ℂ) (k : ℤ) (h1 : -2 ≤ k) (h2 : k ≤ 2) : Trig fun t => (z * phase k t).re := by
  have e : ∀ t : ℝ, (z * AngleBound.phase k t).re = z.re * Real.cos (k * (t / 2)) - z.im * Real.sin (k * (t / 2)) := by
    intro t
    unfold AngleBound.phase
    rw [show (k : ℂ) * ((t : ℂ) / 2) = ((k * (t / 2) : ℝ) : ℂ) by push_cast; rfl, Complex.mul_re, Complex.exp_ofReal_mul_I_re, Complex.exp_ofReal_mul_I_im]
  simp only [e]
  interval_cases k
  · refine ⟨0, 0, 0, z.re, z.im, fun t => ?_⟩
    dsimp only
    rw [show ((-2 : ℤ) : ℝ) * (t / 2) = -t by push_cast; ring, Real.cos_neg, Real.sin_neg]
    ring
  · refine ⟨0, z.re, z.im, 0, 0, fun t => ?_⟩
    dsimp only
    rw [show ((-1 : ℤ) : ℝ) * (t / 2) = -(t / 2) by push_cast; ring, Real.cos_neg, Real.sin_neg]
    ring
  · exact ⟨z.re, 0, 0, 0, 0, fun t => by simp⟩
  · refine ⟨0, z.re, -z.im, 0, 0, fun t => ?_⟩
    dsimp only
    rw [show ((1 : ℤ) : ℝ) * (t / 2) = t / 2 by push_cast; ring]
    ring
  · refine ⟨0, 0, 0, z.re, -z.im, fun t => ?_⟩
    dsimp only
    rw [show ((2 : ℤ) : ℝ) * (t / 2) = t by push_cast; ring]
    ring

theorem wave_energy {m : Type} [Fintype m] {M : ℝ → Matrix m m ℂ} (h : Wave M) (v : m → ℂ) (H : Matrix m m ℂ) : Trig fun t => (braket (M t *ᵥ v) H).re := by
  obtain ⟨r, X, h⟩ := h
  have e : ∀ t, (braket (M t *ᵥ v) H).re = ∑ k : Fin 3, ∑ l : Fin 3, ((star (X k *ᵥ v) ⬝ᵥ (H *ᵥ (X l *ᵥ v))) * phase (((l : ℕ) : ℤ) - ((k : ℕ) : ℤ)) t).re := by
    intro t
    simp only [← Complex.re_sum]
    congr 1
    unfold braket
    rw [h, Matrix.sum_mulVec, star_sum, sum_dotProduct]
    refine Finset.sum_congr rfl fun k _ => ?_
    rw [Matrix.mulVec_sum, dotProduct_sum]
    refine Finset.sum_congr rfl fun l _ => ?_
    rw [smul_mulVec, smul_mulVec, star_smul, mulVec_smul, smul_dotProduct, dotProduct_smul, smul_eq_mul, smul_eq_mul, phase_star,
      show ((l : ℕ) : ℤ) - ((k : ℕ) : ℤ) = -(r + ((k : ℕ) : ℤ) - 1) + (r + ((l : ℕ) : ℤ) - 1) by ring, phase_add]
    ring
  simp only [e]
  exact Trig.sum _ fun k => Trig.sum _ fun l => Trig.phase _ _ (by omega) (by omega)

/-! ## Circuits -/

theorem Affine.eq {s : String} {ρ : String → ℂ} {p : Expr} (h : Affine s ρ p) (t : ℝ) :
    p.eval (Function.update ρ s (t : ℂ)) = ((slope s ρ p * t + (p.eval (Function.update ρ s 0)).re : ℝ) : ℂ) := by
  obtain ⟨a, β, h⟩ := h
  have h0 := h 0
  have h1 := h 1
  rw [Complex.ofReal_zero] at h0
  rw [Complex.ofReal_one] at h1
  rw [h, slope, h0, h1, Complex.ofReal_re, Complex.ofReal_re]
  congr 1
  ring

/-- The operation with other values for its parameters, if it has the symbol. -/
noncomputable def turned (s : String) (op : GateOp) (v : List ℝ) : GateOp :=
  if s ∈ op.gate.freeSymbols then ⟨op.gate.withParams (v.map fun x : ℝ => .num (x : ℂ)), op.qubits⟩ else op

/-- One angle for each parameter of each operation. -/
abbrev Angles (c : Circuit) : Type := (j : Fin c.ops.length) × Fin (c.ops[j]).gate.params.length

/-- The energy with an angle of its own for each parameter of each operation with the symbol. -/
noncomputable def spread (c : Circuit) (A : Matrix (Fin c.n → Bool) (Fin c.n → Bool) ℂ) (ρ : String → ℂ) (s : String) (θ : Angles c → ℝ) : ℝ :=
  (braket (((List.ofFn fun j : Fin c.ops.length => (turned s c.ops[j] (List.ofFn fun k => θ ⟨j, k⟩)).operator c.n ρ).reverse).prod *ᵥ
    Pi.single (fun _ => false) 1) A).re

theorem withParams_matrix (g : Gate) (hg : g.AllBase fun b _ => b ∈ parametricGates) (qs : List Expr) (ρ ρ' : String → ℂ)
    (h : qs.map (Expr.eval ρ) = g.params.map (Expr.eval ρ')) : (g.withParams qs).matrix ρ = g.matrix ρ' := by
  induction g with
  | factory b ps =>
    show b.factory.matrix qs ρ = b.factory.matrix ps ρ'
    have hb : ∃ f, b.factory = .builtin f := by
      have hg' : b ∈ parametricGates := hg
      simp only [parametricGates, List.mem_cons, List.not_mem_nil, or_false] at hg'
      rcases hg' with rfl | rfl | rfl | rfl | rfl | rfl | rfl | rfl | rfl | rfl | rfl <;> exact ⟨_, rfl⟩
    obtain ⟨f, hf⟩ := hb
    rw [hf]
    show f _ = f _
    rw [h]
    rfl
  | ctrl g k ih =>
    show Mat.diag _ _ = Mat.diag _ _
    rw [ih hg h, Gate.numQubits_withParams]
  | dag g ih =>
    show Mat.adjoint _ = Mat.adjoint _
    rw [ih hg h]

theorem bindable_values {c : Circuit} (hb : Ansatz.Bindable c) (o : GateOp) (ho : o ∈ c.ops) : o.gate.AllBase fun b ps => b.ByValue ps :=
  Ansatz.allBase_and (fun b ps h _ => h.1) o.gate ((hb.2 o ho).2.2 []) ((hb.2 o ho).2.2 [])

theorem spread_path (c : Circuit) (hb : Ansatz.Bindable c) (s : String) (ρ : String → ℂ) (hs : ∀ op ∈ c.ops, Moves s ρ op.gate)
    (A : Matrix (Fin c.n → Bool) (Fin c.n → Bool) ℂ) (t : ℝ) :
    spread c A ρ s (fun x => slope s ρ ((c.ops[x.1]).gate.params[x.2]) * t + (((c.ops[x.1]).gate.params[x.2]).eval (Function.update ρ s 0)).re) =
      energy c A (Function.update ρ s (t : ℂ)) := by
  unfold spread energy outputState
  congr 4
  rw [← List.map_reverse.symm.trans rfl]
  congr 1
  apply List.ext_getElem
  · simp
  intro j h1 h2
  rw [List.getElem_ofFn, List.getElem_map]
  have hj : j < c.ops.length := by simpa using h1
  have hm : c.ops[j] ∈ c.ops := List.getElem_mem hj
  show (turned s c.ops[j] _).operator c.n ρ = _
  unfold turned
  by_cases hf : s ∈ c.ops[j].gate.freeSymbols
  · rw [if_pos hf]
    have hp : ∀ p ∈ c.ops[j].gate.params, Affine s ρ p := by
      rcases hs _ hm with h | h
      · exact absurd hf h
      · exact h.2
    have hg : c.ops[j].gate.AllBase fun b _ => b ∈ parametricGates := by
      rcases hs _ hm with h | h
      · exact absurd hf h
      · exact h.1
    unfold GateOp.operator
    dsimp only
    rw [withParams_matrix _ hg _ ρ (Function.update ρ s (t : ℂ))]
    apply List.ext_getElem
    · simp
    intro k g1 g2
    have hk : k < c.ops[j].gate.params.length := by simpa using g2
    simp only [List.getElem_map, List.getElem_ofFn, Expr.eval]
    exact ((hp _ (List.getElem_mem hk)).eq t).symm
  · rw [if_neg hf]
    unfold GateOp.operator
    rw [matrix_free _ (bindable_values hb _ hm) s hf]

theorem ofFn_update (c : Circuit) (A : Matrix (Fin c.n → Bool) (Fin c.n → Bool) ℂ) (ρ : String → ℂ) (s : String) (θ : Angles c → ℝ) (x : Angles c) (t : ℝ) :
    (List.ofFn fun j : Fin c.ops.length => (turned s c.ops[j] (List.ofFn fun k => Function.update θ x t ⟨j, k⟩)).operator c.n ρ) =
      (List.ofFn fun j : Fin c.ops.length => (turned s c.ops[j] (List.ofFn fun k => θ ⟨j, k⟩)).operator c.n ρ).set x.1
        ((turned s c.ops[x.1] ((List.ofFn fun k => θ ⟨x.1, k⟩).set x.2 t)).operator c.n ρ) := by
  obtain ⟨j0, k0⟩ := x
  apply List.ext_getElem
  · simp
  · intro i h1 h2
    rw [List.getElem_set, List.getElem_ofFn, List.getElem_ofFn]
    have hi : i < c.ops.length := by simpa using h1
    by_cases hij : (j0 : ℕ) = i
    · rw [if_pos hij]
      obtain rfl : j0 = ⟨i, hi⟩ := Fin.ext hij
      congr 2
      apply List.ext_getElem
      · simp
      intro k g1 g2
      rw [List.getElem_set, List.getElem_ofFn, List.getElem_ofFn]
      by_cases hk : (k0 : ℕ) = k
      · subst hk
        simp
      · rw [if_neg hk, Function.update_of_ne]
        intro h
        apply hk
        have := eq_of_heq (Sigma.mk.inj h).2
        rw [← this]
    · rw [if_neg hij]
      congr 3
      funext k
      rw [Function.update_of_ne]
      intro h
      apply hij
      have := (Sigma.mk.inj h).1
      rw [← this]

theorem spread_waves (c : Circuit) (s : String) (ρ : String → ℂ) (hs : ∀ op ∈ c.ops, Moves s ρ op.gate) (A : Matrix (Fin c.n → Bool) (Fin c.n → Bool) ℂ) :
    Waves (spread c A ρ s) := by
  intro x θ
  obtain ⟨L, R, hLR⟩ := prod_set (List.ofFn fun j : Fin c.ops.length => (turned s c.ops[j] (List.ofFn fun k => θ ⟨j, k⟩)).operator c.n ρ) x.1 (by simp)
  have hw : Wave fun t : ℝ => (turned s c.ops[x.1] ((List.ofFn fun k => θ ⟨x.1, k⟩).set x.2 t)).operator c.n ρ := by
    unfold turned
    by_cases hf : s ∈ (c.ops[x.1]).gate.freeSymbols
    · simp only [if_pos hf]
      refine operator_wave _ _ ?_ _ _ ρ
      rcases hs c.ops[x.1] (List.getElem_mem _) with h | h
      · exact absurd hf h
      · exact h.1
    · simp only [if_neg hf]
      exact Wave.const _
  have := wave_energy (hw.mul L R) (Pi.single (fun _ => false) 1) A
  refine (congrArg Trig (funext fun t => ?_)).mp this
  unfold spread
  rw [ofFn_update c A, hLR]

theorem withParams_wf (g : Gate) (hw : g.WF) (qs : List Expr) : (g.withParams qs).WF := by
  induction g with
  | factory b ps => exact hw
  | ctrl g k ih => exact ⟨hw.1, ih hw.2⟩
  | dag g ih => exact ih hw

theorem withParams_unitary (g : Gate) (hg : g.AllBase fun b _ => b ∈ parametricGates) (v : List ℝ) (ρ : String → ℂ) :
    (g.withParams (v.map fun x : ℝ => .num (x : ℂ))).AllBase fun b ps => (b.factory.matrix ps ρ).onBits b.numQubits ∈ unitaryGroup (Fin b.numQubits → Bool) ℂ := by
  induction g with
  | factory b ps =>
    refine builtin_unitary b (List.mem_append_right _ hg) _ ρ fun p hp => ?_
    obtain ⟨x, -, rfl⟩ := List.mem_map.1 hp
    exact Complex.ofReal_im x
  | ctrl g k ih => exact ih hg
  | dag g ih => exact ih hg

theorem turned_unitary {c : Circuit} (s : String) (ρ : String → ℂ) (op : GateOp) (hs : Moves s ρ op.gate) (hv : op.gate.AllBase fun b ps => b.ByValue ps) (t : ℝ)
    (h2 : op.Valid c.n) (h3 : UnitaryOp (Function.update ρ s (t : ℂ)) op) (v : List ℝ) : (turned s op v).operator c.n ρ ∈ unitaryGroup (Fin c.n → Bool) ℂ := by
  unfold turned
  split
  · rename_i hf
    rcases hs with h | h
    · exact absurd hf h
    refine operator_unitary c.n (⟨op.gate.withParams (v.map fun x : ℝ => .num (x : ℂ)), op.qubits⟩ : GateOp) ⟨h2.1, h2.2.1, h2.2.2.1, h2.2.2.2.1.trans (Gate.numQubits_withParams op.gate (v.map fun x : ℝ => .num (x : ℂ))).symm, ?_⟩ ρ ?_
    · exact withParams_wf _ h2.2.2.2.2 _
    · exact withParams_unitary _ h.1 v ρ
  · rename_i hf
    have := operator_unitary c.n _ h2 _ h3
    unfold GateOp.operator at this ⊢
    rwa [matrix_free _ hv s hf] at this

theorem spread_bound (c : Circuit) (hb : Ansatz.Bindable c) (s : String) (ρ : String → ℂ) (hs : ∀ op ∈ c.ops, Moves s ρ op.gate) (t : ℝ)
    (hu : Unitary (Function.update ρ s (t : ℂ)) c) (H : Terms Letter) (θ : Angles c → ℝ) : |spread c (opMatrix c.n H) ρ s θ| ≤ weight H := by
  refine energy_bound ?_ H
  have hU : ((List.ofFn fun j : Fin c.ops.length => (turned s c.ops[j] (List.ofFn fun k => θ ⟨j, k⟩)).operator c.n ρ).reverse).prod ∈ unitaryGroup (Fin c.n → Bool) ℂ := by
    refine Submonoid.list_prod_mem _ fun M hM => ?_
    obtain ⟨j, rfl⟩ := (List.mem_ofFn' _ _).1 (List.mem_reverse.1 hM)
    have hm : c.ops[j] ∈ c.ops := List.getElem_mem _
    exact turned_unitary s ρ _ (hs _ hm) (bindable_values hb _ hm) t (hu.2.1 _ hm) (hu.2.2 _ hm) _
  rw [sum_normSq_unitary hU]
  simp [Pi.single_apply, apply_ite Complex.normSq]

theorem speed_sum (c : Circuit) (s : String) (ρ : String → ℂ) : ∑ x : Angles c, |slope s ρ ((c.ops[x.1]).gate.params[x.2])| = speed c s ρ := by
  rw [Fintype.sum_sigma]
  unfold speed
  rw [← Fin.sum_univ_fun_getElem c.ops fun op => (op.gate.params.map fun p => |slope s ρ p|).sum]
  exact Finset.sum_congr rfl fun j _ => Fin.sum_univ_fun_getElem (c.ops[j]).gate.params fun p => |slope s ρ p|

/-- C143: the central difference of the energy in a symbol is off by at most `r³ w h² / 6`, where `r` is the sum of the absolute slopes of all angles and `w` is the
sum of the absolute values of the operator's coefficients; the derivative is at most `r w`. -/
theorem difference_bound (c : Circuit) (hb : Ansatz.Bindable c) (s : String) (ρ : String → ℂ) (hs : ∀ op ∈ c.ops, Moves s ρ op.gate) (p : ℝ)
    (hu : Unitary (Function.update ρ s (p : ℂ)) c) (H : Terms Letter) :
    ∃ D : ℝ, HasDerivAt (fun t : ℝ => energy c (opMatrix c.n H) (Function.update ρ s (t : ℂ))) D p ∧ |D| ≤ speed c s ρ * weight H ∧ ∀ h : ℝ, 0 < h →
      |(energy c (opMatrix c.n H) (Function.update ρ s ((p + h : ℝ) : ℂ)) - energy c (opMatrix c.n H) (Function.update ρ s ((p - h : ℝ) : ℂ))) / (2 * h) - D| ≤
        speed c s ρ ^ 3 * weight H * h ^ 2 / 6 := by
  have hw := spread_waves c s ρ hs (opMatrix c.n H)
  have hB := spread_bound c hb s ρ hs p hu H
  set a : Angles c → ℝ := fun x => slope s ρ ((c.ops[x.1]).gate.params[x.2]) with ha
  set β : Angles c → ℝ := fun x => (((c.ops[x.1]).gate.params[x.2]).eval (Function.update ρ s 0)).re with hβ
  have hpath : ∀ t : ℝ, spread c (opMatrix c.n H) ρ s (fun x => a x * t + β x) = energy c (opMatrix c.n H) (Function.update ρ s (t : ℂ)) :=
    spread_path c hb s ρ hs _
  have hsum : ∑ x, |a x| = speed c s ρ := speed_sum c s ρ
  refine ⟨∑ x, a x * shift x (spread c (opMatrix c.n H) ρ s) fun x => a x * p + β x, ?_, ?_, fun h hh => ?_⟩
  · have := path_derivative a β hw p
    simpa only [hpath] using this
  · rw [← hsum]
    exact sum_bound a fun j => shift_bound hB j _
  · have := path_difference a β hw hB p h hh
    rwa [hpath, hpath, hsum] at this

/-- C143: the gradient of the cost function of a simulator, for circuits whose angles are affine in each symbol.  Entry `i` is within `r³ w h² / 6` of the partial
derivative, where `r` is the sum of the absolute slopes of all angles in symbol `i` and `w` the sum of the absolute values of the coefficients. -/
theorem gradient_bound (sim : Simulator W) (ρ : String → ℂ) (hsim : Correct sim ρ) (order : List String → List String) (ho : Cost.IsSetOrder order)
    (key : List Char → List Sorting.Item) (hk : ∀ x, Sorting.Alternating (key x)) {H : Terms Letter} (hH : CanonicalOp H) (c : Circuit) (hb : Below c.n H)
    (hbind : Ansatz.Bindable c) (st : St W) :
    ∃ symbols, Cost.prepare order key H c [] st () = (.ok ([⟨H, c, none⟩], symbols), st) ∧ symbols.Nodup ∧ (∀ s, s ∈ symbols ↔ s ∈ c.freeSymbols) ∧
      ∀ (h : ℝ), 0 < h → ∀ (ps : List ℝ) (ρ' : String → ℂ), symbols.length = ps.length → Assigns symbols ps ρ ρ' →
        (∀ ps' : List ℝ, ps'.length = ps.length → ∀ ρ'', Assigns symbols ps' ρ ρ'' → Unitary ρ'' c) → ∀ st' : St W,
        ∃ g : List ℝ, (Cost.costGradient (exactMethod sim ρ false) (Cost.expectationValueFactory ([⟨H, c, none⟩], symbols)) [] h ps st').1 = .ok g ∧
          g.length = ps.length ∧
          ∀ (i : ℕ) s p, symbols[i]? = some s → ps[i]? = some p → (∀ op ∈ c.ops, Moves s ρ' op.gate) → ∃ v D : ℝ, g[i]? = some v ∧
            HasDerivAt (fun t : ℝ => energy c (opMatrix c.n H) (Function.update ρ' s (t : ℂ))) D p ∧ |D| ≤ speed c s ρ' * weight H ∧
            |v - D| ≤ speed c s ρ' ^ 3 * weight H * h ^ 2 / 6 := by
  obtain ⟨symbols, h1, h2, h3, h4⟩ := gradient_spec sim ρ hsim order ho key hk hH c hb hbind st
  refine ⟨symbols, h1, h2, h3, fun h hh ps ρ' hl ha hu st' => ?_⟩
  obtain ⟨g, g1, g2, g3⟩ := h4 h hh.ne' ps ρ' hl ha hu st'
  refine ⟨g, g1, g2, fun i s p hs hp hm => ?_⟩
  obtain ⟨D, d1, d2, d3⟩ := difference_bound c hbind s ρ' hm p (by
    have := assigns_shift h2 ha hs hp (p - p)
    rw [add_sub_cancel] at this
    exact hu _ (by simp [shifted]) _ this) H
  exact ⟨_, D, g3 i s p hs hp, d1, d2, d3 h hh⟩

/-! ## An instance -/

/-- A controlled `RX(2 t)`, `XY(t + u)`, `U3(t, u, -t)` and the dagger of `CPHASE(u)`. -/
noncomputable def scaled : Circuit :=
  ⟨[⟨.ctrl (.factory ⟨"RX", param1 rxMatrix, 1, false⟩ [.bin (· * ·) (.num 2) (.sym "t")]) 1, [0, 1]⟩,
    ⟨.factory ⟨"XY", param1 xyMatrix, 2, false⟩ [.bin (· + ·) (.sym "t") (.sym "u")], [0, 1]⟩,
    ⟨.factory ⟨"U3", .builtin fun l => u3Matrix (l.getD 0 0) (l.getD 1 0) (l.getD 2 0), 1, false⟩ [.sym "t", .sym "u", .un (- ·) (.sym "t")], [0]⟩,
    ⟨.dag (.factory ⟨"CPHASE", param1 cphaseMatrix, 2, false⟩ [.sym "u"]), [1, 0]⟩], 2⟩

theorem scaled_moves (ρ : String → ℂ) (u : ℝ) (hu : ρ "u" = u) : ∀ op ∈ scaled.ops, Moves "t" ρ op.gate := by
  have h2 : Affine "t" ρ (.bin (· * ·) (.num 2) (.sym "t")) := ⟨2, 0, fun t => by simp [Expr.eval]⟩
  have ha : Affine "t" ρ (.bin (· + ·) (.sym "t") (.sym "u")) := ⟨1, u, fun t => by simp [Expr.eval, hu]⟩
  have ht : Affine "t" ρ (.sym "t") := ⟨1, 0, fun t => by simp [Expr.eval]⟩
  have hu' : Affine "t" ρ (.sym "u") := ⟨0, u, fun t => by simp [Expr.eval, hu]⟩
  have hn : Affine "t" ρ (.un (- ·) (.sym "t")) := ⟨-1, 0, fun t => by simp [Expr.eval]⟩
  intro op hop
  simp only [scaled, List.mem_cons, List.not_mem_nil, or_false] at hop
  rcases hop with rfl | rfl | rfl | rfl
  · exact .inr ⟨by simp [Gate.AllBase, parametricGates], by simpa [Gate.params] using h2⟩
  · exact .inr ⟨by simp [Gate.AllBase, parametricGates], by simpa [Gate.params] using ha⟩
  · exact .inr ⟨by simp [Gate.AllBase, parametricGates], by simpa [Gate.params] using ⟨ht, hu', hn⟩⟩
  · exact .inl (by simp [Gate.freeSymbols, Gate.params, Expr.getFreeSymbols, Expr.free])

theorem scaled_speed (ρ : String → ℂ) : speed scaled "t" ρ = 5 := by
  simp [speed, scaled, Gate.params, slope, Expr.eval]
  norm_num

theorem scaled_bindable : Ansatz.Bindable scaled := by
  refine ⟨by intro h; simp [scaled] at h, fun op hop => ?_⟩
  simp only [scaled, List.mem_cons, List.not_mem_nil, or_false] at hop
  have hb : ∀ b ∈ parametricGates, ∀ ps, (Gate.factory b ps).WF := fun b hb ps => builtin_wf b (List.mem_append_right _ hb) ps
  rcases hop with rfl | rfl | rfl | rfl
  · exact ⟨.controlled (g := .factory _ _) 1 (.factory _ _) rfl, ⟨le_refl _, hb _ (by simp [parametricGates]) _⟩, fun m => ⟨trivial, trivial⟩⟩
  · exact ⟨.factory _ _, hb _ (by simp [parametricGates]) _, fun m => ⟨trivial, trivial⟩⟩
  · exact ⟨.factory _ _, hb _ (by simp [parametricGates]) _, fun m => ⟨trivial, trivial⟩⟩
  · exact ⟨Gate.Reachable.dagger (g := .factory ⟨"CPHASE", param1 cphaseMatrix, 2, false⟩ [.sym "u"]) (.factory _ _), hb ⟨"CPHASE", param1 cphaseMatrix, 2, false⟩ (by simp [parametricGates]) [.sym "u"], fun m => ⟨trivial, trivial⟩⟩

theorem scaled_unitary (ρ : String → ℂ) (t u : ℝ) (ht : ρ "t" = t) (hu : ρ "u" = u) : Unitary ρ scaled := by
  have hw := scaled_bindable
  refine ⟨hw.1, fun op hop => ?_, fun op hop => ?_⟩
  · have hw' := (hw.2 op hop).2.1
    simp only [scaled, List.mem_cons, List.not_mem_nil, or_false] at hop
    rcases hop with rfl | rfl | rfl | rfl <;> exact ⟨by simp, by simp, by simp [scaled], rfl, hw'⟩
  · simp only [scaled, List.mem_cons, List.not_mem_nil, or_false] at hop
    rcases hop with rfl | rfl | rfl | rfl
    all_goals
      refine builtin_unitary _ (List.mem_append_right _ (by simp [parametricGates])) _ ρ ?_
      simp [Expr.eval, ht, hu]

/-- The hypotheses of the theorems are met by this circuit, whose symbol "t" has the speed 5. -/
example : ∃ D : ℝ, HasDerivAt (fun t : ℝ => energy scaled (opMatrix 2 [([(0, .Z)], 1), ([(1, .X)], -2)]) (Function.update (fun _ => 0) "t" (t : ℂ))) D 1 ∧ |D| ≤ 15 ∧
    |(energy scaled (opMatrix 2 [([(0, .Z)], 1), ([(1, .X)], -2)]) (Function.update (fun _ => 0) "t" ((1 + 1 / 100 : ℝ) : ℂ)) -
      energy scaled (opMatrix 2 [([(0, .Z)], 1), ([(1, .X)], -2)]) (Function.update (fun _ => 0) "t" ((1 - 1 / 100 : ℝ) : ℂ))) / (2 * (1 / 100)) - D| ≤ 1 / 160 := by
  obtain ⟨D, d1, d2, d3⟩ := difference_bound scaled scaled_bindable "t" (fun _ => 0) (scaled_moves _ 0 (by simp)) 1
    (scaled_unitary _ 1 0 (by simp) (by simp)) [([(0, .Z)], 1), ([(1, .X)], -2)]
  have hw : weight [([(0, Letter.Z)], 1), ([(1, .X)], -2)] = 3 := by norm_num [weight]
  rw [scaled_speed, hw] at d2 d3
  exact ⟨D, d1, d2.trans (by norm_num), (d3 (1 / 100) (by norm_num)).trans (by norm_num)⟩

end ZQ.AngleBound
