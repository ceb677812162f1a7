import Verif.Model.Gradient
import Mathlib.Analysis.Calculus.MeanValue
import Mathlib.Analysis.Calculus.LineDeriv.Basic
import Mathlib.Analysis.Calculus.Deriv.Slope
import Mathlib.Analysis.Calculus.Deriv.Pow
import Mathlib.Analysis.SpecialFunctions.ExpDeriv
import Mathlib.LinearAlgebra.Matrix.Notation
import Mathlib.Data.List.OfFn
import Mathlib.Tactic.FieldSimp
import Mathlib.Tactic.Ring
import Mathlib.Tactic.Linarith
import Mathlib.LinearAlgebra.Matrix.DotProduct

/-! C56: the finite difference gradient. -/

namespace ZQ.Gradient

open ZQ.History

variable {W E : Type}

/-- A function without effects, as an effectful one that also writes down its arguments. -/
def logged (g : List ℝ → ℝ) : Target (List (List ℝ)) E (List ℝ) ℝ := fun w p => (.ok (g p), w ++ [p])

/-- The `i`-th unit vector. -/
def unit {n : ℕ} (i : Fin n) : Fin n → ℝ := Pi.single i 1

/-- A function of vectors as a function of lists. -/
def onLists {n : ℕ} (F : (Fin n → ℝ) → ℝ) (l : List ℝ) : ℝ := F fun i => l.getD i 0

theorem shifted_ofFn {n : ℕ} (x : Fin n → ℝ) (i : Fin n) (d : ℝ) : shifted (List.ofFn x) i d = List.ofFn (x + d • unit i) := by
  apply List.ext_getElem
  · simp [shifted]
  · intro k h1 h2
    have h1' : k < ((List.ofFn x).modify i (· + d)).length := h1
    show ((List.ofFn x).modify i (· + d))[k]'h1' = _
    rw [List.getElem_modify, List.getElem_ofFn, List.getElem_ofFn]
    by_cases hk : (i : ℕ) = k
    · subst hk; simp [unit]
    · have : (⟨k, by simpa using h2⟩ : Fin n) ≠ i := fun e => hk (by rw [← e])
      rw [if_neg hk]
      simp [unit, Pi.single_eq_of_ne this]

theorem onLists_ofFn {n : ℕ} (F : (Fin n → ℝ) → ℝ) (x : Fin n → ℝ) : onLists F (List.ofFn x) = F x := by
  rw [onLists]
  congr 1
  funext i
  rw [List.getD_eq_getElem?_getD, List.getElem?_eq_getElem (by simp), Option.getD_some, List.getElem_ofFn]

theorem gradientLoop_logged (z : E) (g : List ℝ → ℝ) (h : ℝ) (hh : h ≠ 0) (p : List ℝ) (is : List ℕ) (acc : List ℝ) (w : List (List ℝ)) :
    gradientLoop z (logged g) h p is acc w =
      (.ok (acc ++ is.map fun i => (g (shifted p i h) - g (shifted p i (-h))) / (2 * h)),
        w ++ is.flatMap fun i => [shifted p i h, shifted p i (-h)]) := by
  induction is generalizing acc w with
  | nil => simp [gradientLoop]
  | cons i is ih =>
    have h2 : ¬ 2 * h = 0 := mul_ne_zero two_ne_zero hh
    have e : gradientLoop z (logged g) h p (i :: is) acc w =
        if 2 * h = 0 then (.error z, (w ++ [shifted p i h]) ++ [shifted p i (-h)])
        else gradientLoop z (logged g) h p is (acc ++ [(g (shifted p i h) - g (shifted p i (-h))) / (2 * h)]) ((w ++ [shifted p i h]) ++ [shifted p i (-h)]) :=
      rfl
    rw [e, if_neg h2, ih]
    simp

/-- C56: the function is evaluated exactly at `x ± h e_i`, in the order of the parameters, plus before minus, and at no other point; the result is
the list of central differences. -/
theorem finiteDifferences_spec (z : E) {n : ℕ} (F : (Fin n → ℝ) → ℝ) (h : ℝ) (hh : h ≠ 0) (x : Fin n → ℝ) (w : List (List ℝ)) :
    finiteDifferences z (logged (onLists F)) h (List.ofFn x) w =
      (.ok (List.ofFn fun i => (F (x + h • unit i) - F (x - h • unit i)) / (2 * h)),
        w ++ (List.ofFn fun i => [List.ofFn (x + h • unit i), List.ofFn (x - h • unit i)]).flatten) := by
  rw [finiteDifferences, gradientLoop_logged z _ h hh, List.nil_append, List.length_ofFn]
  have hr : List.range n = List.ofFn fun i : Fin n => (i : ℕ) := by
    apply List.ext_getElem <;> simp
  have hm : ∀ i : Fin n, shifted (List.ofFn x) i (-h) = List.ofFn (x - h • unit i) := by
    intro i; rw [shifted_ofFn, neg_smul, ← sub_eq_add_neg]
  rw [hr, List.map_ofFn, List.flatMap, List.map_ofFn]
  congr 1
  · congr 2
    funext i
    show (onLists F (shifted (List.ofFn x) i h) - onLists F (shifted (List.ofFn x) i (-h))) / (2 * h) = _
    rw [shifted_ofFn, hm, onLists_ofFn, onLists_ofFn]
  · congr 3
    funext i
    show [shifted (List.ofFn x) i h, shifted (List.ofFn x) i (-h)] = _
    rw [shifted_ofFn, hm]

/-- C56: there are `2 n` evaluations. -/
theorem finiteDifferences_count (z : E) (g : List ℝ → ℝ) (h : ℝ) (hh : h ≠ 0) (p : List ℝ) (w : List (List ℝ)) :
    (finiteDifferences z (logged g) h p w).2.length = w.length + 2 * p.length := by
  rw [finiteDifferences, gradientLoop_logged z _ h hh, List.length_append]
  have : ∀ is : List ℕ, (is.flatMap fun i => [shifted p i h, shifted p i (-h)]).length = 2 * is.length := by
    intro is
    induction is with
    | nil => rfl
    | cons i is ih => rw [List.flatMap_cons, List.length_append, ih]; simp; ring
  rw [this, List.length_range]

/-- C56: a step of zero is an error for every non-empty parameter vector. -/
theorem finiteDifferences_zero_step (z : E) (g : List ℝ → ℝ) (p : List ℝ) (hp : p ≠ []) (w : List (List ℝ)) :
    (finiteDifferences z (logged g) 0 p w).1 = .error z := by
  rw [finiteDifferences]
  cases p with
  | nil => exact absurd rfl hp
  | cons a p =>
    rw [List.length_cons, List.range_succ_eq_map]
    have e : ∀ is acc, gradientLoop z (logged g) 0 (a :: p) (0 :: is) acc w =
        if 2 * (0 : ℝ) = 0 then (.error z, (w ++ [shifted (a :: p) 0 0]) ++ [shifted (a :: p) 0 (-0)])
        else gradientLoop z (logged g) 0 (a :: p) is (acc ++ [(g (shifted (a :: p) 0 0) - g (shifted (a :: p) 0 (-0))) / (2 * 0)])
          ((w ++ [shifted (a :: p) 0 0]) ++ [shifted (a :: p) 0 (-0)]) := fun _ _ => rfl
    rw [e, if_pos (mul_zero 2)]

/-- C56: an exception of the function at the first point is passed on, and nothing more is evaluated. -/
theorem finiteDifferences_raises (z : E) (f : Target W E (List ℝ) ℝ) (h a : ℝ) (p : List ℝ) (w w' : W) (e : E)
    (hf : f w (shifted (a :: p) 0 h) = (.error e, w')) : finiteDifferences z f h (a :: p) w = (.error e, w') := by
  rw [finiteDifferences, List.length_cons, List.range_succ_eq_map, gradientLoop, hf]

/-- C56: the gradient is linear in the function. -/
theorem finiteDifferences_linear (z : E) {n : ℕ} (F G : (Fin n → ℝ) → ℝ) (a b h : ℝ) (hh : h ≠ 0) (x : Fin n → ℝ) (w : List (List ℝ)) :
    ∃ u v : Fin n → ℝ,
      (finiteDifferences z (logged (onLists F)) h (List.ofFn x) w).1 = .ok (List.ofFn u) ∧
      (finiteDifferences z (logged (onLists G)) h (List.ofFn x) w).1 = .ok (List.ofFn v) ∧
      (finiteDifferences z (logged (onLists fun y => a * F y + b * G y)) h (List.ofFn x) w).1 = .ok (List.ofFn (a • u + b • v)) := by
  refine ⟨_, _, by rw [finiteDifferences_spec z F h hh], by rw [finiteDifferences_spec z G h hh], ?_⟩
  rw [finiteDifferences_spec z _ h hh]
  refine congrArg Except.ok (congrArg List.ofFn (funext fun i => ?_))
  show _ = a * _ + b * _
  ring

open Matrix in
/-- C56: for a polynomial of degree at most two the result is the gradient, whatever the step is. -/
theorem finiteDifferences_quadratic (z : E) {n : ℕ} (c : ℝ) (b : Fin n → ℝ) (A : Matrix (Fin n) (Fin n) ℝ) (h : ℝ) (hh : h ≠ 0) (x : Fin n → ℝ)
    (w : List (List ℝ)) :
    (finiteDifferences z (logged (onLists fun y => c + b ⬝ᵥ y + y ⬝ᵥ (A *ᵥ y))) h (List.ofFn x) w).1 =
      .ok (List.ofFn fun i => b i + ∑ j, (A i j + A j i) * x j) := by
  rw [finiteDifferences_spec z _ h hh]
  refine congrArg Except.ok (congrArg List.ofFn (funext fun i => ?_))
  have h1 : ∀ y, unit i ⬝ᵥ y = y i := fun y => by simp [unit]
  have h2 : ∀ y : Fin n → ℝ, y ⬝ᵥ unit i = y i := fun y => by simp [unit]
  have e : ∑ j, (A i j + A j i) * x j = (A *ᵥ x) i + x ⬝ᵥ (A *ᵥ unit i) := by
    have : x ⬝ᵥ (A *ᵥ unit i) = ∑ j, A j i * x j := by
      refine Finset.sum_congr rfl fun j _ => ?_
      rw [mul_comm]; congr 1; exact h2 (A j)
    rw [this]
    show _ = (∑ j, A i j * x j) + _
    rw [← Finset.sum_add_distrib]
    exact Finset.sum_congr rfl fun j _ => by ring
  rw [e]
  simp only [mulVec_add, mulVec_sub, mulVec_smul, dotProduct_add, dotProduct_sub, add_dotProduct, sub_dotProduct, dotProduct_smul, smul_dotProduct,
    smul_eq_mul, h1, h2]
  field_simp
  ring

/-- C56: where the function has a partial derivative, the central difference tends to it as the step goes to zero. -/
theorem finiteDifferences_tendsto {n : ℕ} (F : (Fin n → ℝ) → ℝ) (x : Fin n → ℝ) (i : Fin n) (d : ℝ) (hd : HasLineDerivAt ℝ F d x (unit i)) :
    Filter.Tendsto (fun h : ℝ => (F (x + h • unit i) - F (x - h • unit i)) / (2 * h)) (nhdsWithin 0 {0}ᶜ) (nhds d) := by
  have hp : HasDerivAt (fun t : ℝ => F (x + t • unit i)) d 0 := hd
  have hm : HasDerivAt (fun t : ℝ => F (x - t • unit i)) (-d) 0 := by
    have h0 : HasDerivAt (fun t : ℝ => -t) (-1) 0 := hasDerivAt_neg' 0
    have hp' : HasDerivAt (fun t : ℝ => F (x + t • unit i)) d (-0) := by rw [neg_zero]; exact hp
    have := HasDerivAt.comp (0 : ℝ) hp' h0
    rw [mul_neg, mul_one] at this
    refine this.congr_of_eventuallyEq (Filter.Eventually.of_forall fun t => ?_)
    show _ = F (x + (-t) • unit i)
    rw [neg_smul, ← sub_eq_add_neg]
  have ht := (hasDerivAt_iff_tendsto_slope.1 (hp.sub hm)).div_const 2
  have e : (d - -d) / 2 = d := by ring
  rw [e] at ht
  refine ht.congr' ?_
  filter_upwards [self_mem_nhdsWithin] with t ht0
  have ht0 : t ≠ 0 := ht0
  rw [slope_def_field]
  simp only [Pi.sub_apply, zero_smul, add_zero, sub_zero, sub_self]
  field_simp

/-- C56: if the function has three derivatives along the `i`-th axis and the third is bounded by `M` between `-h` and `h`, the error is at most
`M h² / 6`. -/
theorem finiteDifferences_error {n : ℕ} (F : (Fin n → ℝ) → ℝ) (x : Fin n → ℝ) (i : Fin n) (φ₁ φ₂ φ₃ : ℝ → ℝ) (M h : ℝ) (hh : 0 < h)
    (h1 : ∀ t, HasDerivAt (fun t : ℝ => F (x + t • unit i)) (φ₁ t) t) (h2 : ∀ t, HasDerivAt φ₁ (φ₂ t) t) (h3 : ∀ t, HasDerivAt φ₂ (φ₃ t) t)
    (hM : ∀ t ∈ Set.Icc (-h) h, |φ₃ t| ≤ M) :
    |(F (x + h • unit i) - F (x - h • unit i)) / (2 * h) - φ₁ 0| ≤ M * h ^ 2 / 6 := by
  set φ : ℝ → ℝ := fun t => F (x + t • unit i) with hφ
  have neg : ∀ {f : ℝ → ℝ} {f' : ℝ → ℝ}, (∀ t, HasDerivAt f (f' t) t) → ∀ t, HasDerivAt (fun t => f (-t)) (-f' (-t)) t := by
    intro f f' hf t
    have := HasDerivAt.comp t (hf (-t)) (hasDerivAt_neg' t)
    rw [mul_neg, mul_one] at this
    exact this
  -- second derivative of the odd part
  have b2 : ∀ t ∈ Set.Icc (0 : ℝ) h, |φ₂ t - φ₂ (-t)| ≤ M * (2 * t) := by
    intro t ht
    have := (convex_Icc (-h) h).norm_image_sub_le_of_norm_hasDerivWithin_le (f := φ₂) (f' := φ₃) (C := M)
      (fun y _ => (h3 y).hasDerivWithinAt) (fun y hy => by rw [Real.norm_eq_abs]; exact hM y hy)
      (show -t ∈ Set.Icc (-h) h from ⟨by linarith [ht.2], by linarith [ht.1]⟩) (show t ∈ Set.Icc (-h) h from ⟨by linarith [ht.1], ht.2⟩)
    rw [Real.norm_eq_abs, Real.norm_eq_abs] at this
    have e : |t - -t| = 2 * t := by rw [sub_neg_eq_add, ← two_mul, abs_of_nonneg (by linarith [ht.1])]
    rwa [e] at this
  -- first derivative
  have b1 : ∀ t ∈ Set.Icc (0 : ℝ) h, ‖φ₁ t + φ₁ (-t) - 2 * φ₁ 0‖ ≤ M * t ^ 2 := by
    have hd : ∀ t, HasDerivAt (fun t => φ₁ t + φ₁ (-t) - 2 * φ₁ 0) (φ₂ t - φ₂ (-t)) t := by
      intro t
      have := ((h2 t).add (neg h2 t)).sub_const (2 * φ₁ 0)
      rw [← sub_eq_add_neg] at this
      exact this
    have hB : ∀ t : ℝ, HasDerivAt (fun t => M * t ^ 2) (M * (2 * t)) t := by
      intro t
      have := (hasDerivAt_pow 2 t).const_mul M
      simpa using this
    refine image_norm_le_of_norm_deriv_right_le_deriv_boundary (f := fun t => φ₁ t + φ₁ (-t) - 2 * φ₁ 0) (f' := fun t => φ₂ t - φ₂ (-t))
      (fun t _ => (hd t).continuousAt.continuousWithinAt) (fun t _ => (hd t).hasDerivWithinAt) ?_ hB ?_
    · simp only [neg_zero]; rw [← two_mul, sub_self, norm_zero]; simp
    · intro t ht
      rw [Real.norm_eq_abs]; exact b2 t ⟨ht.1, ht.2.le⟩
  have b0 : ∀ t ∈ Set.Icc (0 : ℝ) h, ‖φ t - φ (-t) - 2 * φ₁ 0 * t‖ ≤ M * t ^ 3 / 3 := by
    have hd : ∀ t, HasDerivAt (fun t => φ t - φ (-t) - 2 * φ₁ 0 * t) (φ₁ t + φ₁ (-t) - 2 * φ₁ 0) t := by
      intro t
      have := ((h1 t).sub (neg h1 t)).sub ((hasDerivAt_id t).const_mul (2 * φ₁ 0))
      rw [sub_neg_eq_add, mul_one] at this
      exact this
    have hB : ∀ t : ℝ, HasDerivAt (fun t => M * t ^ 3 / 3) (M * t ^ 2) t := by
      intro t
      have := ((hasDerivAt_pow 3 t).const_mul M).div_const 3
      refine this.congr_deriv ?_
      push_cast
      ring
    refine image_norm_le_of_norm_deriv_right_le_deriv_boundary (f := fun t => φ t - φ (-t) - 2 * φ₁ 0 * t) (f' := fun t => φ₁ t + φ₁ (-t) - 2 * φ₁ 0)
      (fun t _ => (hd t).continuousAt.continuousWithinAt) (fun t _ => (hd t).hasDerivWithinAt) ?_ hB ?_
    · simp
    · intro t ht
      exact b1 t ⟨ht.1, ht.2.le⟩
  have hb := b0 h ⟨hh.le, le_refl _⟩
  rw [Real.norm_eq_abs] at hb
  have e : (F (x + h • unit i) - F (x - h • unit i)) / (2 * h) - φ₁ 0 = (φ h - φ (-h) - 2 * φ₁ 0 * h) / (2 * h) := by
    have : φ (-h) = F (x - h • unit i) := by rw [hφ]; simp only [neg_smul, ← sub_eq_add_neg]
    rw [this]
    field_simp
    rfl
  rw [e, abs_div, abs_of_pos (show 0 < 2 * h by linarith), div_le_iff₀ (by linarith)]
  calc |φ h - φ (-h) - 2 * φ₁ 0 * h| ≤ M * h ^ 3 / 3 := hb
    _ = M * h ^ 2 / 6 * (2 * h) := by ring

/-- The function `x₀ x₁` at a point: a case of `finiteDifferences_quadratic` with a non-zero gradient. -/
example (z : E) : (finiteDifferences z (logged (onLists fun y : Fin 2 → ℝ => 0 + dotProduct (fun _ => 0) y +
    dotProduct y (Matrix.mulVec (!![0, 1; 0, 0]) y))) (1 / 2) (List.ofFn ![3, 5]) []).1 = .ok [5, 3] := by
  rw [finiteDifferences_quadratic z 0 _ _ _ (by norm_num)]
  simp [Fin.sum_univ_two, List.ofFn_succ]

/-- The exponential meets the hypotheses of `finiteDifferences_error`. -/
example : ∃ M : ℝ, (∀ t, HasDerivAt (fun t : ℝ => Real.exp t) (Real.exp t) t) ∧ ∀ t ∈ Set.Icc (-1 : ℝ) 1, |Real.exp t| ≤ M :=
  ⟨Real.exp 1, fun t => Real.hasDerivAt_exp t, fun t ht => by rw [abs_of_pos (Real.exp_pos t)]; exact Real.exp_le_exp.2 ht.2⟩

end ZQ.Gradient
