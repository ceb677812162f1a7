import Verif.Model.ExampleFunctions
import Verif.Props.Recorder
import Mathlib.Analysis.Calculus.Deriv.Pow
import Mathlib.Analysis.Calculus.Deriv.Add
import Mathlib.Analysis.Calculus.Deriv.Mul
import Mathlib.Data.Nat.Digits.Lemmas

/-!
# C127: example functions for recorders
-/

namespace ZQ.Examples

open ZQ ZQ.History

/-! ### Specification -/

/-- Specification: the i-th entry of `g` is the derivative of `f` in the i-th parameter, for every parameter. -/
def IsGradient (f : List ℝ → Except Err ℝ) (params g : List ℝ) : Prop :=
  g.length = params.length ∧ ∀ (i : ℕ) (x d : ℝ), params[i]? = some x → g[i]? = some d → ∃ F : ℝ → ℝ, (∀ t, f (params.set i t) = .ok (F t)) ∧ HasDerivAt F d x

/-- Specification: a text of binary digits, the most significant first, for the number `n`, without needless zeros. -/
def Binary (s : List Char) (n : ℕ) : Prop :=
  (∀ ch ∈ s, ch = '0' ∨ ch = '1') ∧ s.foldl (fun acc ch => 2 * acc + if ch = '1' then 1 else 0) 0 = n ∧ (s = ['0'] ∨ s.head? = some '1')

/-! ### Values and gradients -/

/-- C127. `sum_of_squares` is the sum of the squares; it is never negative, and 0 only for zeros. -/
theorem sumOfSquares_spec (params : List ℝ) : sumOfSquares params = (params.map fun x => x ^ 2).sum ∧ 0 ≤ sumOfSquares params ∧ (sumOfSquares params = 0 ↔ ∀ x ∈ params, x = 0) := by
  have h1 : ∀ (l : List ℝ) a, l.foldl (fun acc x => acc + x ^ 2) a = a + (l.map fun x => x ^ 2).sum := by
    intro l
    induction l with
    | nil => intro a; simp
    | cons x l ih => intro a; rw [List.foldl_cons, ih, List.map_cons, List.sum_cons]; ring
  have h2 : sumOfSquares params = (params.map fun x => x ^ 2).sum := by rw [sumOfSquares, h1, zero_add]
  have h3 : ∀ l : List ℝ, 0 ≤ (l.map fun x => x ^ 2).sum ∧ ((l.map fun x => x ^ 2).sum = 0 ↔ ∀ x ∈ l, x = 0) := by
    intro l
    induction l with
    | nil => simp
    | cons x l ih =>
      rw [List.map_cons, List.sum_cons]
      have hx := sq_nonneg x
      refine ⟨by linarith [ih.1], ?_⟩
      rw [List.forall_mem_cons, ← ih.2]
      constructor
      · intro h
        have : x ^ 2 = 0 := by linarith [ih.1]
        exact ⟨by simpa using this, by linarith [ih.1]⟩
      · rintro ⟨rfl, h⟩
        rw [h]; norm_num
  rw [h2]
  exact ⟨rfl, h3 params⟩

theorem deriv_poly (a b c x : ℝ) : HasDerivAt (fun t : ℝ => a * t ^ 2 + b * t + c) (2 * a * x + b) x := by
  have h1 : HasDerivAt (fun t : ℝ => a * t ^ 2) (a * (((2 : ℕ) : ℝ) * x ^ (2 - 1))) x := (hasDerivAt_pow 2 x).const_mul a
  have h2 : HasDerivAt (fun t : ℝ => b * t) (b * 1) x := (hasDerivAt_id x).const_mul b
  have h : HasDerivAt (fun t : ℝ => a * t ^ 2 + b * t + c) (a * (((2 : ℕ) : ℝ) * x ^ (2 - 1)) + b * 1) x := HasDerivAt.add_const c (HasDerivAt.add h1 h2)
  have e : a * (((2 : ℕ) : ℝ) * x ^ (2 - 1)) + b * 1 = 2 * a * x + b := by norm_num; ring
  rwa [e] at h

/-- A function that is a polynomial of degree two in a parameter. -/
theorem deriv_of {F : ℝ → ℝ} {d x : ℝ} (a b c : ℝ) (hF : ∀ t, F t = a * t ^ 2 + b * t + c) (hd : d = 2 * a * x + b) : HasDerivAt F d x := by
  have : F = fun t => a * t ^ 2 + b * t + c := funext hF
  rw [this, hd]
  exact deriv_poly a b c x

/-- C127. `function_1` is `x² - x y`, and its gradient is its gradient. -/
theorem function1_spec (x y : ℝ) : function1 [x, y] = .ok (x ^ 2 - x * y) ∧ ∃ g, gradient1 [x, y] = .ok g ∧ IsGradient function1 [x, y] g := by
  refine ⟨rfl, _, rfl, rfl, ?_⟩
  intro i u d hu hd
  match i with
  | 0 =>
    cases hu; cases hd
    exact ⟨fun t => t ^ 2 - t * y, fun t => rfl, deriv_of 1 (-y) 0 (fun t => by ring) (by ring)⟩
  | 1 =>
    cases hu; cases hd
    exact ⟨fun t => x ^ 2 - x * t, fun t => rfl, deriv_of 0 (-x) (x ^ 2) (fun t => by ring) (by ring)⟩
  | n + 2 => cases hu

/-- C127. `Function2(m)` is `m (x - x y + z²)`, and its gradient is its gradient. -/
theorem function2_spec (m x y z : ℝ) : function2 m [x, y, z] = .ok (m * (x - x * y + z ^ 2)) ∧ ∃ g, gradient2 m [x, y, z] = .ok g ∧ IsGradient (function2 m) [x, y, z] g := by
  refine ⟨rfl, _, rfl, rfl, ?_⟩
  intro i u d hu hd
  match i with
  | 0 =>
    cases hu; cases hd
    exact ⟨fun t => m * (t - t * y + z ^ 2), fun t => rfl, deriv_of 0 (m * (1 - y)) (m * z ^ 2) (fun t => by ring) (by ring)⟩
  | 1 =>
    cases hu; cases hd
    exact ⟨fun t => m * (x - x * t + z ^ 2), fun t => rfl, deriv_of 0 (-m * x) (m * (x + z ^ 2)) (fun t => by ring) (by ring)⟩
  | 2 =>
    cases hu; cases hd
    exact ⟨fun t => m * (x - x * y + t ^ 2), fun t => rfl, deriv_of m 0 (m * (x - x * y)) (fun t => by ring) (by ring)⟩
  | n + 3 => cases hu

/-- C127. `Function5(a)`, and so `function_6`, is `a x y z`, its gradient is its gradient, and it stores `x + y` exactly if `x` is positive, never by force. -/
theorem function5_spec (a x y z : ℝ) : (function5 a [x, y, z] = .ok (a * x * y * z, if 0 < x then [⟨"something", x + y, false⟩] else [])) ∧
    ∃ g, gradient5 a [x, y, z] = .ok g ∧ IsGradient (fun p => (function5 a p).map Prod.fst) [x, y, z] g := by
  have h5 : ∀ x y z : ℝ, function5 a [x, y, z] = .ok (a * x * y * z, if 0 < x then [⟨"something", x + y, false⟩] else []) := by
    intro x y z
    by_cases h : 0 < x
    · simp [function5, item, h, bind, Except.bind]
    · simp [function5, item, h, bind, Except.bind]
  refine ⟨h5 x y z, _, rfl, rfl, ?_⟩
  intro i u d hu hd
  match i with
  | 0 =>
    cases hu; cases hd
    refine ⟨fun t => a * t * y * z, fun t => ?_, deriv_of 0 (a * (y * z)) 0 (fun t => by ring) (by ring)⟩
    show (function5 a [t, y, z]).map Prod.fst = _
    rw [h5]; rfl
  | 1 =>
    cases hu; cases hd
    refine ⟨fun t => a * x * t * z, fun t => ?_, deriv_of 0 (a * (x * z)) 0 (fun t => by ring) (by ring)⟩
    show (function5 a [x, t, z]).map Prod.fst = _
    rw [h5]; rfl
  | 2 =>
    cases hu; cases hd
    refine ⟨fun t => a * x * y * t, fun t => ?_, deriv_of 0 (a * (x * y)) 0 (fun t => by ring) (by ring)⟩
    show (function5 a [x, y, t]).map Prod.fst = _
    rw [h5]; rfl
  | n + 3 => cases hu

/-- C127. Too few parameters are an `IndexError`, for the value and for the gradient. -/
theorem too_few (params : List ℝ) (m : ℝ) :
    (params.length < 2 → function1 params = .error .indexError ∧ gradient1 params = .error .indexError) ∧
    (params.length < 3 → function2 m params = .error .indexError ∧ gradient2 m params = .error .indexError ∧
      function5 m params = .error .indexError ∧ gradient5 m params = .error .indexError) := by
  constructor
  · intro h
    match params, h with
    | [], _ => exact ⟨rfl, rfl⟩
    | [x], _ => exact ⟨rfl, rfl⟩
  · intro h
    match params, h with
    | [], _ => exact ⟨rfl, rfl, rfl, rfl⟩
    | [x], _ =>
      refine ⟨rfl, rfl, ?_, rfl⟩
      by_cases hx : 0 < x <;> simp [function5, item, hx, bind, Except.bind]
    | [x, y], _ =>
      refine ⟨rfl, rfl, ?_, rfl⟩
      by_cases hx : 0 < x <;> simp [function5, item, hx, bind, Except.bind]

/-! ### Artifacts -/

theorem binary_digits (n : ℕ) : Binary (Nat.toDigits 2 n) n := by
  induction n using Nat.strong_induction_on with
  | _ n ih =>
    by_cases h : n < 2
    · rw [Nat.toDigits_of_lt_base h]
      interval_cases n
      · exact ⟨by decide, rfl, Or.inl rfl⟩
      · exact ⟨by decide, rfl, Or.inr rfl⟩
    · obtain ⟨h1, h2, h3⟩ := ih (n / 2) (by omega)
      rw [Nat.toDigits_eq_if (by omega), if_neg h]
      refine ⟨?_, ?_, Or.inr ?_⟩
      · intro ch hch
        rcases List.mem_append.1 hch with hch | hch
        · exact h1 ch hch
        · rw [List.mem_singleton.1 hch]
          rcases Nat.mod_two_eq_zero_or_one n with e | e <;> rw [e] <;> decide
      · rw [List.foldl_append, h2, List.foldl_cons, List.foldl_nil]
        rcases Nat.mod_two_eq_zero_or_one n with e | e
        · rw [e, if_neg (by decide)]; omega
        · rw [e, if_pos (by decide)]; omega
      · rcases h3 with h3 | h3
        · rw [h3] at h2
          simp at h2
          omega
        · cases hd : Nat.toDigits 2 (n / 2) with
          | nil => rw [hd] at h3; cases h3
          | cons c l => rw [hd] at h3; simpa using h3

/-- C127. For an integer that is not negative, `function_3` and `function_4` return its double and store its binary digits under the name "bitstring"; `function_4` stores by force exactly
for even integers, `function_3` never. Missing: negative integers, see `bitstring_counterexample`. -/
theorem bitstring_partial (n : ℕ) : ∃ s, Binary s n ∧ function3 (n : ℤ) = (2 * (n : ℤ), [⟨"bitstring", s, false⟩]) ∧ function4 (n : ℤ) = (2 * (n : ℤ), [⟨"bitstring", s, decide (Even n)⟩]) := by
  have hb : (bin n).drop 2 = Nat.toDigits 2 n := by
    rw [bin, if_neg (by omega)]
    simp
  refine ⟨Nat.toDigits 2 n, binary_digits n, by rw [function3, hb], ?_⟩
  rw [function4, hb]
  congr 3
  rw [decide_eq_decide, Nat.even_iff]
  omega

/-- C127, negation: for -5 the stored text is "b101". -/
theorem bitstring_counterexample : (function3 (-5)).2 = [⟨"bitstring", "b101".toList, false⟩] := by
  rw [function3, show (bin (-5)).drop 2 = "b101".toList by decide]

open Classical in
/-- C127. Recording `function_4` every n-th time: after any calls with integers that are not negative, the history has exactly the calls whose number `n` divides and the calls with even
integers, in order, each with its number, its integer, the double and the binary digits. -/
theorem recorded (n : ℤ) (hn : n ≠ 0) (ks : List ℕ) :
    let r := calls (callWithArtifacts (fun (_ : Unit) k => ((Except.ok (function4 k).1, (function4 k).2), ())) (everyNth Err.zeroDivision n)) (ks.map Int.ofNat) (fresh, ())
    r.1 = ks.map (fun (k : ℕ) => Except.ok (2 * (k : ℤ))) ∧
      List.Forall₂ (fun (e : ArtifactEntry ℤ ℤ (List Char)) (x : ℕ × ℕ) => e.callNumber = x.2 ∧ e.params = x.1 ∧ e.value = 2 * x.1 ∧
          ∃ s, PyDict.get? e.artifacts "bitstring" = some s ∧ Binary s x.1)
        r.2.1.history (ks.zipIdx.filter fun x => decide (n ∣ (x.2 : ℤ) ∨ Even x.1)) := by
  intro r
  obtain ⟨h1, -, ⟨new, h3, h4⟩, -⟩ := artifactRecorder_spec (W := Unit) (fun (_ : Unit) k => ((Except.ok (function4 k).1, (function4 k).2), ()))
    (everyNth Err.zeroDivision n) (fun _ _ k => decide (n ∣ (k : ℤ))) (fun v s k => (everyNth_spec _ n).1 hn v s k) (ks.map Int.ofNat) fresh ()
  have hd : ∀ ks : List ℕ, (directlyWith (E := Err) (fun (_ : Unit) (k : ℤ) => ((Except.ok (function4 k).1, (function4 k).2), ())) (ks.map Int.ofNat) ()).1 =
      ks.map fun (k : ℕ) => (.ok (function4 (k : ℤ)).1, (function4 (k : ℤ)).2) := by
    intro ks
    induction ks with
    | nil => rfl
    | cons k ks ih => rw [List.map_cons, directlyWith]; dsimp only; rw [ih]; rfl
  have hs : ∀ ks : List ℕ, succeededWith (E := Err) (ks.map Int.ofNat) (ks.map fun (k : ℕ) => (.ok (function4 (k : ℤ)).1, (function4 (k : ℤ)).2)) = ks.map fun (k : ℕ) => ((k : ℤ), (function4 k).1, (function4 k).2) := by
    intro ks
    induction ks with
    | nil => rfl
    | cons k ks ih => rw [List.map_cons, List.map_cons, succeededWith, ih]; rfl
  rw [hd] at h1 h4
  rw [hs] at h4
  constructor
  · rw [show r.1 = _ from h1, List.map_map]
    exact List.map_congr_left fun k _ => rfl
  · have hh : r.2.1.history = new := h3
    rw [hh]
    clear hh h3 h1 r
    rw [List.zipIdx_map, List.filter_map, List.forall₂_map_right_iff] at h4
    have hf : (ks.zipIdx (fresh (T := ArtifactEntry ℤ ℤ (List Char))).callNumber).filter ((fun x : (ℤ × ℤ × List (Store (List Char))) × ℕ => decide (Saved (fun _ _ k => decide (n ∣ (k : ℤ))) x)) ∘
        Prod.map (fun (k : ℕ) => ((k : ℤ), (function4 k).1, (function4 k).2)) id) = ks.zipIdx.filter fun x => decide (n ∣ (x.2 : ℤ) ∨ Even x.1) := by
      apply List.filter_congr
      intro x _
      obtain ⟨s, -, -, h4⟩ := bitstring_partial x.1
      simp only [Function.comp, decide_eq_decide]
      show (decide (n ∣ (x.2 : ℤ)) = true ∨ ∃ s ∈ (function4 (x.1 : ℤ)).2, s.force = true) ↔ _
      rw [h4]
      simp
    rw [hf] at h4
    refine h4.imp fun e x he => ?_
    obtain ⟨e1, e2, e3, e4⟩ := he
    obtain ⟨s, b, -, h4⟩ := bitstring_partial x.1
    refine ⟨e1, e2, ?_, s, ?_, b⟩
    · rw [e3]; rfl
    · rw [e4]
      show lastStored (function4 (x.1 : ℤ)).2 "bitstring" = _
      rw [h4]
      rfl

/-- Six is stored as 110. -/
example : function4 6 = (12, [⟨"bitstring", "110".toList, true⟩]) := by
  rw [function4, show (bin 6).drop 2 = "110".toList by decide]
  rfl

end ZQ.Examples
