import Verif.Props.GradientConfidence
import Verif.Props.AngleBound

/-! C144: how many shots are enough for the gradient of a circuit with affine angles. -/

namespace ZQ.Stat

open ZQ ZQ.Op ZQ.Gates ZQ.Circuits ZQ.Expect ZQ.Gradient ZQ.Backend ZQ.Est ZQ.EnergyGradient MeasureTheory ProbabilityTheory Matrix
open ZQ.AngleBound (Moves speed Affine scaled)

variable {Ω : Type} [MeasurableSpace Ω]

/-- Specification: at real values of the symbols, all angles are affine in each of the symbols.  The slopes may depend on the other symbols. -/
def AngleCircuit (c : Circuit) : Prop :=
  ∀ ρ' : String → ℂ, (∀ x ∈ c.freeSymbols, (ρ' x).im = 0) → ∀ x ∈ c.freeSymbols, ∀ op ∈ c.ops, Moves x ρ' op.gate

theorem angles_biased {c : Circuit} (hbind : Ansatz.Bindable c) (hu : ∀ ρ' : String → ℂ, (∀ x ∈ c.freeSymbols, (ρ' x).im = 0) → Unitary ρ' c)
    (hm : AngleCircuit c) (H : Terms Letter) : Biased c H fun ρ' x => speed c x ρ' ^ 3 * weight H := by
  intro ρ' him x hx p hp
  obtain ⟨D, d1, -, d3⟩ := AngleBound.difference_bound c hbind x ρ' (hm ρ' him x hx) p (by
    rw [← hp, Function.update_eq_self]
    exact hu ρ' him) H
  exact ⟨D, d1, d3⟩

theorem speed_nonneg (c : Circuit) (x : String) (ρ : String → ℂ) : 0 ≤ speed c x ρ := by
  refine List.sum_nonneg fun y hy => ?_
  obtain ⟨op, -, rfl⟩ := List.mem_map.1 hy
  refine List.sum_nonneg fun z hz => ?_
  obtain ⟨p, -, rfl⟩ := List.mem_map.1 hz
  exact abs_nonneg _

/-- C144.  For circuits with affine angles the measured gradient never fails, and some entry of it is further than `r³ w h² / 6 + δ` from the partial derivative with probability at
most `2 n exp (-s h² δ² / R)`, where `r` is the sum of the absolute slopes of the angles in the symbol of the entry; the rest as in C141. -/
theorem angles_confidence (P : Measure Ω) [IsProbabilityMeasure P] {r : Ω → Randomness} (hr : FreshRandom P r) (ρ : String → ℂ) (order : List String → List String)
    (ho : Cost.IsSetOrder order) (key : List Char → List Sorting.Item) (hk : ∀ x, Sorting.Alternating (key x)) {c : Circuit} (hbind : Ansatz.Bindable c) (hq : 0 < c.n)
    (hu : ∀ ρ' : String → ℂ, (∀ x ∈ c.freeSymbols, (ρ' x).im = 0) → Unitary ρ' c) (hm : AngleCircuit c) {H : Terms Letter} (hH : CanonicalOp H) (hne : H ≠ [])
    (hbig : ∀ kv ∈ H, 1 / 10 ^ 8 ≤ ‖kv.2‖) (hreal : ∀ kv ∈ H, kv.2.im = 0) (hb : Below c.n H) (sortTerms : Bool) (s : ℕ) (hs : 0 < s) :
    ∃ T symbols, Prepared order key H c sortTerms s T symbols ∧
      ∀ (h : ℝ), 0 < h → ∀ (ps : List ℝ) (ρ' : String → ℂ), symbols.length = ps.length → Assigns symbols ps ρ ρ' → ∀ st : St ℕ,
        (∀ ω, ∃ g, (Cost.costGradient (averagingMethod (r ω) none ρ) (Cost.expectationValueFactory (T, symbols)) [] h ps st).1 = .ok g ∧ g.length = ps.length) ∧
        ∃ D : ℕ → ℝ,
          (∀ (i : ℕ) x p, symbols[i]? = some x → ps[i]? = some p → HasDerivAt (fun t : ℝ => energy c (opMatrix c.n H) (Function.update ρ' x (t : ℂ))) (D i) p) ∧
          ∀ δ, 0 ≤ δ → P.real {ω | ∃ g, (Cost.costGradient (averagingMethod (r ω) none ρ) (Cost.expectationValueFactory (T, symbols)) [] h ps st).1 = .ok g ∧
              ∃ (i : ℕ) (x : String) (v : ℝ), symbols[i]? = some x ∧ g[i]? = some v ∧ speed c x ρ' ^ 3 * weight H * h ^ 2 / 6 + δ ≤ |v - D i|} ≤
            2 * ps.length * Real.exp (-(s * h ^ 2 * δ ^ 2) / groupReach H sortTerms) :=
  biased_confidence P hr ρ order ho key hk hbind hq hu (angles_biased hbind hu hm H) hH hne hbig hreal hb sortTerms s hs

/-- C144.  So `R log (2 n / η) / (h² δ²)` shots for each group are enough for a gradient all of whose entries are within `r³ w h² / 6 + δ` of the partial derivatives, except with
probability `η`. -/
theorem angles_enough (P : Measure Ω) [IsProbabilityMeasure P] {r : Ω → Randomness} (hr : FreshRandom P r) (ρ : String → ℂ) (order : List String → List String)
    (ho : Cost.IsSetOrder order) (key : List Char → List Sorting.Item) (hk : ∀ x, Sorting.Alternating (key x)) {c : Circuit} (hbind : Ansatz.Bindable c) (hq : 0 < c.n)
    (hu : ∀ ρ' : String → ℂ, (∀ x ∈ c.freeSymbols, (ρ' x).im = 0) → Unitary ρ' c) (hm : AngleCircuit c) {H : Terms Letter} (hH : CanonicalOp H)
    (hbig : ∀ kv ∈ H, 1 / 10 ^ 8 ≤ ‖kv.2‖) (hreal : ∀ kv ∈ H, kv.2.im = 0) (hb : Below c.n H) (sortTerms : Bool) (hterm : ∃ kv ∈ H, kv.1 ≠ [])
    {h δ η : ℝ} (hh : 0 < h) (hδ : 0 < δ) (hη : 0 < η) (s : ℕ) (hs : 0 < s) (henough : groupReach H sortTerms * Real.log (2 * c.freeSymbols.length / η) / (h ^ 2 * δ ^ 2) ≤ s) :
    ∃ T symbols, Prepared order key H c sortTerms s T symbols ∧
      ∀ (ps : List ℝ) (ρ' : String → ℂ), symbols.length = ps.length → Assigns symbols ps ρ ρ' → ∀ st : St ℕ, ∃ D : ℕ → ℝ,
          (∀ (i : ℕ) x p, symbols[i]? = some x → ps[i]? = some p → HasDerivAt (fun t : ℝ => energy c (opMatrix c.n H) (Function.update ρ' x (t : ℂ))) (D i) p) ∧
          P.real {ω | ∃ g, (Cost.costGradient (averagingMethod (r ω) none ρ) (Cost.expectationValueFactory (T, symbols)) [] h ps st).1 = .ok g ∧
              ∃ (i : ℕ) (x : String) (v : ℝ), symbols[i]? = some x ∧ g[i]? = some v ∧ speed c x ρ' ^ 3 * weight H * h ^ 2 / 6 + δ ≤ |v - D i|} ≤ η :=
  biased_enough P hr ρ order ho key hk hbind hq hu (angles_biased hbind hu hm H) hH hbig hreal hb sortTerms hterm hh hδ hη s hs henough

/-- C144.  If the slopes are bounded, for every precision and every probability there are a step and a number of shots such that, at all parameters and after every history, all entries
of the gradient are within the precision of the partial derivatives, except with that probability. -/
theorem angles_converge (P : Measure Ω) [IsProbabilityMeasure P] {r : Ω → Randomness} (hr : FreshRandom P r) (ρ : String → ℂ) (order : List String → List String)
    (ho : Cost.IsSetOrder order) (key : List Char → List Sorting.Item) (hk : ∀ x, Sorting.Alternating (key x)) {c : Circuit} (hbind : Ansatz.Bindable c) (hq : 0 < c.n)
    (hu : ∀ ρ' : String → ℂ, (∀ x ∈ c.freeSymbols, (ρ' x).im = 0) → Unitary ρ' c) (hm : AngleCircuit c) {H : Terms Letter} (hH : CanonicalOp H)
    (hbig : ∀ kv ∈ H, 1 / 10 ^ 8 ≤ ‖kv.2‖) (hreal : ∀ kv ∈ H, kv.2.im = 0) (hb : Below c.n H) (sortTerms : Bool) (hterm : ∃ kv ∈ H, kv.1 ≠ []) {K : ℝ}
    (hK : ∀ ρ' : String → ℂ, (∀ x ∈ c.freeSymbols, (ρ' x).im = 0) → ∀ x ∈ c.freeSymbols, speed c x ρ' ≤ K) {ε η : ℝ} (hε : 0 < ε) (hη : 0 < η) :
    ∃ (h : ℝ) (s : ℕ), 0 < h ∧ 0 < s ∧ ∃ T symbols, Prepared order key H c sortTerms s T symbols ∧
      ∀ (ps : List ℝ) (ρ' : String → ℂ), symbols.length = ps.length → Assigns symbols ps ρ ρ' → ∀ st : St ℕ, ∃ D : ℕ → ℝ,
          (∀ (i : ℕ) x p, symbols[i]? = some x → ps[i]? = some p → HasDerivAt (fun t : ℝ => energy c (opMatrix c.n H) (Function.update ρ' x (t : ℂ))) (D i) p) ∧
          P.real {ω | ∃ g, (Cost.costGradient (averagingMethod (r ω) none ρ) (Cost.expectationValueFactory (T, symbols)) [] h ps st).1 = .ok g ∧
              ∃ (i : ℕ) (v : ℝ), g[i]? = some v ∧ ε ≤ |v - D i|} ≤ η := by
  have hw : 0 ≤ weight H := List.sum_nonneg fun x hx => by
    obtain ⟨kv, -, rfl⟩ := List.mem_map.1 hx
    exact abs_nonneg _
  refine biased_converges P hr ρ order ho key hk hbind hq hu (angles_biased hbind hu hm H) (K := (max K 0) ^ 3 * weight H) (by positivity) (fun ρ' him x hx => ?_)
    hH hbig hreal hb sortTerms hterm hε hη
  have h1 := speed_nonneg c x ρ'
  have h2 : speed c x ρ' ≤ max K 0 := (hK ρ' him x hx).trans (le_max_left _ _)
  show speed c x ρ' ^ 3 * weight H ≤ _
  gcongr

/-! ## Non-vacuity -/

theorem scaled_free (x : String) : x ∈ scaled.freeSymbols ↔ x = "t" ∨ x = "u" := by
  rw [(circuit_free_symbols scaled).2.1]
  simp only [Gate.freeSymbols, Expr.mem_getFreeSymbols, scaled, List.mem_cons, List.not_mem_nil, or_false, exists_eq_or_imp, exists_eq_left, Gate.params, Expr.free,
    List.mem_append, false_or]
  tauto

/-- The circuit of a controlled `RX(2 t)`, `XY(t + u)`, `U3(t, u, -t)` and the dagger of `CPHASE(u)` satisfies the hypotheses; its speeds are 5 and 3. -/
example : Ansatz.Bindable scaled ∧ 0 < scaled.n ∧ (∀ ρ : String → ℂ, (∀ x ∈ scaled.freeSymbols, (ρ x).im = 0) → Unitary ρ scaled) ∧ AngleCircuit scaled ∧
    ∀ ρ : String → ℂ, speed scaled "t" ρ = 5 ∧ speed scaled "u" ρ = 3 := by
  have hre : ∀ ρ : String → ℂ, (∀ x ∈ scaled.freeSymbols, (ρ x).im = 0) → ∀ x ∈ scaled.freeSymbols, ρ x = ((ρ x).re : ℂ) := fun ρ h x hx =>
    Complex.ext (by simp) (by simp [h x hx])
  refine ⟨AngleBound.scaled_bindable, by simp [scaled], fun ρ h => ?_, fun ρ h x hx => ?_, fun ρ => ⟨AngleBound.scaled_speed ρ, ?_⟩⟩
  · exact AngleBound.scaled_unitary ρ _ _ (hre ρ h "t" (by simp [scaled_free])) (hre ρ h "u" (by simp [scaled_free]))
  · rw [scaled_free] at hx
    have ht := hre ρ h "t" (by simp [scaled_free])
    have hu := hre ρ h "u" (by simp [scaled_free])
    rcases hx with rfl | rfl
    · exact AngleBound.scaled_moves ρ _ hu
    · generalize (ρ "t").re = τ at ht
      have ha : Affine "u" ρ (.bin (· + ·) (.sym "t") (.sym "u")) := ⟨1, τ, fun t => by simp [Expr.eval, ht, add_comm]⟩
      have h1 : Affine "u" ρ (.sym "t") := ⟨0, τ, fun t => by simp [Expr.eval, ht]⟩
      have h2 : Affine "u" ρ (.sym "u") := ⟨1, 0, fun t => by simp [Expr.eval]⟩
      have h3 : Affine "u" ρ (.un (- ·) (.sym "t")) := ⟨0, -τ, fun t => by simp [Expr.eval, ht]⟩
      intro op hop
      simp only [scaled, List.mem_cons, List.not_mem_nil, or_false] at hop
      rcases hop with rfl | rfl | rfl | rfl
      · exact .inl (by simp [Gate.freeSymbols, Gate.params, Expr.getFreeSymbols, Expr.free])
      · exact .inr ⟨by simp [Gate.AllBase, parametricGates], by simpa [Gate.params] using ha⟩
      · exact .inr ⟨by simp [Gate.AllBase, parametricGates], by simpa [Gate.params] using ⟨h1, h2, h3⟩⟩
      · exact .inr ⟨by simp [Gate.AllBase, parametricGates], by simpa [Gate.params] using h2⟩
  · simp [speed, scaled, Gate.params, AngleBound.slope, Expr.eval]
    norm_num

end ZQ.Stat
