import Verif.Props.MeasuredGradient
import Verif.Props.GradientBound

/-!
# C141: how many shots are enough for a gradient
-/

namespace ZQ.Stat

open ZQ ZQ.PyDict ZQ.Op ZQ.Circuits ZQ.Gates ZQ.Est ZQ.Expect ZQ.Backend ZQ.Gradient ZQ.EnergyGradient MeasureTheory ProbabilityTheory Matrix

variable {Ω : Type} [MeasurableSpace Ω]

/-- Specification: the cost function of a circuit and an operator, measured with greedy grouping, `s` shots for each group and changes of bases, is prepared without exceptions as
the tasks `T` with the symbols of the circuit. -/
def Prepared (order : List String → List String) (key : List Char → List Sorting.Item) (H : Terms Letter) (c : Circuit) (sortTerms : Bool) (s : ℕ) (T : List Task)
    (symbols : List String) : Prop :=
  (∀ st : St ℕ, Cost.prepare order key H c [Cost.effectless fun l => .ok (groupGreedily l sortTerms), Cost.effectless fun l => allocateUniformly l s,
    Cost.effectless performContextSelection] st () = (.ok (T, symbols), st)) ∧ symbols.Nodup ∧ ∀ x, x ∈ symbols ↔ x ∈ c.freeSymbols

/-- Specification: how far the values of the groups of an operator are from their constants, squared. -/
noncomputable def groupReach (H : Terms Letter) (sortTerms : Bool) : ℝ := ((groupGreedy H sortTerms).map fun g => reach g ^ 2).sum

theorem groupReach_pos {H : Terms Letter} (hH : CanonicalOp H) (hbig : ∀ kv ∈ H, 1 / 10 ^ 8 ≤ ‖kv.2‖) (hreal : ∀ kv ∈ H, kv.2.im = 0) (hterm : ∃ kv ∈ H, kv.1 ≠ []) (sortTerms : Bool) :
    0 < groupReach H sortTerms := by
  obtain ⟨kv, hkv, hne⟩ := hterm
  obtain ⟨g, hg, hkg⟩ := List.mem_flatten.1 ((groupGreedy_partition hH sortTerms hbig).mem_iff.2 hkv)
  have hpos : 0 < |kv.2.re| := by
    have h1 := hbig kv hkv
    rw [Complex.norm_def, Complex.normSq_apply, hreal kv hkv, mul_zero, add_zero, Real.sqrt_mul_self_eq_abs] at h1
    exact lt_of_lt_of_le (by norm_num) h1
  have hr : |kv.2.re| ≤ reach g := by
    unfold reach
    refine List.single_le_sum (fun x hx => ?_) _ (List.mem_map.2 ⟨kv, List.mem_filter.2 ⟨hkg, by simpa using hne⟩, rfl⟩)
    obtain ⟨y, -, rfl⟩ := List.mem_map.1 hx
    exact abs_nonneg _
  have h2 : reach g ^ 2 ≤ groupReach H sortTerms := by
    unfold groupReach
    refine List.single_le_sum (fun x hx => ?_) _ (List.mem_map.2 ⟨g, hg, rfl⟩)
    obtain ⟨y, -, rfl⟩ := List.mem_map.1 hx
    exact sq_nonneg _
  have : 0 < reach g := hpos.trans_le hr
  exact lt_of_lt_of_le (by positivity) h2

/-- Preprocessors without effects prepare the same tasks in every state. -/
theorem prepare_effectless {W : Type} (order : List String → List String) (key : List Char → List Sorting.Item) (H : Terms Letter) (c : Circuit)
    (fs : List (List Task → Except Err (List Task))) (w w' : W) :
    Cost.prepare order key H c (fs.map Cost.effectless) w () = ((Cost.prepare order key H c (fs.map Cost.effectless) w' ()).1, w) := by
  have key : ∀ (fs : List (List Task → Except Err (List Task))) (l : List Task) (w w' : W),
      Cost.runAll (fs.map Cost.effectless) w l = ((Cost.runAll (fs.map Cost.effectless) w' l).1, w) := by
    intro fs
    induction fs with
    | nil => intro l w w'; rfl
    | cons f fs ih =>
      intro l w w'
      unfold Cost.runAll Cost.andThen
      simp only [List.map_cons, Cost.effectless]
      cases f l with
      | error e => rfl
      | ok l' => exact ih l' w w'
  unfold Cost.prepare Cost.andThen
  rw [key fs _ w w']
  cases (Cost.runAll (fs.map Cost.effectless) w' [⟨H, c, none⟩]) with
  | mk o w'' => cases o <;> rfl

/-- Specification: the central differences of the energy in the symbols of the circuit are within `bias h² / 6` of the derivatives. -/
def Biased (c : Circuit) (H : Terms Letter) (bias : (String → ℂ) → String → ℝ) : Prop :=
  ∀ ρ' : String → ℂ, (∀ x ∈ c.freeSymbols, (ρ' x).im = 0) → ∀ x ∈ c.freeSymbols, ∀ p : ℝ, ρ' x = (p : ℂ) →
    ∃ D : ℝ, HasDerivAt (fun t : ℝ => energy c (opMatrix c.n H) (Function.update ρ' x (t : ℂ))) D p ∧ ∀ h : ℝ, 0 < h →
      |(energy c (opMatrix c.n H) (Function.update ρ' x ((p + h : ℝ) : ℂ)) - energy c (opMatrix c.n H) (Function.update ρ' x ((p - h : ℝ) : ℂ))) / (2 * h) - D| ≤
        bias ρ' x * h ^ 2 / 6

/-- The distance of measured gradients from the derivatives, for any bound of the difference quotients. -/
theorem biased_confidence (P : Measure Ω) [IsProbabilityMeasure P] {r : Ω → Randomness} (hr : FreshRandom P r) (ρ : String → ℂ) (order : List String → List String)
    (ho : Cost.IsSetOrder order) (key : List Char → List Sorting.Item) (hk : ∀ x, Sorting.Alternating (key x)) {c : Circuit} (hbind : Ansatz.Bindable c) (hq : 0 < c.n)
    (hu : ∀ ρ' : String → ℂ, (∀ x ∈ c.freeSymbols, (ρ' x).im = 0) → Unitary ρ' c) {H : Terms Letter} {bias : (String → ℂ) → String → ℝ} (hbias : Biased c H bias) (hH : CanonicalOp H) (hne : H ≠ [])
    (hbig : ∀ kv ∈ H, 1 / 10 ^ 8 ≤ ‖kv.2‖) (hreal : ∀ kv ∈ H, kv.2.im = 0) (hb : Below c.n H) (sortTerms : Bool) (s : ℕ) (hs : 0 < s) :
    ∃ T symbols, Prepared order key H c sortTerms s T symbols ∧
      ∀ (h : ℝ), 0 < h → ∀ (ps : List ℝ) (ρ' : String → ℂ), symbols.length = ps.length → Assigns symbols ps ρ ρ' → ∀ st : St ℕ,
        (∀ ω, ∃ g, (Cost.costGradient (averagingMethod (r ω) none ρ) (Cost.expectationValueFactory (T, symbols)) [] h ps st).1 = .ok g ∧ g.length = ps.length) ∧
        ∃ D : ℕ → ℝ,
          (∀ (i : ℕ) x p, symbols[i]? = some x → ps[i]? = some p → HasDerivAt (fun t : ℝ => energy c (opMatrix c.n H) (Function.update ρ' x (t : ℂ))) (D i) p) ∧
          ∀ δ, 0 ≤ δ → P.real {ω | ∃ g, (Cost.costGradient (averagingMethod (r ω) none ρ) (Cost.expectationValueFactory (T, symbols)) [] h ps st).1 = .ok g ∧
              ∃ (i : ℕ) (x : String) (v : ℝ), symbols[i]? = some x ∧ g[i]? = some v ∧ bias ρ' x * h ^ 2 / 6 + δ ≤ |v - D i|} ≤
            2 * ps.length * Real.exp (-(s * h ^ 2 * δ ^ 2) / groupReach H sortTerms) := by
  obtain ⟨T, symbols, h1, h2, h3, h4⟩ := measured_energy_gradient P hr ρ order ho key hk hbind hq hu hH hne hbig hreal hb sortTerms s hs ⟨0, 0, 0⟩
  refine ⟨T, symbols, ⟨fun st => ?_, h2, h3⟩, fun h hh ps ρ' hl ha st => ?_⟩
  · have := prepare_effectless order key H c [fun l => .ok (groupGreedily l sortTerms), fun l => allocateUniformly l s, performContextSelection] st ⟨0, 0, 0⟩
    simp only [List.map_cons, List.map_nil] at this
    rw [this, h1]
  obtain ⟨G, g1, g2⟩ := h4 h hh.ne' ps ρ' hl ha st
  refine ⟨fun ω => ⟨_, g1 ω, List.length_ofFn⟩, ?_⟩
  have him : ∀ y ∈ c.freeSymbols, (ρ' y).im = 0 := by
    intro y hy
    obtain ⟨i, hi, rfl⟩ := List.getElem_of_mem ((h3 y).2 hy)
    have hi' : i < ps.length := by omega
    rw [ha.1 i _ _ (List.getElem?_eq_getElem hi) (List.getElem?_eq_getElem hi')]
    exact Complex.ofReal_im _
  have hD : ∀ i : ℕ, ∃ D : ℝ, ∀ x p, symbols[i]? = some x → ps[i]? = some p →
      HasDerivAt (fun t : ℝ => energy c (opMatrix c.n H) (Function.update ρ' x (t : ℂ))) D p ∧
      |(energy c (opMatrix c.n H) (Function.update ρ' x ((p + h : ℝ) : ℂ)) - energy c (opMatrix c.n H) (Function.update ρ' x ((p - h : ℝ) : ℂ))) / (2 * h) - D| ≤
        bias ρ' x * h ^ 2 / 6 := by
    intro i
    by_cases hi : i < ps.length
    · have hi' : i < symbols.length := by omega
      have hx := (h3 symbols[i]).1 (List.getElem_mem hi')
      obtain ⟨D, d1, d3⟩ := hbias ρ' him symbols[i] hx ps[i] (ha.1 i _ _ (List.getElem?_eq_getElem hi') (List.getElem?_eq_getElem hi))
      refine ⟨D, fun x p hx hp => ?_⟩
      rw [List.getElem?_eq_getElem hi'] at hx
      rw [List.getElem?_eq_getElem hi] at hp
      cases hx
      cases hp
      exact ⟨d1, d3 h hh⟩
    · exact ⟨0, fun x p _ hp => by rw [List.getElem?_eq_none (by omega)] at hp; cases hp⟩
  choose D hD using hD
  refine ⟨D, fun i x p hx hp => (hD i x p hx hp).1, fun δ hδ => ?_⟩
  have hsub : {ω | ∃ g, (Cost.costGradient (averagingMethod (r ω) none ρ) (Cost.expectationValueFactory (T, symbols)) [] h ps st).1 = .ok g ∧
      ∃ (i : ℕ) (x : String) (v : ℝ), symbols[i]? = some x ∧ g[i]? = some v ∧ bias ρ' x * h ^ 2 / 6 + δ ≤ |v - D i|} ⊆
      ⋃ i : Fin ps.length, {ω | δ ≤ |G i ω - P[G i]|} := by
    rintro ω ⟨g, hg, i, x, v, hx, hv, hle⟩
    rw [g1] at hg
    cases hg
    obtain ⟨hi, rfl⟩ := List.getElem?_eq_some_iff.1 hv
    have hi' : i < ps.length := by simpa using hi
    refine Set.mem_iUnion.2 ⟨⟨i, hi'⟩, ?_⟩
    have hm := (g2 ⟨i, hi'⟩ x hx).2.1
    have hd := (hD i x _ hx (List.getElem?_eq_getElem hi')).2
    rw [List.getElem_ofFn] at hle
    show δ ≤ |G ⟨i, hi'⟩ ω - P[G ⟨i, hi'⟩]|
    have htri := abs_sub_le (G ⟨i, hi'⟩ ω) (P[G ⟨i, hi'⟩]) (D i)
    rw [hm] at htri ⊢
    dsimp only [Fin.getElem_fin] at htri ⊢
    linarith
  refine (measureReal_mono hsub).trans ((measureReal_iUnion_fintype_le _).trans ?_)
  refine (Finset.sum_le_sum (g := fun _ => 2 * Real.exp (-(s * h ^ 2 * δ ^ 2) / groupReach H sortTerms)) fun i _ => ?_).trans (le_of_eq ?_)
  · have hi : (i : ℕ) < symbols.length := by rw [hl]; exact i.2
    exact (g2 i _ (List.getElem?_eq_getElem hi)).2.2.2 δ hδ
  · rw [Finset.sum_const, Finset.card_univ, Fintype.card_fin, nsmul_eq_mul]
    ring

/-- The number of shots that is enough, for any bound of the difference quotients. -/
theorem biased_enough (P : Measure Ω) [IsProbabilityMeasure P] {r : Ω → Randomness} (hr : FreshRandom P r) (ρ : String → ℂ) (order : List String → List String)
    (ho : Cost.IsSetOrder order) (key : List Char → List Sorting.Item) (hk : ∀ x, Sorting.Alternating (key x)) {c : Circuit} (hbind : Ansatz.Bindable c) (hq : 0 < c.n)
    (hu : ∀ ρ' : String → ℂ, (∀ x ∈ c.freeSymbols, (ρ' x).im = 0) → Unitary ρ' c) {H : Terms Letter} {bias : (String → ℂ) → String → ℝ} (hbias : Biased c H bias) (hH : CanonicalOp H)
    (hbig : ∀ kv ∈ H, 1 / 10 ^ 8 ≤ ‖kv.2‖) (hreal : ∀ kv ∈ H, kv.2.im = 0) (hb : Below c.n H) (sortTerms : Bool) (hterm : ∃ kv ∈ H, kv.1 ≠ [])
    {h δ η : ℝ} (hh : 0 < h) (hδ : 0 < δ) (hη : 0 < η) (s : ℕ) (hs : 0 < s) (henough : groupReach H sortTerms * Real.log (2 * c.freeSymbols.length / η) / (h ^ 2 * δ ^ 2) ≤ s) :
    ∃ T symbols, Prepared order key H c sortTerms s T symbols ∧
      ∀ (ps : List ℝ) (ρ' : String → ℂ), symbols.length = ps.length → Assigns symbols ps ρ ρ' → ∀ st : St ℕ, ∃ D : ℕ → ℝ,
          (∀ (i : ℕ) x p, symbols[i]? = some x → ps[i]? = some p → HasDerivAt (fun t : ℝ => energy c (opMatrix c.n H) (Function.update ρ' x (t : ℂ))) (D i) p) ∧
          P.real {ω | ∃ g, (Cost.costGradient (averagingMethod (r ω) none ρ) (Cost.expectationValueFactory (T, symbols)) [] h ps st).1 = .ok g ∧
              ∃ (i : ℕ) (x : String) (v : ℝ), symbols[i]? = some x ∧ g[i]? = some v ∧ bias ρ' x * h ^ 2 / 6 + δ ≤ |v - D i|} ≤ η := by
  have hR := groupReach_pos hH hbig hreal hterm sortTerms
  have hne : H ≠ [] := by
    rintro rfl
    simp at hterm
  obtain ⟨T, symbols, h1, h2⟩ := biased_confidence P hr ρ order ho key hk hbind hq hu hbias hH hne hbig hreal hb sortTerms s hs
  refine ⟨T, symbols, h1, fun ps ρ' hl ha st => ?_⟩
  obtain ⟨-, D, d1, d2⟩ := h2 h hh ps ρ' hl ha st
  refine ⟨D, d1, (d2 δ hδ.le).trans ?_⟩
  have hlen : ps.length = c.freeSymbols.length := by
    rw [← hl]
    exact ((List.perm_ext_iff_of_nodup h1.2.1 (circuit_free_symbols c).1).2 h1.2.2).length_eq
  rcases Nat.eq_zero_or_pos ps.length with h0 | hpos
  · rw [h0]
    simpa using hη.le
  refine exp_enough hR hη (m := 2 * ps.length) (by positivity) ?_
  rw [div_le_iff₀ (by positivity), ← hlen] at henough
  linarith

theorem turns_biased {c : Circuit} (hbind : Ansatz.Bindable c) (hu : ∀ ρ' : String → ℂ, (∀ x ∈ c.freeSymbols, (ρ' x).im = 0) → Unitary ρ' c)
    (hturn : ∀ x ∈ c.freeSymbols, OnlyTurns c x) (H : Terms Letter) : Biased c H fun _ x => (occurrences c x : ℝ) ^ 3 * weight H := by
  intro ρ' him x hx p _
  obtain ⟨D, d1, -, d3⟩ := difference_bound c hbind x (hturn _ hx) ρ' (fun t => hu _ fun y hy => by
    by_cases hyx : y = x
    · subst hyx; simp
    · rw [Function.update_of_ne hyx]
      exact him y hy) H p
  exact ⟨D, d1, d3⟩

/-- C141.  For circuits in which every symbol is only the angle of turning gates: the measured gradient never fails, and some entry of it is further than `k³ w h² / 6 + δ` from the
partial derivative with probability at most `2 n exp (-s h² δ² / R)`, where `n` is the number of parameters, `k` the number of operations with the symbol of the entry, `w` the sum of the
absolute values of the coefficients, `s` the number of shots for each group and `R` the sum of the squared reaches of the groups. -/
theorem gradient_confidence (P : Measure Ω) [IsProbabilityMeasure P] {r : Ω → Randomness} (hr : FreshRandom P r) (ρ : String → ℂ) (order : List String → List String)
    (ho : Cost.IsSetOrder order) (key : List Char → List Sorting.Item) (hk : ∀ x, Sorting.Alternating (key x)) {c : Circuit} (hbind : Ansatz.Bindable c) (hq : 0 < c.n)
    (hu : ∀ ρ' : String → ℂ, (∀ x ∈ c.freeSymbols, (ρ' x).im = 0) → Unitary ρ' c) (hturn : ∀ x ∈ c.freeSymbols, OnlyTurns c x) {H : Terms Letter} (hH : CanonicalOp H) (hne : H ≠ [])
    (hbig : ∀ kv ∈ H, 1 / 10 ^ 8 ≤ ‖kv.2‖) (hreal : ∀ kv ∈ H, kv.2.im = 0) (hb : Below c.n H) (sortTerms : Bool) (s : ℕ) (hs : 0 < s) :
    ∃ T symbols, Prepared order key H c sortTerms s T symbols ∧
      ∀ (h : ℝ), 0 < h → ∀ (ps : List ℝ) (ρ' : String → ℂ), symbols.length = ps.length → Assigns symbols ps ρ ρ' → ∀ st : St ℕ,
        (∀ ω, ∃ g, (Cost.costGradient (averagingMethod (r ω) none ρ) (Cost.expectationValueFactory (T, symbols)) [] h ps st).1 = .ok g ∧ g.length = ps.length) ∧
        ∃ D : ℕ → ℝ,
          (∀ (i : ℕ) x p, symbols[i]? = some x → ps[i]? = some p → HasDerivAt (fun t : ℝ => energy c (opMatrix c.n H) (Function.update ρ' x (t : ℂ))) (D i) p) ∧
          ∀ δ, 0 ≤ δ → P.real {ω | ∃ g, (Cost.costGradient (averagingMethod (r ω) none ρ) (Cost.expectationValueFactory (T, symbols)) [] h ps st).1 = .ok g ∧
              ∃ (i : ℕ) (x : String) (v : ℝ), symbols[i]? = some x ∧ g[i]? = some v ∧ (occurrences c x : ℝ) ^ 3 * weight H * h ^ 2 / 6 + δ ≤ |v - D i|} ≤
            2 * ps.length * Real.exp (-(s * h ^ 2 * δ ^ 2) / groupReach H sortTerms) :=
  biased_confidence P hr ρ order ho key hk hbind hq hu (turns_biased hbind hu hturn H) hH hne hbig hreal hb sortTerms s hs

/-- C141.  So `R log (2 n / η) / (h² δ²)` shots for each group are enough for a gradient all of whose entries are within `k³ w h² / 6 + δ` of the partial derivatives, except with
probability `η`. -/
theorem gradient_enough (P : Measure Ω) [IsProbabilityMeasure P] {r : Ω → Randomness} (hr : FreshRandom P r) (ρ : String → ℂ) (order : List String → List String)
    (ho : Cost.IsSetOrder order) (key : List Char → List Sorting.Item) (hk : ∀ x, Sorting.Alternating (key x)) {c : Circuit} (hbind : Ansatz.Bindable c) (hq : 0 < c.n)
    (hu : ∀ ρ' : String → ℂ, (∀ x ∈ c.freeSymbols, (ρ' x).im = 0) → Unitary ρ' c) (hturn : ∀ x ∈ c.freeSymbols, OnlyTurns c x) {H : Terms Letter} (hH : CanonicalOp H)
    (hbig : ∀ kv ∈ H, 1 / 10 ^ 8 ≤ ‖kv.2‖) (hreal : ∀ kv ∈ H, kv.2.im = 0) (hb : Below c.n H) (sortTerms : Bool) (hterm : ∃ kv ∈ H, kv.1 ≠ [])
    {h δ η : ℝ} (hh : 0 < h) (hδ : 0 < δ) (hη : 0 < η) (s : ℕ) (hs : 0 < s) (henough : groupReach H sortTerms * Real.log (2 * c.freeSymbols.length / η) / (h ^ 2 * δ ^ 2) ≤ s) :
    ∃ T symbols, Prepared order key H c sortTerms s T symbols ∧
      ∀ (ps : List ℝ) (ρ' : String → ℂ), symbols.length = ps.length → Assigns symbols ps ρ ρ' → ∀ st : St ℕ, ∃ D : ℕ → ℝ,
          (∀ (i : ℕ) x p, symbols[i]? = some x → ps[i]? = some p → HasDerivAt (fun t : ℝ => energy c (opMatrix c.n H) (Function.update ρ' x (t : ℂ))) (D i) p) ∧
          P.real {ω | ∃ g, (Cost.costGradient (averagingMethod (r ω) none ρ) (Cost.expectationValueFactory (T, symbols)) [] h ps st).1 = .ok g ∧
              ∃ (i : ℕ) (x : String) (v : ℝ), symbols[i]? = some x ∧ g[i]? = some v ∧ (occurrences c x : ℝ) ^ 3 * weight H * h ^ 2 / 6 + δ ≤ |v - D i|} ≤ η :=
  biased_enough P hr ρ order ho key hk hbind hq hu (turns_biased hbind hu hturn H) hH hbig hreal hb sortTerms hterm hh hδ hη s hs henough

/-- The convergence, for any bound of the difference quotients that is bounded at real parameters. -/
theorem biased_converges (P : Measure Ω) [IsProbabilityMeasure P] {r : Ω → Randomness} (hr : FreshRandom P r) (ρ : String → ℂ) (order : List String → List String)
    (ho : Cost.IsSetOrder order) (key : List Char → List Sorting.Item) (hk : ∀ x, Sorting.Alternating (key x)) {c : Circuit} (hbind : Ansatz.Bindable c) (hq : 0 < c.n)
    (hu : ∀ ρ' : String → ℂ, (∀ x ∈ c.freeSymbols, (ρ' x).im = 0) → Unitary ρ' c) {H : Terms Letter} {bias : (String → ℂ) → String → ℝ} (hbias : Biased c H bias)
    {K : ℝ} (hK : 0 ≤ K) (hle : ∀ ρ' : String → ℂ, (∀ x ∈ c.freeSymbols, (ρ' x).im = 0) → ∀ x ∈ c.freeSymbols, bias ρ' x ≤ K) (hH : CanonicalOp H)
    (hbig : ∀ kv ∈ H, 1 / 10 ^ 8 ≤ ‖kv.2‖) (hreal : ∀ kv ∈ H, kv.2.im = 0) (hb : Below c.n H) (sortTerms : Bool) (hterm : ∃ kv ∈ H, kv.1 ≠ []) {ε η : ℝ} (hε : 0 < ε) (hη : 0 < η) :
    ∃ (h : ℝ) (s : ℕ), 0 < h ∧ 0 < s ∧ ∃ T symbols, Prepared order key H c sortTerms s T symbols ∧
      ∀ (ps : List ℝ) (ρ' : String → ℂ), symbols.length = ps.length → Assigns symbols ps ρ ρ' → ∀ st : St ℕ, ∃ D : ℕ → ℝ,
          (∀ (i : ℕ) x p, symbols[i]? = some x → ps[i]? = some p → HasDerivAt (fun t : ℝ => energy c (opMatrix c.n H) (Function.update ρ' x (t : ℂ))) (D i) p) ∧
          P.real {ω | ∃ g, (Cost.costGradient (averagingMethod (r ω) none ρ) (Cost.expectationValueFactory (T, symbols)) [] h ps st).1 = .ok g ∧
              ∃ (i : ℕ) (v : ℝ), g[i]? = some v ∧ ε ≤ |v - D i|} ≤ η := by
  -- a step for which the difference quotients are within `ε / 2`
  let h : ℝ := min 1 (ε / (K + 1))
  have hh : 0 < h := lt_min one_pos (by positivity)
  have hstep : K * h ^ 2 / 6 ≤ ε / 2 := by
    have h1 : h ≤ 1 := min_le_left _ _
    have h2 : h ≤ ε / (K + 1) := min_le_right _ _
    rw [le_div_iff₀ (by positivity)] at h2
    nlinarith [mul_nonneg hK hh.le]
  obtain ⟨s, hs⟩ := exists_nat_ge (max 1 (groupReach H sortTerms * Real.log (2 * c.freeSymbols.length / η) / (h ^ 2 * (ε / 2) ^ 2)))
  have hs0 : 0 < s := by
    have : (1 : ℝ) ≤ s := (le_max_left _ _).trans hs
    exact_mod_cast this
  obtain ⟨T, symbols, h1, h2⟩ := biased_enough P hr ρ order ho key hk hbind hq hu hbias hH hbig hreal hb sortTerms hterm hh (half_pos hε) hη s hs0 ((le_max_right _ _).trans hs)
  obtain ⟨T', symbols', k1, k2⟩ := biased_confidence P hr ρ order ho key hk hbind hq hu hbias hH (by
    rintro rfl
    simp at hterm) hbig hreal hb sortTerms s hs0
  have hTT := (h1.1 ⟨0, 0, 0⟩).symm.trans (k1.1 ⟨0, 0, 0⟩)
  simp only [Prod.mk.injEq, Except.ok.injEq, and_true] at hTT
  obtain ⟨rfl, rfl⟩ := hTT
  refine ⟨h, s, hh, hs0, T, symbols, h1, fun ps ρ' hl ha st => ?_⟩
  obtain ⟨D, d1, d2⟩ := h2 ps ρ' hl ha st
  refine ⟨D, d1, (measureReal_mono ?_).trans d2⟩
  rintro ω ⟨g, hg, i, v, hv, hfar⟩
  obtain ⟨g', hg', hlen⟩ := (k2 h hh ps ρ' hl ha st).1 ω
  rw [hg] at hg'
  cases hg'
  obtain ⟨hi, -⟩ := List.getElem?_eq_some_iff.1 hv
  have hi' : i < symbols.length := by omega
  refine ⟨g, hg, i, symbols[i], v, List.getElem?_eq_getElem hi', hv, le_trans ?_ hfar⟩
  have hreal' : ∀ y ∈ c.freeSymbols, (ρ' y).im = 0 := by
    intro y hy
    obtain ⟨i, hi, rfl⟩ := List.getElem_of_mem ((h1.2.2 y).2 hy)
    rw [ha.1 i _ _ (List.getElem?_eq_getElem hi) (List.getElem?_eq_getElem (by omega : i < ps.length))]
    exact Complex.ofReal_im _
  have := mul_le_mul_of_nonneg_right (hle ρ' hreal' symbols[i] ((h1.2.2 _).1 (List.getElem_mem hi'))) (sq_nonneg h)
  linarith

/-- C141.  In particular the measured gradient can be made as precise and as reliable as wanted: for every precision and every probability there are a step and a number of shots such that,
at all parameters and after every history, all entries of the gradient are within the precision of the partial derivatives, except with that probability. -/
theorem gradient_converges (P : Measure Ω) [IsProbabilityMeasure P] {r : Ω → Randomness} (hr : FreshRandom P r) (ρ : String → ℂ) (order : List String → List String)
    (ho : Cost.IsSetOrder order) (key : List Char → List Sorting.Item) (hk : ∀ x, Sorting.Alternating (key x)) {c : Circuit} (hbind : Ansatz.Bindable c) (hq : 0 < c.n)
    (hu : ∀ ρ' : String → ℂ, (∀ x ∈ c.freeSymbols, (ρ' x).im = 0) → Unitary ρ' c) (hturn : ∀ x ∈ c.freeSymbols, OnlyTurns c x) {H : Terms Letter} (hH : CanonicalOp H)
    (hbig : ∀ kv ∈ H, 1 / 10 ^ 8 ≤ ‖kv.2‖) (hreal : ∀ kv ∈ H, kv.2.im = 0) (hb : Below c.n H) (sortTerms : Bool) (hterm : ∃ kv ∈ H, kv.1 ≠ []) {ε η : ℝ} (hε : 0 < ε) (hη : 0 < η) :
    ∃ (h : ℝ) (s : ℕ), 0 < h ∧ 0 < s ∧ ∃ T symbols, Prepared order key H c sortTerms s T symbols ∧
      ∀ (ps : List ℝ) (ρ' : String → ℂ), symbols.length = ps.length → Assigns symbols ps ρ ρ' → ∀ st : St ℕ, ∃ D : ℕ → ℝ,
          (∀ (i : ℕ) x p, symbols[i]? = some x → ps[i]? = some p → HasDerivAt (fun t : ℝ => energy c (opMatrix c.n H) (Function.update ρ' x (t : ℂ))) (D i) p) ∧
          P.real {ω | ∃ g, (Cost.costGradient (averagingMethod (r ω) none ρ) (Cost.expectationValueFactory (T, symbols)) [] h ps st).1 = .ok g ∧
              ∃ (i : ℕ) (v : ℝ), g[i]? = some v ∧ ε ≤ |v - D i|} ≤ η := by
  have hw : 0 ≤ weight H := List.sum_nonneg fun x hx => by
    obtain ⟨kv, -, rfl⟩ := List.mem_map.1 hx
    exact abs_nonneg _
  refine biased_converges P hr ρ order ho key hk hbind hq hu (turns_biased hbind hu hturn H) (K := (c.ops.length : ℝ) ^ 3 * weight H) (by positivity) (fun ρ' _ x _ => ?_)
    hH hbig hreal hb sortTerms hterm hε hη
  have hocc : (occurrences c x : ℝ) ≤ c.ops.length := by exact_mod_cast List.countP_le_length
  show (occurrences c x : ℝ) ^ 3 * weight H ≤ (c.ops.length : ℝ) ^ 3 * weight H
  gcongr

/-! ## Non-vacuity -/

/-- A case of the theorems: the circuit `RX(a) RX(b)` and the operator `Z + 3 X`, with two groups of the reaches 1 and 3. -/
example : Ansatz.Bindable two ∧ 0 < two.n ∧ (∀ ρ : String → ℂ, (∀ x ∈ two.freeSymbols, (ρ x).im = 0) → Unitary ρ two) ∧ (∀ x ∈ two.freeSymbols, OnlyTurns two x) ∧
    two.freeSymbols.length = 2 ∧ occurrences two "a" = 1 ∧ ∃ kv ∈ zx, kv.1 ≠ [] := by
  refine ⟨two_bindable, by simp [two], two_unitary, fun x hx op hop => ?_, by decide +kernel, by decide +kernel, ?_⟩
  · obtain ⟨y, -, rfl⟩ := two_mem hop
    by_cases h : y = x
    · subst h
      exact .inl ⟨_, ⟨by simp [parametricGates], by simp⟩, .inl rfl⟩
    · right
      simpa [rxGate, GateOp.freeSymbols, Gate.freeSymbols, Gate.params, Expr.getFreeSymbols, Expr.free] using Ne.symm h
  · exact ⟨_, List.mem_cons_self, by simp⟩

end ZQ.Stat
