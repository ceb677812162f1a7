import Verif.Model.CostFunction
import Verif.Props.Measurement
import Verif.Props.Ansatz
import Verif.Props.Recorder
import Verif.Props.Estimation

/-!
# C57: cost functions and augmentations
-/

namespace ZQ.Cost

open ZQ ZQ.Op ZQ.Circuits ZQ.Est ZQ.History ZQ.Meas

variable {W E S T R F G A V L : Type}

/-! ### Sums of expectation values -/

theorem extend_getD (acc extra : Option (List (List (List ℝ)))) : (extend acc extra).getD [] = acc.getD [] ++ extra.getD [] := by
  rcases extra with _ | _ | _ <;> simp [extend]

theorem concatenate_eq (es : List Values) :
    (concatenate es).values = es.flatMap Values.values ∧ (concatenate es).covariances.getD [] = es.flatMap fun e => e.covariances.getD [] := by
  have key : ∀ (es : List Values) (acc : Values), (es.foldl concatStep acc).values = acc.values ++ es.flatMap Values.values ∧
      (es.foldl concatStep acc).covariances.getD [] = acc.covariances.getD [] ++ es.flatMap fun e => e.covariances.getD [] := by
    intro es
    induction es with
    | nil => intro acc; simp
    | cons e es ih =>
      intro acc
      obtain ⟨h1, h2⟩ := ih (concatStep acc e)
      rw [List.foldl_cons, h1, h2]
      refine ⟨by simp [concatStep], ?_⟩
      show (extend acc.covariances e.covariances).getD [] ++ _ = _
      rw [extend_getD, List.flatMap_cons, List.append_assoc]
  obtain ⟨h1, h2⟩ := key es ⟨[], false, none, none⟩
  exact ⟨by rw [concatenate, h1]; rfl, by rw [concatenate, h2]; rfl⟩

/-- The sum of all entries of a frame. -/
def entrySum (frame : List (List ℝ)) : ℝ := (frame.map List.sum).sum

theorem sum_value (e : ExpectationValues) : (sumExpectationValues e).value = e.values.sum := by
  unfold sumExpectationValues
  split <;> rfl

theorem sum_precision (e : ExpectationValues) :
    (sumExpectationValues e).precision = if e.covariances.getD [] = [] then none else some (npSqrt (((e.covariances.getD []).map entrySum).sum)) := by
  have hf : ∀ (l : List (List (List ℝ))) (a : ℝ), l.foldl (fun v frame => v + (frame.map List.sum).sum) a = a + (l.map entrySum).sum := by
    intro l
    induction l with
    | nil => intro a; simp
    | cons f l ih =>
      intro a
      rw [List.foldl_cons, ih, List.map_cons, List.sum_cons, entrySum]
      ring
  unfold sumExpectationValues
  split
  · rename_i h; rw [h]; rfl
  · rename_i h; rw [h]; rfl
  · rename_i x xs h
    rw [h, if_neg (by simp)]
    show some (npSqrt _) = _
    rw [hf]
    simp

/-- C57. The value of a cost function is the sum of the real parts of all values of all tasks; there is a precision exactly if some task has a covariance
frame, and it is the square root of the sum of all entries of all frames of all tasks. -/
theorem summarize_spec (es : List Values) :
    (summarize es).value = (es.map fun e => (e.values.map Complex.re).sum).sum ∧
    ((summarize es).precision = none ↔ ∀ e ∈ es, e.covariances.getD [] = []) ∧
    ((∃ e ∈ es, e.covariances.getD [] ≠ []) →
      (summarize es).precision = some (npSqrt (es.map fun e => ((e.covariances.getD []).map entrySum).sum).sum)) := by
  obtain ⟨h1, h2⟩ := concatenate_eq es
  have h3 : (toReal (concatenate es)).covariances.getD [] = es.flatMap fun e => e.covariances.getD [] := h2
  have hsum : ((es.flatMap fun e => e.covariances.getD []).map entrySum).sum = (es.map fun e => ((e.covariances.getD []).map entrySum).sum).sum := by
    clear h1 h2 h3
    induction es with
    | nil => rfl
    | cons e es ih => rw [List.flatMap_cons, List.map_append, List.sum_append, ih, List.map_cons, List.sum_cons]
  have hnil : (es.flatMap fun e => e.covariances.getD []) = [] ↔ ∀ e ∈ es, e.covariances.getD [] = [] := by
    exact List.flatMap_eq_nil_iff
  refine ⟨?_, ?_, ?_⟩
  · rw [summarize, sum_value]
    show ((concatenate es).values.map Complex.re).sum = _
    rw [h1]
    clear h1 h2 h3 hsum hnil
    induction es with
    | nil => rfl
    | cons e es ih => rw [List.flatMap_cons, List.map_append, List.sum_append, ih, List.map_cons, List.sum_cons]
  · rw [summarize, sum_precision, h3]
    by_cases h : (es.flatMap fun e => e.covariances.getD []) = []
    · rw [if_pos h]; exact ⟨fun _ => hnil.1 h, fun _ => rfl⟩
    · rw [if_neg h]; exact ⟨fun hh => absurd hh (by simp), fun hh => absurd (hnil.2 hh) h⟩
  · rintro ⟨e, he, hne⟩
    rw [summarize, sum_precision, h3, if_neg (fun h => hne (hnil.1 h e he)), hsum]

/-- Specification: a square matrix given by rows is positive semidefinite. -/
def PosSemidef (frame : List (List ℝ)) : Prop :=
  (∀ row ∈ frame, row.length = frame.length) ∧
    ∀ x : ℕ → ℝ, 0 ≤ ∑ i ∈ Finset.range frame.length, ∑ j ∈ Finset.range frame.length, x i * (frame.getD i []).getD j 0 * x j

theorem sum_getD (l : List ℝ) : l.sum = ∑ j ∈ Finset.range l.length, l.getD j 0 := by
  induction l with
  | nil => rfl
  | cons a l ih =>
    rw [List.length_cons, Finset.sum_range_succ', List.sum_cons, ih, add_comm]
    rfl

theorem entrySum_eq {n : ℕ} (frame : List (List ℝ)) (h : ∀ row ∈ frame, row.length = n) :
    entrySum frame = ∑ i ∈ Finset.range frame.length, ∑ j ∈ Finset.range n, (frame.getD i []).getD j 0 := by
  induction frame with
  | nil => rfl
  | cons r frame ih =>
    rw [List.length_cons, Finset.sum_range_succ', entrySum, List.map_cons, List.sum_cons, add_comm]
    congr 1
    · have := ih fun row hr => h row (by simp [hr])
      rw [entrySum] at this
      rw [this]
      rfl
    · show r.sum = _
      rw [sum_getD, h r (by simp)]
      rfl

theorem entrySum_nonneg (frame : List (List ℝ)) (h : PosSemidef frame) : 0 ≤ entrySum frame := by
  rw [entrySum_eq (n := frame.length) frame h.1]
  have := h.2 fun _ => 1
  simpa using this

/-- C57. When every covariance frame is positive semidefinite, the propagated variance is not negative and the precision is its square root, a number. -/
theorem precision_nonneg (es : List Values) (h : ∀ e ∈ es, ∀ frame ∈ e.covariances.getD [], PosSemidef frame) (p : Option ℝ)
    (hp : (summarize es).precision = some p) :
    ∃ x : ℝ, 0 ≤ x ∧ p = some x ∧ x ^ 2 = (es.map fun e => ((e.covariances.getD []).map entrySum).sum).sum := by
  obtain ⟨-, h2, h3⟩ := summarize_spec es
  have hex : ∃ e ∈ es, e.covariances.getD [] ≠ [] := by
    by_contra hno
    push Not at hno
    rw [h2.2 hno] at hp
    cases hp
  rw [h3 hex] at hp
  have hnn : 0 ≤ (es.map fun e => ((e.covariances.getD []).map entrySum).sum).sum := by
    refine List.sum_nonneg ?_
    intro y hy
    obtain ⟨e, he, rfl⟩ := List.mem_map.1 hy
    refine List.sum_nonneg ?_
    intro z hz
    obtain ⟨f, hf, rfl⟩ := List.mem_map.1 hz
    exact entrySum_nonneg f (h e he f hf)
  rw [npSqrt, if_pos hnn] at hp
  cases hp
  exact ⟨_, Real.sqrt_nonneg _, rfl, Real.sq_sqrt hnn⟩

theorem sum_map_sub' {B : Type} (l : List B) (f g : B → ℝ) : (l.map fun b => f b - g b).sum = (l.map f).sum - (l.map g).sum := by
  induction l with
  | nil => simp
  | cons a l ih => simp only [List.map_cons, List.sum_cons, ih]; ring

/-- A case: two tasks, one with a covariance frame. -/
example : ∃ x : ℝ, 0 ≤ x ∧ (summarize [⟨[1, 2 * Complex.I], true, none, some [[[4, -1], [-1, 7]]]⟩, ⟨[3], false, none, none⟩]).precision = some (some x) ∧
    x ^ 2 = 9 ∧ (summarize [⟨[1, 2 * Complex.I], true, none, some [[[4, -1], [-1, 7]]]⟩, ⟨[3], false, none, none⟩]).value = 4 := by
  set es : List Values := [⟨[1, 2 * Complex.I], true, none, some [[[4, -1], [-1, 7]]]⟩, ⟨[3], false, none, none⟩] with hes
  obtain ⟨h1, -, h3⟩ := summarize_spec es
  have hp := h3 ⟨_, List.mem_cons_self, by simp⟩
  have hpsd : ∀ e ∈ es, ∀ frame ∈ e.covariances.getD [], PosSemidef frame := by
    intro e he frame hf
    rw [hes] at he
    fin_cases he
    · simp only [Option.getD_some, List.mem_singleton] at hf
      subst hf
      refine ⟨by simp, fun x => ?_⟩
      simp [Finset.sum_range_succ]
      nlinarith [sq_nonneg (x 0 - x 1), sq_nonneg (x 0), sq_nonneg (x 1)]
    · simp at hf
  obtain ⟨x, x1, x2, x3⟩ := precision_nonneg es hpsd _ hp
  refine ⟨x, x1, by rw [hp, x2], ?_, ?_⟩
  · rw [x3, hes]
    simp [entrySum]
    norm_num
  · rw [h1, hes]
    simp
    norm_num

/-- The value of an operator on one measured bitstring. -/
noncomputable def energy (op : List (List ℕ × ℝ)) (s : List ℕ) : ℝ := (op.map fun a => a.2 * termSpin a.1 s).sum

theorem mean_list_sum {B : Type} (l : List B) (f : B → List ℕ → ℝ) (m : List (List ℕ)) :
    mean (fun s => (l.map fun a => f a s).sum) m = (l.map fun a => mean (f a) m).sum := by
  unfold mean
  have : (m.map fun s => (l.map fun a => f a s).sum).sum = (l.map fun a => (m.map (f a)).sum).sum := by
    induction m with
    | nil => simp
    | cons s m ih =>
      rw [List.map_cons, List.sum_cons, ih, ← List.sum_map_add]
      simp
  rw [this, div_eq_mul_inv, ← List.sum_map_mul_right]
  simp only [div_eq_mul_inv]

/-- C57. For measured bitstrings, the sum is the average of the operator's value over the shots, and its precision is the standard error of that average:
the square root of the sample variance of the operator's value, divided by the number of shots (or that minus one). -/
theorem measured_sum (n : ℕ) (hn : 0 < n) (m : List (List ℕ)) (hne : m ≠ []) (hb : Bitstrings n m)
    (op : List (List ℕ × ℝ)) (hop : ∀ tc ∈ op, tc.1.Nodup ∧ ∀ q ∈ tc.1, q < n) (bessel : Bool) (hB : bessel = true → 2 ≤ m.length)
    (r : ExpectationValues) (hr : getExpectationValues m op bessel = .ok r) :
    (sumExpectationValues r).value = mean (energy op) m ∧
      (sumExpectationValues r).precision = some (some (Real.sqrt ((mean (fun s => energy op s ^ 2) m - mean (energy op) m ^ 2)
        / (if bessel then (m.length : ℝ) - 1 else m.length)))) := by
  rw [expectationValues_spec n hn m hne hb op hop bessel hB] at hr
  cases hr
  set D : ℝ := if bessel then (m.length : ℝ) - 1 else m.length with hD
  have hDpos : 0 < D := by
    have h1 : (1 : ℝ) ≤ m.length := by
      have := List.length_pos_of_ne_nil hne; exact_mod_cast this
    rw [hD]
    cases bessel with
    | false => simp only [Bool.false_eq_true, if_false]; linarith
    | true =>
      have h2 : (2 : ℝ) ≤ m.length := by exact_mod_cast hB rfl
      simp only [if_true]; linarith
  have hmean : (op.map fun a => a.2 * mean (termSpin a.1) m).sum = mean (energy op) m := by
    unfold energy
    rw [mean_list_sum]
    simp only [mean_smul]
  have hsq : (op.map fun a => (op.map fun b => a.2 * b.2 * mean (fun s => termSpin a.1 s * termSpin b.1 s) m).sum).sum
      = mean (fun s => energy op s ^ 2) m := by
    have : (fun s => energy op s ^ 2) = fun s => (op.map fun a => (op.map fun b => a.2 * b.2 * (termSpin a.1 s * termSpin b.1 s)).sum).sum := by
      funext s
      rw [sq]
      conv_lhs => lhs; unfold energy
      rw [← List.sum_map_mul_right]
      congr 1
      refine List.map_congr_left fun a _ => ?_
      unfold energy
      rw [← List.sum_map_mul_left]
      congr 1
      refine List.map_congr_left fun b _ => ?_
      ring
    rw [this, mean_list_sum]
    congr 1
    refine List.map_congr_left fun a _ => ?_
    rw [mean_list_sum]
    simp only [mean_smul]
  refine ⟨by rw [sum_value]; exact hmean, ?_⟩
  rw [sum_precision]
  have hent : entrySum (op.map fun a => op.map fun b =>
        (a.2 * b.2 * mean (fun s => termSpin a.1 s * termSpin b.1 s) m - (a.2 * mean (termSpin a.1) m) * (b.2 * mean (termSpin b.1) m)) / D)
      = (mean (fun s => energy op s ^ 2) m - mean (energy op) m ^ 2) / D := by
    unfold entrySum
    rw [← hsq, ← hmean, List.map_map]
    have : ∀ a : List ℕ × ℝ, (op.map fun b => (a.2 * b.2 * mean (fun s => termSpin a.1 s * termSpin b.1 s) m
        - (a.2 * mean (termSpin a.1) m) * (b.2 * mean (termSpin b.1) m)) / D).sum
        = ((op.map fun b => a.2 * b.2 * mean (fun s => termSpin a.1 s * termSpin b.1 s) m).sum
            - (a.2 * mean (termSpin a.1) m) * (op.map fun b => b.2 * mean (termSpin b.1) m).sum) * D⁻¹ := by
      intro a
      rw [← List.sum_map_mul_left, ← sum_map_sub', ← List.sum_map_mul_right]
      simp only [div_eq_mul_inv]
    simp only [Function.comp_def, this]
    rw [List.sum_map_mul_right, sum_map_sub', List.sum_map_mul_right, sq, div_eq_mul_inv]
  simp only [Option.getD_some, List.map_cons, List.map_nil, List.sum_cons, List.sum_nil, add_zero]
  rw [if_neg (by simp), hent, npSqrt, if_pos]
  exact div_nonneg (sub_nonneg.2 (mean_sq_le _ _)) hDpos.le

/-- A case: two shots of one qubit. -/
example : ∃ r, getExpectationValues [[0], [1]] [([0], 2)] true = .ok r ∧ (sumExpectationValues r).value = 0 ∧
    (sumExpectationValues r).precision = some (some 2) := by
  have hb : Bitstrings 1 [[0], [1]] := by
    intro s hs
    fin_cases hs <;> simp
  refine ⟨_, expectationValues_spec 1 (by norm_num) [[0], [1]] (by simp) hb [([0], 2)] (by simp) true (by simp), ?_⟩
  obtain ⟨h1, h2⟩ := measured_sum 1 (by norm_num) [[0], [1]] (by simp) hb [([0], 2)] (by simp) true (by simp) _
    (expectationValues_spec 1 (by norm_num) [[0], [1]] (by simp) hb [([0], 2)] (by simp) true (by simp))
  constructor
  · rw [h1]
    simp [mean, energy, termSpin, onesOn, spin]
  · rw [h2]
    simp [mean, energy, termSpin, onesOn, spin]
    norm_num

/-! ### Composition -/

theorem runAll_append (p q : List (Target W E S S)) : runAll (p ++ q) = andThen (runAll p) (runAll q) := by
  induction p with
  | nil => rfl
  | cons a p ih =>
    funext w s
    rw [List.cons_append, runAll, ih]
    show andThen a (andThen (runAll p) (runAll q)) w s = andThen (andThen a (runAll p)) (runAll q) w s
    unfold andThen
    split <;> simp_all

/-- C57. The cost function runs the preprocessors from left to right, makes the tasks, estimates them and returns the summary of all estimates. -/
theorem createCostFunction_spec (method : Target W E (List Task) (List Values)) (factory : Target W E (List ℝ) (List Task))
    (preprocessors : List (Target W E (List ℝ) (List ℝ))) (w w1 w2 w3 : W) (ps ps' : List ℝ) (tasks : List Task) (es : List Values)
    (h1 : runAll preprocessors w ps = (.ok ps', w1)) (h2 : factory w1 ps' = (.ok tasks, w2)) (h3 : method w2 tasks = (.ok es, w3)) :
    createCostFunction method factory preprocessors w ps = (.ok (summarize es), w3) := by
  unfold createCostFunction andThen
  rw [h1]
  dsimp only
  rw [h2]
  dsimp only
  rw [h3]
  rfl

/-- C57. An exception of a preprocessor, of the factory or of the estimation is the exception of the cost function. -/
theorem createCostFunction_raises (method : Target W E (List Task) (List Values)) (factory : Target W E (List ℝ) (List Task))
    (preprocessors : List (Target W E (List ℝ) (List ℝ))) (w w' : W) (ps : List ℝ) (e : E) :
    createCostFunction method factory preprocessors w ps = (.error e, w') ↔
      runAll preprocessors w ps = (.error e, w') ∨ ∃ ps' w1, runAll preprocessors w ps = (.ok ps', w1) ∧
        (factory w1 ps' = (.error e, w') ∨ ∃ tasks w2, factory w1 ps' = (.ok tasks, w2) ∧ method w2 tasks = (.error e, w')) := by
  unfold createCostFunction andThen
  cases h1 : runAll preprocessors w ps with
  | mk o w1 =>
    cases o with
    | error e1 => simp
    | ok ps' =>
      dsimp only
      cases h2 : factory w1 ps' with
      | mk o w2 =>
        cases o with
        | error e2 => simp [h2]
        | ok tasks =>
          dsimp only
          cases h3 : method w2 tasks with
          | mk o w3 =>
            cases o with
            | error e3 => simp [h2, h3]
            | ok es => simp [h2, h3, effectless]

/-- C57. Preprocessing by a first list and then by a second. -/
theorem createCostFunction_append (method : Target W E (List Task) (List Values)) (factory : Target W E (List ℝ) (List Task))
    (p q : List (Target W E (List ℝ) (List ℝ))) :
    createCostFunction method factory (p ++ q) = andThen (runAll p) (createCostFunction method factory q) := by
  funext w ps
  unfold createCostFunction
  rw [runAll_append]
  unfold andThen
  cases runAll p w ps with
  | mk o w1 => cases o <;> rfl

/-- C57. With `fix_parameters(fixed)` the cost function of free parameters is the one of the fixed parameters followed by the free ones. -/
theorem fixParameters_spec (method : Target W E (List Task) (List Values)) (factory : Target W E (List ℝ) (List Task)) (fixed ps : List ℝ) (w : W) :
    createCostFunction method factory [fixParameters fixed] w ps = createCostFunction method factory [] w (fixed ++ ps) := rfl

theorem addNoise_append (noise : ℕ → ℝ) (k : ℕ) (a b : List ℝ) : addNoise noise k (a ++ b) = addNoise noise k a ++ addNoise noise (k + a.length) b := by
  unfold addNoise
  rw [List.zipIdx_append, List.map_append]
  congr 1
  simp only [zero_add]
  rw [List.zipIdx_eq_map_add, List.map_map]
  refine List.map_congr_left fun x _ => ?_
  simp only [Function.comp_apply]
  rw [add_assoc]

theorem addNoise_getElem (noise : ℕ → ℝ) (k : ℕ) (ps : List ℝ) (i : ℕ) : (addNoise noise k ps)[i]? = (ps[i]?).map fun x => x + noise (k + i) := by
  unfold addNoise
  rw [List.getElem?_map, List.getElem?_zipIdx]
  cases ps[i]? <;> simp

/-- C57. `add_normal_noise`, called any number of times, adds the numbers of its generator one after the other: each is used once, none is left out. -/
theorem addNormalNoise_spec (noise : ℕ → ℝ) (get : W → ℕ) (put : W → ℕ → W) (hl : ∀ w k, get (put w k) = k) (pss : List (List ℝ)) (w : W) :
    let r := calls (fun p w => (addNormalNoise noise get put : Target W E (List ℝ) (List ℝ)) w p) pss w
    ∃ outs : List (List ℝ), r.1 = outs.map Except.ok ∧ outs.map List.length = pss.map List.length ∧
      outs.flatten = addNoise noise (get w) pss.flatten ∧ get r.2 = get w + pss.flatten.length := by
  induction pss generalizing w with
  | nil => exact ⟨[], rfl, rfl, rfl, rfl⟩
  | cons ps pss ih =>
    obtain ⟨outs, h1, h2, h3, h4⟩ := ih (put w (get w + ps.length))
    refine ⟨addNoise noise (get w) ps :: outs, ?_, ?_, ?_, ?_⟩
    · show _ :: _ = _
      rw [List.map_cons]
      exact congrArg _ h1
    · rw [List.map_cons, List.map_cons, h2]
      simp [addNoise]
    · rw [List.flatten_cons, List.flatten_cons, addNoise_append, h3, hl]
    · rw [List.flatten_cons, List.length_append]
      have : get (calls (fun p w => (addNormalNoise noise get put : Target W E (List ℝ) (List ℝ)) w p) (ps :: pss) w).2
          = get (calls (fun p w => (addNormalNoise noise get put : Target W E (List ℝ) (List ℝ)) w p) pss (put w (get w + ps.length))).2 := rfl
      rw [this, h4, hl]
      ring

/-! ### Binding parameters to symbols -/

/-- Specification: an iteration order of sets. -/
def IsSetOrder (order : List String → List String) : Prop := ∀ l, (order l).Perm l

/-- C57. The symbols of the tasks, each once, in increasing order of the key; this includes `str` and the natural orders of symbols. -/
theorem sortedSymbols_spec (order : List String → List String) (ho : IsSetOrder order) (key : List Char → List Sorting.Item)
    (hk : ∀ x, Sorting.Alternating (key x)) (tasks : List Task) :
    ∃ symbols, sortedSymbols order key tasks = .ok symbols ∧ symbols.Nodup ∧ (∀ s, s ∈ symbols ↔ ∃ t ∈ tasks, s ∈ t.circuit.freeSymbols) ∧
      symbols.Pairwise (fun a b => Sorting.keyLt (key b.toList) (key a.toList) = some false) := by
  obtain ⟨out, h1, h2, h3⟩ := Ansatz.sortSymbols_alternating key hk (order (symbolSet tasks))
  have hp : out.Perm (symbolSet tasks) := h2.trans (ho _)
  refine ⟨out, h1, hp.nodup_iff.2 (List.nodup_dedup _), fun s => ?_, h3⟩
  rw [hp.mem_iff, symbolSet, List.mem_dedup, List.mem_flatMap]

/-- C57. With the default key `str` the symbols are in strictly increasing order of their names, so the result does not depend on the order of the set. -/
theorem sortedSymbols_str (order order' : List String → List String) (ho : IsSetOrder order) (ho' : IsSetOrder order') (tasks : List Task) :
    sortedSymbols order Sorting.strKey tasks = sortedSymbols order' Sorting.strKey tasks := by
  obtain ⟨a, a1, a2, a3, a4⟩ := sortedSymbols_spec order ho Sorting.strKey Sorting.strKey_alternating tasks
  obtain ⟨b, b1, b2, b3, b4⟩ := sortedSymbols_spec order' ho' Sorting.strKey Sorting.strKey_alternating tasks
  rw [a1, b1]
  congr 1
  have hp : a.Perm b := (List.perm_ext_iff_of_nodup a2 b2).2 fun s => (a3 s).trans (b3 s).symm
  refine hp.eq_of_pairwise (le := fun a b => Sorting.keyLt (Sorting.strKey b.toList) (Sorting.strKey a.toList) = some false) ?_ a4 b4
  intro x y _ _ h1 h2
  obtain ⟨xy, yx, -, -, e1, e2, -, -, -, -, -, e3⟩ := Sorting.alternating_order Sorting.strKey Sorting.strKey_alternating x.toList y.toList x.toList
  rw [e2] at h1
  rw [e1] at h2
  cases h1
  cases h2
  have := e3.1 ⟨rfl, rfl⟩
  simp only [Sorting.strKey, List.cons.injEq, Sorting.Item.text.injEq, and_true] at this
  exact String.toList_inj.1 this

/-- Specification: a circuit is another one with given values in place of symbols. -/
def BoundTo (symbols : List String) (ps : List ℝ) (c d : Circuit) : Prop :=
  d.n = c.n ∧ d.freeSymbols = [] ∧ d.ops.map GateOp.qubits = c.ops.map GateOp.qubits ∧
    List.Forall₂ (fun op op' => op'.gate.WF ∧ op'.gate.numQubits = op.gate.numQubits ∧
      ∀ ρ ρ' : String → ℂ, (∀ (i : ℕ) s p, symbols[i]? = some s → ps[i]? = some p → ρ' s = (p : ℂ)) → (∀ s, s ∉ symbols → ρ' s = ρ s) →
        (op'.gate.matrix ρ).Same (op.gate.matrix ρ') ∧ (Ansatz.UnitaryAt ρ' op.gate → Ansatz.UnitaryAt ρ op'.gate)) c.ops d.ops

/-- C57. Binding: the i-th parameter takes the place of the i-th symbol in every task; operators and numbers of shots stay. A wrong number of parameters is a
`ValueError`. -/
theorem bindTasks_spec (symbols : List String) (hn : symbols.Nodup) (tasks : List Task) (hb : ∀ t ∈ tasks, Ansatz.Bindable t.circuit)
    (hs : ∀ t ∈ tasks, ∀ s ∈ t.circuit.freeSymbols, s ∈ symbols) (ps : List ℝ) :
    (symbols.length ≠ ps.length → bindTasks symbols tasks ps = .error .valueError) ∧
    (symbols.length = ps.length → ∃ out, bindTasks symbols tasks ps = .ok out ∧
      List.Forall₂ (fun t t' => t'.operator = t.operator ∧ t'.shots = t.shots ∧ BoundTo symbols ps t.circuit t'.circuit) tasks out) := by
  refine ⟨fun h => ?_, fun h => ?_⟩
  · unfold bindTasks
    rw [Ansatz.createSymbolsMap, if_pos (by simpa using h)]
    rfl
  · have hlen : symbols.length = (ps.map fun x : ℝ => (x : ℂ)).length := by simpa using h
    obtain ⟨m, e1, -, -⟩ := (Ansatz.createSymbolsMap_spec symbols (ps.map fun x : ℝ => (x : ℂ))).1 hlen
    have hrun : bindTasks symbols tasks ps = evaluateCircuits tasks (tasks.map fun _ => m) := by
      unfold bindTasks
      rw [e1]
      rfl
    rw [hrun]
    clear hrun
    induction tasks with
    | nil => exact ⟨[], rfl, .nil⟩
    | cons t tasks ih =>
      obtain ⟨out, h1, h2⟩ := ih (fun t' ht' => hb t' (by simp [ht'])) (fun t' ht' => hs t' (by simp [ht']))
      obtain ⟨d, b1, b2, b3, b4, b5⟩ := Ansatz.bind_values t.circuit (hb t (by simp)) symbols hn (hs t (by simp)) (ps.map fun x : ℝ => (x : ℂ)) hlen
      rw [e1] at b1
      have b1' : t.circuit.bind m = .ok d := b1
      refine ⟨{ t with circuit := d } :: out, ?_, .cons ⟨rfl, rfl, b2, b3, b4, ?_⟩ h2⟩
      · unfold evaluateCircuits at h1 ⊢
        rw [List.map_cons, List.zip_cons_cons, List.mapM_cons, h1]
        show ((t.circuit.bind m).bind fun c => _) >>= _ = _
        rw [b1']
        rfl
      · refine b5.imp ?_
        intro op op' hop
        refine ⟨hop.1, hop.2.1, fun ρ ρ' k1 k2 => hop.2.2 ρ ρ' ?_ k2⟩
        intro i s p hi hp
        rw [List.getElem?_map] at hp
        cases hx : ps[i]? with
        | none => rw [hx] at hp; cases hp
        | some x =>
          rw [hx] at hp
          cases hp
          exact k1 i s x hi hx

/-- C57. The tasks of `expectation_value_estimation_tasks_factory`, and with it the cost functions made of it: the i-th parameter is bound to the i-th symbol in
increasing order of the key among all symbols of all tasks. -/
theorem factory_spec (order : List String → List String) (ho : IsSetOrder order) (key : List Char → List Sorting.Item)
    (hk : ∀ x, Sorting.Alternating (key x)) (operator : Terms Letter) (circuit : Circuit) (preprocessors : List (Target W Err (List Task) (List Task)))
    (w w1 : W) (tasks : List Task) (hp : runAll preprocessors w [⟨operator, circuit, none⟩] = (.ok tasks, w1))
    (hb : ∀ t ∈ tasks, Ansatz.Bindable t.circuit) :
    ∃ symbols, prepare order key operator circuit preprocessors w () = (.ok (tasks, symbols), w1) ∧ symbols.Nodup ∧
      (∀ s, s ∈ symbols ↔ ∃ t ∈ tasks, s ∈ t.circuit.freeSymbols) ∧
      symbols.Pairwise (fun a b => Sorting.keyLt (key b.toList) (key a.toList) = some false) ∧
      ∀ (w' : W) (ps : List ℝ),
        (symbols.length ≠ ps.length → expectationValueFactory (tasks, symbols) w' ps = (.error .valueError, w')) ∧
        (symbols.length = ps.length → ∃ out, expectationValueFactory (tasks, symbols) w' ps = (.ok out, w') ∧
          List.Forall₂ (fun t t' => t'.operator = t.operator ∧ t'.shots = t.shots ∧ BoundTo symbols ps t.circuit t'.circuit) tasks out) := by
  obtain ⟨symbols, h1, h2, h3, h4⟩ := sortedSymbols_spec order ho key hk tasks
  refine ⟨symbols, ?_, h2, h3, h4, ?_⟩
  · unfold prepare andThen
    rw [hp]
    show ((sortedSymbols order key tasks).map fun symbols => (tasks, symbols), w1) = _
    rw [h1]
    rfl
  · intro w' ps
    obtain ⟨g1, g2⟩ := bindTasks_spec symbols h2 tasks hb (fun t ht s hs => (h3 s).2 ⟨t, ht, hs⟩) ps
    refine ⟨fun h => by unfold expectationValueFactory effectless; rw [g1 h], fun h => ?_⟩
    obtain ⟨out, o1, o2⟩ := g2 h
    exact ⟨out, by unfold expectationValueFactory effectless; rw [o1], o2⟩

/-- A case: the circuits of the mock ansatz, with the natural order of symbols and no preprocessors of tasks. -/
example (L n : ℕ) (hn : 0 < n) (operator : Terms Letter) (w : W) : let c : Circuit := ⟨Ansatz.layersOf n ((List.range L).map fun i => .sym (Ansatz.theta i)), n⟩
    IsSetOrder List.reverse ∧ (∀ x, Sorting.Alternating (Sorting.naturalKeyRevlex x)) ∧
      runAll ([] : List (Target W Err (List Task) (List Task))) w [⟨operator, c, none⟩] = (.ok [⟨operator, c, none⟩], w) ∧ Ansatz.Bindable c :=
  ⟨fun l => List.reverse_perm l, Sorting.natural_alternating _ (.inr rfl), rfl, Ansatz.mock_bindable L n hn⟩

/-- C57. `AnsatzBasedCostFunction` without noise is the cost function `create_cost_function` makes of the same tasks and fixed parameters. -/
theorem ansatzBased_eq (prepared : List Task × List String) (fixed : Option (List ℝ)) (method : Target W Err (List Task) (List Values)) :
    ansatzBased prepared fixed none method = createCostFunction method (expectationValueFactory prepared) (fixed.toList.map fixParameters) := by
  cases fixed <;> rfl

/-- C57. With noise, `AnsatzBasedCostFunction` adds the same numbers in each call: it is the cost function without noise at shifted parameters. -/
theorem ansatzBased_noise (prepared : List Task × List String) (fixed : Option (List ℝ)) (noise : ℕ → ℝ) (method : Target W Err (List Task) (List Values))
    (w : W) (ps : List ℝ) :
    ansatzBased prepared fixed (some noise) method w ps = ansatzBased prepared none none method w (addNoise noise 0 (fixed.getD [] ++ ps)) := by
  cases fixed <;> rfl

/-- C57. The older `get_ground_state_cost_function` returns the same value, without a precision, when no estimate is of a complex type, and raises
`ValueError` otherwise. -/
theorem groundState_spec (prepared : List Task × List String) (fixed : Option (List ℝ)) (noise : Option (ℕ → ℝ))
    (method : Target W Err (List Task) (List Values)) (w w1 : W) (ps : List ℝ) (tasks : List Task) (es : List Values)
    (h1 : bindTasks prepared.2 prepared.1 (fullParameters fixed noise ps) = .ok tasks) (h2 : method w tasks = (.ok es, w1)) :
    ((∃ e ∈ es, e.complexType = true) → groundState prepared fixed noise method w ps = (.error .valueError, w1)) ∧
    ((∀ e ∈ es, e.complexType = false) → ∃ value precision, groundState prepared fixed noise method w ps = (.ok ⟨value, none⟩, w1) ∧
      ansatzBased prepared fixed noise method w ps = (.ok ⟨value, precision⟩, w1)) := by
  have hg : groundState prepared fixed noise method w ps = (groundSum es, w1) := by
    unfold groundState andThen effectless
    dsimp only
    rw [h1]
    dsimp only
    rw [h2]
  have ha : ansatzBased prepared fixed noise method w ps = (.ok (summarize es), w1) := by
    unfold ansatzBased andThen effectless
    dsimp only
    rw [h1]
    dsimp only
    rw [h2]
  rw [hg, ha]
  refine ⟨?_, ?_⟩
  · rintro ⟨e, he, hc⟩
    rw [groundSum, if_pos (List.any_eq_true.2 ⟨e, he, hc⟩)]
  · intro h
    refine ⟨(summarize es).value, (summarize es).precision, ?_, rfl⟩
    have : ¬ es.any Values.complexType = true := by
      rw [List.any_eq_true]
      rintro ⟨e, he, hc⟩
      rw [h e he] at hc
      cases hc
    rw [groundSum, if_neg this, (summarize_spec es).1]
    have hre : ∀ l : List ℂ, l.sum.re = (l.map Complex.re).sum := by
      intro l
      induction l with
      | nil => rfl
      | cons a l ih => rw [List.sum_cons, Complex.add_re, ih, List.map_cons, List.sum_cons]
    congr 4
    rw [hre, List.map_map]
    congr 1
    refine List.map_congr_left fun e _ => ?_
    exact hre e.values

/-! ### Augmentations -/

/-- C57. For every function, every condition and every sequence of calls: a conditional side effect returns what the function returns and affects the rest of the
world as the function does; its action happens exactly at the successful calls for which the condition holds, in order, with the number of the call. -/
theorem sideEffect_spec (target : Target W E S V) (predicate : SaveCondition E S V) (p : V → S → ℕ → Bool) (hp : ∀ v s k, predicate v s k = .ok (p v s k))
    (act : L → ℕ → V → S → Except E Unit × L) (hact : ∀ l k v s, (act l k v s).1 = .ok ()) (ps : List S) (k : ℕ) (l : L) (w : W) :
    let result := calls (fun s st => sideEffect target predicate act st s) ps ((k, l), w)
    let direct := directly target ps w
    result.1 = direct.1 ∧ result.2.2 = direct.2 ∧ result.2.1.1 = k + (succeeded ps direct.1).length ∧
      result.2.1.2 = (selected p k (succeeded ps direct.1)).foldl (fun l e => (act l e.callNumber e.value e.params).2) l := by
  induction ps generalizing k l w with
  | nil => simp [calls, directly, succeeded, selected]
  | cons q ps ih =>
    intro result direct
    cases ht : target w q with
    | mk o w' =>
      cases o with
      | error e =>
        have hc : sideEffect target predicate act ((k, l), w) q = (.error e, ((k, l), w')) := by simp only [sideEffect, ht]
        obtain ⟨h1, h2, h3, h4⟩ := ih k l w'
        have hr : result = (.error e :: (calls (fun s st => sideEffect target predicate act st s) ps ((k, l), w')).1,
            (calls (fun s st => sideEffect target predicate act st s) ps ((k, l), w')).2) := by
          show calls (fun s st => sideEffect target predicate act st s) (q :: ps) ((k, l), w) = _
          rw [calls, hc]
        have hd : direct = (.error e :: (directly target ps w').1, (directly target ps w').2) := by
          show calls (fun p w => target w p) (q :: ps) w = _
          rw [calls, ht]
          rfl
        rw [hr, hd]
        exact ⟨by rw [h1], h2, h3, h4⟩
      | ok v =>
        set l' : L := if p v q k then (act l k v q).2 else l with hl'
        have hc : sideEffect target predicate act ((k, l), w) q = (.ok v, ((k + 1, l'), w')) := by
          have ha := hact l k v q
          simp only [sideEffect, ht, hp, hl']
          cases p v q k with
          | false => rfl
          | true =>
            dsimp only
            cases hh : act l k v q with
            | mk o l2 =>
              rw [hh] at ha
              dsimp only at ha
              subst ha
              rfl
        obtain ⟨h1, h2, h3, h4⟩ := ih (k + 1) l' w'
        have hr : result = (.ok v :: (calls (fun s st => sideEffect target predicate act st s) ps ((k + 1, l'), w')).1,
            (calls (fun s st => sideEffect target predicate act st s) ps ((k + 1, l'), w')).2) := by
          show calls (fun s st => sideEffect target predicate act st s) (q :: ps) ((k, l), w) = _
          rw [calls, hc]
        have hd : direct = (.ok v :: (directly target ps w').1, (directly target ps w').2) := by
          show calls (fun p w => target w p) (q :: ps) w = _
          rw [calls, ht]
          rfl
        rw [hr, hd]
        refine ⟨by rw [h1], h2, ?_, ?_⟩
        · rw [h3]
          show k + 1 + _ = k + ((q, v) :: succeeded ps (directly target ps w').1).length
          rw [List.length_cons]
          ring
        · rw [h4]
          show _ = (selected p k ((q, v) :: succeeded ps (directly target ps w').1)).foldl _ l
          rw [selected_cons, List.foldl_append]
          congr 1
          rw [hl']
          cases p v q k <;> rfl

/-- C57. A logger writes one record for each selected call, with its number and value. -/
theorem functionLogger_spec {M : Type} (level : ℤ) (message : M) (entries : List (Entry S V)) (log : List (ℤ × M × ℕ × V)) :
    entries.foldl (fun l e => (logAct level message l e.callNumber e.value e.params : Except E Unit × _).2) log
      = log ++ entries.map fun e => (level, message, e.callNumber, e.value) := by
  induction entries generalizing log with
  | nil => simp
  | cons e es ih =>
    rw [List.foldl_cons, ih]
    simp [logAct]

/-- A case: a logger for even call numbers on a function that raises for 0. -/
example : (calls (fun s st => sideEffect (W := Unit) (fun w x => (if x = 0 then Except.error "zero" else .ok (10 * x), w)) (everyNth "div" 2)
    (logAct 20 "msg") st s) [1, 0, 2, 3] ((0, []), ())) = ([.ok 10, .error "zero", .ok 20, .ok 30], ((3, [((20 : ℤ), "msg", 0, 10), (20, "msg", 2, 30)]), ())) := rfl

theorem augmentFunction_nonempty (f : CostObj F G A) (augs : List (CostObj F G A → CostObj F G A)) (hne : augs ≠ []) (o : Option (Obj G A)) :
    augmentFunction f augs o = augs.foldl (fun x a => wrapCost (a x) x o) f := by
  unfold augmentFunction
  rw [if_neg (by simpa using hne)]

/-- C76. Augmentations that change the call by `φ` are applied from left to right. -/
theorem augment_call (f : CostObj F G A) (augs : List (CostObj F G A → CostObj F G A)) (φ : (CostObj F G A → CostObj F G A) → F → F)
    (hφ : ∀ a ∈ augs, ∀ o, (a o).call = φ a o.call) (gs : List (Obj G A → Obj G A)) :
    (augmentCostFunction f augs gs).call = augs.foldl (fun c a => φ a c) f.call := by
  have key : ∀ (augs : List (CostObj F G A → CostObj F G A)), (∀ a ∈ augs, ∀ o, (a o).call = φ a o.call) → ∀ (ov : Option (Obj G A)) (x : CostObj F G A),
      (augs.foldl (fun x a => wrapCost (a x) x ov) x).call = augs.foldl (fun c a => φ a c) x.call := by
    intro augs
    induction augs with
    | nil => intro _ ov x; rfl
    | cons a augs ih =>
      intro h ov x
      rw [List.foldl_cons, ih (fun b hb => h b (by simp [hb])), List.foldl_cons]
      congr 1
      exact h a (by simp) x
  unfold augmentCostFunction augmentFunction
  split
  · rename_i h
    have : augs = [] := by simpa using h
    subst this
    rfl
  · exact key augs hφ _ f

/-- C76. The augmented function has all attributes of the original one. -/
theorem augment_attrs (f : CostObj F G A) (augs : List (CostObj F G A → CostObj F G A)) (gs : List (Obj G A → Obj G A)) (n : String)
    (h : (f.attrs n).isSome) : ((augmentCostFunction f augs gs).attrs n).isSome := by
  have key : ∀ (augs : List (CostObj F G A → CostObj F G A)) (ov : Option (Obj G A)) (x : CostObj F G A), (x.attrs n).isSome →
      ((augs.foldl (fun x a => wrapCost (a x) x ov) x).attrs n).isSome := by
    intro augs
    induction augs with
    | nil => intro ov x h; exact h
    | cons a augs ih =>
      intro ov x h
      rw [List.foldl_cons]
      refine ih ov _ ?_
      show (((a x).attrs n).or (x.attrs n)).isSome
      cases (a x).attrs n <;> simp [h]
  unfold augmentCostFunction augmentFunction
  split
  · exact h
  · exact key augs _ f h

/-- C76. If there is an augmentation of the function, the gradient of the result is the gradient with its augmentations; a function without gradient gets one only
from an augmentation. -/
theorem augment_gradient_partial (f : CostObj F G A) (augs : List (CostObj F G A → CostObj F G A)) (hne : augs ≠ []) (gs : List (Obj G A → Obj G A))
    (g : Obj G A) (hg : f.gradient = some g) : (augmentCostFunction f augs gs).gradient = some (augmentGradient g gs) := by
  have key : ∀ (augs : List (CostObj F G A → CostObj F G A)), augs ≠ [] → ∀ (o : Obj G A) (x : CostObj F G A),
      (augs.foldl (fun x a => wrapCost (a x) x (some o)) x).gradient = some o := by
    intro augs
    induction augs with
    | nil => intro h; exact absurd rfl h
    | cons a augs ih =>
      intro _ o x
      rw [List.foldl_cons]
      by_cases h : augs = []
      · subst h; rfl
      · exact ih h o _
  unfold augmentCostFunction
  rw [augmentFunction_nonempty f augs hne, hg]
  exact key augs hne _ f

/-- C76, disagreement. Without augmentations of the function, the augmentations of the gradient are ignored. -/
theorem augment_gradient_counterexample :
    ∃ (f : CostObj (ℕ → ℕ) (ℕ → ℕ) ℕ) (double : Obj (ℕ → ℕ) ℕ → Obj (ℕ → ℕ) ℕ) (g : Obj (ℕ → ℕ) ℕ), f.gradient = some g ∧
      (augmentGradient g [double]).call 1 = 2 ∧ ((augmentCostFunction f [] [double]).gradient.map fun g => g.call 1) = some 1 :=
  ⟨⟨⟨id, fun _ => none⟩, some ⟨id, fun _ => none⟩⟩, fun o => ⟨fun x => 2 * o.call x, o.attrs⟩, ⟨id, fun _ => none⟩, rfl, rfl, rfl⟩

end ZQ.Cost
