import Verif.Model.ArraySerde
import Verif.Lemmas.ExceptList
import Mathlib.Data.Complex.Basic
import Mathlib.Algebra.BigOperators.Group.List.Basic
import Mathlib.Tactic.Linarith

/-! C59: arrays, value estimates and expectation values survive the dictionary format; C52: so do interaction operators. -/

namespace ZQ.ArraySerde

open ZQ

/-- The shape has no zero, except possibly in the last place: then nested lists determine the shape. -/
def ListShape (s : List ℕ) : Prop := ∀ n ∈ s.dropLast, n ≠ 0

theorem fromNestedList_ok {l : List Nested} {f : ℕ → List ℕ × List ℝ} : ∀ (is : List ℕ) (g : ℕ → Nested), (∀ i ∈ is, fromNested (g i) = .ok (f i)) →
    fromNestedList (is.map g) = .ok (is.map f) := by
  intro is
  induction is with
  | nil => intro g _; rw [List.map_nil, fromNestedList]; rfl
  | cons i is ih =>
    intro g h
    rw [List.map_cons, fromNestedList, h i (List.mem_cons_self ..), ih g fun j hj => h j (List.mem_cons_of_mem _ hj)]
    rfl

theorem flatten_chunks (p : ℕ) : ∀ (n : ℕ) (d : List ℝ), d.length = n * p → ((List.range n).map fun i => (d.drop (i * p)).take p).flatten = d := by
  intro n
  induction n with
  | zero => intro d h; rw [Nat.zero_mul, List.length_eq_zero_iff] at h; rw [h]; rfl
  | succ n ih =>
    intro d h
    rw [List.range_succ_eq_map, List.map_cons, List.flatten_cons, List.map_map, Nat.zero_mul, List.drop_zero]
    have e : ((List.range n).map ((fun i => (d.drop (i * p)).take p) ∘ Nat.succ)) = (List.range n).map fun i => ((d.drop p).drop (i * p)).take p := by
      apply List.map_congr_left
      intro i _
      show (d.drop ((i + 1) * p)).take p = _
      rw [List.drop_drop, Nat.add_mul, Nat.one_mul, Nat.add_comm]
    rw [e, ih (d.drop p) (by rw [List.length_drop, h, Nat.add_mul, Nat.one_mul, Nat.add_sub_cancel]), List.take_append_drop]

theorem stack_ok (s : List ℕ) (n : ℕ) (f : ℕ → List ℝ) (hn : n ≠ 0) :
    stack ((List.range n).map fun i => (s, f i)) = .ok (n :: s, ((List.range n).map f).flatten) := by
  obtain ⟨m, rfl⟩ : ∃ m, n = m + 1 := ⟨n - 1, by omega⟩
  have hl : (List.range (m + 1)).map (fun i => (s, f i)) = (s, f 0) :: (List.range m).map fun i => (s, f (i + 1)) := by
    rw [List.range_succ_eq_map, List.map_cons, List.map_map]; rfl
  rw [hl, stack]
  have hall : ((List.range m).map fun i => (s, f (i + 1))).all (fun y => y.1 == (s, f 0).1) = true := by
    rw [List.all_eq_true]
    intro x hx
    obtain ⟨i, _, rfl⟩ := List.mem_map.1 hx
    simp
  rw [if_pos hall, ← hl, List.map_map, List.length_map, List.length_range]
  rfl

theorem chunk_length {p n : ℕ} {d : List ℝ} (h : d.length = n * p) {i : ℕ} (hi : i < n) : ((d.drop (i * p)).take p).length = p := by
  rw [List.length_take, List.length_drop, h, ← Nat.sub_mul]
  refine Nat.min_eq_left ?_
  calc p = 1 * p := (Nat.one_mul p).symm
    _ ≤ (n - i) * p := Nat.mul_le_mul_right p (by omega)

/-- `np.array(a.tolist())` has the shape and the entries of `a`. -/
theorem fromNested_tolist (s : List ℕ) : ∀ (d : List ℝ), ListShape s → d.length = s.prod → fromNested (tolist s d) = .ok (s, d) := by
  induction s with
  | nil =>
    intro d _ h
    rw [List.prod_nil] at h
    obtain ⟨x, rfl⟩ := List.length_eq_one_iff.1 h
    rw [tolist, fromNested]; rfl
  | cons n s ih =>
    intro d hs h
    rw [List.prod_cons] at h
    rw [tolist, fromNested]
    cases s with
    | nil =>
      rw [List.prod_nil, Nat.mul_one] at h
      by_cases hn : n = 0
      · subst hn
        have : d = [] := List.length_eq_zero_iff.1 h
        subst this
        rfl
      · rw [fromNestedList_ok (l := []) (f := fun i => ([], (d.drop (i * 1)).take 1)) (List.range n) (fun i => tolist [] ((d.drop (i * [].prod)).take [].prod))
          fun i hi => ih _ (fun k hk => by simp at hk) (chunk_length (p := 1) (by rw [h, Nat.mul_one]) (List.mem_range.1 hi))]
        show stack _ = _
        rw [stack_ok _ _ _ hn, flatten_chunks 1 n d (by rw [h, Nat.mul_one])]
    | cons m s =>
      have hn : n ≠ 0 := hs n (by simp)
      rw [fromNestedList_ok (l := []) (f := fun i => (m :: s, (d.drop (i * (m :: s).prod)).take (m :: s).prod)) (List.range n)
        (fun i => tolist (m :: s) ((d.drop (i * (m :: s).prod)).take (m :: s).prod))
        fun i hi => ih _ (fun k hk => hs k (by rw [List.dropLast_cons₂]; exact List.mem_cons_of_mem _ hk)) (chunk_length h (List.mem_range.1 hi))]
      show stack _ = _
      rw [stack_ok _ _ _ hn, flatten_chunks _ n d h]

theorem re_im (l : List ℂ) : List.zipWith (fun x y : ℝ => (x : ℂ) + Complex.I * y) (l.map Complex.re) (l.map Complex.im) = l := by
  induction l with
  | nil => rfl
  | cons z l ih =>
    rw [List.map_cons, List.map_cons, List.zipWith_cons_cons, ih]
    congr 1
    rw [mul_comm]
    exact Complex.re_add_im z

theorem re_only {l : List ℂ} (h : ∀ z ∈ l, z.im = 0) : (l.map Complex.re).map (fun x : ℝ => (x : ℂ)) = l := by
  rw [List.map_map]
  conv_rhs => rw [← List.map_id l]
  apply List.map_congr_left
  intro z hz
  exact Complex.ext rfl (h z hz).symm

/-- The complex type is lost for a number with zero imaginary part and for an array without entries in a list `[]`. -/
noncomputable def keptComplex (a : NDArray) : Bool :=
  match a.shape with
  | [] => decide (∃ z ∈ a.data, z.im ≠ 0)
  | n :: _ => decide (n ≠ 0)

/-- C59: an array of any shape is recovered from its dictionary, entry by entry.  Missing: shapes with a zero before the last place
(`array_roundtrip_counterexample`). -/
theorem array_roundtrip_partial (a : NDArray) (hv : a.Valid) (hs : ListShape a.shape) :
    dictToArray (arrayToDict a) = .ok ⟨a.shape, a.data, a.cplx && keptComplex a⟩ := by
  obtain ⟨s, d, c⟩ := a
  obtain ⟨hl, hr⟩ := hv
  have h1 := fromNested_tolist s (d.map Complex.re) hs (by rw [List.length_map]; exact hl)
  have h2 := fromNested_tolist s (d.map Complex.im) hs (by rw [List.length_map]; exact hl)
  cases c with
  | false =>
    show (do let re ← fromNested (tolist s (d.map Complex.re)); Except.ok (NDArray.mk re.1 (re.2.map fun x : ℝ => (x : ℂ)) false)) = _
    rw [h1]
    show Except.ok (NDArray.mk s ((d.map Complex.re).map fun x : ℝ => (x : ℂ)) false) = _
    rw [re_only (hr rfl)]; rfl
  | true =>
    show (do
      let re ← fromNested (tolist s (d.map Complex.re))
      if truthy (tolist s (d.map Complex.im)) then do
        let im ← fromNested (tolist s (d.map Complex.im))
        addImag re im
      else Except.ok (NDArray.mk re.1 (re.2.map fun x : ℝ => (x : ℂ)) false)) = _
    rw [h1, h2]
    show (if truthy (tolist s (d.map Complex.im)) then addImag (s, d.map Complex.re) (s, d.map Complex.im)
      else Except.ok (NDArray.mk s ((d.map Complex.re).map fun x : ℝ => (x : ℂ)) false)) = _
    have hadd : addImag (s, d.map Complex.re) (s, d.map Complex.im) = .ok ⟨s, d, true⟩ := by
      rw [addImag, if_pos rfl, re_im]
    rw [hadd]
    cases s with
    | nil =>
      obtain ⟨z, rfl⟩ := List.length_eq_one_iff.1 hl
      show (if decide (z.im ≠ 0) = true then _ else Except.ok (NDArray.mk [] [(z.re : ℂ)] false)) = Except.ok (NDArray.mk [] [z] (true && decide (∃ w ∈ [z], w.im ≠ 0)))
      by_cases hz : z.im = 0
      · have : ¬ ∃ w ∈ [z], w.im ≠ 0 := by simp [hz]
        rw [if_neg (by simp [hz]), decide_eq_false this]
        have : (z.re : ℂ) = z := Complex.ext rfl hz.symm
        rw [this]; rfl
      · have : ∃ w ∈ [z], w.im ≠ 0 := ⟨z, by simp, hz⟩
        rw [if_pos (decide_eq_true hz), decide_eq_true this]; rfl
    | cons n s =>
      show (if (!((List.range n).map _).isEmpty) = true then _ else _) = Except.ok (NDArray.mk (n :: s) d (true && decide (n ≠ 0)))
      by_cases hn : n = 0
      · subst hn
        have hd : d = [] := by
          rw [← List.length_eq_zero_iff]
          exact hl.trans (by rw [List.prod_cons, Nat.zero_mul])
        rw [if_neg (by simp), hd]
        rfl
      · rw [if_pos, decide_eq_true hn]
        · rfl
        · simpa using hn

/-- C59: an array of shape `(0, 3)` comes back with shape `(0,)`. -/
theorem array_roundtrip_counterexample : ∃ a b : NDArray, a.Valid ∧ dictToArray (arrayToDict a) = .ok b ∧ a.shape = [0, 3] ∧ b.shape = [0] :=
  ⟨⟨[0, 3], [], false⟩, ⟨[0], [], false⟩, ⟨rfl, fun _ z hz => by simp at hz⟩, rfl, rfl, rfl⟩

/-- C59: a value estimate is recovered from its dictionary, with and without precision, and also from a dictionary without the key `precision`; it compares equal to the
estimates with the same value and the same precision and to no others. -/
theorem valueEstimate_roundtrip (v : ValueEstimate) :
    valueFromDict (valueToDict v) = v ∧ (∀ w : ValueEstimate, valueEq (valueFromDict (valueToDict v)) w = true ↔ v.value = w.value ∧ v.precision = w.precision) ∧
    ∀ s x, valueFromDict ⟨s, x, none⟩ = ⟨x, none⟩ := by
  refine ⟨rfl, fun w => ?_, fun _ _ => rfl⟩
  show valueEq v w = true ↔ _
  simp [valueEq]

theorem listToDict_roundtrip (l : List NDArray) (h : ∀ a ∈ l, a.Valid ∧ ListShape a.shape) :
    listFromDict (listToDict (some l)) = .ok (if l = [] then none else some (l.map fun a => ⟨a.shape, a.data, a.cplx && keptComplex a⟩)) := by
  have hm : ∀ l : List NDArray, (∀ a ∈ l, a.Valid ∧ ListShape a.shape) →
      (l.map arrayToDict).mapM dictToArray = Except.ok (l.map fun a => (⟨a.shape, a.data, a.cplx && keptComplex a⟩ : NDArray)) := by
    intro l h
    induction l with
    | nil => rfl
    | cons a l ih =>
      rw [List.map_cons, List.mapM_cons, array_roundtrip_partial a (h a (List.mem_cons_self ..)).1 (h a (List.mem_cons_self ..)).2,
        ih fun b hb => h b (List.mem_cons_of_mem _ hb)]
      rfl
  cases l with
  | nil => rfl
  | cons a l =>
    rw [if_neg (by simp)]
    show (do let as ← ((a :: l).map arrayToDict).mapM dictToArray; Except.ok (some as)) = _
    rw [hm (a :: l) h]
    rfl

/-- What loading makes of an optional list of arrays: an empty list becomes `None`. -/
noncomputable def loaded (l : Option (List NDArray)) : Option (List NDArray) :=
  match l with
  | some (a :: l) => some ((a :: l).map fun a => ⟨a.shape, a.data, a.cplx && keptComplex a⟩)
  | _ => none

/-- C59: expectation values are recovered from their dictionary, with and without correlations and covariances; an empty list of matrices comes
back as `None`. -/
theorem expectationValues_roundtrip (e : ExpectationValues) (hv : e.values.Valid ∧ ListShape e.values.shape)
    (hc : ∀ l, e.correlations = some l → ∀ a ∈ l, a.Valid ∧ ListShape a.shape) (hs : ∀ l, e.covariances = some l → ∀ a ∈ l, a.Valid ∧ ListShape a.shape) :
    expectationFromDict (expectationToDict e) =
      .ok ⟨⟨e.values.shape, e.values.data, e.values.cplx && keptComplex e.values⟩, loaded e.correlations, loaded e.covariances⟩ := by
  have key : ∀ l : Option (List NDArray), (∀ m, l = some m → ∀ a ∈ m, a.Valid ∧ ListShape a.shape) → listFromDict (listToDict l) = .ok (loaded l) := by
    intro l h
    cases l with
    | none => rfl
    | some l =>
      rw [listToDict_roundtrip l (h l rfl)]
      cases l <;> rfl
  show (do
    let v ← dictToArray (arrayToDict e.values)
    let c ← listFromDict (listToDict e.correlations)
    let s ← listFromDict (listToDict e.covariances)
    Except.ok (ExpectationValues.mk v c s)) = _
  rw [array_roundtrip_partial _ hv.1 hv.2, key _ hc, key _ hs]
  rfl

/-- C52: an interaction operator is recovered from its dictionary. -/
theorem interaction_roundtrip (o : InteractionOp) (hc : o.constantCplx = false → o.constant.im = 0) (h1 : o.one.Valid ∧ ListShape o.one.shape)
    (h2 : o.two.Valid ∧ ListShape o.two.shape) :
    ∃ o', interactionFromDict (interactionToDict o) = .ok o' ∧ o'.constant = o.constant ∧ o'.one.shape = o.one.shape ∧ o'.one.data = o.one.data ∧
      o'.two.shape = o.two.shape ∧ o'.two.data = o.two.data := by
  have h0 := array_roundtrip_partial ⟨[], [o.constant], o.constantCplx⟩ ⟨rfl, fun h z hz => by rw [List.mem_singleton.1 hz]; exact hc h⟩ fun n hn => by simp at hn
  refine ⟨⟨o.constant, o.constantCplx && keptComplex ⟨[], [o.constant], o.constantCplx⟩, ⟨o.one.shape, o.one.data, o.one.cplx && keptComplex o.one⟩,
    ⟨o.two.shape, o.two.data, o.two.cplx && keptComplex o.two⟩⟩,
    ?_, rfl, rfl, rfl, rfl, rfl⟩
  · show (do
      let c ← dictToArray (arrayToDict ⟨[], [o.constant], o.constantCplx⟩)
      let a ← dictToArray (arrayToDict o.one)
      let b ← dictToArray (arrayToDict o.two)
      Except.ok (InteractionOp.mk (c.data.headD 0) c.cplx a b)) = _
    rw [h0, array_roundtrip_partial _ h1.1 h1.2, array_roundtrip_partial _ h2.1 h2.2]
    rfl

/-- A complex array of shape `(2, 1, 2)` meets the hypotheses. -/
example : (⟨[2, 1, 2], [1, Complex.I, 2, 3], true⟩ : NDArray).Valid ∧ ListShape [2, 1, 2] ∧ ListShape [2, 0] ∧ ListShape [] :=
  ⟨⟨rfl, fun h => by cases h⟩, by simp [ListShape], by simp [ListShape], by simp [ListShape]⟩

end ZQ.ArraySerde
