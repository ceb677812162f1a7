import Verif.Model.ResultEq
import Verif.Props.ArraySerde

/-!
# C148: comparing results with `==`
-/

namespace ZQ.ResultEq

open ZQ ZQ.ArraySerde

/-! ## Specification -/

/-- What expectation values hold: the array of values, and the arrays of correlations and covariances if there are any. -/
def EVObj.contents (e : EVObj) : ExpectationValues :=
  ⟨e.values.arr, e.correlations.map fun l => l.items.map ArrObj.arr, e.covariances.map fun l => l.items.map ArrObj.arr⟩

/-- The numbers alone, without shapes and types. -/
def numbers (e : ExpectationValues) : List ℂ × Option (List (List ℂ)) × Option (List (List ℂ)) :=
  (e.values.data, e.correlations.map fun l => l.map NDArray.data, e.covariances.map fun l => l.map NDArray.data)

/-- The array objects reached from an attribute. -/
def objects : Option ListObj → List ArrObj
  | some l => l.items
  | none => []

/-- The array objects reached from expectation values. -/
def EVObj.arrays (e : EVObj) : List ArrObj := e.values :: (objects e.correlations ++ objects e.covariances)

/-- The lists reached from expectation values. -/
def EVObj.lists (e : EVObj) : List ListObj := e.correlations.toList ++ e.covariances.toList

/-- An identity stands for one object. -/
def Coherent (e f : EVObj) : Prop :=
  (∀ a ∈ e.arrays, ∀ b ∈ f.arrays, a.id = b.id → a = b) ∧ (∀ a ∈ e.lists, ∀ b ∈ f.lists, a.id = b.id → a = b)

/-- Every array has as many entries as its shape says. -/
def EVObj.Sized (e : EVObj) : Prop := ∀ a ∈ e.arrays, a.arr.data.length = a.arr.shape.prod

/-! ## Proofs -/

theorem broadcast_symm : ∀ s t : List ℕ, broadcast s t = broadcast t s
  | [], [] => rfl
  | [], _ :: _ => rfl
  | _ :: _, [] => rfl
  | a :: s, b :: t => by
    simp only [broadcast, broadcast_symm s t]
    by_cases h : a = b
    · subst h; simp
    · rw [if_neg h, if_neg (Ne.symm h)]
      by_cases h1 : a = 1
      · by_cases h2 : b = 1
        · exact absurd (h1.trans h2.symm) h
        · rw [if_pos h1, if_neg h2, if_pos h1]
      · rw [if_neg h1]
        by_cases h2 : b = 1
        · rw [if_pos h2, if_pos h2]
        · rw [if_neg h2, if_neg h2, if_neg h1]

theorem broadcast_self : ∀ s : List ℕ, broadcast s s = some s
  | [] => rfl
  | a :: s => by simp [broadcast, broadcast_self s]

/-- A broadcast shape with one entry comes from shapes with one entry. -/
theorem broadcast_one : ∀ s t r : List ℕ, broadcast s t = some r → r.prod = 1 → s.prod = 1 ∧ t.prod = 1
  | [], t, r, h, hr => by
    simp only [broadcast, Option.some.injEq] at h; subst h; exact ⟨rfl, hr⟩
  | a :: s, [], r, h, hr => by
    simp only [broadcast, Option.some.injEq] at h; subst h; exact ⟨hr, rfl⟩
  | a :: s, b :: t, r, h, hr => by
    have main : ∀ c, (broadcast s t).map (c :: ·) = some r → c = 1 ∧ s.prod = 1 ∧ t.prod = 1 := by
      intro c hc
      obtain ⟨r', hr', rfl⟩ := Option.map_eq_some_iff.mp hc
      rw [List.prod_cons] at hr
      obtain ⟨h1, h2⟩ := mul_eq_one.mp hr
      exact ⟨h1, broadcast_one s t r' hr' h2⟩
    unfold broadcast at h
    simp only [List.prod_cons]
    by_cases hab : a = b
    · rw [if_pos hab] at h
      obtain ⟨h1, h2, h3⟩ := main a h
      subst hab; simp [h1, h2, h3]
    · rw [if_neg hab] at h
      by_cases ha : a = 1
      · rw [if_pos ha] at h
        obtain ⟨h1, h2, h3⟩ := main b h
        simp [ha, h1, h2, h3]
      · rw [if_neg ha] at h
        by_cases hb : b = 1
        · rw [if_pos hb] at h
          obtain ⟨h1, h2, h3⟩ := main a h
          exact absurd h1 ha
        · rw [if_neg hb] at h; simp at h

theorem arrTruth_symm (np : Numpy) (a b : NDArray) : arrTruth np a b = arrTruth np b a := by
  unfold arrTruth
  rw [broadcast_symm]
  simp only [eq_comm (a := a.data.head?)]

theorem arrTruth_true {np : Numpy} {a b : NDArray} (ha : a.data.length = a.shape.prod) (hb : b.data.length = b.shape.prod)
    (h : arrTruth np a b = .ok true) : a.data = b.data := by
  unfold arrTruth at h
  cases hs : broadcast a.shape.reverse b.shape.reverse with
  | none => rw [hs] at h; simp only at h; split_ifs at h <;> simp at h
  | some s =>
    rw [hs] at h
    simp only at h
    by_cases h0 : s.prod = 0
    · rw [if_pos h0] at h; split_ifs at h <;> simp at h
    · rw [if_neg h0] at h
      by_cases h1 : s.prod = 1
      · rw [if_pos h1] at h
        simp only [Except.ok.injEq, decide_eq_true_eq] at h
        obtain ⟨h2, h3⟩ := broadcast_one _ _ _ hs h1
        rw [List.prod_reverse] at h2 h3
        rw [h2] at ha; rw [h3] at hb
        obtain ⟨x, hx⟩ := List.length_eq_one_iff.mp ha
        obtain ⟨y, hy⟩ := List.length_eq_one_iff.mp hb
        rw [hx, hy] at h ⊢
        simpa using h
      · rw [if_neg h1] at h; simp at h

/-- Arrays with the same contents that are not empty are never taken to differ. -/
theorem arrTruth_false {np : Numpy} {a : NDArray} (h0 : a.shape.prod ≠ 0) : arrTruth np a a ≠ .ok false := by
  unfold arrTruth
  rw [broadcast_self]
  simp only [List.prod_reverse, if_neg h0]
  split_ifs <;> simp

theorem arrEq_symm (np : Numpy) (a b : ArrObj) : arrEq np a b = arrEq np b a := by
  unfold arrEq
  rw [arrTruth_symm]
  simp only [eq_comm (a := a.id)]

theorem itemsEq_symm (np : Numpy) : ∀ a b : List ArrObj, itemsEq np a b = itemsEq np b a
  | [], [] => rfl
  | [], _ :: _ => rfl
  | _ :: _, [] => rfl
  | x :: xs, y :: ys => by simp only [itemsEq, arrEq_symm np x y, itemsEq_symm np xs ys]

theorem optEq_symm (np : Numpy) (a b : Option ListObj) : optEq np a b = optEq np b a := by
  cases a <;> cases b <;> simp only [optEq]
  rename_i x y
  rw [itemsEq_symm]
  simp only [eq_comm (a := x.id), ne_comm (a := x.items.length)]

theorem optEq_self (np : Numpy) (a : Option ListObj) : optEq np a a = .ok true := by
  cases a <;> simp [optEq]

theorem arrEq_true {np : Numpy} {a b : ArrObj} (hc : a.id = b.id → a = b) (ha : a.arr.data.length = a.arr.shape.prod)
    (hb : b.arr.data.length = b.arr.shape.prod) (h : arrEq np a b = .ok true) : a.arr.data = b.arr.data := by
  unfold arrEq at h
  by_cases hi : a.id = b.id
  · rw [hc hi]
  · rw [if_neg hi] at h; exact arrTruth_true ha hb h

theorem itemsEq_true {np : Numpy} : ∀ {a b : List ArrObj}, a.length = b.length → (∀ x ∈ a, ∀ y ∈ b, x.id = y.id → x = y) →
    (∀ x ∈ a, x.arr.data.length = x.arr.shape.prod) → (∀ x ∈ b, x.arr.data.length = x.arr.shape.prod) → itemsEq np a b = .ok true →
    a.map (fun x => x.arr.data) = b.map (fun x => x.arr.data)
  | [], [], _, _, _, _, _ => rfl
  | [], _ :: _, hl, _, _, _, _ => by simp at hl
  | _ :: _, [], hl, _, _, _, _ => by simp at hl
  | x :: xs, y :: ys, hl, hc, ha, hb, h => by
    simp only [itemsEq] at h
    cases hxy : arrEq np x y with
    | error e => rw [hxy] at h; simp [bind, Except.bind] at h
    | ok v =>
      rw [hxy] at h
      cases v with
      | false => simp [bind, Except.bind] at h
      | true =>
        simp only [bind, Except.bind, if_true] at h
        rw [List.map_cons, List.map_cons, arrEq_true (hc x (by simp) y (by simp)) (ha x (by simp)) (hb y (by simp)) hxy,
          itemsEq_true (by simpa using hl) (fun u hu v hv => hc u (by simp [hu]) v (by simp [hv])) (fun u hu => ha u (by simp [hu]))
            (fun u hu => hb u (by simp [hu])) h]

theorem optEq_true {np : Numpy} {a b : Option ListObj} (hi : ∀ x ∈ a.toList, ∀ y ∈ b.toList, x.id = y.id → x = y)
    (hc : ∀ x ∈ objects a, ∀ y ∈ objects b, x.id = y.id → x = y) (ha : ∀ x ∈ objects a, x.arr.data.length = x.arr.shape.prod)
    (hb : ∀ x ∈ objects b, x.arr.data.length = x.arr.shape.prod) (h : optEq np a b = .ok true) :
    a.map (fun l => l.items.map fun x => x.arr.data) = b.map (fun l => l.items.map fun x => x.arr.data) := by
  cases a with
  | none => cases b with
    | none => rfl
    | some y => simp [optEq] at h
  | some x => cases b with
    | none => simp [optEq] at h
    | some y =>
      simp only [optEq] at h
      by_cases hxy : x.id = y.id
      · rw [hi x (by simp) y (by simp) hxy]
      · rw [if_neg hxy] at h
        by_cases hl : x.items.length = y.items.length
        · rw [if_neg (by simpa using hl)] at h
          simp only [Option.map_some]
          rw [itemsEq_true hl hc ha hb h]
        · rw [if_pos hl] at h; simp at h

/-- C148. Expectation values are equal to themselves, and to other expectation values made of the same arrays and lists. -/
theorem eq_shared (np : Numpy) (e f : EVObj) (hv : e.values = f.values) (hc : e.correlations = f.correlations) (hs : e.covariances = f.covariances) :
    evEq np e (.expectation f) = .ok true := by
  simp [evEq, hv, hc, hs, arrEq, optEq_self, bind, Except.bind]

/-- C148. The order does not matter: the answer or the exception is the same. -/
theorem eq_symm (np : Numpy) (e f : EVObj) : evEq np e (.expectation f) = evEq np f (.expectation e) := by
  simp only [evEq, arrEq_symm np e.values, optEq_symm np e.correlations, optEq_symm np e.covariances]

/-- C148. An answer `True` means the numbers are the same. -/
theorem eq_true (np : Numpy) (e f : EVObj) (hco : Coherent e f) (he : e.Sized) (hf : f.Sized) (h : evEq np e (.expectation f) = .ok true) :
    numbers e.contents = numbers f.contents := by
  obtain ⟨hA, hL⟩ := hco
  simp only [EVObj.Sized, EVObj.arrays, EVObj.lists, List.mem_cons, List.mem_append] at hA hL he hf
  simp only [evEq] at h
  cases hv : arrEq np e.values f.values with
  | error x => rw [hv] at h; simp [bind, Except.bind] at h
  | ok v =>
    rw [hv] at h
    cases v with
    | false => simp [bind, Except.bind] at h
    | true =>
      simp only [bind, Except.bind, if_true] at h
      cases hc : optEq np e.correlations f.correlations with
      | error x => rw [hc] at h; simp at h
      | ok c =>
        rw [hc] at h
        cases c with
        | false => simp at h
        | true =>
          simp only [if_true] at h
          have h1 := arrEq_true (hA _ (.inl rfl) _ (.inl rfl)) (he _ (.inl rfl)) (hf _ (.inl rfl)) hv
          have h2 := optEq_true (fun x hx y hy => hL x (.inl hx) y (.inl hy))
            (fun x hx y hy => hA x (.inr (.inl hx)) y (.inr (.inl hy))) (fun x hx => he x (.inr (.inl hx))) (fun x hx => hf x (.inr (.inl hx))) hc
          have h3 := optEq_true (fun x hx y hy => hL x (.inr hx) y (.inr hy))
            (fun x hx y hy => hA x (.inr (.inr hx)) y (.inr (.inr hy))) (fun x hx => he x (.inr (.inr hx))) (fun x hx => hf x (.inr (.inr hx))) h
          simp only [numbers, EVObj.contents, Option.map_map, Function.comp_def, List.map_map]
          rw [h1, h2, h3]

theorem itemsEq_false {np : Numpy} : ∀ {a b : List ArrObj}, a.map ArrObj.arr = b.map ArrObj.arr → (∀ x ∈ a, x.arr.shape.prod ≠ 0) →
    itemsEq np a b ≠ .ok false
  | [], [], _, _ => by simp [itemsEq]
  | [], _ :: _, h, _ => by simp at h
  | _ :: _, [], h, _ => by simp at h
  | x :: xs, y :: ys, h, h0 => by
    simp only [List.map_cons, List.cons.injEq] at h
    have h1 : arrEq np x y ≠ .ok false := by
      unfold arrEq
      split_ifs
      · simp
      · rw [← h.1]; exact arrTruth_false (h0 x (by simp))
    simp only [itemsEq]
    cases hxy : arrEq np x y with
    | error e => simp [bind, Except.bind]
    | ok v =>
      cases v with
      | false => exact absurd hxy h1
      | true =>
        simp only [bind, Except.bind, if_true]
        exact itemsEq_false h.2 fun u hu => h0 u (by simp [hu])

theorem optEq_false {np : Numpy} {a b : Option ListObj} (h : a.map (fun l => l.items.map ArrObj.arr) = b.map (fun l => l.items.map ArrObj.arr))
    (h0 : ∀ x ∈ objects a, x.arr.shape.prod ≠ 0) : optEq np a b ≠ .ok false := by
  cases a with
  | none => cases b with
    | none => simp [optEq]
    | some y => simp at h
  | some x => cases b with
    | none => simp at h
    | some y =>
      simp only [Option.map_some, Option.some.injEq] at h
      have hl : x.items.length = y.items.length := by simpa using congrArg List.length h
      simp only [optEq]
      split_ifs with h1
      · simp
      · exact absurd hl (by simpa using ‹_›)
      · exact itemsEq_false h h0

/-- C148 (part). An answer `False` means what they hold differs, if no array is empty. -/
theorem eq_false_partial (np : Numpy) (e f : EVObj) (h0 : ∀ a ∈ e.arrays, a.arr.shape.prod ≠ 0) (h : evEq np e (.expectation f) = .ok false) :
    e.contents ≠ f.contents := by
  intro hc
  simp only [EVObj.contents, ExpectationValues.mk.injEq] at hc
  obtain ⟨h1, h2, h3⟩ := hc
  simp only [EVObj.arrays, List.mem_cons, List.mem_append] at h0
  have k1 : arrEq np e.values f.values ≠ .ok false := by
    unfold arrEq
    split_ifs
    · simp
    · rw [← h1]; exact arrTruth_false (h0 _ (.inl rfl))
  have k2 := optEq_false (np := np) h2 fun x hx => h0 x (.inr (.inl hx))
  have k3 := optEq_false (np := np) h3 fun x hx => h0 x (.inr (.inr hx))
  simp only [evEq] at h
  cases hv : arrEq np e.values f.values with
  | error x => rw [hv] at h; simp [bind, Except.bind] at h
  | ok v =>
    rw [hv] at h
    cases v with
    | false => exact k1 hv
    | true =>
      simp only [bind, Except.bind, if_true] at h
      cases hc : optEq np e.correlations f.correlations with
      | error x => rw [hc] at h; simp at h
      | ok c =>
        rw [hc] at h
        cases c with
        | false => exact k2 hc
        | true => simp only [if_true] at h; exact k3 h

/-- C148. Two different arrays of values with the same shape and more than one entry cannot be compared: whatever they hold, equal or not, and whatever
the correlations, the answer is `ValueError`. -/
theorem eq_raises (np : Numpy) (e f : EVObj) (hi : e.values.id ≠ f.values.id) (hs : e.values.arr.shape = f.values.arr.shape)
    (hn : 2 ≤ e.values.arr.shape.prod) : evEq np e (.expectation f) = .error .valueError := by
  have h1 : arrEq np e.values f.values = .error .valueError := by
    unfold arrEq
    rw [if_neg hi]
    unfold arrTruth
    rw [← hs, broadcast_self]
    simp only [List.prod_reverse]
    rw [if_neg (by omega), if_neg (by omega)]
  simp [evEq, h1, bind, Except.bind]

/-- C148. A single value, without correlations and covariances, is compared as one expects. -/
theorem eq_single (np : Numpy) (e f : EVObj) (x y : ℂ) (hi : e.values.id ≠ f.values.id) (hs : e.values.arr.shape = [1]) (ht : f.values.arr.shape = [1])
    (hx : e.values.arr.data = [x]) (hy : f.values.arr.data = [y]) (hc : e.correlations = none ∧ f.correlations = none)
    (hv : e.covariances = none ∧ f.covariances = none) : ∃ b, evEq np e (.expectation f) = .ok b ∧ (b = true ↔ x = y) := by
  by_cases hxy : x = y
  · exact ⟨true, by simp [evEq, arrEq, hi, arrTruth, hs, ht, hx, hy, hc, hv, broadcast, optEq, hxy, bind, Except.bind], by simp [hxy]⟩
  · exact ⟨false, by simp [evEq, arrEq, hi, arrTruth, hs, ht, hx, hy, hc, hv, broadcast, hxy, bind, Except.bind], by simp [hxy]⟩

/-- C148. A value without attributes on the right raises `AttributeError`; an object with other attributes is not equal. -/
theorem eq_others (np : Numpy) (e : EVObj) : evEq np e .noAttributes = .error .attributeError ∧ evEq np e .otherObject = .ok false := ⟨rfl, rfl⟩

/-- C148. Reading back what was written cannot be compared with what was written: with two or more values the contents are the same, and `==` raises
`ValueError`, for every new object. -/
theorem eq_roundtrip_raises (np : Numpy) (e f : EVObj) (d : ExpectationValues) (hd : expectationFromDict (expectationToDict e.contents) = .ok d)
    (hf : f.contents = d) (hnew : e.values.id ≠ f.values.id) (hv : e.values.arr.Valid ∧ ListShape e.values.arr.shape)
    (hn : 2 ≤ e.values.arr.shape.prod) : evEq np e (.expectation f) = .error .valueError ∧
      f.values.arr.shape = e.values.arr.shape ∧ f.values.arr.data = e.values.arr.data := by
  have h1 : d.values.shape = e.values.arr.shape ∧ d.values.data = e.values.arr.data := by
    simp only [expectationFromDict, expectationToDict, bind, Except.bind] at hd
    rw [show dictToArray (arrayToDict e.contents.values) = _ from array_roundtrip_partial e.values.arr hv.1 hv.2] at hd
    simp only at hd
    split at hd
    · simp at hd
    · split at hd
      · simp at hd
      · simp only [Except.ok.injEq] at hd; subst hd; exact ⟨rfl, rfl⟩
  subst hf
  exact ⟨eq_raises np e f hnew h1.1.symm hn, h1⟩

/-- Two values, 1 and 2, as an object with the given identity. -/
noncomputable def twoValues (i : ℕ) : EVObj := ⟨⟨i, ⟨[2], [1, 2], false⟩⟩, none, none⟩

/-- C148, the full claim fails: expectation values that hold the same cannot be compared. -/
theorem eq_counterexample : ∃ e f : EVObj, e.contents = f.contents ∧ e.Sized ∧ f.Sized ∧ Coherent e f ∧
    ∀ np, evEq np e (.expectation f) = .error .valueError :=
  ⟨twoValues 0, twoValues 1, rfl, by simp [EVObj.Sized, EVObj.arrays, objects, twoValues], by simp [EVObj.Sized, EVObj.arrays, objects, twoValues],
    by simp [Coherent, EVObj.arrays, EVObj.lists, objects, twoValues], fun np => eq_raises np _ _ (by simp [twoValues]) rfl (by simp [twoValues])⟩

/-- C148, the full claim fails: with a numpy that gives empty arrays the truth value `False`, no values differ from no values. -/
theorem eq_empty_counterexample : ∃ e f : EVObj, e.contents = f.contents ∧ ∀ np : Numpy, np.emptyRaises = false → evEq np e (.expectation f) = .ok false :=
  ⟨⟨⟨0, ⟨[0], [], false⟩⟩, none, none⟩, ⟨⟨1, ⟨[0], [], false⟩⟩, none, none⟩, rfl, fun np h => by
    simp [evEq, arrEq, arrTruth, broadcast, h, bind, Except.bind]⟩

example : evEq ⟨false, false⟩ (twoValues 0) (.expectation (twoValues 0)) = .ok true := eq_shared _ _ _ rfl rfl rfl
example : ∃ (f : EVObj) (d : ExpectationValues), expectationFromDict (expectationToDict (twoValues 0).contents) = .ok d ∧ f.contents = d ∧ (twoValues 0).values.id ≠ f.values.id ∧
    (twoValues 0).values.arr.Valid ∧ ListShape (twoValues 0).values.arr.shape :=
  have hv : (twoValues 0).values.arr.Valid := by simp [NDArray.Valid, twoValues]
  have hs : ListShape (twoValues 0).values.arr.shape := by simp [ListShape, twoValues]
  ⟨twoValues 1, (twoValues 1).contents, by
    have h := array_roundtrip_partial _ hv hs
    simp only [expectationFromDict, expectationToDict, bind, Except.bind]
    rw [show dictToArray (arrayToDict (twoValues 0).contents.values) = _ from h]
    rfl, rfl, by simp [twoValues], hv, hs⟩

/-! ## Value estimates -/

/-- C148. A value estimate equals another one exactly if values and precisions agree; a number counts as an estimate without a precision; other things are
never equal; `!=` is the opposite; and the order of a number and an estimate does not matter. -/
theorem estimate_eq (v : ValueEstimate) :
    (∀ w, estEq v (.estimate w) = true ↔ v.value = w.value ∧ v.precision = w.precision) ∧
    (∀ x, estEq v (.number x) = true ↔ v = ⟨x, none⟩) ∧ (∀ x, numEq x v = true ↔ v = ⟨x, none⟩) ∧
    estEq v .other = false ∧ (∀ o, estNe v o = true ↔ ¬ estEq v o = true) ∧
    ∀ w, estEq v (.estimate w) = estEq w (.estimate v) := by
  refine ⟨fun w => by simp [estEq, valueEq], fun x => ?_, fun x => ?_, rfl, fun o => by simp [estNe], fun w => ?_⟩
  · cases v; simp [estEq]
  · cases v; simp [numEq, estEq]
  · rw [Bool.eq_iff_iff]; simp only [estEq, valueEq, Bool.and_eq_true, decide_eq_true_eq]; tauto

/-- C148. The text of a value estimate is that of its value, with the precision after a plus-minus sign if there is one. -/
theorem estimate_str (text : ℝ → String) (x p : ℝ) :
    estStr text ⟨x, none⟩ = text x ∧ estStr text ⟨x, some p⟩ = text x ++ " ± " ++ text p := ⟨rfl, rfl⟩

/-- C148. A value estimate with a precision is not equal to its own value. -/
theorem estimate_ne_value (x p : ℝ) : estEq ⟨x, some p⟩ (.number x) = false := by simp [estEq]

end ZQ.ResultEq
