import Verif.Model.Files
import Verif.Props.ResultSerde
import Verif.Props.OpSerde
import Verif.Props.Wavefunction

/-! C97: objects saved to JSON files. -/

namespace ZQ.Files

open ZQ ZQ.Results ZQ.ArraySerde

/-! ## Plain values -/

/-- The value is what JSON has: writing and reading does not change it. -/
def Plain (d : Data) : Prop := dumps d = .ok d

theorem dumpsList_plain : ∀ {l : List Data}, (∀ x ∈ l, Plain x) → dumpsList l = .ok l
  | [], _ => rfl
  | x :: l, h => by
    have hx : dumps x = .ok x := h x (by simp)
    rw [dumpsList, hx, dumpsList_plain fun y hy => h y (by simp [hy])]
    rfl

theorem dumpsItems_plain : ∀ {l : List (Str × Data)}, (∀ kv ∈ l, Plain kv.2) → dumpsItems l = .ok l
  | [], _ => rfl
  | (k, x) :: l, h => by
    have hx : dumps x = .ok x := h (k, x) (by simp)
    rw [dumpsItems, hx, dumpsItems_plain fun y hy => h y (by simp [hy])]
    rfl

theorem plain_list {l : List Data} (h : ∀ x ∈ l, Plain x) : Plain (.list l) := by
  rw [Plain, dumps, dumpsList_plain h]; rfl

theorem plain_dict {l : List (Str × Data)} (h : ∀ kv ∈ l, Plain kv.2) : Plain (.dict l) := by
  rw [Plain, dumps, dumpsItems_plain h]; rfl

theorem plain_num (x : ℝ) : Plain (.num x) := by rw [Plain, dumps]
theorem plain_str (s : Str) : Plain (.str s) := by rw [Plain, dumps]
theorem plain_txt (s : String) : Plain (txt s) := plain_str _
theorem plain_null : Plain .null := by rw [Plain, dumps]

mutual
theorem plain_nested : ∀ n : Nested, Plain (nestedData n)
  | .num x => by rw [nestedData]; exact plain_num x
  | .arr l => by rw [nestedData]; exact plain_list (plain_nestedList l)
theorem plain_nestedList : ∀ l : List Nested, ∀ x ∈ nestedDataList l, Plain x
  | [], x, hx => by rw [nestedDataList] at hx; cases hx
  | n :: l, x, hx => by
    rw [nestedDataList] at hx
    rcases List.mem_cons.1 hx with rfl | hx
    · exact plain_nested n
    · exact plain_nestedList l x hx
end

theorem plain_array (a : NDArray) : Plain (arrayData a) := by
  rw [arrayData]
  split
  · exact plain_dict (by simpa using plain_nested _)
  · exact plain_dict (by simpa using ⟨plain_nested _, plain_nested _⟩)

theorem plain_arraysField (k : String) (l : Option (List NDArray)) : ∀ kv ∈ arraysField k l, Plain kv.2 := by
  intro kv hkv
  match l with
  | none => simp [arraysField] at hkv
  | some [] => simp [arraysField] at hkv
  | some (a :: l) =>
    obtain rfl := List.mem_singleton.1 hkv
    refine plain_list fun x hx => ?_
    obtain ⟨b, _, rfl⟩ := List.mem_map.1 hx
    exact plain_array b

theorem plain_letter (l : Op.Letter) : Plain (letterText l) := by cases l <;> exact plain_txt _

theorem plain_term (t : OpSerde.TermDict) : Plain (termRecord t) := by
  refine plain_dict ?_
  intro kv hkv
  simp only [List.mem_cons, List.not_mem_nil, or_false] at hkv
  rcases hkv with rfl | rfl
  · refine plain_list fun x hx => ?_
    obtain ⟨p, _, rfl⟩ := List.mem_map.1 hx
    exact plain_dict (by simpa using ⟨plain_num _, plain_letter _⟩)
  · refine plain_dict ?_
    cases t.imag with
    | none => simpa using plain_num _
    | some y => simpa using ⟨plain_num _, plain_num _⟩

theorem plain_op (d : OpSerde.OpDict) : Plain (opRecord d) := by
  refine plain_dict ?_
  intro kv hkv
  simp only [List.mem_cons, List.not_mem_nil, or_false] at hkv
  rcases hkv with rfl | rfl
  · exact plain_str _
  · refine plain_list fun x hx => ?_
    obtain ⟨t, _, rfl⟩ := List.mem_map.1 hx
    exact plain_term t

/-! ## Which file holds what -/

/-- The path that a target names. -/
def Target.names : Target → Str → Prop
  | .str p, q => p = q
  | .path p, q => p = q
  | .opened _, _ => False

/-- The file holds the object. -/
def Holds (fs : FS) (p : Str) (a : Artefact) : Prop := ∃ j, dumps (record a) = .ok j ∧ fs p = some (some j)

/-- C97: a call changes no file but the one named. -/
theorem saveTo_other (fs : FS) (t : Target) (a : Artefact) {p : Str} (hp : ¬ t.names p) : (saveTo fs t a).1 p = fs p := by
  have hput : ∀ q c, q ≠ p → put fs q c p = fs p := fun q c h => if_neg fun h' => h h'.symm
  have hw : ∀ q, q ≠ p → ∀ d, (writeFile fs q d).1 p = fs p := by
    intro q hq d
    rw [writeFile]
    split <;> exact hput _ _ hq
  cases t with
  | str q => exact hw q hp _
  | path q => exact hw q hp _
  | opened d => cases a <;> rfl

theorem saveTo_holds (fs : FS) (t : Target) (a : Artefact) {p : Str} (hp : t.names p) {j : Data} (hj : dumps (record a) = .ok j) :
    (saveTo fs t a).2 = none ∧ (saveTo fs t a).1 p = some (some j) := by
  have hw : writeFile fs p (record a) = (put fs p (some j), none) := by rw [writeFile, hj]
  have hput : put fs p (some j) p = some (some j) := if_pos rfl
  cases t with
  | str q =>
    obtain rfl : q = p := hp
    have : saveTo fs (.str q) a = writeFile fs q (record a) := by cases a <;> rfl
    rw [this, hw]; exact ⟨rfl, hput⟩
  | path q =>
    obtain rfl : q = p := hp
    have : saveTo fs (.path q) a = writeFile fs q (record a) := by cases a <;> rfl
    rw [this, hw]; exact ⟨rfl, hput⟩
  | opened d => exact absurd hp id

/-- C97, histories: whatever is saved before, and whatever is saved to other files afterwards, the file holds the object saved to it last. -/
theorem holds_last (fs : FS) (pre post : List Request) (t : Target) (a : Artefact) {p : Str} (hp : t.names p) {j : Data} (hj : dumps (record a) = .ok j)
    (hpost : ∀ r ∈ post, ¬ r.1.names p) : Holds (run fs (pre ++ (t, a) :: post)) p a := by
  refine ⟨j, hj, ?_⟩
  rw [run, List.foldl_append, List.foldl_cons]
  generalize (pre.foldl (fun fs r => (saveTo fs r.1 r.2).1) fs) = fs1
  have h0 := (saveTo_holds fs1 t a hp hj).2
  generalize (saveTo fs1 t a).1 = fs2 at h0
  induction post generalizing fs2 with
  | nil => exact h0
  | cons r post ih =>
    rw [List.foldl_cons]
    exact ih (fun x hx => hpost x (by simp [hx])) _ (by rw [saveTo_other fs2 r.1 r.2 (hpost r (by simp))]; exact h0)

/-- C97, the negation for failing calls: a call that raises `TypeError` (here because of an array in a list) has emptied the file, so that the object saved
before is lost. -/
theorem failed_save_counterexample (fs : FS) (p : Str) (v : ValueEstimate) (a : NDArray) (name : Str) :
    let fs1 := (saveTo fs (.str p) (.value v)).1
    let r := saveTo fs1 (.str p) (.list [.array a] name)
    loadValue fs1 (.str p) = .ok v ∧ r.2 = some (.py .typeError) ∧ loadValue r.1 (.str p) = .error (.py .valueError) := by
  have hd : dumps (record (.value v)) = .ok (valueRecord v) := by
    refine plain_dict ?_
    simp only [List.mem_cons, List.not_mem_nil, or_false, forall_eq_or_imp, forall_eq]
    refine ⟨plain_txt _, plain_num _, ?_⟩
    cases v.precision with
    | none => exact plain_null
    | some q => exact plain_num q
  have h1 := (saveTo_holds fs (.str p) (.value v) (p := p) rfl hd).2
  have he : dumps (listRecord [.array a] name) = .error .typeError := by
    rw [listRecord, dumps, dumpsItems, dumps, dumpsItems, dumps, dumpsList, dumps]; rfl
  have h2 : ∀ fs, saveTo fs (.str p) (.list [.array a] name) = (put fs p none, some (.py .typeError)) := fun fs => by
    show writeFile fs p (listRecord [.array a] name) = _
    rw [writeFile, he]
  refine ⟨?_, by rw [h2], ?_⟩
  · rw [loadValue, readStr, readFile, h1]
    obtain ⟨x, q⟩ := v
    cases q <;> rfl
  · have h3 : readStr (saveTo (saveTo fs (.str p) (.value v)).1 (.str p) (.list [.array a] name)).1 (.str p) = .error (.py .valueError) := by
      rw [h2, readStr, readFile]
      dsimp only
      rw [put, if_pos rfl]
      rfl
    rw [loadValue, h3]
    rfl

/-! ## Reading files -/

theorem readStr_holds {fs : FS} {p : Str} {j : Data} (h : fs p = some (some j)) : readStr fs (.str p) = .ok j := by
  rw [readStr, readFile, h]; rfl

theorem readAny_holds {fs : FS} {p : Str} {j : Data} (h : fs p = some (some j)) {t : Target} (ht : t.names p) : readAny fs t = .ok j := by
  cases t with
  | str q => obtain rfl : q = p := ht; rw [readAny, readFile, h]; rfl
  | path q => obtain rfl : q = p := ht; rw [readAny, readFile, h]; rfl
  | opened d => exact absurd ht id

theorem readPath_holds {fs : FS} {p : Str} {j : Data} (h : fs p = some (some j)) {t : Target} (ht : t.names p) : readPath fs t = .ok j := by
  cases t with
  | str q => obtain rfl : q = p := ht; rw [readPath, readFile, h]; rfl
  | path q => obtain rfl : q = p := ht; rw [readPath, readFile, h]; rfl
  | opened d => exact absurd ht id

theorem field_here (k : String) (v : Data) (l : List (Str × Data)) : field (.dict ((k.toList, v) :: l)) k = .ok v := by
  rw [field, PyDict.get?, if_pos rfl]

theorem field_skip {k k' : String} (h : k'.toList ≠ k.toList) (v : Data) (l : List (Str × Data)) :
    field (.dict ((k'.toList, v) :: l)) k = field (.dict l) k := by
  rw [field, PyDict.get?, if_neg h, field]

theorem getField_here (k : String) (v : Data) (l : List (Str × Data)) : getField (.dict ((k.toList, v) :: l)) k = .ok (some v) := by
  rw [getField, PyDict.get?, if_pos rfl]

theorem getField_skip {k k' : String} (h : k'.toList ≠ k.toList) (v : Data) (l : List (Str × Data)) :
    getField (.dict ((k'.toList, v) :: l)) k = getField (.dict l) k := by
  rw [getField, PyDict.get?, if_neg h, getField]

/-- The array as it is loaded: same shape and entries; the type is complex unless the file cannot tell. -/
noncomputable def back (a : NDArray) : NDArray := ⟨a.shape, a.data, a.cplx && keptComplex a⟩

/-- Arrays that can be rebuilt from nested lists (C59). -/
def Fine (a : NDArray) : Prop := a.Valid ∧ ListShape a.shape

theorem parseArray_eq (a : NDArray) : parseArray (arrayData a) = dictToArray (arrayToDict a) := by
  rw [arrayData]
  cases h : (arrayToDict a).imag with
  | none =>
    dsimp only
    rw [show kReal = "real".toList from rfl, parseArray, field_here, getField_skip (by decide)]
    show arrayOf (nestedData (arrayToDict a).real) none = _
    rw [arrayOf.eq_def, toNested_nestedData, ← h]
  | some j =>
    dsimp only
    rw [show kReal = "real".toList from rfl, show kImag = "imag".toList from rfl, parseArray, field_here, getField_skip (by decide), getField_here]
    show arrayOf (nestedData (arrayToDict a).real) (some (nestedData j)) = _
    rw [arrayOf.eq_def, toNested_nestedData]
    dsimp only
    rw [toNested_nestedData]
    dsimp only
    rw [← h]

theorem parseArray_back {a : NDArray} (h : Fine a) : parseArray (arrayData a) = .ok (back a) := by
  rw [parseArray_eq, array_roundtrip_partial a h.1 h.2]; rfl

theorem mapM_parseArray : ∀ {l : List NDArray}, (∀ a ∈ l, Fine a) → (l.map arrayData).mapM parseArray = .ok (l.map back)
  | [], _ => rfl
  | a :: l, h => by
    rw [List.map_cons, List.mapM_cons, parseArray_back (h a (by simp)), mapM_parseArray fun b hb => h b (by simp [hb])]
    rfl

/-- An optional list of arrays as it is loaded: an empty list becomes `None`. -/
noncomputable def backs (l : Option (List NDArray)) : Option (List NDArray) :=
  match l with
  | some (a :: l) => some ((a :: l).map back)
  | _ => none

theorem arraysOf_back {l : Option (List NDArray)} (h : ∀ m, l = some m → ∀ a ∈ m, Fine a) (rest : List (Str × Data)) (k : String)
    (hk : getField (.dict rest) k = .ok none) : parseArrays (.dict (arraysField k l ++ rest)) k = .ok (backs l) := by
  match l with
  | none => rw [parseArrays]; simp only [arraysField, List.nil_append]; rw [hk]; rfl
  | some [] => rw [parseArrays]; simp only [arraysField, List.nil_append]; rw [hk]; rfl
  | some (a :: l) =>
    rw [parseArrays]
    show (getField (.dict ((k.toList, .list ((a :: l).map arrayData)) :: rest)) k >>= arraysOf) = _
    rw [getField_here]
    show arraysOf (some (.list (arrayData a :: l.map arrayData))) = _
    rw [arraysOf, ← List.map_cons, mapM_parseArray (h _ rfl)]
    rfl

theorem field_arrays {k k' : String} (h : k'.toList ≠ k.toList) (l : Option (List NDArray)) (rest : List (Str × Data)) :
    field (.dict (arraysField k' l ++ rest)) k = field (.dict rest) k ∧ getField (.dict (arraysField k' l ++ rest)) k = getField (.dict rest) k := by
  match l with
  | none => exact ⟨rfl, rfl⟩
  | some [] => exact ⟨rfl, rfl⟩
  | some (a :: l) => exact ⟨field_skip h _ _, getField_skip h _ _⟩

theorem lift_ok {α : Type} (a : α) : lift (.ok a) = .ok a := rfl

/-! ## Loading what a file holds -/

theorem holds_plain {fs : FS} {p : Str} {a : Artefact} (h : Holds fs p a) (hp : Plain (record a)) : fs p = some (some (record a)) := by
  obtain ⟨j, h1, h2⟩ := h
  rw [Plain, h1] at hp
  rw [h2, Except.ok.inj hp]

theorem plain_value (v : ValueEstimate) : Plain (valueRecord v) := by
  refine plain_dict ?_
  simp only [List.mem_cons, List.not_mem_nil, or_false, forall_eq_or_imp, forall_eq]
  refine ⟨plain_txt _, plain_num _, ?_⟩
  cases v.precision with
  | none => exact plain_null
  | some q => exact plain_num q

/-- C97: value estimates. -/
theorem load_value {fs : FS} {p : Str} {v : ValueEstimate} (h : Holds fs p (.value v)) : loadValue fs (.str p) = .ok v := by
  rw [loadValue, readStr_holds (holds_plain h (plain_value v))]
  obtain ⟨x, q⟩ := v
  cases q <;> rfl

/-- C97: lists; the items are those that JSON makes of them (tuples become lists). -/
theorem load_list {fs : FS} {p : Str} {l : List Data} {name : Str} (h : Holds fs p (.list l name)) :
    ∃ l', dumpsList l = .ok l' ∧ loadList fs (.str p) = .ok (.list l') ∧ ((∀ x ∈ l, Plain x) → l' = l) := by
  obtain ⟨j, h1, h2⟩ := h
  cases hl : dumpsList l with
  | error e =>
    have : dumps (listRecord l name) = .error e := by
      rw [listRecord, dumps, dumpsItems, dumps, dumpsItems, dumps, hl]; rfl
    rw [show record (.list l name) = listRecord l name from rfl, this] at h1; cases h1
  | ok l' =>
    have hd : dumps (listRecord l name) = .ok (listRecord l' name) := by
      rw [listRecord, dumps, dumpsItems, dumps, dumpsItems, dumps, hl]; rfl
    rw [show record (.list l name) = listRecord l name from rfl, hd] at h1
    refine ⟨l', rfl, ?_, fun hp => ?_⟩
    · rw [loadList, readStr_holds h2, ← Except.ok.inj h1]
      show lift (field (listRecord l' name) "list") = _
      rw [listRecord, field_skip (by decide), field_here]; rfl
    · rw [dumpsList_plain hp] at hl; exact (Except.ok.inj hl).symm

/-- C97: arrays. -/
theorem load_array {fs : FS} {p : Str} {a : NDArray} (ha : Fine a) (h : Holds fs p (.array a)) {t : Target} (ht : t.names p) : loadArray fs t = .ok (back a) := by
  have hp : Plain (arrayRecord a) := plain_dict (by
    simp only [List.mem_cons, List.not_mem_nil, or_false, forall_eq_or_imp, forall_eq]
    exact ⟨plain_txt _, plain_array a⟩)
  rw [loadArray, readAny_holds (holds_plain h hp) ht]
  show lift (field (arrayRecord a) "array" >>= parseArray) = _
  rw [arrayRecord, field_skip (by decide), field_here]
  show lift (parseArray (arrayData a)) = _
  rw [parseArray_back ha]; rfl

/-- C97: numbers of measurements. The frames must have been given when saving. -/
theorem load_nmeas_partial {fs : FS} {p : Str} {k n : ℝ} {a : NDArray} (ha : Fine a) (h : Holds fs p (.nmeas k n (some a))) {t : Target} (ht : t.names p) :
    loadNmeas fs t = .ok (.num k, .num n, back a) := by
  have hp : Plain (nmeasRecord k n (some a)) := plain_dict (by
    simp only [List.cons_append, List.nil_append, List.mem_cons, List.not_mem_nil, or_false, forall_eq_or_imp, forall_eq]
    exact ⟨plain_txt _, plain_num _, plain_num _, plain_array a⟩)
  rw [loadNmeas, readPath_holds (holds_plain h hp) ht]
  have h1 : field (nmeasRecord k n (some a)) "frame_meas" = .ok (arrayData a) := by
    rw [nmeasRecord]; simp only [List.cons_append, List.nil_append]
    rw [field_skip (by decide), field_skip (by decide), field_skip (by decide), field_here]
  have h2 : field (nmeasRecord k n (some a)) "K" = .ok (.num k) := rfl
  have h3 : field (nmeasRecord k n (some a)) "nterms" = .ok (.num n) := rfl
  simp only [record, bind, Except.bind, h1, h2, h3, parseArray_back ha, lift_ok]

/-- C97, the negation: numbers of measurements saved without frames cannot be loaded. -/
theorem load_nmeas_counterexample {fs : FS} {p : Str} {k n : ℝ} (h : Holds fs p (.nmeas k n none)) {t : Target} (ht : t.names p) :
    loadNmeas fs t = .error (.py .keyError) := by
  have hp : Plain (nmeasRecord k n none) := plain_dict (by
    simp only [List.append_nil, List.mem_cons, List.not_mem_nil, or_false, forall_eq_or_imp, forall_eq]
    exact ⟨plain_txt _, plain_num _, plain_num _⟩)
  rw [loadNmeas, readPath_holds (holds_plain h hp) ht]
  rfl

/-- C97: parities. -/
theorem load_parities {fs : FS} {p : Str} {x : Parities} (hv : Fine x.values) (hc : ∀ l, x.correlations = some l → ∀ a ∈ l, Fine a) (h : Holds fs p (.parities x))
    {t : Target} (ht : t.names p) : loadParities fs t = .ok ⟨back x.values, backs x.correlations⟩ := by
  have hp : Plain (paritiesRecord x) := plain_dict (by
    intro kv hkv
    simp only [List.mem_append, List.mem_singleton] at hkv
    rcases hkv with (rfl | hkv) | rfl
    · exact plain_array _
    · exact plain_arraysField _ _ kv hkv
    · exact plain_txt _)
  rw [loadParities, readAny_holds (holds_plain h hp) ht]
  have h1 : field (paritiesRecord x) "values" = .ok (arrayData x.values) := field_here _ _ _
  have h2 : parseArrays (paritiesRecord x) "correlations" = .ok (backs x.correlations) := by
    have := arraysOf_back hc [("schema".toList, txt "zapata-v1-parities")] "correlations" rfl
    rw [parseArrays] at this ⊢
    rw [paritiesRecord, List.append_assoc, List.singleton_append, getField_skip (by decide)]
    exact this
  simp only [record, bind, Except.bind, h1, h2, parseArray_back hv, lift_ok]

/-- C97: expectation values. -/
theorem load_expectation {fs : FS} {p : Str} {e : ExpectationValues} (hv : Fine e.values) (hc : ∀ l, e.correlations = some l → ∀ a ∈ l, Fine a)
    (hs : ∀ l, e.covariances = some l → ∀ a ∈ l, Fine a) (h : Holds fs p (.expectation e)) {t : Target} (ht : t.names p) :
    loadExpectation fs t = .ok ⟨back e.values, backs e.correlations, backs e.covariances⟩ := by
  have hp : Plain (expectationRecord e) := plain_dict (by
    intro kv hkv
    simp only [List.mem_append, List.mem_cons, List.not_mem_nil, or_false] at hkv
    rcases hkv with ((rfl | rfl | rfl) | hkv) | hkv
    · exact plain_txt _
    · exact plain_list (by simp)
    · exact plain_array _
    · exact plain_arraysField _ _ kv hkv
    · exact plain_arraysField _ _ kv hkv)
  rw [loadExpectation, readAny_holds (holds_plain h hp) ht]
  have h1 : field (expectationRecord e) "expectation_values" = .ok (arrayData e.values) := by
    rw [expectationRecord]; simp only [List.cons_append, List.nil_append]
    rw [field_skip (by decide), field_skip (by decide), field_here]
  have hnone : ∀ l : Option (List NDArray), getField (.dict (arraysField "estimator_covariances" l)) "correlations" = .ok none := by
    intro l
    have := (field_arrays (k := "correlations") (k' := "estimator_covariances") (by decide) l []).2
    rw [List.append_nil] at this
    rw [this]; rfl
  have h2 : parseArrays (expectationRecord e) "correlations" = .ok (backs e.correlations) := by
    have := arraysOf_back hc (arraysField "estimator_covariances" e.covariances) "correlations" (hnone _)
    rw [parseArrays] at this ⊢
    rw [expectationRecord]; simp only [List.cons_append, List.nil_append]
    rw [getField_skip (by decide), getField_skip (by decide), getField_skip (by decide)]
    exact this
  have h3 : parseArrays (expectationRecord e) "estimator_covariances" = .ok (backs e.covariances) := by
    have := arraysOf_back hs [] "estimator_covariances" rfl
    rw [parseArrays, List.append_nil] at this
    rw [parseArrays, expectationRecord]; simp only [List.cons_append, List.nil_append]
    rw [getField_skip (by decide), getField_skip (by decide), getField_skip (by decide), (field_arrays (by decide) _ _).2]
    exact this
  simp only [record, bind, Except.bind, h1, h2, h3, parseArray_back hv, lift_ok]

/-- C97: wavefunctions. Every wavefunction that exists (`Wavefunction(amps)` raised no exception) is loaded as it was. -/
theorem load_wavefunction {fs : FS} {p : Str} {amps : List ℂ} {w : Wavefunction.Wf Empty} (hw : Wavefunction.mk? (amps.map .num) = .ok w)
    (h : Holds fs p (.wavefunction amps)) {t : Target} (ht : t.names p) : loadWavefunction fs t = .ok w := by
  have hp : Plain (wavefunctionRecord amps) := plain_dict (by
    simp only [List.mem_cons, List.not_mem_nil, or_false, forall_eq_or_imp, forall_eq]
    exact ⟨plain_txt _, plain_array _⟩)
  rw [loadWavefunction, readAny_holds (holds_plain h hp) ht]
  have hf : Fine ⟨[amps.length], amps, true⟩ := ⟨⟨by simp, fun h => by cases h⟩, by simp [ListShape]⟩
  show (lift (field (wavefunctionRecord amps) "amplitudes" >>= parseArray) >>= makeWavefunction) = _
  rw [wavefunctionRecord, field_skip (by decide), field_here]
  show (lift (parseArray (arrayData ⟨[amps.length], amps, true⟩)) >>= makeWavefunction) = _
  rw [parseArray_back hf]
  show makeWavefunction _ = _
  rw [makeWavefunction]
  rw [show (back ⟨[amps.length], amps, true⟩).data = amps from rfl, hw]

theorem mapM_items {l : List (List Data)} : (l.map Data.list).mapM items = .ok l := by
  induction l with
  | nil => rfl
  | cons x l ih => rw [List.map_cons, List.mapM_cons, ih]; rfl

theorem plain_measurements (m : List (List ℕ)) : Plain (measurementsRecord m) :=
  plain_dict (by
    simp only [List.mem_cons, List.not_mem_nil, or_false, forall_eq_or_imp, forall_eq]
    refine ⟨plain_txt _, plain_dict ?_, plain_list ?_⟩
    · intro kv hkv
      obtain ⟨x, _, rfl⟩ := List.mem_map.1 hkv
      exact plain_num _
    · intro x hx
      obtain ⟨b, _, rfl⟩ := List.mem_map.1 hx
      refine plain_list fun y hy => ?_
      obtain ⟨z, _, rfl⟩ := List.mem_map.1 hy
      exact plain_num _)

/-- C97: measurements: the bitstrings, in their order. -/
theorem load_measurements {fs : FS} {p : Str} {m : List (List ℕ)} (h : Holds fs p (.measurements m)) :
    loadMeasurements fs (.str p) = .ok (m.map fun b => b.map fun x : ℕ => .num x) := by
  rw [loadMeasurements, readStr_holds (holds_plain h (plain_measurements m))]
  show lift (field (measurementsRecord m) "bitstrings" >>= fun x => items x >>= fun l => l.mapM items) = _
  rw [measurementsRecord, field_skip (by decide), field_skip (by decide), field_here]
  have := mapM_items (l := m.map fun b => b.map fun x : ℕ => Data.num x)
  rw [List.map_map] at this
  show lift ((m.map (Data.list ∘ fun b => b.map fun x : ℕ => Data.num x)).mapM items) = _
  rw [this]
  rfl

theorem dumpsList_tups : ∀ {l : List (List Data)}, (∀ g ∈ l, ∀ x ∈ g, Plain x) → dumpsList (l.map .tup) = .ok (l.map .list)
  | [], _ => rfl
  | g :: l, h => by
    rw [List.map_cons, dumpsList, dumps, dumpsList_plain (h g (by simp)), dumpsList_tups fun g' hg' => h g' (by simp [hg'])]
    rfl

/-- C97: circuit layers. -/
theorem load_layers {fs : FS} {p : Str} {l : List (List (List Data))} (hl : ∀ layer ∈ l, ∀ g ∈ layer, ∀ x ∈ g, Plain x) (h : Holds fs p (.layers l)) :
    loadLayers fs (.str p) = .ok l := by
  have h1 : dumpsList (l.map fun layer => .list (layer.map .tup)) = .ok (l.map fun layer => .list (layer.map .list)) := by
    clear h
    induction l with
    | nil => rfl
    | cons x l ih =>
      rw [List.map_cons, dumpsList, dumps, dumpsList_tups (hl x (by simp)), ih fun y hy => hl y (by simp [hy])]
      rfl
  obtain ⟨j, h2, h3⟩ := h
  have h4 : dumps (layersRecord l) = .ok (.dict [("layers".toList, .list (l.map fun layer => .list (layer.map .list))), ("schema".toList, txt "zapata-v1-circuit_layers")]) := by
    rw [layersRecord, dumps, dumpsItems, dumps, h1, dumpsItems, txt, dumps]
    rfl
  rw [show record (.layers l) = layersRecord l from rfl, h4] at h2
  rw [loadLayers, readStr_holds h3, ← Except.ok.inj h2]
  show lift (field _ "layers" >>= fun x => items x >>= fun l => l.mapM fun layer => items layer >>= fun gs => gs.mapM items) = _
  rw [field_here]
  show lift ((l.map fun layer => Data.list (layer.map .list)).mapM fun layer => items layer >>= fun gs => gs.mapM items) = _
  have : (l.map fun layer => Data.list (layer.map .list)).mapM (fun layer => items layer >>= fun gs => gs.mapM items) = .ok l := by
    clear h1 h2 h3 h4 hl
    induction l with
    | nil => rfl
    | cons x l ih =>
      rw [List.map_cons, List.mapM_cons, ih]
      show ((x.map Data.list).mapM items >>= fun y => _) = _
      rw [mapM_items]; rfl
  rw [this]; rfl

/-- C97: circuit orderings. -/
theorem load_ordering {fs : FS} {p : Str} {l : List Data} (hl : ∀ x ∈ l, Plain x) (h : Holds fs p (.ordering l)) : loadOrdering fs (.str p) = .ok (.list l) := by
  have hp : Plain (orderingRecord l) := plain_dict (by
    simp only [List.mem_cons, List.not_mem_nil, or_false, forall_eq_or_imp, forall_eq]
    exact ⟨plain_list hl, plain_txt _⟩)
  rw [loadOrdering, readStr_holds (holds_plain h hp)]
  show lift (field (orderingRecord l) "ordering") = _
  rw [orderingRecord, field_here]; rfl

/-- C97: circuit connectivities. -/
theorem load_connectivity {fs : FS} {p : Str} {l : List (List Data)} (hl : ∀ g ∈ l, ∀ x ∈ g, Plain x) (h : Holds fs p (.connectivity l)) :
    loadConnectivity fs (.str p) = .ok l := by
  obtain ⟨j, h2, h3⟩ := h
  have h4 : dumps (connectivityRecord l) = .ok (.dict [("connectivity".toList, .list (l.map .list)), ("schema".toList, txt "zapata-v1-circuit_connectivity")]) := by
    rw [connectivityRecord, dumps, dumpsItems, dumps, dumpsList_tups hl, dumpsItems, txt, dumps]
    rfl
  rw [show record (.connectivity l) = connectivityRecord l from rfl, h4] at h2
  rw [loadConnectivity, readStr_holds h3, ← Except.ok.inj h2]
  show lift (field _ "connectivity" >>= fun x => items x >>= fun l => l.mapM items) = _
  rw [field_here]
  show lift ((l.map Data.list).mapM items) = _
  rw [mapM_items]; rfl

/-- C97: interaction operators. -/
theorem load_interaction {fs : FS} {p : Str} {o : InteractionOp} (hc : o.constantCplx = false → o.constant.im = 0) (h1 : Fine o.one) (h2 : Fine o.two)
    (h : Holds fs p (.interaction o)) : loadInteraction fs (.str p) = .ok ⟨o.constant, (back ⟨[], [o.constant], o.constantCplx⟩).cplx, back o.one, back o.two⟩ := by
  have hp : Plain (interactionRecord o) := plain_dict (by
    simp only [List.mem_cons, List.not_mem_nil, or_false, forall_eq_or_imp, forall_eq]
    exact ⟨plain_txt _, plain_array _, plain_array _, plain_array _⟩)
  have h0 : Fine ⟨[], [o.constant], o.constantCplx⟩ := ⟨⟨rfl, fun h z hz => by rw [List.mem_singleton.1 hz]; exact hc h⟩, fun n hn => by simp at hn⟩
  rw [loadInteraction, readStr_holds (holds_plain h hp)]
  have e1 : (field (interactionRecord o) "constant" >>= parseArray) = .ok (back ⟨[], [o.constant], o.constantCplx⟩) := by
    rw [interactionRecord, field_skip (by decide), field_here]; exact parseArray_back h0
  have e2 : (field (interactionRecord o) "one_body_tensor" >>= parseArray) = .ok (back o.one) := by
    rw [interactionRecord, field_skip (by decide), field_skip (by decide), field_here]; exact parseArray_back h1
  have e3 : (field (interactionRecord o) "two_body_tensor" >>= parseArray) = .ok (back o.two) := by
    rw [interactionRecord, field_skip (by decide), field_skip (by decide), field_skip (by decide), field_here]; exact parseArray_back h2
  simp only [bind, Except.bind] at e1 e2 e3
  simp only [bind, Except.bind, record]
  rw [e1, e2, e3]
  rfl

/-- C97: reduced density matrices. -/
theorem load_rdm {fs : FS} {p : Str} {one two : NDArray} (h1 : Fine one) (h2 : Fine two) (h : Holds fs p (.rdm one two)) :
    loadRdm fs (.str p) = .ok (back one, back two) := by
  have hp : Plain (rdmRecord one two) := plain_dict (by
    simp only [List.mem_cons, List.not_mem_nil, or_false, forall_eq_or_imp, forall_eq]
    exact ⟨plain_txt _, plain_array _, plain_array _⟩)
  rw [loadRdm, readStr_holds (holds_plain h hp)]
  have e2 : (field (rdmRecord one two) "one_body_tensor" >>= parseArray) = .ok (back one) := by
    rw [rdmRecord, field_skip (by decide), field_here]; exact parseArray_back h1
  have e3 : (field (rdmRecord one two) "two_body_tensor" >>= parseArray) = .ok (back two) := by
    rw [rdmRecord, field_skip (by decide), field_skip (by decide), field_here]; exact parseArray_back h2
  show lift (do
    let a ← (field (rdmRecord one two) "one_body_tensor") >>= parseArray
    let b ← (field (rdmRecord one two) "two_body_tensor") >>= parseArray
    .ok (a, b)) = _
  rw [e2, e3]
  rfl

theorem parseFactor_record (f : OpSerde.PauliOpDict) : parseFactor (.dict [("qubit".toList, .num f.qubit), ("op".toList, letterText f.op)]) = .ok f := by
  rw [parseFactor, field_here, field_skip (by decide), field_here]
  have h1 : parseNat (.num f.qubit) = .ok f.qubit := by rw [parseNat, Nat.floor_natCast, if_pos rfl]
  have h2 : parseLetter (letterText f.op) = .ok f.op := by cases f.op <;> rfl
  simp only [bind, Except.bind, h1, h2]

theorem parseTerm_record (t : OpSerde.TermDict) : parseTerm (termRecord t) = .ok t := by
  have h1 : (field (termRecord t) "pauli_ops" >>= items) = .ok (t.pauliOps.map fun f => .dict [("qubit".toList, .num f.qubit), ("op".toList, letterText f.op)]) := by
    rw [termRecord, field_here]; rfl
  have h2 : ∀ l : List OpSerde.PauliOpDict, (l.map fun f => Data.dict [("qubit".toList, .num f.qubit), ("op".toList, letterText f.op)]).mapM parseFactor = .ok l := by
    intro l
    induction l with
    | nil => rfl
    | cons f l ih => rw [List.map_cons, List.mapM_cons, parseFactor_record, ih]; rfl
  obtain ⟨ps, re, im⟩ := t
  cases im with
  | none =>
    have h3 : field (termRecord ⟨ps, re, none⟩) "coefficient" = .ok (.dict [("real".toList, .num re)]) := by
      rw [termRecord, field_skip (by decide), field_here]; rfl
    have h4 : field (.dict [("real".toList, .num re)]) "real" = .ok (.num re) := field_here _ _ _
    have h5 : getField (.dict [("real".toList, .num re)]) "imag" = .ok none := rfl
    rw [parseTerm, h1]
    simp only [bind, Except.bind, h2, h3, h4, h5, parseNum, parseOptNum]
  | some y =>
    have h3 : field (termRecord ⟨ps, re, some y⟩) "coefficient" = .ok (.dict [("real".toList, .num re), ("imag".toList, .num y)]) := by
      rw [termRecord, field_skip (by decide), field_here]; rfl
    have h4 : field (.dict [("real".toList, .num re), ("imag".toList, .num y)]) "real" = .ok (.num re) := field_here _ _ _
    have h5 : getField (.dict [("real".toList, .num re), ("imag".toList, .num y)]) "imag" = .ok (some (.num y)) := by
      rw [getField_skip (by decide), getField_here]
    rw [parseTerm, h1]
    simp only [bind, Except.bind, h2, h3, h4, h5, parseNum, parseOptNum, Except.map]

theorem parseOp_record (d : OpSerde.OpDict) : parseOp (opRecord d) = .ok ⟨"", d.terms⟩ := by
  have h2 : ∀ l : List OpSerde.TermDict, (l.map termRecord).mapM parseTerm = .ok l := by
    intro l
    induction l with
    | nil => rfl
    | cons f l ih => rw [List.map_cons, List.mapM_cons, parseTerm_record, ih]; rfl
  rw [parseOp, opRecord, field_skip (by decide), field_here]
  simp only [bind, Except.bind, items, h2]

/-- C97: qubit operators, without coefficients below `1e-8` (C52). -/
theorem load_qubitOp {fs : FS} {p : Str} {c : Op.Term Op.Letter → Bool} {o : Op.Terms Op.Letter} (ho : Op.CanonicalOp o)
    (hc : ∀ kv ∈ o, c kv.1 = false → kv.2.im = 0) (h : Holds fs p (.qubitOp c o)) : loadQubitOp fs (.str p) = .ok (OpSerde.kept o) := by
  rw [loadQubitOp, readStr_holds (holds_plain h (plain_op _))]
  show lift (parseOp (opRecord (OpSerde.qubitopToDict c o)) >>= OpSerde.dictToQubitop) = _
  rw [parseOp_record]
  show lift (OpSerde.dictToQubitop ⟨"", (OpSerde.qubitopToDict c o).terms⟩) = _
  have : OpSerde.dictToQubitop ⟨"", (OpSerde.qubitopToDict c o).terms⟩ = OpSerde.dictToQubitop (OpSerde.qubitopToDict c o) := rfl
  rw [this, (OpSerde.qubitop_roundtrip c o ho hc).1]; rfl

/-- C97: Ising operators. -/
theorem load_isingOp {fs : FS} {p : Str} {c : Op.Term Op.Letter → Bool} {o : Op.Terms Op.Letter} (ho : Op.CanonicalOp o)
    (hz : ∀ t ∈ PyDict.keys o, ∀ f ∈ t, f.2 = .Z) (hc : ∀ kv ∈ o, c kv.1 = false → kv.2.im = 0) (h : Holds fs p (.isingOp c o)) :
    loadIsingOp fs (.str p) = .ok (OpSerde.kept o) := by
  rw [loadIsingOp, readStr_holds (holds_plain h (plain_op _))]
  show lift (parseOp (opRecord (OpSerde.isingopToDict c o)) >>= OpSerde.dictToIsingop) = _
  rw [parseOp_record]
  have : OpSerde.dictToIsingop ⟨"", (OpSerde.isingopToDict c o).terms⟩ = OpSerde.dictToIsingop (OpSerde.isingopToDict c o) := rfl
  show lift (OpSerde.dictToIsingop ⟨"", (OpSerde.isingopToDict c o).terms⟩) = _
  rw [this, (OpSerde.isingop_roundtrip c o ho hz hc).1]; rfl

/-- C97: sets of qubit operators, in their order. -/
theorem load_qubitOps {fs : FS} {p : Str} {os : List ((Op.Term Op.Letter → Bool) × Op.Terms Op.Letter)} (ho : ∀ q ∈ os, Op.CanonicalOp q.2)
    (hc : ∀ q ∈ os, ∀ kv ∈ q.2, q.1 kv.1 = false → kv.2.im = 0) (h : Holds fs p (.qubitOps os)) :
    loadQubitOps fs (.str p) = .ok (os.map fun q => OpSerde.kept q.2) := by
  have hp : Plain (opSetRecord (OpSerde.saveSet os)) := plain_dict (by
    simp only [List.mem_cons, List.not_mem_nil, or_false, forall_eq_or_imp, forall_eq]
    refine ⟨plain_txt _, plain_list fun x hx => ?_⟩
    obtain ⟨d, _, rfl⟩ := List.mem_map.1 hx
    exact plain_op d)
  rw [loadQubitOps, readStr_holds (holds_plain h hp)]
  show lift ((field (opSetRecord (OpSerde.saveSet os)) "qubit_operators" >>= items) >>= fun l => l.mapM fun x => parseOp x >>= OpSerde.dictToQubitop) = _
  rw [opSetRecord, field_skip (by decide), field_here]
  show lift (((OpSerde.saveSet os).map opRecord).mapM fun x => parseOp x >>= OpSerde.dictToQubitop) = _
  have : ((OpSerde.saveSet os).map opRecord).mapM (fun x => parseOp x >>= OpSerde.dictToQubitop) = .ok (os.map fun q => OpSerde.kept q.2) := by
    clear h hp
    rw [OpSerde.saveSet, List.map_map]
    induction os with
    | nil => rfl
    | cons q os ih =>
      rw [List.map_cons, List.mapM_cons, ih (fun x hx => ho x (by simp [hx])) fun x hx => hc x (by simp [hx])]
      have h1 : (parseOp (opRecord (OpSerde.qubitopToDict q.1 q.2)) >>= OpSerde.dictToQubitop) = .ok (OpSerde.kept q.2) := by
        rw [parseOp_record]
        exact (OpSerde.qubitop_roundtrip q.1 q.2 (ho q (by simp)) (hc q (by simp))).1
      show ((parseOp (opRecord (OpSerde.qubitopToDict q.1 q.2)) >>= OpSerde.dictToQubitop) >>= _) = _
      rw [h1]; rfl
  rw [this]; rfl

theorem get?_foldl_set : ∀ (l : List (Str × Data)) (d : List (Str × Data)) (k : Str), (PyDict.keys l).Nodup →
    PyDict.get? (l.foldl (fun acc kv => PyDict.set acc kv.1 kv.2) d) k = match PyDict.get? l k with | some v => some v | none => PyDict.get? d k
  | [], _, _, _ => rfl
  | (k', v) :: l, d, k, h => by
    have h' := List.nodup_cons.1 h
    rw [List.foldl_cons, get?_foldl_set l _ k h'.2, PyDict.get?_set]
    by_cases hk : k' = k
    · subst hk
      rw [(PyDict.get?_eq_none_iff l k').2 h'.1, if_pos rfl, PyDict.get?, if_pos rfl]
    · rw [if_neg hk, PyDict.get?, if_neg hk]

theorem plain_foldl_set : ∀ (l d : List (Str × Data)), (∀ kv ∈ l, Plain kv.2) → (∀ kv ∈ d, Plain kv.2) →
    ∀ kv ∈ l.foldl (fun acc kv => PyDict.set acc kv.1 kv.2) d, Plain kv.2
  | [], _, _, hd => hd
  | (k, v) :: l, d, hl, hd => by
    rw [List.foldl_cons]
    refine plain_foldl_set l _ (fun x hx => hl x (by simp [hx])) ?_
    have hv : Plain v := hl (k, v) (by simp)
    clear hl
    induction d with
    | nil => intro x hx; rw [PyDict.set] at hx; rw [List.mem_singleton.1 hx]; exact hv
    | cons y d ih =>
      obtain ⟨k', v'⟩ := y
      intro x hx
      rw [PyDict.set] at hx
      by_cases hk : k' = k
      · rw [if_pos hk] at hx
        rcases List.mem_cons.1 hx with rfl | hx
        · exact hv
        · exact hd x (by simp [hx])
      · rw [if_neg hk] at hx
        rcases List.mem_cons.1 hx with rfl | hx
        · exact hd _ (by simp)
        · exact ih (fun z hz => hd z (by simp [hz])) x hx

/-- C97: `save_generic_dict` writes the dictionary with a schema; a schema of the caller is kept. -/
theorem generic_written {fs : FS} {p : Str} {d : List (Str × Data)} (hd : (PyDict.keys d).Nodup) (hp : ∀ kv ∈ d, Plain kv.2) (h : Holds fs p (.generic d)) :
    ∃ items, fs p = some (some (.dict items)) ∧ (∀ kv ∈ d, PyDict.get? items kv.1 = some kv.2) ∧
      ("schema".toList ∉ PyDict.keys d → PyDict.get? items "schema".toList = some (txt "zapata-v1-dict")) ∧
      ∀ k, k ∈ PyDict.keys items ↔ k = "schema".toList ∨ k ∈ PyDict.keys d := by
  have hp' : Plain (genericRecord d) := plain_dict (plain_foldl_set d _ hp (by
    simp only [List.mem_cons, List.not_mem_nil, or_false, forall_eq]; exact plain_txt _))
  refine ⟨_, holds_plain h hp', fun kv hkv => ?_, fun hn => ?_, fun k => ?_⟩
  · rw [get?_foldl_set d _ _ hd, PyDict.get?_of_mem hd (k := kv.1) (v := kv.2) hkv]
  · rw [get?_foldl_set d _ _ hd, (PyDict.get?_eq_none_iff _ _).2 hn]; rfl
  · rw [PyDict.mem_keys_iff, get?_foldl_set d _ _ hd, PyDict.mem_keys_iff d]
    cases PyDict.get? d k with
    | some v => simp
    | none =>
      simp only [PyDict.get?]
      by_cases hk : "schema".toList = k
      · rw [if_pos hk]; simp [← hk]
      · rw [if_neg hk]
        have : ¬ k = "schema".toList := fun h => hk h.symm
        simp only [reduceCtorEq, exists_false, or_false, this]

/-- C97: `save_timing` writes the time. -/
theorem timing_written {fs : FS} {p : Str} {x : ℝ} (h : Holds fs p (.timing x)) :
    fs p = some (some (.dict [("schema".toList, .str "zapata-v1-timing".toList), ("walltime".toList, .num x)])) :=
  holds_plain h (plain_dict (by
    simp only [List.mem_cons, List.not_mem_nil, or_false, forall_eq_or_imp, forall_eq]
    exact ⟨plain_txt _, plain_num _⟩))

/-! ## Parameter grid evaluations -/

theorem gridLoop_ok {g : List (List (Str × Data))} (h : ∀ e ∈ g, ∃ v, PyDict.get? e "value".toList = some (.estimate v)) :
    (gridLoop g).2 = none ∧ (gridLoop g).1.length = g.length ∧
    ∀ (i : ℕ) (e : List (Str × Data)) (v : ValueEstimate), g[i]? = some e → PyDict.get? e "value".toList = some (.estimate v) →
      (gridLoop g).1[i]? = some (PyDict.set e "value".toList (valueRecord v)) := by
  induction g with
  | nil => exact ⟨rfl, rfl, fun i e v hi => by simp at hi⟩
  | cons e g ih =>
    obtain ⟨v, hv⟩ := h e (by simp)
    have ih := ih fun x hx => h x (by simp [hx])
    have hs : gridLoop (e :: g) = (PyDict.set e "value".toList (valueRecord v) :: (gridLoop g).1, (gridLoop g).2) := by
      rw [gridLoop, gridEntry, hv]
    rw [hs]
    refine ⟨ih.1, by simp [ih.2.1], fun i e' v' hi hv' => ?_⟩
    cases i with
    | zero =>
      obtain rfl : e = e' := by simpa using hi
      rw [hv] at hv'
      cases hv'; rfl
    | succ i => exact ih.2.2 i e' v' (by simpa using hi) hv'

/-- C97: the file of a parameter grid evaluation holds, in order, every entry with its value as a dictionary. -/
theorem grid_written {fs : FS} {t : Target} {p : Str} (ht : t.names p) {g : List (List (Str × Data))}
    (hv : ∀ e ∈ g, ∃ v, PyDict.get? e "value".toList = some (.estimate v)) (hp : ∀ e ∈ g, (PyDict.keys e).Nodup ∧ ∀ kv ∈ e, kv.1 ≠ "value".toList → Plain kv.2) :
    ∃ l : List (List (Str × Data)), (saveGrid fs t g).1 p = some (some (.dict [("schema".toList, .str "zapata-v1-parameter_grid_evaluation".toList), ("values_set".toList, .list (l.map .dict))])) ∧
      (saveGrid fs t g).2.2 = none ∧ l.length = g.length ∧
      ∀ (i : ℕ) (e : List (Str × Data)) (v : ValueEstimate), g[i]? = some e → PyDict.get? e "value".toList = some (.estimate v) →
        l[i]? = some (PyDict.set e "value".toList (valueRecord v)) := by
  obtain ⟨h1, h2, h3⟩ := gridLoop_ok hv
  have hl : saveGrid fs t g = ((write fs t (.dict [("schema".toList, txt "zapata-v1-parameter_grid_evaluation"), ("values_set".toList, .list ((gridLoop g).1.map .dict))])).1,
      (gridLoop g).1, (write fs t (.dict [("schema".toList, txt "zapata-v1-parameter_grid_evaluation"), ("values_set".toList, .list ((gridLoop g).1.map .dict))])).2) := by
    rw [saveGrid.eq_def]
    generalize gridLoop g = r at h1
    obtain ⟨r1, r2⟩ := r
    obtain rfl : r2 = none := h1
    rfl
  have hset : ∀ x ∈ (gridLoop g).1, ∀ kv ∈ x, Plain kv.2 := by
    intro x hx
    obtain ⟨i, hi, rfl⟩ := List.mem_iff_getElem.1 hx
    have hi' : i < g.length := by rw [← h2]; exact hi
    obtain ⟨v, hv'⟩ := hv g[i] (List.getElem_mem hi')
    have h4 := h3 i g[i] v (List.getElem?_eq_getElem hi') hv'
    rw [List.getElem?_eq_getElem hi] at h4
    rw [Option.some.inj h4]
    obtain ⟨hn, hpl⟩ := hp g[i] (List.getElem_mem hi')
    intro kv hkv
    have h5 := PyDict.get?_of_mem (PyDict.nodup_set hn _ _) (k := kv.1) (v := kv.2) hkv
    rw [PyDict.get?_set] at h5
    by_cases hk : "value".toList = kv.1
    · rw [if_pos hk] at h5; rw [← Option.some.inj h5]; exact plain_value v
    · rw [if_neg hk] at h5; exact hpl (kv.1, kv.2) (PyDict.mem_of_get? h5) fun h => hk h.symm
  have hpl : Plain (.dict [("schema".toList, txt "zapata-v1-parameter_grid_evaluation"), ("values_set".toList, .list ((gridLoop g).1.map .dict))]) := plain_dict (by
    simp only [List.mem_cons, List.not_mem_nil, or_false, forall_eq_or_imp, forall_eq]
    refine ⟨plain_txt _, plain_list fun x hx => ?_⟩
    obtain ⟨y, hy, rfl⟩ := List.mem_map.1 hx
    exact plain_dict (hset y hy))
  have hw : write fs t (.dict [("schema".toList, txt "zapata-v1-parameter_grid_evaluation"), ("values_set".toList, .list ((gridLoop g).1.map .dict))])
      = (put fs p (some (.dict [("schema".toList, txt "zapata-v1-parameter_grid_evaluation"), ("values_set".toList, .list ((gridLoop g).1.map .dict))])), none) := by
    cases t with
    | str q => obtain rfl : q = p := ht; show writeFile _ _ _ = _; rw [writeFile, hpl]
    | path q => obtain rfl : q = p := ht; show writeFile _ _ _ = _; rw [writeFile, hpl]
    | opened d => exact absurd ht id
  refine ⟨(gridLoop g).1, ?_, ?_, h2, h3⟩
  · rw [hl, hw]; exact if_pos rfl
  · rw [hl, hw]

/-- C97: saving a parameter grid evaluation fails at the first entry that does not hold an estimate: with a KeyError when the entry has no value and
with an AttributeError when its value is something else.  No file is touched, but the entries before it have been changed. -/
theorem grid_failed (fs : FS) (t : Target) {pre post : List (List (Str × Data))} {e : List (Str × Data)}
    (hpre : ∀ e' ∈ pre, ∃ v, PyDict.get? e' "value".toList = some (.estimate v)) (he : ∀ v, PyDict.get? e "value".toList ≠ some (.estimate v)) :
    (saveGrid fs t (pre ++ e :: post)).1 = fs ∧
    (saveGrid fs t (pre ++ e :: post)).2.2 = some (if (PyDict.get? e "value".toList).isNone then .py .keyError else .attributeError) ∧
    ∃ pre', (saveGrid fs t (pre ++ e :: post)).2.1 = pre' ++ e :: post ∧ pre'.length = pre.length ∧
      ∀ (i : ℕ) (e' : List (Str × Data)) (v : ValueEstimate), pre[i]? = some e' → PyDict.get? e' "value".toList = some (.estimate v) →
        pre'[i]? = some (PyDict.set e' "value".toList (valueRecord v)) := by
  have hloop : gridLoop (pre ++ e :: post) = ((gridLoop pre).1 ++ e :: post,
      some (if (PyDict.get? e "value".toList).isNone then .py .keyError else .attributeError)) := by
    clear fs t
    induction pre with
    | nil =>
      have hg : gridEntry e = .error (if (PyDict.get? e "value".toList).isNone then .py .keyError else .attributeError) := by
        cases hg : PyDict.get? e "value".toList with
        | none => rw [gridEntry, hg]; rfl
        | some d =>
          cases d with
          | estimate v => exact absurd hg (he v)
          | _ => rw [gridEntry, hg]; rfl
      rw [List.nil_append, gridLoop, gridLoop, hg]
      rfl
    | cons x pre ih =>
      obtain ⟨v, hv⟩ := hpre x (by simp)
      have ih := ih fun y hy => hpre y (by simp [hy])
      have hs : ∀ g, gridLoop (x :: g) = (PyDict.set x "value".toList (valueRecord v) :: (gridLoop g).1, (gridLoop g).2) := fun g => by
        rw [gridLoop, gridEntry, hv]
      rw [List.cons_append, hs, hs, ih]
      rfl
  obtain ⟨-, h2, h3⟩ := gridLoop_ok hpre
  rw [saveGrid.eq_def, hloop]
  exact ⟨rfl, rfl, _, rfl, h2, h3⟩

/-- The hypotheses are met: an estimate, then an entry without a value. -/
example (fs : FS) (t : Target) : ∃ g, saveGrid fs t [[("value".toList, .estimate ⟨1, none⟩)], [("params".toList, .num 2)]] = (fs, g, some (.py .keyError)) := by
  obtain ⟨h1, h2, -⟩ := grid_failed fs t (pre := [[("value".toList, .estimate ⟨1, none⟩)]]) (post := []) (e := [("params".toList, .num 2)])
    (by simp only [List.mem_cons, List.not_mem_nil, or_false, forall_eq]; exact ⟨_, rfl⟩) (fun v h => by cases h)
  exact ⟨_, Prod.ext h1 (Prod.ext rfl h2)⟩

/-- C97, the negation for a second call: the entries of the caller's list have been changed, so that the same list cannot be saved again. -/
theorem grid_twice_counterexample {fs fs' : FS} {t t' : Target} {e : List (Str × Data)} {g : List (List (Str × Data))}
    (hv : ∀ e' ∈ e :: g, ∃ v, PyDict.get? e' "value".toList = some (.estimate v)) :
    saveGrid fs' t' (saveGrid fs t (e :: g)).2.1 = (fs', (saveGrid fs t (e :: g)).2.1, some .attributeError) := by
  obtain ⟨v, hv'⟩ := hv e (by simp)
  have hs : (saveGrid fs t (e :: g)).2.1 = PyDict.set e "value".toList (valueRecord v) :: (gridLoop g).1 := by
    have hg : gridLoop (e :: g) = (PyDict.set e "value".toList (valueRecord v) :: (gridLoop g).1, (gridLoop g).2) := by rw [gridLoop, gridEntry, hv']
    rw [saveGrid.eq_def, hg]
    cases (gridLoop g).2 <;> rfl
  rw [hs, saveGrid, gridLoop, gridEntry, PyDict.get?_set, if_pos rfl, valueRecord]

/-- The hypotheses of C97 are met: a history with a failing call and calls on other files, after which three objects are loaded. -/
example (a : NDArray) : ∃ fs : FS,
    fs = run (fun _ => none) [(.str "a".toList, .value ⟨1, none⟩), (.path "b".toList, .measurements [[0, 1], [1, 1]]), (.str "a".toList, .list [.array a] []),
      (.path "a".toList, .value ⟨2, some 3⟩), (.str "c".toList, .layers [[[.num 0, .num 1]], []]), (.str "d".toList, .list [.array a] [])] ∧
    loadValue fs (.str "a".toList) = .ok ⟨2, some 3⟩ ∧ loadMeasurements fs (.str "b".toList) = .ok [[.num (0 : ℕ), .num (1 : ℕ)], [.num (1 : ℕ), .num (1 : ℕ)]] ∧
    loadLayers fs (.str "c".toList) = .ok [[[.num 0, .num 1]], []] := by
  refine ⟨_, rfl, ?_, ?_, ?_⟩
  · refine load_value (holds_last _ [(.str "a".toList, .value ⟨1, none⟩), (.path "b".toList, .measurements [[0, 1], [1, 1]]), (.str "a".toList, .list [.array a] [])]
      [(.str "c".toList, .layers [[[.num 0, .num 1]], []]), (.str "d".toList, .list [.array a] [])] (.path "a".toList) (.value ⟨2, some 3⟩) rfl (plain_value _) ?_)
    simp only [List.mem_cons, List.not_mem_nil, or_false, forall_eq_or_imp, forall_eq]
    exact ⟨by simp [Target.names], by simp [Target.names]⟩
  · refine load_measurements (holds_last _ [(.str "a".toList, .value ⟨1, none⟩)] [(.str "a".toList, .list [.array a] []),
      (.path "a".toList, .value ⟨2, some 3⟩), (.str "c".toList, .layers [[[.num 0, .num 1]], []]), (.str "d".toList, .list [.array a] [])]
      (.path "b".toList) (.measurements [[0, 1], [1, 1]]) rfl (plain_measurements _) ?_)
    simp only [List.mem_cons, List.not_mem_nil, or_false, forall_eq_or_imp, forall_eq]
    exact ⟨by simp [Target.names], by simp [Target.names], by simp [Target.names], by simp [Target.names]⟩
  · refine load_layers ?_ (holds_last _ [(.str "a".toList, .value ⟨1, none⟩), (.path "b".toList, .measurements [[0, 1], [1, 1]]), (.str "a".toList, .list [.array a] []),
      (.path "a".toList, .value ⟨2, some 3⟩)] [(.str "d".toList, .list [.array a] [])] (.str "c".toList) (.layers [[[.num 0, .num 1]], []]) rfl
      (j := .dict [("layers".toList, .list [.list [.list [.num 0, .num 1]], .list []]), ("schema".toList, txt "zapata-v1-circuit_layers")]) rfl ?_)
    · simp only [List.mem_cons, List.not_mem_nil, or_false, forall_eq_or_imp, forall_eq]
      exact ⟨⟨plain_num _, plain_num _⟩, fun x hx => by cases hx⟩
    · simp only [List.mem_cons, List.not_mem_nil, or_false, forall_eq]
      simp [Target.names]

/-- C97, the negation for paths that are not `str`: all save functions accept them, but these load functions raise `AttributeError`. -/
theorem load_path_counterexample (fs : FS) (p : Str) :
    loadValue fs (.path p) = .error .attributeError ∧ loadList fs (.path p) = .error .attributeError ∧ loadMeasurements fs (.path p) = .error .attributeError ∧
    loadLayers fs (.path p) = .error .attributeError ∧ loadOrdering fs (.path p) = .error .attributeError ∧ loadConnectivity fs (.path p) = .error .attributeError ∧
    loadInteraction fs (.path p) = .error .attributeError ∧ loadRdm fs (.path p) = .error .attributeError ∧ loadQubitOp fs (.path p) = .error .attributeError ∧
    loadIsingOp fs (.path p) = .error .attributeError ∧ loadQubitOps fs (.path p) = .error .attributeError :=
  ⟨rfl, rfl, rfl, rfl, rfl, rfl, rfl, rfl, rfl, rfl, rfl⟩

/-- C97: a file opened by the caller is read like the file at a path, except that `load_nmeas_estimate` raises `TypeError` for it. -/
theorem load_opened (fs : FS) (p : Str) (c : Option Data) (h : fs p = some c) :
    loadValue fs (.opened c) = loadValue fs (.str p) ∧
    loadList fs (.opened c) = loadList fs (.str p) ∧
    loadArray fs (.opened c) = loadArray fs (.str p) ∧
    loadParities fs (.opened c) = loadParities fs (.str p) ∧
    loadExpectation fs (.opened c) = loadExpectation fs (.str p) ∧
    loadWavefunction fs (.opened c) = loadWavefunction fs (.str p) ∧
    loadMeasurements fs (.opened c) = loadMeasurements fs (.str p) ∧
    loadLayers fs (.opened c) = loadLayers fs (.str p) ∧
    loadOrdering fs (.opened c) = loadOrdering fs (.str p) ∧
    loadConnectivity fs (.opened c) = loadConnectivity fs (.str p) ∧
    loadInteraction fs (.opened c) = loadInteraction fs (.str p) ∧
    loadRdm fs (.opened c) = loadRdm fs (.str p) ∧
    loadQubitOp fs (.opened c) = loadQubitOp fs (.str p) ∧
    loadIsingOp fs (.opened c) = loadIsingOp fs (.str p) ∧
    loadQubitOps fs (.opened c) = loadQubitOps fs (.str p) ∧
    loadNmeas fs (.opened c) = .error (.py .typeError) := by
  have e1 : readStr fs (.opened c) = readStr fs (.str p) := by simp only [readStr, readFile, h]
  have e2 : readAny fs (.opened c) = readAny fs (.str p) := by simp only [readAny, readFile, h]
  refine ⟨?_, ?_, ?_, ?_, ?_, ?_, ?_, ?_, ?_, ?_, ?_, ?_, ?_, ?_, ?_, rfl⟩ <;> simp only [loadValue, loadList, loadArray, loadParities, loadExpectation, loadWavefunction, loadMeasurements, loadLayers, loadOrdering, loadConnectivity, loadInteraction, loadRdm, loadQubitOp, loadIsingOp, loadQubitOps, e1, e2]

end ZQ.Files
