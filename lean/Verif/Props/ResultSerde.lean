import Verif.Spec.ResultSerde
import Verif.Lemmas.CommaKeys
import Verif.Lemmas.PyDict
import Verif.Lemmas.ExceptList

/-!
# C84: saving and loading optimization results
-/

namespace ZQ.Results

open ArraySerde Dist

/-! ## Arrays -/

mutual
theorem decode_nestedData : ∀ n : Nested, decode (nestedData n) = .ok (nestedData n)
  | .num x => by rw [nestedData, decode]; all_goals simp
  | .arr l => by
    rw [nestedData, decode, decode_nestedDataList l]
    rfl
theorem decode_nestedDataList : ∀ l : List Nested, decodeList (nestedDataList l) = .ok (nestedDataList l)
  | [] => by rw [nestedDataList, decodeList]
  | n :: l => by
    rw [nestedDataList, decodeList, decode_nestedData n, decode_nestedDataList l]
    rfl
end

mutual
theorem toNested_nestedData : ∀ n : Nested, toNested (nestedData n) = some n
  | .num x => by rw [nestedData, toNested]
  | .arr l => by rw [nestedData, toNested, toNested_nestedDataList l]; rfl
theorem toNested_nestedDataList : ∀ l : List Nested, toNestedList (nestedDataList l) = some l
  | [] => by rw [nestedDataList, toNestedList]
  | n :: l => by rw [nestedDataList, toNestedList, toNested_nestedData n, toNested_nestedDataList l]
end

theorem asArray_nestedData (n : Nested) : asArray (nestedData n) = fromNested n := by
  unfold asArray; rw [toNested_nestedData]

theorem array_roundtrip (a : NDArray) (hv : a.Valid) (hs : ListShape a.shape) : decode (arrayData a) = .ok (.array a) := by
  obtain ⟨s, d, c⟩ := a
  obtain ⟨hl, hr⟩ := hv
  have h1 := fromNested_tolist s (d.map Complex.re) hs (by rw [List.length_map]; exact hl)
  have h2 := fromNested_tolist s (d.map Complex.im) hs (by rw [List.length_map]; exact hl)
  cases c with
  | false =>
    have e : arrayData ⟨s, d, false⟩ = .dict [(kReal, nestedData (tolist s (d.map Complex.re)))] := rfl
    rw [e, decode, decodeItems, decode_nestedData, decodeItems]
    show arrayHook (nestedData (tolist s (d.map Complex.re))) none = _
    unfold arrayHook
    rw [asArray_nestedData, h1]
    show Except.ok (Data.array ⟨s, (d.map Complex.re).map fun x : ℝ => (x : ℂ), false⟩) = _
    rw [re_only (hr rfl)]
  | true =>
    have e : arrayData ⟨s, d, true⟩ = .dict [(kReal, nestedData (tolist s (d.map Complex.re))), (kImag, nestedData (tolist s (d.map Complex.im)))] := rfl
    rw [e, decode, decodeItems, decode_nestedData, decodeItems, decode_nestedData, decodeItems]
    show arrayHook (nestedData (tolist s (d.map Complex.re))) (some (nestedData (tolist s (d.map Complex.im)))) = _
    unfold arrayHook
    rw [asArray_nestedData, h1]
    show (asArray (nestedData (tolist s (d.map Complex.im))) >>= fun im => addImag (s, d.map Complex.re) im >>= fun a => Except.ok (Data.array a)) = _
    rw [asArray_nestedData, h2]
    show (addImag (s, d.map Complex.re) (s, d.map Complex.im) >>= fun a => Except.ok (Data.array a)) = _
    unfold addImag
    rw [if_pos rfl, re_im]
    rfl

/-! ## Value estimates -/

theorem estimate_roundtrip (v : ValueEstimate) : decode (estimateData v) = .ok (.estimate v) := by
  obtain ⟨x, p⟩ := v
  have hd : ∀ q : Option ℝ, decode (match q with | none => Data.null | some p => Data.num p) = .ok (match q with | none => Data.null | some p => Data.num p) := by
    intro q; cases q <;> rw [decode] <;> simp
  unfold estimateData
  rw [decode, decodeItems, decodeItems, decodeItems, decodeItems]
  simp only [hd]
  have e1 : decode (Data.str valueSchema) = .ok (.str valueSchema) := by rw [decode] <;> simp
  have e2 : decode (Data.num x) = .ok (.num x) := by rw [decode] <;> simp
  rw [e1, e2]
  cases p <;> rfl

/-! ## Distributions -/

theorem commaKey_tup (t : List ℤ) : commaKey (.tup t) = .str (keyText (commaKey (.tup t))) := rfl

theorem save_eq (d : DDict) (hv : Valid d) (hk : ∀ a ∈ d, 2 ≤ a.1.length ∨ ∀ z ∈ a.1, z < 10) :
    save d = d.map (fun kv => (commaKey (.tup kv.1), kv.2)) ∧ ∀ kv ∈ d, preprocessKey (commaKey (.tup kv.1)) = .ok kv.1 := by
  have hpre : ∀ kv ∈ d, preprocessKey (commaKey (.tup kv.1)) = .ok kv.1 := fun kv hkv =>
    preprocess_commaKey kv.1 ((hk kv hkv).imp id (fun h z hz => ⟨hv.keyNonneg kv hkv z hz, h z hz⟩))
  refine ⟨?_, hpre⟩
  unfold save commaKeys
  rw [List.map_map]
  refine PyDict.ofItems_eq_self ?_
  rw [List.map_map, show (Prod.fst ∘ ((fun kv : Key × ℝ => (commaKey kv.1, kv.2)) ∘
    fun kv : List ℤ × ℝ => (Key.tup kv.1, kv.2))) = (fun t => commaKey (.tup t)) ∘ Prod.fst from rfl,
    ← List.map_map]
  refine List.Nodup.map_on ?_ hv.distinct
  intro a ha b hb hab
  obtain ⟨x, hx, rfl⟩ := List.mem_map.1 ha
  obtain ⟨y, hy, rfl⟩ := List.mem_map.1 hb
  have := hpre x hx
  rw [hab, hpre y hy] at this
  injection this with this
  exact this.symm

theorem decodeItems_numbers (l : List (Str × ℝ)) : decodeItems (l.map fun kv => (kv.1, .num kv.2)) = .ok (l.map fun kv => (kv.1, Data.num kv.2)) := by
  induction l with
  | nil => rw [List.map_nil, decodeItems]
  | cons kv l ih =>
    have e : decode (Data.num kv.2) = .ok (.num kv.2) := by rw [decode] <;> simp
    rw [List.map_cons, decodeItems, e, ih]
    rfl

theorem mapM_numbers (l : List (Str × ℝ)) :
    (l.map fun kv => (kv.1, Data.num kv.2)).mapM (fun kv => (number kv.2).map fun x => (Key.str kv.1, x)) = some (l.map fun kv => (Key.str kv.1, kv.2)) := by
  induction l with
  | nil => rfl
  | cons kv l ih => rw [List.map_cons, List.mapM_cons, ih]; rfl

theorem dist_roundtrip (d : DDict) (hv : Valid d) (hk : ∀ a ∈ d, 2 ≤ a.1.length ∨ ∀ z ∈ a.1, z < 10) : decode (distData d) = .ok (.dist d) := by
  obtain ⟨hsave, hpre⟩ := save_eq d hv hk
  have e : (save d).map (fun kv => (keyText kv.1, Data.num kv.2)) =
      (d.map fun kv => (keyText (commaKey (.tup kv.1)), kv.2)).map fun kv => (kv.1, Data.num kv.2) := by
    rw [hsave, List.map_map, List.map_map]; rfl
  have e2 : (d.map fun kv => (keyText (commaKey (.tup kv.1)), kv.2)).map (fun kv => (Key.str kv.1, kv.2)) =
      d.map fun kv => (commaKey (.tup kv.1), kv.2) := by
    rw [List.map_map]; rfl
  have hkeys : ∀ k : Str, preprocessKey (.str k) = .error .valueError →
      k ∉ PyDict.keys ((d.map fun kv => (keyText (commaKey (.tup kv.1)), kv.2)).map fun kv => (kv.1, Data.num kv.2)) := by
    intro k hk hmem
    simp only [PyDict.keys, List.map_map, List.mem_map] at hmem
    obtain ⟨kv, hkv, e⟩ := hmem
    have := hpre kv hkv
    rw [commaKey_tup] at this
    change keyText (commaKey (.tup kv.1)) = k at e
    rw [e, hk] at this
    cases this
  have b1 : preprocessKey (.str kReal) = .error .valueError := by simp [preprocessKey, kReal, pyInt, pyIntDigits, Bits.charInt]
  have b2 : preprocessKey (.str kCall) = .error .valueError := by simp [preprocessKey, kCall, pyInt, pyIntDigits, Bits.charInt]
  unfold distData
  rw [decode, e, decodeItems_numbers]
  show hook _ = _
  unfold hook
  rw [(PyDict.get?_eq_none_iff _ _).2 (hkeys _ b1)]
  dsimp only
  rw [if_neg (fun h => hkeys _ b2 h.1), mapM_numbers, e2]
  dsimp only
  have hp := preprocess_map (fun t => commaKey (.tup t)) hpre hv.distinct
  rw [hp]
  rw [make, hp]
  change (@ite _ (IsDistribution d) (Classical.propDecidable _) _ _) = _
  rw [if_pos ((isDistribution_iff hv.distinct).2 hv)]
  show (ofTuples d false >>= fun d => Except.ok (Data.dist d)) = _
  unfold ofTuples
  rw [if_pos ((isDistribution_iff hv.distinct).2 hv)]
  split_ifs with h1 h2
  · rfl
  · exact absurd h2 (by simp)
  · rfl


/-! ## Dictionaries -/

theorem decodeItems_append (l m : List (Str × Data)) {l' m' : List (Str × Data)} (hl : decodeItems l = .ok l') (hm : decodeItems m = .ok m') :
    decodeItems (l ++ m) = .ok (l' ++ m') := by
  induction l generalizing l' with
  | nil => rw [decodeItems] at hl; injection hl with hl; subst hl; exact hm
  | cons kv l ih =>
    obtain ⟨k, v⟩ := kv
    rw [decodeItems] at hl
    rw [List.cons_append, decodeItems]
    cases hv : decode v with
    | error e => rw [hv] at hl; cases hl
    | ok y =>
      rw [hv] at hl
      cases hr : decodeItems l with
      | error e => rw [hr] at hl; cases hl
      | ok r =>
        rw [hr] at hl
        change Except.ok ((k, y) :: r) = Except.ok l' at hl
        injection hl with hl
        subst hl
        rw [ih hr]
        rfl

theorem encodeItems_keys : ∀ l : List (Str × Data), (encodeItems l).map Prod.fst = l.map Prod.fst
  | [] => by rw [encodeItems]
  | (k, v) :: l => by rw [encodeItems, List.map_cons, List.map_cons, encodeItems_keys l]

theorem listsItems_eq : ∀ l : List (Str × Data), listsItems l = l.map fun kv => (kv.1, lists kv.2)
  | [] => by rw [listsItems]; rfl
  | (k, v) :: l => by rw [listsItems, List.map_cons, listsItems_eq l]

theorem listsItems_keys (l : List (Str × Data)) : PyDict.keys (listsItems l) = l.map Prod.fst := by
  rw [listsItems_eq, PyDict.keys, List.map_map]; rfl

theorem number_lists {x : Data} (h : ¬ IsNumber x) : number (lists x) = none := by
  cases x <;> first | exact absurd trivial h | (simp only [lists, number])

theorem mapM_none_of_mem {l : List (Str × Data)} {kv : Str × Data} (hm : kv ∈ l) (h : number kv.2 = none) :
    l.mapM (fun kv => (number kv.2).map fun x => (Key.str kv.1, x)) = none := by
  induction l with
  | nil => cases hm
  | cons a l ih =>
    rw [List.mapM_cons]
    rcases List.mem_cons.1 hm with rfl | hm
    · rw [h]; rfl
    · rw [ih hm]
      cases (number a.2).map fun x => (Key.str a.1, x) <;> rfl

/-- What the hook does to a dictionary with a value that is not a number and no suspicious keys. -/
theorem hook_plain {items : List (Str × Data)} (h1 : kReal ∉ PyDict.keys items) (h2 : ¬ (kCall ∈ PyDict.keys items ∧ kValue ∈ PyDict.keys items))
    (h3 : ∃ kv ∈ items, number kv.2 = none) : hook items = schemaHook items := by
  unfold hook
  rw [(PyDict.get?_eq_none_iff _ _).2 h1]
  dsimp only
  obtain ⟨kv, hkv, hn⟩ := h3
  rw [if_neg h2, mapM_none_of_mem hkv hn]

theorem hook_nil : hook [] = .ok (.dict []) := by
  unfold hook
  have e : PyDict.get? ([] : List (Str × Data)) kReal = none := rfl
  rw [e]
  dsimp only
  have h2 : ¬ (kCall ∈ PyDict.keys ([] : List (Str × Data)) ∧ kValue ∈ PyDict.keys ([] : List (Str × Data))) := fun h => by cases h.1
  rw [if_neg h2]
  have e3 : ([] : List (Str × Data)).mapM (fun kv => (number kv.2).map fun x => (Key.str kv.1, x)) = some [] := rfl
  rw [e3]
  change (@ite _ (IsDistribution []) (Classical.propDecidable _) _ _) = _
  rw [if_neg]
  · rfl
  · intro h
    exact h.1 rfl

theorem del_set (l : List (Str × Data)) (k : Str) (v : Data) : PyDict.del (PyDict.set l k v) k = PyDict.del l k := by
  induction l with
  | nil => simp [PyDict.set, PyDict.del]
  | cons a l ih =>
    obtain ⟨k', v'⟩ := a
    by_cases h : k' = k
    · simp [PyDict.set, PyDict.del, h]
    · simp [PyDict.set, PyDict.del, h, ih]

theorem del_of_not_mem {l : List (Str × Data)} {k : Str} (h : k ∉ PyDict.keys l) : PyDict.del l k = l := by
  induction l with
  | nil => rfl
  | cons a l ih =>
    obtain ⟨k', v'⟩ := a
    rw [PyDict.keys, List.map_cons, List.mem_cons, not_or] at h
    rw [PyDict.del, if_neg (fun e => h.1 e.symm), ih h.2]

theorem set_set (l : List (Str × Data)) (k : Str) (v : Data) : PyDict.set (PyDict.set l k v) k v = PyDict.set l k v := by
  induction l with
  | nil => simp [PyDict.set]
  | cons a l ih =>
    obtain ⟨k', v'⟩ := a
    by_cases h : k' = k
    · simp [PyDict.set, h]
    · simp [PyDict.set, h, ih]

theorem listsItems_del (l : List (Str × Data)) (k : Str) : PyDict.del (listsItems l) k = listsItems (PyDict.del l k) := by
  induction l with
  | nil => rw [listsItems]; rfl
  | cons a l ih =>
    obtain ⟨k', v'⟩ := a
    rw [listsItems, PyDict.del, PyDict.del]
    split_ifs
    · rfl
    · rw [ih, listsItems]

theorem safeItems_set (l : List (Str × Data)) (k s : Str) (h : SafeItems l) : SafeItems (PyDict.set l k (.str s)) := by
  induction l with
  | nil => rw [PyDict.set, SafeItems]; exact ⟨by rw [Safe] <;> simp, by rw [SafeItems]; trivial⟩
  | cons a l ih =>
    obtain ⟨k', v'⟩ := a
    rw [SafeItems] at h
    rw [PyDict.set]
    split_ifs
    · rw [SafeItems]; exact ⟨by rw [Safe] <;> simp, h.2⟩
    · rw [SafeItems]; exact ⟨h.1, ih h.2⟩

theorem schemaHook_opt {items : List (Str × Data)} (h : kSchema ∉ PyDict.keys items) :
    schemaHook (items ++ [(kSchema, .str optSchema)]) = .ok (.opt items) := by
  have hg : PyDict.get? (items ++ [(kSchema, Data.str optSchema)]) kSchema = some (.str optSchema) := by
    rw [← PyDict.set_of_not_mem h, PyDict.get?_set, if_pos rfl]
  have hd : PyDict.del (items ++ [(kSchema, Data.str optSchema)]) kSchema = items := by
    rw [← PyDict.set_of_not_mem h, del_set, del_of_not_mem h]
  unfold schemaHook
  rw [hg]
  dsimp only
  rw [if_neg (by decide), if_pos rfl, hd]

mutual
/-- **Values survive encoding and decoding**: every safe value is read back as itself, with tuples turned into lists. -/
theorem decode_encode : ∀ x : Data, Safe x → decode (encode x) = .ok (lists x)
  | .null, _ => by rw [encode, lists, decode] <;> simp
  | .bool b, _ => by rw [encode, lists, decode] <;> simp
  | .num x, _ => by rw [encode, lists, decode] <;> simp
  | .str s, _ => by rw [encode, lists, decode] <;> simp
  | .list l, h => by
    rw [Safe] at h
    rw [encode, lists, decode, decode_encodeList l h]; rfl
  | .tup l, h => by
    rw [Safe] at h
    rw [encode, lists, decode, decode_encodeList l h]; rfl
  | .dict items, h => by
    rw [Safe] at h
    obtain ⟨hs, ⟨hn, hr, hc⟩, hv, hsch⟩ := h
    rw [encode, lists, decode, decode_encodeItems items hs]
    show hook (listsItems items) = _
    rcases hv with rfl | ⟨kv, hkv, hnum⟩
    · rw [listsItems]; exact hook_nil
    · rw [hook_plain (by rw [listsItems_keys]; exact hr) (by rw [listsItems_keys]; exact hc)
        ⟨(kv.1, lists kv.2), by rw [listsItems_eq]; exact List.mem_map.2 ⟨kv, hkv, rfl⟩, number_lists hnum⟩]
      unfold schemaHook
      cases hg : PyDict.get? (listsItems items) kSchema with
      | none => rfl
      | some v =>
        have hmem := PyDict.mem_of_get? hg
        rw [listsItems_eq] at hmem
        obtain ⟨⟨k, w⟩, hw, e⟩ := List.mem_map.1 hmem
        obtain ⟨rfl, rfl⟩ := Prod.mk.injEq .. ▸ e
        obtain ⟨s, rfl, h1, h2⟩ := hsch w hw
        rw [lists]
        · dsimp only
          rw [if_neg h1, if_neg h2]
        all_goals simp
  | .opt items, h => by
    rw [Safe] at h
    obtain ⟨hs, ⟨hn, hr, hc⟩, hsch⟩ := h
    have hk : kSchema ∉ PyDict.keys (encodeItems items) := by rw [PyDict.keys, encodeItems_keys]; exact hsch
    have es : decodeItems [(kSchema, Data.str optSchema)] = .ok [(kSchema, Data.str optSchema)] := by
      have e1 : decode (Data.str optSchema) = .ok (.str optSchema) := by rw [decode] <;> simp
      rw [decodeItems, e1, decodeItems]; rfl
    rw [encode, lists, PyDict.set_of_not_mem hk, decode, decodeItems_append _ _ (decode_encodeItems items hs) es]
    show hook (listsItems items ++ [(kSchema, .str optSchema)]) = _
    have ek : PyDict.keys (listsItems items ++ [(kSchema, Data.str optSchema)]) = items.map Prod.fst ++ [kSchema] := by
      rw [PyDict.keys, List.map_append, ← PyDict.keys, listsItems_keys]; rfl
    rw [hook_plain (by
        rw [ek, List.mem_append]; rintro (h | h)
        · exact hr h
        · revert h; decide) (by
        rw [ek, List.mem_append, List.mem_append]; rintro ⟨h | h, h' | h'⟩
        · exact hc ⟨h, h'⟩
        · revert h'; decide
        · revert h; decide
        · revert h; decide) ⟨(kSchema, .str optSchema), by simp, rfl⟩]
    exact schemaHook_opt (by rw [listsItems_keys]; exact hsch)
  | .entry c p v, h => by
    rw [Safe] at h
    obtain ⟨h1, h2, h3⟩ := h
    rw [encode, lists, decode, decodeItems, decodeItems, decodeItems, decodeItems, decode_encode c h1, decode_encode p h2, decode_encode v h3]
    rfl
  | .entryArt c p v a, h => by
    rw [Safe] at h
    obtain ⟨h1, h2, h3, h4⟩ := h
    rw [encode, lists, decode, decodeItems, decodeItems, decodeItems, decodeItems, decodeItems, decode_encode c h1, decode_encode p h2,
      decode_encode v h3, decode_encode a h4]
    rfl
  | .estimate v, _ => by rw [encode, lists, estimate_roundtrip] <;> simp
  | .array a, h => by
    rw [Safe] at h
    rw [encode, lists, array_roundtrip a h.1 h.2] <;> simp
  | .dist d, h => by
    rw [Safe] at h
    rw [encode, lists, dist_roundtrip d h.1 h.2] <;> simp
theorem decode_encodeList : ∀ l : List Data, SafeList l → decodeList (encodeList l) = .ok (listsList l)
  | [], _ => by rw [encodeList, listsList, decodeList]
  | x :: l, h => by
    rw [SafeList] at h
    rw [encodeList, listsList, decodeList, decode_encode x h.1, decode_encodeList l h.2]
    rfl
theorem decode_encodeItems : ∀ l : List (Str × Data), SafeItems l → decodeItems (encodeItems l) = .ok (listsItems l)
  | [], _ => by rw [encodeItems, listsItems, decodeItems]
  | (k, v) :: l, h => by
    rw [SafeItems] at h
    rw [encodeItems, listsItems, decodeItems, decode_encode v h.1, decode_encodeItems l h.2]
    rfl
end

/-- **Saved results can be loaded**: results with safe values are loaded as an `OptimizeResult` with the same items, without the schema. -/
theorem save_load (items : List (Str × Data)) (hs : SafeItems items) (hp : PlainKeys items) :
    loadResults (saveResults items).1 = .ok (.opt (listsItems (PyDict.del items kSchema))) := by
  obtain ⟨hn, hr, hc⟩ := hp
  have hk : ∀ k : Str, k ≠ kSchema → k ∈ PyDict.keys (PyDict.set items kSchema (.str optSchema)) → k ∈ items.map Prod.fst := by
    intro k hne hm
    rw [PyDict.keys_set] at hm
    split_ifs at hm
    · exact hm
    · rcases List.mem_append.1 hm with h | h
      · exact h
      · exact absurd (List.mem_singleton.1 h) hne
  unfold loadResults saveResults
  dsimp only
  rw [encode, decode, decode_encodeItems _ (safeItems_set items kSchema optSchema hs)]
  show hook (listsItems (PyDict.set items kSchema (.str optSchema))) = _
  have hg : PyDict.get? (PyDict.set items kSchema (.str optSchema)) kSchema = some (.str optSchema) := by rw [PyDict.get?_set, if_pos rfl]
  have hmem : (kSchema, Data.str optSchema) ∈ listsItems (PyDict.set items kSchema (.str optSchema)) := by
    rw [listsItems_eq]
    exact List.mem_map.2 ⟨_, PyDict.mem_of_get? hg, by rw [lists] <;> simp⟩
  have hnd : (PyDict.keys (listsItems (PyDict.set items kSchema (.str optSchema)))).Nodup := by
    rw [listsItems_keys]; exact PyDict.nodup_set hn _ _
  rw [hook_plain (by rw [listsItems_keys]; exact fun h => hr (hk _ (by decide) h))
    (by rw [listsItems_keys]; exact fun h => hc ⟨hk _ (by decide) h.1, hk _ (by decide) h.2⟩) ⟨_, hmem, rfl⟩]
  unfold schemaHook
  rw [PyDict.get?_of_mem hnd hmem]
  dsimp only
  rw [if_neg (by decide), if_pos rfl, listsItems_del, del_set]

/-- **Saving leaves its mark on the caller's dictionary**: it gains the schema, and saving it again writes the same. -/
theorem save_twice (items : List (Str × Data)) :
    PyDict.get? (saveResults items).2 kSchema = some (.str optSchema) ∧ (∀ k, k ≠ kSchema → PyDict.get? (saveResults items).2 k = PyDict.get? items k) ∧
    saveResults (saveResults items).2 = saveResults items := by
  refine ⟨?_, ?_, ?_⟩
  · unfold saveResults; rw [PyDict.get?_set, if_pos rfl]
  · intro k hk
    unfold saveResults; rw [PyDict.get?_set, if_neg (Ne.symm hk)]
  · unfold saveResults; dsimp only; rw [set_set]

/-! ## What is not read back -/

theorem pyInt_none {w : Str} {c : Char} (hc : c ∈ w) (h1 : Bits.charInt c = none) (h2 : c ≠ '-') : pyInt w = none := by
  have hm : ∀ l : Str, c ∈ l → l.mapM Bits.charInt = none := by
    intro l hl
    induction l with
    | nil => cases hl
    | cons a l ih =>
      rw [List.mapM_cons]
      rcases List.mem_cons.1 hl with rfl | hl
      · rw [h1]; rfl
      · rw [ih hl]; cases Bits.charInt a <;> rfl
  have hd : ∀ l : Str, c ∈ l → pyIntDigits l = none := by
    intro l hl
    cases l with
    | nil => cases hl
    | cons a l => rw [pyIntDigits, hm _ hl]; · rfl
                  simp
  unfold pyInt
  split
  · rename_i s
    rw [hd s ((List.mem_cons.1 hc).resolve_left h2)]; rfl
  · rw [hd w hc]; rfl

theorem mem_splitComma {s : Str} {c : Char} (hc : c ∈ s) (h : c ≠ ',') : ∃ w ∈ splitComma s, c ∈ w := by
  induction s with
  | nil => cases hc
  | cons a s ih =>
    rw [splitComma]
    split_ifs with ha
    · obtain ⟨w, hw, hcw⟩ := ih ((List.mem_cons.1 hc).resolve_left (fun e => h (e.trans ha)))
      exact ⟨w, List.mem_cons_of_mem _ hw, hcw⟩
    · rcases List.mem_cons.1 hc with rfl | hc
      · cases hsp : splitComma s with
        | nil => exact ⟨[c], by simp, by simp⟩
        | cons w ws => exact ⟨c :: w, by simp, by simp⟩
      · obtain ⟨w, hw, hcw⟩ := ih hc
        cases hsp : splitComma s with
        | nil => rw [hsp] at hw; cases hw
        | cons v ws =>
          rw [hsp] at hw
          rcases List.mem_cons.1 hw with rfl | hw
          · exact ⟨a :: w, by simp, by simp [hcw]⟩
          · exact ⟨w, by simp [hw], hcw⟩

theorem mapM_option_none {α β : Type} {f : α → Option β} {l : List α} {a : α} (ha : a ∈ l) (h : f a = none) : l.mapM f = none := by
  induction l with
  | nil => cases ha
  | cons b l ih =>
    rw [List.mapM_cons]
    rcases List.mem_cons.1 ha with rfl | ha
    · rw [h]; rfl
    · rw [ih ha]; cases f b <;> rfl

theorem preprocessKey_letter {s : Str} {c : Char} (hc : c ∈ s) (h1 : Bits.charInt c = none) (h2 : c ≠ '-') (h3 : c ≠ ',') :
    preprocessKey (.str s) = .error .valueError := by
  have : (if ',' ∉ s then s.map (fun c => [c]) else splitComma s).mapM pyInt = none := by
    split_ifs with h
    · obtain ⟨w, hw, hcw⟩ := mem_splitComma hc h3
      exact mapM_option_none hw (pyInt_none hcw h1 h2)
    · exact mapM_option_none (List.mem_map.2 ⟨c, hc, rfl⟩) (pyInt_none (List.mem_singleton.2 rfl) h1 h2)
  rw [preprocessKey, this]

theorem preprocess_letter {l : List (Str × ℝ)} {kv : Str × ℝ} (hkv : kv ∈ l) (h : preprocessKey (.str kv.1) = .error .valueError) :
    preprocess (l.map fun kv => (Key.str kv.1, kv.2)) = .error .valueError := by
  have hm : (l.map fun kv => (Key.str kv.1, kv.2)).mapM (fun kv => (preprocessKey kv.1).map fun t => (t, kv.2)) = .error .valueError := by
    induction l with
    | nil => cases hkv
    | cons a l ih =>
      rw [List.map_cons, List.mapM_cons]
      rcases List.mem_cons.1 hkv with rfl | hkv
      · dsimp only; rw [h]; rfl
      · rw [ih hkv]
        dsimp only
        have : ∀ s, preprocessKey (.str s) = .error .valueError ∨ ∃ t, preprocessKey (.str s) = .ok t := by
          intro s; rw [preprocessKey]; split
          · right; exact ⟨_, rfl⟩
          · left; rfl
        rcases this a.1 with e | ⟨t, e⟩ <;> rw [e] <;> rfl
  unfold preprocess
  rw [hm]; rfl

theorem number_some {x : Data} (h : IsNumber x) : ∃ y, number x = some y := by
  cases x <;> first | exact ⟨_, rfl⟩ | exact absurd h (by simp [IsNumber])

theorem safe_number {x : Data} (h : IsNumber x) : Safe x ∧ lists x = x := by
  cases x <;> first | exact h.elim | (constructor <;> simp [Safe, lists])

theorem numbers_mapM {items : List (Str × Data)} (h : ∀ kv ∈ items, IsNumber kv.2) :
    ∃ l : List (Str × ℝ), l.map Prod.fst = items.map Prod.fst ∧
      items.mapM (fun kv => (number kv.2).map fun x => (Key.str kv.1, x)) = some (l.map fun kv => (Key.str kv.1, kv.2)) := by
  induction items with
  | nil => exact ⟨[], rfl, rfl⟩
  | cons a items ih =>
    obtain ⟨l, h1, h2⟩ := ih (fun kv hkv => h kv (List.mem_cons_of_mem _ hkv))
    obtain ⟨y, hy⟩ := number_some (h a (by simp))
    refine ⟨(a.1, y) :: l, by simp [h1], ?_⟩
    rw [List.mapM_cons, hy, h2]; rfl

/-- **Dictionaries of numbers cannot be loaded**: a dictionary whose values are all numbers and one of whose keys contains a letter (say the artifact
`{"energy": 0.5}`) is taken for a distribution, and loading what was saved raises a `ValueError`. -/
theorem numbers_not_loaded (items : List (Str × Data)) (h : ∀ kv ∈ items, IsNumber kv.2)
    (hl : ∃ kv ∈ items, ∃ c ∈ kv.1, 97 ≤ c.toNat ∧ c.toNat ≤ 122) (hp : PlainKeys items) :
    decode (encode (.dict items)) = .error .valueError := by
  have hs : SafeItems items ∧ listsItems items = items := by
    clear hl hp
    induction items with
    | nil => exact ⟨by rw [SafeItems]; trivial, by rw [listsItems]⟩
    | cons a items ih =>
      obtain ⟨k, v⟩ := a
      obtain ⟨i1, i2⟩ := ih (fun kv hkv => h kv (List.mem_cons_of_mem _ hkv))
      obtain ⟨s1, s2⟩ := safe_number (h (k, v) (by simp))
      exact ⟨by rw [SafeItems]; exact ⟨s1, i1⟩, by rw [listsItems, s2, i2]⟩
  obtain ⟨-, hr, hc⟩ := hp
  rw [encode, decode, decode_encodeItems _ hs.1, hs.2]
  show hook items = _
  obtain ⟨l, e1, e2⟩ := numbers_mapM h
  obtain ⟨kv, hkv, c, hc1, hc2, hc3⟩ := hl
  have hmem : kv.1 ∈ l.map Prod.fst := by rw [e1]; exact List.mem_map_of_mem hkv
  obtain ⟨p, hp, ep⟩ := List.mem_map.1 hmem
  have hch : Bits.charInt c = none := by unfold Bits.charInt; rw [if_neg (by omega)]
  have hpre : preprocessKey (.str p.1) = .error .valueError := by
    rw [ep]
    exact preprocessKey_letter hc1 hch (by rintro rfl; revert hc2; decide) (by rintro rfl; revert hc2; decide)
  unfold hook
  rw [(PyDict.get?_eq_none_iff _ _).2 hr]
  dsimp only
  have hc' : ¬ (kCall ∈ PyDict.keys items ∧ kValue ∈ PyDict.keys items) := hc
  rw [if_neg hc', e2]
  dsimp only
  rw [preprocess_letter hp hpre]
  rfl

/-- `energy` as a key. -/
def kEnergy : Str := ['e', 'n', 'e', 'r', 'g', 'y']

/-- **An optimization with a numeric artifact cannot be loaded**: the results of a run that stored the artifact `energy` are written without complaint,
and loading them raises a `ValueError`. -/
theorem artifacts_counterexample (x y : ℝ) :
    loadResults (saveResults [(['h', 'i', 's', 't', 'o', 'r', 'y'],
      .list [.entryArt (.num 0) (.list [.num x]) (.num y) (.dict [(kEnergy, .num y)])])]).1 = .error .valueError := by
  have h := numbers_not_loaded [(kEnergy, .num y)] (by simp [IsNumber]) ⟨_, List.mem_singleton.2 rfl, 'e', by simp [kEnergy], by decide⟩
    ⟨by simp, by simp [kEnergy, kReal], by simp [kEnergy, kCall]⟩
  have hn : ∀ z : ℝ, decode (.num z) = .ok (.num z) := fun z => by rw [decode] <;> simp
  unfold loadResults saveResults
  dsimp only
  rw [PyDict.set, if_neg (by decide), PyDict.set, encode, encodeItems, encode, encodeList, encode, encodeList, encode, encode, encode, encodeList,
    encode, encodeList, decode, decodeItems, decode, decodeList, decode, decodeItems, decodeItems, decodeItems, decodeItems, h, hn, hn, decode,
    decodeList, decodeList, hn]
  rfl

/-- **A dictionary with digits for keys becomes a distribution.** -/
theorem digits_counterexample : decode (encode (.dict [(['0'], .num 1)])) = .ok (.dist [([0], 1)]) := by
  have hv : Valid ([([0], 1)] : DDict) := by
    refine ⟨by simp, by simp, by simp, by simp, by simp⟩
  have h := dist_roundtrip [([0], 1)] hv (by simp)
  have e : distData [([0], 1)] = encode (.dict [(['0'], .num 1)]) := by
    have hk : commaKey (.tup [0]) = .str ['0'] := by
      have h0 : Bits.pyStr 0 = ['0'] := by rw [Bits.pyStr]; decide
      show Key.str (joinComma [Bits.pyStr 0]) = _
      rw [h0]; rfl
    rw [encode, encodeItems, encode, encodeItems, distData, (save_eq _ hv (by simp)).1, List.map_map, List.map_cons, List.map_nil, Function.comp_apply, hk]
    rfl
  rw [← e, h]

/-- **A dictionary with a `real` entry becomes an array**, and its other entries are lost. -/
theorem real_counterexample (x : ℝ) (s : Str) : decode (encode (.dict [(kReal, .num x), (kEnergy, .str s)])) = .ok (.array ⟨[], [(x : ℂ)], false⟩) := by
  have hn : ∀ z : ℝ, decode (.num z) = .ok (.num z) := fun z => by rw [decode] <;> simp
  have hs : decode (.str s) = .ok (.str s) := by rw [decode] <;> simp
  rw [encode, encodeItems, encode, encodeItems, encode, encodeItems, decode, decodeItems, hn, decodeItems, hs, decodeItems]
  rfl

/-! ## Non-vacuity -/

/-- A typical result: an optimal value, parameters, a history with a string artifact and a value estimate, and a distribution. -/
def sample : List (Str × Data) :=
  [(['o', 'p', 't'], .num 2), (kParams, .array ⟨[2], [1, 2], false⟩), (kValue, .estimate ⟨3, some 1⟩),
    (['h'], .list [.entry (.num 0) (.array ⟨[1], [5], false⟩) (.estimate ⟨1, none⟩),
      .entryArt (.num 1) (.tup [.num 4]) (.num 1) (.dict [(kEnergy, .str ['x']), (['n'], .num 3)])]),
    (['d'], .dist [([0, 1], 1)])]

theorem sample_safe : SafeItems sample ∧ PlainKeys sample := by
  constructor
  · simp only [sample, SafeItems, Safe, SafeList, and_true, true_and]
    refine ⟨⟨⟨by simp, fun _ => by simp⟩, by simp [ListShape]⟩, ⟨⟨⟨by simp, fun _ => by simp⟩, by simp [ListShape]⟩,
      ⟨by decide, by decide, by decide⟩, Or.inr ⟨_, List.mem_cons_self, fun h => h⟩, ?_⟩, ⟨by simp, by simp, by simp, by simp, by simp⟩, by simp⟩
    intro v hv
    simp [kSchema, kEnergy] at hv
  · refine ⟨by decide, by decide, by decide⟩

example : loadResults (saveResults sample).1 = .ok (.opt (listsItems sample)) := by
  have h := save_load sample sample_safe.1 sample_safe.2
  rwa [del_of_not_mem (by decide)] at h

/-- What is written carries the documented schema: a value estimate and the results of an optimization. -/
theorem written_schema (v : ValueEstimate) (items : List (Str × Data)) :
    (∃ rest, estimateData v = .dict (("schema".toList, .str "zapata-v1-value_estimate".toList) :: rest)) ∧
      PyDict.get? (saveResults items).2 "schema".toList = some (.str "zapata-v1-optimization_result".toList) :=
  ⟨⟨_, rfl⟩, (save_twice items).1⟩

end ZQ.Results
