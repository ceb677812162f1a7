import Verif.Model.OptimizeStep
import Verif.Props.Variational
import Verif.Props.Optimizer

/-!
# C119: the optimization steps

What the files written by the optimization steps hold, and how it relates to the operator.
-/

namespace ZQ.OptStep

open ZQ ZQ.ArraySerde ZQ.Results ZQ.History ZQ.Optimizer ZQ.Workflow ZQ.Expect ZQ.Circuits
open ZQ.Files hiding run Target
open ZQ.Backend hiding run
open ZQ.Op hiding encode
open ZQ.PolyT ZQ.JWInt ZQ.Ground ZQ.Sparse ZQ.Variational

variable {W : Type}

/-! ## Encoded values are plain -/

mutual
theorem plain_nested : ∀ x : Nested, Plain (nestedData x)
  | .num x => by rw [nestedData]; exact plain_num x
  | .arr l => by rw [nestedData]; exact plain_list (plain_nestedList l)
theorem plain_nestedList : ∀ l : List Nested, ∀ x ∈ nestedDataList l, Plain x
  | [], x, hx => by rw [nestedDataList] at hx; exact (List.not_mem_nil hx).elim
  | n :: l, x, hx => by
    rw [nestedDataList] at hx
    rcases List.mem_cons.1 hx with rfl | hx
    · exact plain_nested n
    · exact plain_nestedList l x hx
end

theorem plain_dist (d : Dist.DDict) : Plain (distData d) := plain_dict fun kv hkv => by
  obtain ⟨x, -, rfl⟩ := List.mem_map.1 hkv
  exact plain_num _

theorem plain_estimate (v : ValueEstimate) : Plain (estimateData v) := plain_dict fun kv hkv => by
  simp only [List.mem_cons, List.not_mem_nil, or_false] at hkv
  rcases hkv with rfl | rfl | rfl
  · exact plain_str _
  · exact plain_num _
  · dsimp only
    cases v.precision
    · exact plain_null
    · exact plain_num _

theorem plain_setItems {l : List (Str × Data)} (h : ∀ kv ∈ l, Plain kv.2) (k : Str) {x : Data} (hx : Plain x) : ∀ kv ∈ PyDict.set l k x, Plain kv.2 := by
  induction l with
  | nil => intro kv hkv; rw [PyDict.set, List.mem_singleton] at hkv; rw [hkv]; exact hx
  | cons a l ih =>
    obtain ⟨k', v'⟩ := a
    intro kv hkv
    rw [PyDict.set] at hkv
    by_cases e : k' = k
    · rw [if_pos e] at hkv
      rcases List.mem_cons.1 hkv with rfl | hkv
      · exact hx
      · exact h _ (by simp [hkv])
    · rw [if_neg e] at hkv
      rcases List.mem_cons.1 hkv with rfl | hkv
      · exact h _ (by simp)
      · exact ih (fun kv hkv => h kv (by simp [hkv])) kv hkv

mutual
theorem plain_encode : ∀ x : Data, Plain (encode x)
  | .null => by rw [encode]; exact plain_null
  | .bool b => by rw [encode, Plain, dumps]
  | .num x => by rw [encode]; exact plain_num x
  | .str s => by rw [encode]; exact plain_str s
  | .list l => by rw [encode]; exact plain_list (plain_encodeList l)
  | .tup l => by rw [encode]; exact plain_list (plain_encodeList l)
  | .dict items => by rw [encode]; exact plain_dict (plain_encodeItems items)
  | .opt items => by rw [encode]; exact plain_dict (plain_setItems (plain_encodeItems items) _ (plain_str _))
  | .entry c p v => by
    rw [encode]
    refine plain_dict fun kv hkv => ?_
    simp only [List.mem_cons, List.not_mem_nil, or_false] at hkv
    rcases hkv with rfl | rfl | rfl
    · exact plain_encode c
    · exact plain_encode p
    · exact plain_encode v
  | .entryArt c p v a => by
    rw [encode]
    refine plain_dict fun kv hkv => ?_
    simp only [List.mem_cons, List.not_mem_nil, or_false] at hkv
    rcases hkv with rfl | rfl | rfl | rfl
    · exact plain_encode c
    · exact plain_encode p
    · exact plain_encode v
    · exact plain_encode a
  | .estimate v => by rw [encode]; exact plain_estimate v
  | .array a => by rw [encode]; exact plain_array a
  | .dist d => by rw [encode]; exact plain_dist d
theorem plain_encodeList : ∀ l : List Data, ∀ x ∈ encodeList l, Plain x
  | [], x, hx => by rw [encodeList] at hx; exact (List.not_mem_nil hx).elim
  | y :: l, x, hx => by
    rw [encodeList] at hx
    rcases List.mem_cons.1 hx with rfl | hx
    · exact plain_encode y
    · exact plain_encodeList l x hx
theorem plain_encodeItems : ∀ l : List (Str × Data), ∀ kv ∈ encodeItems l, Plain kv.2
  | [], x, hx => by rw [encodeItems] at hx; exact (List.not_mem_nil hx).elim
  | (k, v) :: l, x, hx => by
    rw [encodeItems] at hx
    rcases List.mem_cons.1 hx with rfl | hx
    · exact plain_encode v
    · exact plain_encodeItems l x hx
end

/-! ## What is saved -/

theorem fine_realArray (vs : List ℝ) : Fine (realArray vs) := ⟨⟨by simp [realArray], fun _ z hz => by
  obtain ⟨v, _, rfl⟩ : ∃ v ∈ vs, (v : ℂ) = z := List.mem_map.1 hz
  exact Complex.ofReal_im v⟩, by simp [realArray, ListShape]⟩

theorem vector_realArray (vs : List ℝ) : vector (realArray vs) = vs := by
  rw [vector, realArray]
  simp [Function.comp_def]

/-- The names of the items of a result that mean something when it is loaded. -/
def reserved : List Str := ["opt_value".toList, "opt_params".toList, "history".toList, "gradient_history".toList, "schema".toList, "real".toList,
  "call_number".toList]

/-- What an optimizer ends with is in order: the value is a number, and the other items can be told apart after saving, with distinct names of their own. -/
structure Tidy (f : Found) : Prop where
  value : ∃ v, f.optValue = .num v ∨ ∃ p, f.optValue = .estimate ⟨v, p⟩
  safe : SafeItems f.others
  nodup : (f.others.map Prod.fst).Nodup
  own : ∀ k ∈ f.others.map Prod.fst, k ∉ reserved

theorem safeItems_iff : ∀ {l : List (Str × Data)}, SafeItems l ↔ ∀ kv ∈ l, Safe kv.2
  | [] => by simp [SafeItems]
  | (k, v) :: l => by rw [SafeItems, safeItems_iff]; simp

theorem safeList_iff : ∀ {l : List Data}, SafeList l ↔ ∀ x ∈ l, Safe x
  | [] => by simp [SafeList]
  | x :: l => by rw [SafeList, safeList_iff]; simp

theorem listsList_eq : ∀ l : List Data, listsList l = l.map lists
  | [] => rfl
  | x :: l => by rw [listsList, listsList_eq l]; rfl

theorem safe_entry (b : Bool) (e : Entry (List ℝ) Cost.Estimate) : Safe (entryData b e) ∧ lists (entryData b e) = entryData b e := by
  have h := fine_realArray e.params
  cases b
  · simp only [entryData, Bool.false_eq_true, if_false, Safe, lists]
    exact ⟨⟨trivial, h, trivial⟩, trivial⟩
  · simp only [entryData, if_true, Safe, lists, listsItems, SafeItems, PlainKeys]
    exact ⟨⟨trivial, h, trivial, by simp⟩, trivial⟩

theorem safe_gradient (e : Entry (List ℝ) (List ℝ)) : Safe (gradientData e) ∧ lists (gradientData e) = gradientData e := by
  simp only [gradientData, Safe, lists]
  exact ⟨⟨trivial, fine_realArray _, fine_realArray _⟩, trivial⟩

/-- Specification: an entry of a loaded history. -/
noncomputable def recorded (artifacts : Bool) (e : Entry (List ℝ) Cost.Estimate) : Data :=
  match artifacts with
  | true => .entryArt (.num e.callNumber) (.array (realArray e.params)) (.estimate ⟨e.value.value, e.value.precision.join⟩) (.dict [])
  | false => .entry (.num e.callNumber) (.array (realArray e.params)) (.estimate ⟨e.value.value, e.value.precision.join⟩)

/-- Specification: an entry of a loaded history of gradients. -/
noncomputable def recordedGradient (e : Entry (List ℝ) (List ℝ)) : Data := .entry (.num e.callNumber) (.array (realArray e.params)) (.array (realArray e.value))

theorem entryData_eq (b : Bool) : entryData b = recorded b := by cases b <;> rfl

theorem gradientData_eq : gradientData = recordedGradient := rfl

/-- Specification: a loaded result has the value, the parameters, the other items, and the two histories if there are any. -/
def Reports (artifacts : Bool) (f : Found) (h : Histories (Entry (List ℝ) Cost.Estimate) (Entry (List ℝ) (List ℝ))) (d : Data) : Prop :=
  ∃ items, d = .opt items ∧ (items.map Prod.fst).Nodup ∧ PyDict.get? items "opt_value".toList = some f.optValue ∧
    PyDict.get? items "opt_params".toList = some (.array (realArray f.optParams)) ∧
    (∀ kv ∈ f.others, PyDict.get? items kv.1 = some (lists kv.2)) ∧
    PyDict.get? items "history".toList = h.history.map (fun l => .list (l.map (recorded artifacts))) ∧
    PyDict.get? items "gradient_history".toList = h.gradientHistory.map (fun l => .list (l.map recordedGradient))

theorem keys_resultItems (b : Bool) (f : Found) (h : Histories (Entry (List ℝ) Cost.Estimate) (Entry (List ℝ) (List ℝ))) :
    (resultItems b f h).map Prod.fst = ["opt_value".toList, "opt_params".toList] ++ f.others.map Prod.fst ++
      (if h.history.isSome then ["history".toList] else []) ++ if h.gradientHistory.isSome then ["gradient_history".toList] else [] := by
  rw [resultItems]
  cases h.history <;> cases h.gradientHistory <;> simp

theorem nodup_around {α : Type} {k1 k2 k3 k4 : α} {l : List α} (hk : [k1, k2, k3, k4].Nodup) (hl : l.Nodup) (h : ∀ k ∈ [k1, k2, k3, k4], k ∉ l) (a b : Bool) :
    ([k1, k2] ++ l ++ (if a then [k3] else []) ++ if b then [k4] else []).Nodup := by
  have h1 := h k1 (by simp)
  have h2 := h k2 (by simp)
  have h3 := h k3 (by simp)
  have h4 := h k4 (by simp)
  simp only [List.nodup_cons, List.mem_cons, List.not_mem_nil, or_false, not_or] at hk
  cases a <;> cases b <;> simp only [Bool.false_eq_true, if_false, if_true, List.append_nil, List.nodup_append, List.nodup_cons, List.mem_append, List.mem_cons,
    List.not_mem_nil, or_false] <;> grind

theorem mem_around {α : Type} {k1 k2 k3 k4 k : α} {l : List α} (a b : Bool) (h : k ∈ [k1, k2] ++ l ++ (if a then [k3] else []) ++ if b then [k4] else []) :
    k = k1 ∨ k = k2 ∨ k ∈ l ∨ (a = true ∧ k = k3) ∨ (b = true ∧ k = k4) := by
  cases a <;> cases b <;> simp at h <;> grind

theorem saved_items (b : Bool) {f : Found} (hf : Tidy f) (h : Histories (Entry (List ℝ) Cost.Estimate) (Entry (List ℝ) (List ℝ))) :
    ∃ d, loadResults (saveResults (resultItems b f h)).1 = .ok d ∧ Reports b f h d := by
  have hk := keys_resultItems b f h
  have own : ∀ k ∈ reserved, k ∉ f.others.map Prod.fst := fun k hk h => hf.own k h hk
  have hnd : ((resultItems b f h).map Prod.fst).Nodup := by
    rw [hk]
    exact nodup_around (by decide) hf.nodup (fun k hk => own k (List.mem_of_mem_take (i := 4) hk)) _ _
  have hmem : ∀ k : Str, k ∈ (resultItems b f h).map Prod.fst → k ∈ reserved.take 4 ∨ k ∈ f.others.map Prod.fst := by
    intro k
    rw [hk]
    intro hm
    rcases mem_around _ _ hm with rfl | rfl | hm | ⟨-, rfl⟩ | ⟨-, rfl⟩
    · exact Or.inl (by decide)
    · exact Or.inl (by decide)
    · exact Or.inr hm
    · exact Or.inl (by decide)
    · exact Or.inl (by decide)
  have hnot : ∀ k ∈ reserved.drop 4, k ∉ (resultItems b f h).map Prod.fst := by
    intro k hk' hm
    rcases hmem k hm with h' | h'
    · clear hm
      revert k
      decide
    · exact own k (List.mem_of_mem_drop hk') h'
  have hval : Safe f.optValue ∧ lists f.optValue = f.optValue := by
    obtain ⟨v, hv | ⟨p, hv⟩⟩ := hf.value <;> rw [hv] <;> simp [Safe, lists]
  have hsafe : SafeItems (resultItems b f h) := by
    rw [safeItems_iff]
    intro kv hkv
    simp only [resultItems, List.mem_append, List.mem_cons, List.not_mem_nil, or_false] at hkv
    rcases hkv with (((rfl | rfl) | hkv) | hkv) | hkv
    · exact hval.1
    · exact fine_realArray _
    · exact safeItems_iff.1 hf.safe kv hkv
    · cases hh : h.history with
      | none => rw [hh] at hkv; exact absurd hkv List.not_mem_nil
      | some l =>
        rw [hh] at hkv
        rw [List.mem_singleton.1 hkv]
        dsimp only
        rw [Safe, safeList_iff]
        intro x hx
        obtain ⟨e, -, rfl⟩ := List.mem_map.1 hx
        exact (safe_entry b e).1
    · cases hh : h.gradientHistory with
      | none => rw [hh] at hkv; exact absurd hkv List.not_mem_nil
      | some l =>
        rw [hh] at hkv
        rw [List.mem_singleton.1 hkv]
        dsimp only
        rw [Safe, safeList_iff]
        intro x hx
        obtain ⟨e, -, rfl⟩ := List.mem_map.1 hx
        exact (safe_gradient e).1
  have hplain : PlainKeys (resultItems b f h) := ⟨hnd, hnot _ (by decide), fun h' => hnot kCall (by decide) h'.1⟩
  refine ⟨_, save_load _ hsafe hplain, listsItems (resultItems b f h), ?_, ?_, ?_, ?_, ?_, ?_, ?_⟩
  · rw [del_of_not_mem (hnot kSchema (by decide))]
  · show (PyDict.keys (listsItems (resultItems b f h))).Nodup
    rw [listsItems_keys]; exact hnd
  all_goals
    have hnd' : (PyDict.keys (listsItems (resultItems b f h))).Nodup := by rw [listsItems_keys]; exact hnd
    have get : ∀ {k v}, (k, v) ∈ resultItems b f h → PyDict.get? (listsItems (resultItems b f h)) k = some (lists v) := fun {k v} hkv =>
      PyDict.get?_of_mem hnd' (by rw [listsItems_eq]; exact List.mem_map.2 ⟨_, hkv, rfl⟩)
  · rw [get (v := f.optValue) (by simp [resultItems]), hval.2]
  · rw [get (v := .array (realArray f.optParams)) (by simp [resultItems])]; simp [lists]
  · intro kv hkv
    exact get (by simp [resultItems, hkv])
  · rw [← entryData_eq]
    cases hh : h.history with
    | none =>
      refine (PyDict.get?_eq_none_iff _ _).2 ?_
      rw [listsItems_keys, hk, hh]
      intro hm
      rcases mem_around _ _ hm with e | e | e | ⟨e, -⟩ | ⟨e, e'⟩
      · exact absurd e (by decide)
      · exact absurd e (by decide)
      · exact own _ (by decide) e
      · cases e
      · exact absurd e' (by decide)
    | some l =>
      rw [get (v := .list (l.map (entryData b))) (by simp [resultItems, hh]), lists, listsList_eq, List.map_map]
      congr 2
      exact List.map_congr_left fun e _ => (safe_entry b e).2
  · rw [← gradientData_eq]
    cases hh : h.gradientHistory with
    | none =>
      refine (PyDict.get?_eq_none_iff _ _).2 ?_
      rw [listsItems_keys, hk, hh]
      intro hm
      rcases mem_around _ _ hm with e | e | e | ⟨e, e'⟩ | ⟨e, -⟩
      · exact absurd e (by decide)
      · exact absurd e (by decide)
      · exact own _ (by decide) e
      · exact absurd e' (by decide)
      · cases e
    | some l =>
      rw [get (v := .list (l.map gradientData)) (by simp [resultItems, hh]), lists, listsList_eq, List.map_map]
      congr 2

/-- What both steps do with the result of the optimizer: it is loaded back from the two files, and no other file changes. -/
theorem finish_spec (b : Bool) {f : Found} (hf : Tidy f) (h : Histories (Entry (List ℝ) Cost.Estimate) (Entry (List ℝ) (List ℝ))) (w : W) (fs : FS) :
    ∃ fs' d, finish b (.ok (f, h), w) fs = (.ok fs', w) ∧ loadOptResults fs' "optimization-results.json".toList = .ok d ∧ Reports b f h d ∧
      loadArray fs' (.str "optimized-parameters.json".toList) = .ok (realArray f.optParams) ∧
      ∀ p, p ≠ "optimization-results.json".toList → p ≠ "optimized-parameters.json".toList → fs' p = fs p := by
  obtain ⟨d, d1, d2⟩ := saved_items b hf h
  set j := (saveResults (resultItems b f h)).1 with hj
  have hw : writeFile fs "optimization-results.json".toList j = (put fs "optimization-results.json".toList (some j), none) := by
    rw [writeFile, show dumps j = .ok j from plain_encode _]
  obtain ⟨fs', s1, s2, s3⟩ := save_spec (put fs "optimization-results.json".toList (some j)) "optimized-parameters.json" (.array (realArray f.optParams))
    (plain_dict (by
      simp only [List.mem_cons, List.not_mem_nil, or_false, forall_eq_or_imp, forall_eq]
      exact ⟨plain_txt _, plain_array _⟩))
  refine ⟨fs', d, ?_, ?_, d2, ?_, fun p h1 h2 => ?_⟩
  · rw [finish]
    have : saveOptResults fs "optimization-results.json" (resultItems b f h) = .ok (put fs "optimization-results.json".toList (some j)) := by
      rw [saveOptResults, ← hj, hw]
    rw [this]
    exact congrArg (·, w) s1
  · rw [loadOptResults, readFile, s3 _ (by decide), put, if_pos rfl]
    show lift (loadResults j) = _
    rw [d1]; rfl
  · rw [load_array (fine_realArray _) s2 (t := .str _) rfl]
    rfl
  · rw [s3 p h2, put, if_neg h1]

/-! ## Optimizers -/

/-- The optimizer ends with the answer to one of its own questions: `seen` are the questions asked and answered so far. -/
def Honest (seen : List (List ℝ × Cost.Estimate)) : Program (List ℝ) Cost.Estimate (List ℝ) Found → Prop
  | .done f => ∃ v, (f.optParams, v) ∈ seen ∧ number f.optValue = some v.value
  | .value p k => ∀ v, Honest ((p, v) :: seen) (k v)
  | .gradient _ k => ∀ g, Honest seen (k g)

/-- The optimizer ends with a value that is not greater than any value it has seen. -/
def Minimal (seen : List (List ℝ × Cost.Estimate)) : Program (List ℝ) Cost.Estimate (List ℝ) Found → Prop
  | .done f => ∃ x, number f.optValue = some x ∧ ∀ pv ∈ seen, x ≤ pv.2.value
  | .value p k => ∀ v, Minimal ((p, v) :: seen) (k v)
  | .gradient _ k => ∀ g, Minimal seen (k g)

/-- Every question is about `n` parameters. -/
def Sized (n : ℕ) : Program (List ℝ) Cost.Estimate (List ℝ) Found → Prop
  | .done _ => True
  | .value p k => p.length = n ∧ ∀ v, Sized n (k v)
  | .gradient p k => p.length = n ∧ ∀ g, Sized n (k g)

/-- Every possible result is in order. -/
def AllTidy : Program (List ℝ) Cost.Estimate (List ℝ) Found → Prop
  | .done f => Tidy f
  | .value _ k => ∀ v, AllTidy (k v)
  | .gradient _ k => ∀ g, AllTidy (k g)

variable {noGradient : Err} {target : Target W Err (List ℝ) Cost.Estimate} {gradient : Option (Target W Err (List ℝ) (List ℝ))}

theorem tidy_run : ∀ {P : Program (List ℝ) Cost.Estimate (List ℝ) Found}, AllTidy P → ∀ {w : W} {f}, (run noGradient target gradient P w).1 = .ok f → Tidy f := by
  intro P
  induction P with
  | done f =>
    intro h w f' e
    rw [run] at e
    exact Except.ok.inj e ▸ h
  | value p k ih =>
    intro h w f' e
    rw [run] at e
    cases ht : target w p with
    | mk o w' =>
      rw [ht] at e
      cases o with
      | error x => cases e
      | ok v => exact ih v (h v) e
  | gradient p k ih =>
    intro h w f' e
    cases gradient with
    | none => rw [run] at e; cases e
    | some g =>
      rw [run] at e
      cases ht : g w p with
      | mk o w' =>
        rw [ht] at e
        cases o with
        | error x => cases e
        | ok v => exact ih v (h v) e

theorem honest_run : ∀ {P : Program (List ℝ) Cost.Estimate (List ℝ) Found} {seen}, Honest seen P → ∀ {w : W} {f}, (run noGradient target gradient P w).1 = .ok f →
    ∃ v, ((f.optParams, v) ∈ (asked target gradient P w).1 ∨ (f.optParams, v) ∈ seen) ∧ number f.optValue = some v.value := by
  intro P
  induction P with
  | done f =>
    intro seen h w f' e
    rw [run] at e
    obtain ⟨v, h1, h2⟩ := h
    exact Except.ok.inj e ▸ ⟨v, Or.inr h1, h2⟩
  | value p k ih =>
    intro seen h w f' e
    rw [run] at e
    rw [asked]
    cases ht : target w p with
    | mk o w' =>
      rw [ht] at e
      cases o with
      | error x => cases e
      | ok v =>
        obtain ⟨u, h1, h2⟩ := ih v (h v) e
        refine ⟨u, ?_, h2⟩
        rcases h1 with h1 | h1
        · exact Or.inl (List.mem_cons_of_mem _ h1)
        · rcases List.mem_cons.1 h1 with h1 | h1
          · exact Or.inl (h1 ▸ List.mem_cons_self)
          · exact Or.inr h1
  | gradient p k ih =>
    intro seen h w f' e
    cases gradient with
    | none => rw [run] at e; cases e
    | some g =>
      rw [run] at e
      rw [asked]
      cases ht : g w p with
      | mk o w' =>
        rw [ht] at e
        cases o with
        | error x => cases e
        | ok v => exact ih v (h v) e

theorem minimal_run : ∀ {P : Program (List ℝ) Cost.Estimate (List ℝ) Found} {seen}, Minimal seen P → ∀ {w : W} {f}, (run noGradient target gradient P w).1 = .ok f →
    ∃ x, number f.optValue = some x ∧ (∀ pv ∈ (asked target gradient P w).1, x ≤ pv.2.value) ∧ ∀ pv ∈ seen, x ≤ pv.2.value := by
  intro P
  induction P with
  | done f =>
    intro seen h w f' e
    rw [run] at e
    obtain ⟨x, h1, h2⟩ := h
    exact Except.ok.inj e ▸ ⟨x, h1, fun pv h => absurd h List.not_mem_nil, h2⟩
  | value p k ih =>
    intro seen h w f' e
    rw [run] at e
    rw [asked]
    cases ht : target w p with
    | mk o w' =>
      rw [ht] at e
      cases o with
      | error x => cases e
      | ok v =>
        obtain ⟨x, h1, h2, h3⟩ := ih v (h v) e
        refine ⟨x, h1, fun pv hpv => ?_, fun pv hpv => h3 pv (List.mem_cons_of_mem _ hpv)⟩
        rcases List.mem_cons.1 hpv with rfl | hpv
        · exact h3 _ List.mem_cons_self
        · exact h2 pv hpv
  | gradient p k ih =>
    intro seen h w f' e
    cases gradient with
    | none => rw [run] at e; cases e
    | some g =>
      rw [run] at e
      rw [asked]
      cases ht : g w p with
      | mk o w' =>
        rw [ht] at e
        cases o with
        | error x => cases e
        | ok v => exact ih v (h v) e

/-- Every answer was given by the cost function, in some state of the world, to a question of the program. -/
theorem asked_answer {n : ℕ} : ∀ {P : Program (List ℝ) Cost.Estimate (List ℝ) Found}, Sized n P → ∀ {w : W} {pv}, pv ∈ (asked target gradient P w).1 →
    pv.1.length = n ∧ ∃ w' : W, (target w' pv.1).1 = .ok pv.2 := by
  intro P
  induction P with
  | done f => intro h w pv e; exact absurd e List.not_mem_nil
  | value p k ih =>
    intro h w pv e
    rw [asked] at e
    cases ht : target w p with
    | mk o w' =>
      rw [ht] at e
      cases o with
      | error x => exact absurd e List.not_mem_nil
      | ok v =>
        rcases List.mem_cons.1 e with rfl | e
        · exact ⟨h.1, w, by rw [ht]⟩
        · exact ih v (h.2 v) e
  | gradient p k ih =>
    intro h w pv e
    cases gradient with
    | none => rw [asked] at e; exact absurd e List.not_mem_nil
    | some g =>
      rw [asked] at e
      cases ht : g w p with
      | mk o w' =>
        rw [ht] at e
        cases o with
        | error x => exact absurd e List.not_mem_nil
        | ok v => exact ih v (h.2 v) e

/-- Every gradient was given by the gradient function, in some state of the world, to a question of the program. -/
theorem asked_gradient {n : ℕ} {g : Target W Err (List ℝ) (List ℝ)} : ∀ {P : Program (List ℝ) Cost.Estimate (List ℝ) Found}, Sized n P → ∀ {w : W} {pg},
    pg ∈ (asked target (some g) P w).2 → pg.1.length = n ∧ ∃ w' : W, (g w' pg.1).1 = .ok pg.2 := by
  intro P
  induction P with
  | done f => intro h w pv e; exact absurd e List.not_mem_nil
  | value p k ih =>
    intro h w pv e
    rw [asked] at e
    cases ht : target w p with
    | mk o w' =>
      rw [ht] at e
      cases o with
      | error x => exact absurd e List.not_mem_nil
      | ok v => exact ih v (h.2 v) e
  | gradient p k ih =>
    intro h w pv e
    rw [asked] at e
    cases ht : g w p with
    | mk o w' =>
      rw [ht] at e
      cases o with
      | error x => exact absurd e List.not_mem_nil
      | ok v =>
        rcases List.mem_cons.1 e with rfl | e
        · exact ⟨h.1, w, by rw [ht]⟩
        · exact ih v (h.2 v) e

/-- A program that asks about the right number of parameters is answered. -/
theorem sized_run {n : ℕ} (ht : ∀ (w : W) (p : List ℝ), p.length = n → ∃ v, (target w p).1 = .ok v)
    {g : Target W Err (List ℝ) (List ℝ)} (hg : ∀ (w : W) (p : List ℝ), p.length = n → ∃ v, (g w p).1 = .ok v) :
    ∀ {P : Program (List ℝ) Cost.Estimate (List ℝ) Found}, Sized n P → ∀ w : W, ∃ f, (run noGradient target (some g) P w).1 = .ok f
  | .done f, h, w => ⟨f, by rw [run]⟩
  | .value p k, h, w => by
    rw [run]
    obtain ⟨v, hv⟩ := ht w p h.1
    cases hx : target w p with
    | mk o w' =>
      rw [hx] at hv
      dsimp only at hv
      subst hv
      exact sized_run ht hg (h.2 v) w'
  | .gradient p k, h, w => by
    rw [run]
    obtain ⟨v, hv⟩ := hg w p h.1
    cases hx : g w p with
    | mk o w' =>
      rw [hx] at hv
      dsimp only at hv
      subst hv
      exact sized_run ht hg (h.2 v) w'

/-! ## The steps -/

/-- Specification: what the history of an optimization has to be, given whether it is kept: the answered questions, numbered from 0. -/
def historyOf (keep withGradient : Bool) (a : List (List ℝ × Cost.Estimate) × List (List ℝ × List ℝ)) : Histories (Entry (List ℝ) Cost.Estimate) (Entry (List ℝ) (List ℝ)) :=
  if keep then ⟨some (numbered a.1), if withGradient then some (numbered a.2) else none, false⟩ else ⟨some [], none, false⟩

theorem minimize_history (P : Program (List ℝ) Cost.Estimate (List ℝ) Found) (keep : Bool) (w : W) :
    minimize noGradient P target gradient always always keep w =
      ((run noGradient target gradient P w).1.map (fun x => (x, historyOf keep gradient.isSome (asked target gradient P w))), (run noGradient target gradient P w).2) := by
  obtain ⟨h1, h2, h3, h4⟩ := minimize_spec noGradient P target gradient w
  cases keep
  · exact Prod.ext h4 h2
  · exact Prod.ext h3 h1

/-- The files of a step that succeeds: what the optimizer found can be loaded from both, the parameters can be given to the next step, and the history has all the answered
questions. -/
def Saved (artifacts : Bool) (f : Found) (h : Histories (Entry (List ℝ) Cost.Estimate) (Entry (List ℝ) (List ℝ))) (fs fs' : FS) : Prop :=
  (∃ d, loadOptResults fs' "optimization-results.json".toList = .ok d ∧ Reports artifacts f h d) ∧
    theParams fs' (some (.file "optimized-parameters.json".toList)) = .ok (some f.optParams) ∧
    ∀ p, p ≠ "optimization-results.json".toList → p ≠ "optimized-parameters.json".toList → fs' p = fs p

theorem finish_saved (b : Bool) {f : Found} (hf : Tidy f) (h : Histories (Entry (List ℝ) Cost.Estimate) (Entry (List ℝ) (List ℝ))) (w : W) (fs : FS) :
    ∃ fs', finish b (.ok (f, h), w) fs = (.ok fs', w) ∧ Saved b f h fs fs' := by
  obtain ⟨fs', d, h1, h2, h3, h4, h5⟩ := finish_spec b hf h w fs
  refine ⟨fs', h1, ⟨d, h2, h3⟩, ?_, h5⟩
  show (loadArray fs' (.str "optimized-parameters.json".toList) >>= fun a => Except.ok (some (vector a))) = _
  rw [h4]
  exact congrArg (fun x => Except.ok (some x)) (vector_realArray _)

section Circuit

variable {optimizer : OptProgram} {order : List String → List String} {key : List Char → List Sorting.Item}
  {method : Target W Err (List Est.Task) (List Cost.Values)} {preprocessors : List (Target W Err (List Est.Task) (List Est.Task))}
  {gradientOf : Target W Err (List ℝ) Cost.Estimate → Target W Err (List ℝ) (List ℝ)} {noise : Option (ℕ → ℝ)} {keep : Option Bool}
  {operator : Operand} {circuit : Circuit} {initial fixed : Option Params} {fs : FS} {w w1 : W}
  {o : Terms Letter} {i fx : Option (List ℝ)} {prepared : List Est.Task × List String}

/-- **The circuit step saves what the optimizer found**: the optimizer runs on the cost function of the operator and the circuit, from the initial parameters; its exceptions
are those of the step; otherwise the files hold what it found, with all its questions if the history is kept, which is the default. -/
theorem circuit_step (ho : theQubit fs operator = .ok o) (hi : theParams fs initial = .ok i) (hf : theParams fs fixed = .ok fx)
    (hp : Cost.prepare order key o circuit preprocessors w () = (.ok prepared, w1)) (hT : AllTidy (optimizer i)) :
    (∀ e, (run noGradient (Cost.groundState prepared fx noise method) (some (gradientOf (Cost.groundState prepared fx noise method))) (optimizer i) w1).1 = .error e →
      (optimizeCircuitStep noGradient optimizer order key method preprocessors gradientOf noise keep operator circuit initial fixed fs w).1 = .error (.py e)) ∧
    ∀ f, (run noGradient (Cost.groundState prepared fx noise method) (some (gradientOf (Cost.groundState prepared fx noise method))) (optimizer i) w1).1 = .ok f →
      ∃ fs', (optimizeCircuitStep noGradient optimizer order key method preprocessors gradientOf noise keep operator circuit initial fixed fs w).1 = .ok fs' ∧
        Saved true f (historyOf (keep.getD true) true
          (asked (Cost.groundState prepared fx noise method) (some (gradientOf (Cost.groundState prepared fx noise method))) (optimizer i) w1)) fs fs' := by
  set cost := Cost.groundState prepared fx noise method with hcost
  have hstep : optimizeCircuitStep noGradient optimizer order key method preprocessors gradientOf noise keep operator circuit initial fixed fs w =
      finish true (minimize noGradient (optimizer i) cost (some (gradientOf cost)) always always (keep.getD true) w1) fs := by
    unfold optimizeCircuitStep
    rw [ho, hi, hf]
    show (match Cost.prepare order key o circuit preprocessors w () with
      | (.error e, w) => ((.error (.py e) : Except FErr FS), w)
      | (.ok prepared, w) => finish true (minimize noGradient (optimizer i) (Cost.groundState prepared fx noise method)
          (some (gradientOf (Cost.groundState prepared fx noise method))) always always (keep.getD true) w) fs) = _
    rw [hp]
  rw [hstep, minimize_history]
  cases hr : (run noGradient cost (some (gradientOf cost)) (optimizer i) w1).1 with
  | error e =>
    refine ⟨fun e' he => ?_, fun f hf => (nomatch hf)⟩
    rw [← Except.error.inj he]
    rfl
  | ok f =>
    refine ⟨fun e' he => (nomatch he), fun f' hf' => ?_⟩
    obtain rfl := Except.ok.inj hf'
    obtain ⟨fs', g1, g2⟩ := finish_saved true (tidy_run hT hr) (historyOf (keep.getD true) true (asked cost (some (gradientOf cost)) (optimizer i) w1))
      (run noGradient cost (some (gradientOf cost)) (optimizer i) w1).2 fs
    exact ⟨fs', congrArg Prod.fst g1, g2⟩

/-- **The ansatz step saves what the optimizer found**; here the cost function has no gradient, and the history is not kept by default. -/
theorem ansatz_step {V : Type} {K : Ansatz.Class V} {ansatz : Ansatz.St V} (ho : theQubit fs operator = .ok o) (hi : theParams fs initial = .ok i)
    (hf : theParams fs fixed = .ok fx) (hp : Cost.prepareFromAnsatz K ansatz order o preprocessors w () = (.ok prepared, w1)) (hT : AllTidy (optimizer i)) :
    (∀ e, (run noGradient (Cost.ansatzBased prepared fx noise method) none (optimizer i) w1).1 = .error e →
      (optimizeAnsatzStep noGradient optimizer order K ansatz method preprocessors noise keep operator initial fixed fs w).1 = .error (.py e)) ∧
    ∀ f, (run noGradient (Cost.ansatzBased prepared fx noise method) none (optimizer i) w1).1 = .ok f →
      ∃ fs', (optimizeAnsatzStep noGradient optimizer order K ansatz method preprocessors noise keep operator initial fixed fs w).1 = .ok fs' ∧
        Saved false f (historyOf (keep.getD false) false (asked (Cost.ansatzBased prepared fx noise method) none (optimizer i) w1)) fs fs' := by
  set cost := Cost.ansatzBased prepared fx noise method with hcost
  have hstep : optimizeAnsatzStep noGradient optimizer order K ansatz method preprocessors noise keep operator initial fixed fs w =
      finish false (minimize noGradient (optimizer i) cost none always always (keep.getD false) w1) fs := by
    unfold optimizeAnsatzStep
    rw [ho, hi, hf]
    show (match Cost.prepareFromAnsatz K ansatz order o preprocessors w () with
      | (.error e, w) => ((.error (.py e) : Except FErr FS), w)
      | (.ok prepared, w) => finish false (minimize noGradient (optimizer i) (Cost.ansatzBased prepared fx noise method) none always always (keep.getD false) w) fs) = _
    rw [hp]
  rw [hstep, minimize_history]
  cases hr : (run noGradient cost none (optimizer i) w1).1 with
  | error e =>
    refine ⟨fun e' he => ?_, fun f hf => (nomatch hf)⟩
    rw [← Except.error.inj he]
    rfl
  | ok f =>
    refine ⟨fun e' he => (nomatch he), fun f' hf' => ?_⟩
    obtain rfl := Except.ok.inj hf'
    obtain ⟨fs', g1, g2⟩ := finish_saved false (tidy_run hT hr) (historyOf (keep.getD false) false (asked cost none (optimizer i) w1))
      (run noGradient cost none (optimizer i) w1).2 fs
    exact ⟨fs', congrArg Prod.fst g1, g2⟩

end Circuit

/-- A cost function that stores no artifacts, called by the recorder of artifacts: the history has the entries of the simple recorder, each with no artifacts. -/
theorem artifact_call {E S V A : Type} (target : Target W E S V) (predicate : SaveCondition E S V) (p : S) (r : Recorder (Entry S V)) (w : W) :
    let lift := fun r : Recorder (Entry S V) => (⟨r.callNumber, r.history.map fun e => ⟨e.callNumber, e.params, e.value, []⟩⟩ : Recorder (ArtifactEntry S V A))
    callWithArtifacts (A := A) (fun w p => (((target w p).1, []), (target w p).2)) predicate p (lift r, w) =
      ((call target predicate p (r, w)).1, (lift (call target predicate p (r, w)).2.1, (call target predicate p (r, w)).2.2)) := by
  unfold callWithArtifacts call
  dsimp only
  cases ht : target w p with
  | mk x w' =>
    cases x with
    | error e => rfl
    | ok v =>
      dsimp only [List.foldl]
      cases hq : predicate v p r.callNumber with
      | error e => rfl
      | ok b => cases b <;> simp

/-! ## Exact estimation -/

theorem exactMethod_real (sim : Simulator W) (ρ : String → ℂ) (b : Bool) : ∀ (ts : List Est.Task) (st : St W) {es}, (exactMethod sim ρ b st ts).1 = .ok es →
    ∀ e ∈ es, e.complexType = false
  | [], st, es, h, e, he => by
    rw [exactMethod] at h
    rw [← Except.ok.inj h] at he
    exact absurd he List.not_mem_nil
  | t :: ts, st, es, h, e, he => by
    rw [exactMethod] at h
    cases h1 : getExactExpectationValues sim ρ t.circuit b t.operator st with
    | mk x st1 =>
      rw [h1] at h
      cases x with
      | error _ => cases h
      | ok v =>
        dsimp only at h
        cases h2 : exactMethod sim ρ b st1 ts with
        | mk y st2 =>
          rw [h2] at h
          cases y with
          | error _ => cases h
          | ok vs =>
            rw [← Except.ok.inj h] at he
            rcases List.mem_cons.1 he with rfl | he
            · rfl
            · exact exactMethod_real sim ρ b ts st1 (by rw [h2]) e he

/-- The older cost function has the value of the newer one at the full parameters. -/
theorem groundState_created (sim : Simulator W) (ρ : String → ℂ) (b : Bool) (prepared : List Est.Task × List String) (fixed : Option (List ℝ)) (noise : Option (ℕ → ℝ))
    (st : St W) (ps : List ℝ) {v : Cost.Estimate}
    (h : (Cost.createCostFunction (exactMethod sim ρ b) (Cost.expectationValueFactory prepared) [] st (Cost.fullParameters fixed noise ps)).1 = .ok v) :
    (Cost.groundState prepared fixed noise (exactMethod sim ρ b) st ps).1 = .ok ⟨v.value, none⟩ ∧
      (Cost.ansatzBased prepared fixed noise (exactMethod sim ρ b) st ps).1 = .ok v := by
  have ha : Cost.ansatzBased prepared fixed noise (exactMethod sim ρ b) st ps =
      Cost.createCostFunction (exactMethod sim ρ b) (Cost.expectationValueFactory prepared) [] st (Cost.fullParameters fixed noise ps) := by
    have := Cost.ansatzBased_eq (W := St W) prepared none (exactMethod sim ρ b)
    rw [show ((none : Option (List ℝ)).toList.map Cost.fixParameters : List (Target (St W) Err (List ℝ) (List ℝ))) = [] from rfl] at this
    rw [← this]
    rfl
  rw [← ha] at h
  refine ⟨?_, h⟩
  cases h1 : Cost.bindTasks prepared.2 prepared.1 (Cost.fullParameters fixed noise ps) with
  | error e =>
    unfold Cost.ansatzBased Cost.andThen Cost.effectless at h
    dsimp only at h
    rw [h1] at h
    cases h
  | ok tasks =>
    cases h2 : exactMethod sim ρ b st tasks with
    | mk x st1 =>
      cases x with
      | error e =>
        unfold Cost.ansatzBased Cost.andThen Cost.effectless at h
        dsimp only at h
        rw [h1] at h
        dsimp only at h
        rw [h2] at h
        cases h
      | ok es =>
        obtain ⟨x, pr, g1, g2⟩ := (Cost.groundState_spec prepared fixed noise (exactMethod sim ρ b) st st1 ps tasks es h1 h2).2
          (exactMethod_real sim ρ b tasks st (by rw [h2]))
        rw [g2] at h
        rw [g1, ← Except.ok.inj h]

/-- A gradient that can be computed wherever the values can, at points with `n` parameters. -/
def Tame (n : ℕ) (gradientOf : Target W Err (List ℝ) Cost.Estimate → Target W Err (List ℝ) (List ℝ)) : Prop :=
  ∀ target, (∀ (w : W) (p : List ℝ), p.length = n → ∃ v, (target w p).1 = .ok v) → ∀ (w : W) (p : List ℝ), p.length = n → ∃ v, (gradientOf target w p).1 = .ok v

/-- The default gradient is one. -/
theorem finite_tame (n : ℕ) {step : ℝ} (hs : step ≠ 0) : Tame n (finiteGradient (W := W) step) := by
  intro target ht w p hp
  have loop : ∀ (is : List ℕ) (acc : List ℝ) (w : W), ∃ v,
      (Gradient.gradientLoop .zeroDivision (fun w p => ((target w p).1.map fun v => v.value, (target w p).2)) step p is acc w).1 = .ok v := by
    intro is
    induction is with
    | nil => exact fun acc w => ⟨acc, rfl⟩
    | cons i is ih =>
      intro acc w
      rw [Gradient.gradientLoop]
      obtain ⟨v, hv⟩ := ht w (Gradient.shifted p i step) (by rw [Gradient.shifted, List.length_modify, hp])
      obtain ⟨v', hv'⟩ := ht (target w (Gradient.shifted p i step)).2 (Gradient.shifted p i (-step)) (by rw [Gradient.shifted, List.length_modify, hp])
      rw [hv]
      dsimp only [Except.map]
      rw [hv']
      dsimp only
      rw [if_neg (by simpa using hs)]
      exact ih _ _
  exact loop _ _ _

/-- The default gradient of a cost function with values `F`: the central differences. -/
theorem finite_values {n : ℕ} {step : ℝ} (hs : step ≠ 0) {F : List ℝ → ℝ} {pr : List ℝ → Option (Option ℝ)}
    (hF : ∀ (w : W) ps, ps.length = n → (target w ps).1 = .ok ⟨F ps, pr ps⟩) (w : W) (p : List ℝ) (hp : p.length = n) :
    (finiteGradient step target w p).1 = .ok ((List.range n).map fun i => (F (p.modify i (· + step)) - F (p.modify i (· - step))) / (2 * step)) := by
  have loop : ∀ (is : List ℕ) (acc : List ℝ) (w : W),
      (Gradient.gradientLoop .zeroDivision (fun w p => ((target w p).1.map fun v => v.value, (target w p).2)) step p is acc w).1 =
        .ok (acc ++ is.map fun i => (F (p.modify i (· + step)) - F (p.modify i (· - step))) / (2 * step)) := by
    intro is
    induction is with
    | nil => exact fun acc w => by rw [List.map_nil, List.append_nil]; rfl
    | cons i is ih =>
      intro acc w
      rw [Gradient.gradientLoop]
      rw [hF w (Gradient.shifted p i step) (by rw [Gradient.shifted, List.length_modify, hp])]
      dsimp only [Except.map]
      rw [hF _ (Gradient.shifted p i (-step)) (by rw [Gradient.shifted, List.length_modify, hp])]
      dsimp only
      rw [if_neg (by simpa using hs)]
      refine (ih _ _).trans ?_
      rw [List.map_cons, List.append_assoc]
      simp [Gradient.shifted, sub_eq_add_neg]
  rw [finiteGradient, Gradient.finiteDifferences, loop, List.nil_append, hp]

/-- If the cost function has a value `F` at all points with `n` parameters, whatever the state of the world, then for every optimizer that asks about such points only: the step
succeeds, all the values it records are values of `F`, and the saved value is `F` at the saved parameters, if the optimizer ends with the answer to one of its questions. -/
theorem circuit_step_values {optimizer : OptProgram} {order : List String → List String} {key : List Char → List Sorting.Item}
    {method : Target W Err (List Est.Task) (List Cost.Values)} {preprocessors : List (Target W Err (List Est.Task) (List Est.Task))}
    {gradientOf : Target W Err (List ℝ) Cost.Estimate → Target W Err (List ℝ) (List ℝ)} {noise : Option (ℕ → ℝ)} {keep : Option Bool}
    {operator : Operand} {circuit : Circuit} {initial fixed : Option Params} {fs : FS} {w w1 : W} {o : Terms Letter} {i fx : Option (List ℝ)}
    {prepared : List Est.Task × List String} (ho : theQubit fs operator = .ok o) (hi : theParams fs initial = .ok i) (hf : theParams fs fixed = .ok fx)
    (hp : Cost.prepare order key o circuit preprocessors w () = (.ok prepared, w1)) (hT : AllTidy (optimizer i)) {n : ℕ} (hS : Sized n (optimizer i))
    (hH : Honest [] (optimizer i)) (hG : Tame n gradientOf) (F : List ℝ → ℝ)
    (hF : ∀ (w : W) ps, ps.length = n → (Cost.groundState prepared fx noise method w ps).1 = .ok ⟨F ps, none⟩) :
    ∃ fs' f a, (optimizeCircuitStep noGradient optimizer order key method preprocessors gradientOf noise keep operator circuit initial fixed fs w).1 = .ok fs' ∧
      Saved true f (historyOf (keep.getD true) true a) fs fs' ∧ f.optParams.length = n ∧ number f.optValue = some (F f.optParams) ∧
      (f.optParams, ⟨F f.optParams, none⟩) ∈ a.1 ∧ (∀ pv ∈ a.1, pv.1.length = n ∧ pv.2 = ⟨F pv.1, none⟩) ∧
      (Minimal [] (optimizer i) → ∀ pv ∈ a.1, F f.optParams ≤ F pv.1) ∧
      ∀ pg ∈ a.2, pg.1.length = n ∧ ∃ w, (gradientOf (Cost.groundState prepared fx noise method) w pg.1).1 = .ok pg.2 := by
  set cost := Cost.groundState prepared fx noise method with hcost
  obtain ⟨f, hr⟩ := sized_run (noGradient := noGradient) (fun w p h => ⟨_, hF w p h⟩) (hG cost fun w p h => ⟨_, hF w p h⟩) hS w1
  obtain ⟨fs', s1, s2⟩ := (circuit_step (noGradient := noGradient) (gradientOf := gradientOf) (noise := noise) (method := method) (keep := keep) ho hi hf hp hT).2 f hr
  have hans : ∀ pv ∈ (asked cost (some (gradientOf cost)) (optimizer i) w1).1, pv.1.length = n ∧ pv.2 = ⟨F pv.1, none⟩ := by
    intro pv hpv
    obtain ⟨h1, w', h2⟩ := asked_answer hS hpv
    rw [hF w' _ h1] at h2
    exact ⟨h1, (Except.ok.inj h2).symm⟩
  obtain ⟨v, h1, h2⟩ := honest_run hH hr
  have h1 := h1.resolve_right List.not_mem_nil
  obtain ⟨l1, l2⟩ := hans _ h1
  dsimp only at l1 l2
  rw [l2] at h1 h2
  refine ⟨fs', f, _, s1, s2, l1, h2, h1, hans, fun hM pv hpv => ?_, fun pg hpg => asked_gradient hS hpg⟩
  obtain ⟨x, m1, m2, -⟩ := minimal_run hM hr
  have := m2 pv hpv
  rw [(hans pv hpv).2] at this
  rw [h2] at m1
  rw [show F f.optParams = x from Option.some.inj m1]
  exact this

/-- The same for the ansatz step, which has no gradient: an optimizer that asks for one gets an exception. -/
theorem ansatz_step_values {V : Type} {K : Ansatz.Class V} {ansatz : Ansatz.St V} {optimizer : OptProgram} {order : List String → List String}
    {method : Target W Err (List Est.Task) (List Cost.Values)} {preprocessors : List (Target W Err (List Est.Task) (List Est.Task))} {noise : Option (ℕ → ℝ)}
    {keep : Option Bool} {operator : Operand} {initial fixed : Option Params} {fs : FS} {w w1 : W} {o : Terms Letter} {i fx : Option (List ℝ)}
    {prepared : List Est.Task × List String} (ho : theQubit fs operator = .ok o) (hi : theParams fs initial = .ok i) (hf : theParams fs fixed = .ok fx)
    (hp : Cost.prepareFromAnsatz K ansatz order o preprocessors w () = (.ok prepared, w1)) (hT : AllTidy (optimizer i)) {n : ℕ} (hS : Sized n (optimizer i))
    (hH : Honest [] (optimizer i)) (F : List ℝ → ℝ) (pr : List ℝ → Option (Option ℝ))
    (hF : ∀ (w : W) ps, ps.length = n → (Cost.ansatzBased prepared fx noise method w ps).1 = .ok ⟨F ps, pr ps⟩) {fs' : FS}
    (hs : (optimizeAnsatzStep noGradient optimizer order K ansatz method preprocessors noise keep operator initial fixed fs w).1 = .ok fs') :
    ∃ f a, Saved false f (historyOf (keep.getD false) false a) fs fs' ∧ f.optParams.length = n ∧ number f.optValue = some (F f.optParams) ∧
      (f.optParams, ⟨F f.optParams, pr f.optParams⟩) ∈ a.1 ∧ (∀ pv ∈ a.1, pv.1.length = n ∧ pv.2 = ⟨F pv.1, pr pv.1⟩) ∧
      (Minimal [] (optimizer i) → ∀ pv ∈ a.1, F f.optParams ≤ F pv.1) := by
  set cost := Cost.ansatzBased prepared fx noise method with hcost
  obtain ⟨k1, k2⟩ := ansatz_step (noGradient := noGradient) (noise := noise) (method := method) (keep := keep) ho hi hf hp hT
  cases hr : (run noGradient cost none (optimizer i) w1).1 with
  | error e => rw [k1 e hr] at hs; cases hs
  | ok f =>
    obtain ⟨fs2, s1, s2⟩ := k2 f hr
    rw [s1] at hs
    obtain rfl := Except.ok.inj hs
    have hans : ∀ pv ∈ (asked cost none (optimizer i) w1).1, pv.1.length = n ∧ pv.2 = ⟨F pv.1, pr pv.1⟩ := by
      intro pv hpv
      obtain ⟨h1, w', h2⟩ := asked_answer hS hpv
      rw [hF w' _ h1] at h2
      exact ⟨h1, (Except.ok.inj h2).symm⟩
    obtain ⟨v, h1, h2⟩ := honest_run hH hr
    have h1 := h1.resolve_right List.not_mem_nil
    obtain ⟨l1, l2⟩ := hans _ h1
    dsimp only at l1 l2
    rw [l2] at h1 h2
    refine ⟨f, _, s2, l1, h2, h1, hans, fun hM pv hpv => ?_⟩
    obtain ⟨x, m1, m2, -⟩ := minimal_run hM hr
    have := m2 pv hpv
    rw [(hans pv hpv).2] at this
    rw [h2] at m1
    rw [show F f.optParams = x from Option.some.inj m1]
    exact this

/-- Specification: the values of the symbols when the `i`-th symbol is the `i`-th parameter. -/
noncomputable def assign (symbols : List String) (ps : List ℝ) (ρ : String → ℂ) : String → ℂ := fun s => if s ∈ symbols then ((ps.getD (symbols.idxOf s) 0 : ℝ) : ℂ) else ρ s

/-- Specification: the energy of the state the circuit makes, `Re ⟨ψ(θ)|H|ψ(θ)⟩`. -/
noncomputable def energy (symbols : List String) (c : Circuit) (H : Terms Letter) (ρ : String → ℂ) (ps : List ℝ) : ℝ :=
  (braket (outputState (assign symbols ps ρ) c) (opMatrix c.n H)).re

theorem assigns {symbols : List String} (h : symbols.Nodup) (ps : List ℝ) (ρ : String → ℂ) : Assigns symbols ps ρ (assign symbols ps ρ) := by
  refine ⟨fun i s p hs hp => ?_, fun s hs => if_neg hs⟩
  obtain ⟨hi, rfl⟩ := List.getElem?_eq_some_iff.1 hs
  rw [assign, if_pos (List.getElem_mem hi), h.idxOf_getElem, List.getD_eq_getElem?_getD, hp]
  rfl

theorem full_length (fixed : Option (List ℝ)) (noise : Option (ℕ → ℝ)) (ps : List ℝ) : (Cost.fullParameters fixed noise ps).length = (fixed.getD []).length + ps.length := by
  cases fixed <;> cases noise <;> simp [Cost.fullParameters, Cost.addNoise, Ansatz.combineParams]

theorem symbols_length {symbols l : List String} (h : symbols.Nodup) (hm : ∀ s, s ∈ symbols ↔ s ∈ l) : symbols.length = l.toFinset.card := by
  rw [← List.toFinset_card_of_nodup h]
  congr 1
  ext s
  simp [hm]

/-- The exact cost function of the step, in every state of the world. -/
theorem exact_values (sim : Simulator W) (ρ : String → ℂ) (hsim : Correct sim ρ) (order : List String → List String) (hord : Cost.IsSetOrder order)
    (key : List Char → List Sorting.Item) (hk : ∀ x, Sorting.Alternating (key x)) {H : Terms Letter} (h : CanonicalOp H) (c : Circuit) (hb : Below c.n H)
    (hbind : Ansatz.Bindable c) (hu : ∀ ρ' : String → ℂ, (∀ s ∈ c.freeSymbols, (ρ' s).im = 0) → Unitary ρ' c) (fx : Option (List ℝ)) (noise : Option (ℕ → ℝ))
    {n : ℕ} (hn : (fx.getD []).length + n = c.freeSymbols.toFinset.card) :
    ∃ symbols : List String, symbols.Nodup ∧ (∀ s, s ∈ symbols ↔ s ∈ c.freeSymbols) ∧
      (∀ st : St W, Cost.prepare order key H c [] st () = (.ok ([⟨H, c, none⟩], symbols), st)) ∧
      ∀ (st : St W) ps, ps.length = n →
        (Cost.groundState ([⟨H, c, none⟩], symbols) fx noise (exactMethod sim ρ false) st ps).1 = .ok ⟨energy symbols c H ρ (Cost.fullParameters fx noise ps), none⟩ ∧
        (Cost.ansatzBased ([⟨H, c, none⟩], symbols) fx noise (exactMethod sim ρ false) st ps).1 = .ok ⟨energy symbols c H ρ (Cost.fullParameters fx noise ps), none⟩ := by
  obtain ⟨symbols, s1, s2, s3, -⟩ := Cost.sortedSymbols_spec order hord key hk [⟨H, c, none⟩]
  have s3' : ∀ s, s ∈ symbols ↔ s ∈ c.freeSymbols := fun s => by rw [s3 s]; simp
  have hprep : ∀ st : St W, Cost.prepare order key H c [] st () = (.ok ([⟨H, c, none⟩], symbols), st) := fun st => by
    show ((Cost.sortedSymbols order key [⟨H, c, none⟩]).map fun symbols => (([⟨H, c, none⟩] : List Est.Task), symbols), st) = _
    rw [s1]
    rfl
  refine ⟨symbols, s2, s3', hprep, fun st ps hl => ?_⟩
  obtain ⟨symbols', c1, -, -, c4⟩ := exactCost_spec sim ρ hsim order hord key hk h c hb hbind st
  rw [hprep st] at c1
  obtain rfl : symbols = symbols' := by injection c1 with c1; injection c1 with c1; injection c1
  refine groundState_created sim ρ false _ fx noise st ps (c4 _ _ ?_ (assigns s2 _ ρ) (hu _ fun s hs => ?_))
  · rw [symbols_length s2 s3', full_length, hl, hn]
  · rw [assign, if_pos ((s3' s).2 hs), Complex.ofReal_im]

/-- **Optimization with exact estimation**: for every operator on the qubits of the circuit, every circuit that is unitary for real parameters, fixed parameters, noise and
every optimizer that asks about vectors of the right length and ends with the answer to one of its questions, the step succeeds; the saved value is the energy of the state made
by the circuit at the saved parameters (with the fixed ones before and the noise added), and so are all the values of the history; recorded gradients are central differences of
the energy, with the default gradient. -/
theorem circuit_step_exact (sim : Simulator W) (ρ : String → ℂ) (hsim : Correct sim ρ) {order : List String → List String} (hord : Cost.IsSetOrder order)
    {key : List Char → List Sorting.Item} (hk : ∀ x, Sorting.Alternating (key x)) {operator : Operand} {fs : FS} {H : Terms Letter} (ho : theQubit fs operator = .ok H)
    (h : CanonicalOp H) {c : Circuit} (hb : Below c.n H) (hbind : Ansatz.Bindable c) (hu : ∀ ρ' : String → ℂ, (∀ s ∈ c.freeSymbols, (ρ' s).im = 0) → Unitary ρ' c)
    {initial fixed : Option Params} {i fx : Option (List ℝ)} (hi : theParams fs initial = .ok i) (hf : theParams fs fixed = .ok fx) (noise : Option (ℕ → ℝ))
    {n : ℕ} (hn : (fx.getD []).length + n = c.freeSymbols.toFinset.card) {optimizer : OptProgram} (hT : AllTidy (optimizer i)) (hS : Sized n (optimizer i))
    (hH : Honest [] (optimizer i)) {gradientOf : Target (St W) Err (List ℝ) Cost.Estimate → Target (St W) Err (List ℝ) (List ℝ)} (hG : Tame n gradientOf)
    (keep : Option Bool) (st : St W) :
    ∃ fs' f a symbols, symbols.Nodup ∧ (∀ s, s ∈ symbols ↔ s ∈ c.freeSymbols) ∧
      Cost.prepare order key H c [] st () = (.ok ([⟨H, c, none⟩], symbols), st) ∧
      (optimizeCircuitStep noGradient optimizer order key (exactMethod sim ρ false) [] gradientOf noise keep operator c initial fixed fs st).1 = .ok fs' ∧
      Saved true f (historyOf (keep.getD true) true a) fs fs' ∧ f.optParams.length = n ∧
      number f.optValue = some (energy symbols c H ρ (Cost.fullParameters fx noise f.optParams)) ∧
      (∀ pv ∈ a.1, pv.1.length = n ∧ pv.2 = ⟨energy symbols c H ρ (Cost.fullParameters fx noise pv.1), none⟩) ∧
      (Minimal [] (optimizer i) → ∀ pv ∈ a.1, energy symbols c H ρ (Cost.fullParameters fx noise f.optParams) ≤ energy symbols c H ρ (Cost.fullParameters fx noise pv.1)) ∧
      ∀ step : ℝ, step ≠ 0 → gradientOf = finiteGradient step → ∀ pg ∈ a.2, pg.2 = (List.range n).map fun j =>
        (energy symbols c H ρ (Cost.fullParameters fx noise (pg.1.modify j (· + step))) - energy symbols c H ρ (Cost.fullParameters fx noise (pg.1.modify j (· - step)))) /
          (2 * step) := by
  obtain ⟨symbols, s1, s2, s3, s4⟩ := exact_values sim ρ hsim order hord key hk h c hb hbind hu fx noise hn
  obtain ⟨fs', f, a, r1, r2, r3, r4, -, r6, r7, r8⟩ := circuit_step_values (noGradient := noGradient) (keep := keep) ho hi hf (s3 st) hT hS hH hG
    (fun ps => energy symbols c H ρ (Cost.fullParameters fx noise ps)) (fun st ps hl => (s4 st ps hl).1)
  refine ⟨fs', f, a, symbols, s1, s2, s3 st, r1, r2, r3, r4, r6, r7, ?_⟩
  rintro step hs rfl pg hpg
  obtain ⟨l1, w, l2⟩ := r8 pg hpg
  rw [finite_values hs (fun st ps hl => (s4 st ps hl).1) w pg.1 l1] at l2
  exact (Except.ok.inj l2).symm

/-- **The variational workflow**: a file holds a Hermitian interaction operator that involves `m` modes; it is transformed, the ground state step writes the energies `e k` for `k`
particles, and the optimization step minimizes the energy of a circuit on `m` qubits with exact estimation.  The step succeeds, and neither the saved value nor any value of the
history is below all the `e k`, nor below `e k` if the circuit makes only states with `k` particles. -/
theorem vqe_workflow {types : Terms Letter → Term Letter → Bool} (hT : Fit types) (w : ℝ) {eigh eigsh : Mat ℂ → Eigen} (h1 : Solves eigh) (h2 : Solves eigsh)
    {fs : FS} {p : Str} {N : ℕ} (hN : 0 < N) {c : ℂ} {one two : Tensor}
    (h : Stores fs p N c one two) (hc : c.im = 0) (hH : Hermitian N one two) {δ : ℝ} (hδ : 1 / 10 ^ 8 ≤ δ) (hg : EntriesOn N (16 * δ) c one two)
    {m : ℕ} (hm : Involved (polyAction (interaction N c one two)) m)
    (sim : Simulator W) (ρ : String → ℂ) (hsim : Correct sim ρ) {order : List String → List String} (hord : Cost.IsSetOrder order)
    {key : List Char → List Sorting.Item} (hk : ∀ x, Sorting.Alternating (key x)) {circuit : Circuit} (hcn : circuit.n = m) (hbind : Ansatz.Bindable circuit)
    (hu : ∀ ρ' : String → ℂ, (∀ s ∈ circuit.freeSymbols, (ρ' s).im = 0) → Unitary ρ' circuit) (st : St W) :
    ∃ fs1, ∃ e : ℕ → ℝ, transformStep types w "Jordan-Wigner" (.file p) fs = .ok fs1 ∧
      (∀ k ≤ m, ∃ fs2, groundStep eigh eigsh k (.file "transformed-operator.json".toList) fs1 = .ok fs2 ∧
        loadValue fs2 (.str "value-estimate.json".toList) = .ok ⟨e k, none⟩) ∧
      ∀ (initial fixed : Option Params) (i fx : Option (List ℝ)), theParams fs1 initial = .ok i → theParams fs1 fixed = .ok fx →
      ∀ (noise : Option (ℕ → ℝ)) (n : ℕ), (fx.getD []).length + n = circuit.freeSymbols.toFinset.card →
      ∀ optimizer : OptProgram, AllTidy (optimizer i) → Sized n (optimizer i) → Honest [] (optimizer i) →
      ∀ gradientOf : Target (St W) Err (List ℝ) Cost.Estimate → Target (St W) Err (List ℝ) (List ℝ), Tame n gradientOf → ∀ keep : Option Bool,
        ∃ fs' f a v, (optimizeCircuitStep noGradient optimizer order key (exactMethod sim ρ false) [] gradientOf noise keep
            (.file "transformed-operator.json".toList) circuit initial fixed fs1 st).1 = .ok fs' ∧
          Saved true f (historyOf (keep.getD true) true a) fs1 fs' ∧ number f.optValue = some v ∧ (∃ k ≤ m, e k ≤ v) ∧ (∀ pv ∈ a.1, ∃ k ≤ m, e k ≤ pv.2.value) ∧
          ∀ k, (∀ ρ' : String → ℂ, (∀ s ∈ circuit.freeSymbols, (ρ' s).im = 0) → HasParticles k (outputState ρ' circuit)) → e k ≤ v ∧ ∀ pv ∈ a.1, e k ≤ pv.2.value := by
  obtain ⟨fs1, q, symbols0, e, t1, t2, t3, -, t5⟩ := vqe_bound hT w h1 h2 hN h hc hH hδ hg hm sim ρ hsim order hord key hk circuit hcn hbind st
  obtain ⟨fs1', q', u1, u2, -, -, u5, u6, u7⟩ := transform_jw hT w hN h hH hδ hg
  rw [t1] at u1
  obtain rfl := Except.ok.inj u1
  rw [t2] at u2
  obtain rfl := Except.ok.inj u2
  have hnz : ∀ kv ∈ q, kv.2 ≠ 0 := fun kv hkv e => by
    have := u6 kv hkv
    rw [e, norm_zero] at this
    norm_num at this
  have hcount : countQubit q = circuit.n := countQubit_involved u5 hnz (by rw [u7, hcn]; exact hm)
  have hbelow : Below circuit.n q := fun kv hkv f hf => hcount ▸ countQubit_bound u5 kv hkv f hf
  refine ⟨fs1, e, t1, t3, ?_⟩
  intro initial fixed i fx hi hf noise n hn optimizer hT' hS hHon gradientOf hG keep
  obtain ⟨fs', f, a, symbols, s1, s2, s3, s4, s5, s6, s7, s8, -⟩ := circuit_step_exact (noGradient := noGradient) sim ρ hsim hord hk
    (show theQubit fs1 (.file "transformed-operator.json".toList) = .ok q from t2) u5 hbelow hbind hu hi hf noise hn hT' hS hHon hG keep st
  have hbound : ∀ ps : List ℝ, ps.length = n → (∃ k ≤ m, e k ≤ energy symbols circuit q ρ (Cost.fullParameters fx noise ps)) ∧
      ∀ k, (∀ ρ' : String → ℂ, (∀ s ∈ circuit.freeSymbols, (ρ' s).im = 0) → HasParticles k (outputState ρ' circuit)) →
        e k ≤ energy symbols circuit q ρ (Cost.fullParameters fx noise ps) := by
    intro ps hl
    obtain ⟨fs1', q', symbols', e', v1, v2, v3, v4, v5⟩ := vqe_bound hT w h1 h2 hN h hc hH hδ hg hm sim ρ hsim order hord key hk circuit hcn hbind st
    rw [t1] at v1
    obtain rfl := Except.ok.inj v1
    rw [t2] at v2
    obtain rfl := Except.ok.inj v2
    rw [s3] at v4
    obtain rfl : symbols = symbols' := by injection v4 with v4; injection v4 with v4; injection v4
    have hreal : ∀ s ∈ circuit.freeSymbols, (assign symbols (Cost.fullParameters fx noise ps) ρ s).im = 0 := fun s hs => by
      rw [assign, if_pos ((s2 s).2 hs), Complex.ofReal_im]
    have hee : ∀ k ≤ m, e' k = e k := fun k hk => by
      obtain ⟨a1, b1, b2⟩ := t3 k hk
      obtain ⟨a2, c1, c2⟩ := v3 k hk
      rw [b1] at c1
      obtain rfl := Except.ok.inj c1
      rw [b2] at c2
      injection c2 with c2
      injection c2 with c2
      exact c2.symm
    have hlen : symbols.length = (Cost.fullParameters fx noise ps).length := by rw [symbols_length s1 s2, full_length, hl, hn]
    obtain ⟨v, x1, ⟨k, x2, x3⟩, x4⟩ := v5 (Cost.fullParameters fx noise ps) _ hlen (assigns s1 _ ρ) (hu _ hreal)
    have hv : v = energy symbols circuit q ρ (Cost.fullParameters fx noise ps) := by
      obtain ⟨symbols', c1, -, -, c4⟩ := exactCost_spec sim ρ hsim order hord key hk u5 circuit hbelow hbind st
      rw [s3] at c1
      obtain rfl : symbols = symbols' := by injection c1 with c1; injection c1 with c1; injection c1
      rw [c4 _ _ hlen (assigns s1 _ ρ) (hu _ hreal)] at x1
      injection x1 with x1
      injection x1 with x1
      exact x1.symm
    rw [← hv]
    refine ⟨⟨k, x2, (hee k x2) ▸ x3⟩, fun k hk => ?_⟩
    obtain ⟨y1, y2⟩ := x4 k (hk _ hreal)
    exact (hee k y1) ▸ y2
  refine ⟨fs', f, a, _, s4, s5, s7, (hbound _ s6).1, fun pv hpv => ?_, fun k hk => ⟨(hbound _ s6).2 k hk, fun pv hpv => ?_⟩⟩
  · obtain ⟨l1, l2⟩ := s8 pv hpv
    rw [l2]
    exact (hbound _ l1).1
  · obtain ⟨l1, l2⟩ := s8 pv hpv
    rw [l2]
    exact (hbound _ l1).2 k hk

/-- `combine_ansatz_params` writes the parameters of the two files one after the other. -/
theorem combine_step {fs : FS} {p1 p2 : Str} {a b : List ℝ} (h1 : loadArray fs (.str p1) = .ok (realArray a)) (h2 : loadArray fs (.str p2) = .ok (realArray b)) :
    ∃ fs', combineStep p1 p2 fs = .ok fs' ∧ loadArray fs' (.str "combined-params.json".toList) = .ok (realArray (a ++ b)) ∧
      ∀ p, p ≠ "combined-params.json".toList → fs' p = fs p := by
  obtain ⟨fs', s1, s2, s3⟩ := save_spec fs "combined-params.json" (.array (realArray (a ++ b))) (plain_dict (by
      simp only [List.mem_cons, List.not_mem_nil, or_false, forall_eq_or_imp, forall_eq]
      exact ⟨plain_txt _, plain_array _⟩))
  refine ⟨fs', ?_, ?_, s3⟩
  · show (loadArray fs (.str p1) >>= fun a => loadArray fs (.str p2) >>= fun b =>
      save fs "combined-params.json" (.array (realArray (Ansatz.combineParams (vector a) (vector b))))) = _
    rw [h1]
    show (loadArray fs (.str p2) >>= fun b => save fs "combined-params.json" (.array (realArray (Ansatz.combineParams (vector (realArray a)) (vector b))))) = _
    rw [h2]
    show save fs "combined-params.json" (.array (realArray (Ansatz.combineParams (vector (realArray a)) (vector (realArray b))))) = _
    rw [vector_realArray, vector_realArray]
    exact s1
  · rw [load_array (fine_realArray _) s2 (t := .str _) rfl]
    rfl

/-! ## Non-vacuity -/

/-- The circuits of the mock ansatz are unitary for real parameters. -/
theorem mock_symbols (L n : ℕ) (hn : 0 < n) (ρ' : String → ℂ)
    (h : ∀ s ∈ Circuit.freeSymbols ⟨Ansatz.layersOf n ((List.range L).map fun i => .sym (Ansatz.theta i)), n⟩, (ρ' s).im = 0) :
    Unitary ρ' ⟨Ansatz.layersOf n ((List.range L).map fun i => .sym (Ansatz.theta i)), n⟩ := by
  refine ⟨(Ansatz.mock_bindable L n hn).1, fun op hop => ?_, fun op hop => ?_⟩
  · obtain ⟨a, ha, h⟩ := List.mem_flatMap.1 hop
    obtain ⟨i, -, rfl⟩ := List.mem_map.1 ha
    obtain ⟨q, hq, rfl⟩ := List.mem_map.1 h
    exact ⟨by simp, by simp, by simpa using hq, rfl, Gates.builtin_wf _ (by simp [Gates.builtinGates, Gates.parametricGates]) _⟩
  · rw [Ansatz.mock_freeSymbols L n n hn] at h
    obtain ⟨a, ha, h'⟩ := List.mem_flatMap.1 hop
    obtain ⟨i, hi, rfl⟩ := List.mem_map.1 ha
    obtain ⟨q, hq, rfl⟩ := List.mem_map.1 h'
    exact Gates.builtin_unitary _ (by simp [Gates.builtinGates, Gates.parametricGates]) [.sym (Ansatz.theta i)] ρ' (by
        intro p hp
        rw [List.mem_singleton.1 hp]
        exact h _ (List.mem_map_of_mem hi))

open Classical in
/-- An optimizer for examples: one step against the gradient; the better of the two points, with the number of evaluations. -/
noncomputable def descent (n : ℕ) : OptProgram := fun i =>
  let p := (List.range n).map fun j => (i.getD []).getD j 0
  .value p fun v => .gradient p fun g =>
    let q := (List.range n).map fun j => p.getD j 0 - g.getD j 0
    .value q fun u => .done (if u.value ≤ v.value then ⟨.estimate (estimateOf u), q, [("nfev".toList, .num 2)]⟩ else ⟨.num v.value, p, [("nfev".toList, .num 2)]⟩)

/-- Every hypothesis about optimizers is met, for any initial parameters. -/
example (n : ℕ) (i : Option (List ℝ)) : AllTidy (descent n i) ∧ Sized n (descent n i) ∧ Honest [] (descent n i) ∧ Minimal [] (descent n i) := by
  refine ⟨fun v g u => ?_, ⟨by simp, fun v => ⟨by simp, fun g => ⟨by simp, fun u => trivial⟩⟩⟩, fun v g u => ?_, fun v g u => ?_⟩
  · have ho : ∀ k ∈ [("nfev".toList, Data.num 2)].map Prod.fst, k ∉ reserved := by decide
    rw [AllTidy]
    split
    · exact ⟨⟨_, Or.inr ⟨_, rfl⟩⟩, by simp [SafeItems, Safe], by simp, ho⟩
    · exact ⟨⟨_, Or.inl rfl⟩, by simp [SafeItems, Safe], by simp, ho⟩
  · rw [Honest]
    split
    · exact ⟨u, by simp, rfl⟩
    · exact ⟨v, by simp, rfl⟩
  · rw [Minimal]
    split
    · rename_i h
      exact ⟨u.value, rfl, by simpa using h⟩
    · rename_i h
      exact ⟨v.value, rfl, by simpa using le_of_not_ge h⟩

/-- A stored operator, routines, a simulator and a circuit with three parameters, one of them fixed by a file, that meet the hypotheses of `vqe_workflow`. -/
example : ∃ (types : Terms Letter → Term Letter → Bool) (eigh : Mat ℂ → Eigen) (fs : FS) (sim : Simulator Unit) (circuit : Circuit), Fit types ∧ Solves eigh ∧
    Stores fs "h.json".toList 2 0 firstOne (fun _ => 0) ∧ Hermitian 2 firstOne (fun _ => 0) ∧
    EntriesOn 2 (16 * (1 / 16)) 0 firstOne (fun _ => 0) ∧ Involved (polyAction (interaction 2 0 firstOne fun _ => 0)) 1 ∧
    Correct sim (fun _ => 0) ∧ Cost.IsSetOrder id ∧ (∀ x, Sorting.Alternating (Sorting.naturalKey x)) ∧ circuit.n = 1 ∧ Ansatz.Bindable circuit ∧
    (∀ ρ' : String → ℂ, (∀ s ∈ circuit.freeSymbols, (ρ' s).im = 0) → Unitary ρ' circuit) ∧
    theParams fs (some (.array (realArray [1]))) = .ok (some [1]) ∧ ((some [1] : Option (List ℝ)).getD []).length + 2 = circuit.freeSymbols.toFinset.card ∧
    Tame 2 (finiteGradient (W := St Unit) (1 / 10 ^ 5)) := by
  obtain ⟨S, s1, s2⟩ := exists_solver
  obtain ⟨fs, hfs⟩ := stores_exists (fun _ => none) "h.json" 2 (by norm_num) 0 firstOne fun _ => 0
  refine ⟨fun _ _ => true, S, fs, ⟨fun _ => true, fun w sub v => (applyAll (fun _ => 0) sub.ops v, w)⟩, _, fun _ _ _ h => (nomatch h), s1, hfs, firstOne_hermitian, firstOne_entries,
    firstOne_involved, fun _ _ _ => rfl, fun _ => .refl _, Sorting.naturalKey_alternating, rfl, Ansatz.mock_bindable 3 1 one_pos, mock_symbols 3 1 one_pos, ?_, ?_,
    finite_tame 2 (by norm_num)⟩
  · rw [theParams, vector_realArray]
  · rw [Ansatz.mock_freeSymbols 3 1 1 one_pos]
    decide

end ZQ.OptStep
