import Verif.Spec.CreateObject
import Verif.Lemmas.PyDict
import Verif.Lemmas.SymOp

/-!
# Lemmas on specifications and argument binding
-/

namespace ZQ.CreateObject

open Spec

variable {V : Type}

theorem get?_merge (a b : PyDict String V) (hb : (PyDict.keys b).Nodup) (k : String) :
    PyDict.get? (merge a b) k = (PyDict.get? b k).or (PyDict.get? a k) := by
  unfold merge
  induction b generalizing a with
  | nil => simp [PyDict.get?]
  | cons kv b ih =>
    obtain ⟨k', v⟩ := kv
    have hb' : k' ∉ PyDict.keys b ∧ (PyDict.keys b).Nodup := by simpa [PyDict.keys] using hb
    rw [List.foldl_cons, ih _ hb'.2, PyDict.get?_set]
    simp only [PyDict.get?]
    by_cases h : k' = k
    · subst h
      simp [(PyDict.get?_eq_none_iff b k').2 hb'.1]
    · simp [h]

theorem nodup_merge (a b : PyDict String V) (ha : (PyDict.keys a).Nodup) : (PyDict.keys (merge a b)).Nodup := by
  unfold merge
  induction b generalizing a with
  | nil => exact ha
  | cons kv b ih => exact ih _ (PyDict.nodup_set ha _ _)

theorem get?_filter (d : PyDict String V) (P : String → Bool) (k : String) :
    PyDict.get? (d.filter fun kv => P kv.1) k = if P k then PyDict.get? d k else none := by
  induction d with
  | nil => simp [PyDict.get?]
  | cons kv d ih =>
    obtain ⟨k', v⟩ := kv
    by_cases h : P k'
    · rw [List.filter_cons_of_pos (by simpa using h)]
      simp only [PyDict.get?]
      by_cases h2 : k' = k
      · subst h2; simp [h]
      · simp [h2, ih]
    · rw [List.filter_cons_of_neg (by simpa using h)]
      simp only [PyDict.get?]
      by_cases h2 : k' = k
      · subst h2; simp [h, ih]
      · simp [h2, ih]

theorem mem_keys_merge (a b : PyDict String V) (k : String) :
    k ∈ PyDict.keys (merge a b) ↔ k ∈ PyDict.keys a ∨ k ∈ PyDict.keys b := by
  unfold merge
  induction b generalizing a with
  | nil => simp [PyDict.keys]
  | cons kv b ih =>
    rw [List.foldl_cons, ih, PyDict.keys_set]
    by_cases h : kv.1 ∈ PyDict.keys a
    · rw [if_pos h]
      simp only [PyDict.keys, List.map_cons, List.mem_cons] at h ⊢
      grind
    · rw [if_neg h]
      simp only [PyDict.keys, List.map_cons, List.mem_cons, List.mem_append] at h ⊢
      grind

theorem filter_set_of_not (d : PyDict String V) (P : String → Bool) (k : String) (v : V) (h : P k = false) :
    (PyDict.set d k v).filter (fun kv => P kv.1) = d.filter fun kv => P kv.1 := by
  induction d with
  | nil => simp [PyDict.set, h]
  | cons kv d ih =>
    obtain ⟨k', v'⟩ := kv
    simp only [PyDict.set]
    by_cases h2 : k' = k
    · subst h2; simp [h]
    · simp only [h2, if_false, List.filter_cons, ih]

theorem set_comm_filter (a : PyDict String V) (P : String → Bool) (k : String) (v : V) :
    (PyDict.set a k v).filter (fun kv => P kv.1) =
      if P k then PyDict.set (a.filter fun kv => P kv.1) k v else a.filter fun kv => P kv.1 := by
  by_cases h : P k
  · rw [if_pos h]
    induction a with
    | nil => simp [PyDict.set, h]
    | cons kv d ih =>
      obtain ⟨k', v'⟩ := kv
      simp only [PyDict.set]
      by_cases h2 : k' = k
      · subst h2; simp [h, PyDict.set]
      · by_cases h3 : P k' <;> simp [h2, h3, PyDict.set, ih]
  · rw [if_neg h]; exact filter_set_of_not a P k v (by simpa using h)

theorem filter_merge (a b : PyDict String V) (P : String → Bool) :
    (merge a b).filter (fun kv => P kv.1) = merge (a.filter fun kv => P kv.1) (b.filter fun kv => P kv.1) := by
  unfold merge
  induction b generalizing a with
  | nil => rfl
  | cons kv b ih =>
    rw [List.foldl_cons, ih, set_comm_filter]
    by_cases h : P kv.1
    · rw [if_pos h, List.filter_cons_of_pos (by simpa using h), List.foldl_cons]
    · rw [if_neg h, List.filter_cons_of_neg (by simpa using h)]

theorem merge_nil_left (b : PyDict String V) (hb : (PyDict.keys b).Nodup) : merge [] b = b :=
  PyDict.ofItems_eq_self hb

section ordinary

variable {ps : List (Param V)} (h : Ordinary ps)
include h

theorem positional_ordinary : positional ps = ps := by
  unfold positional; rw [List.filter_eq_self]; intro p hp; simp [h.1 p hp]

theorem single_ordinary : single ps = ps := by
  unfold single; rw [List.filter_eq_self]; intro p hp; simp [h.1 p hp]

theorem keywords_ordinary : keywords ps = ps.map Param.name := by
  unfold keywords; rw [List.filter_eq_self.2]; intro p hp; simp [h.1 p hp]

end ordinary

theorem lookup_zip {names : List String} (hn : names.Nodup) (args : List V) (i : ℕ) (s : String) (hs : names[i]? = some s) :
    (names.zip args).lookup s = args[i]? := by
  induction names generalizing args i with
  | nil => simp at hs
  | cons n names ih =>
    have hn' := List.nodup_cons.1 hn
    cases args with
    | nil => simp
    | cons a args =>
      cases i with
      | zero => simp at hs; subst hs; simp
      | succ i =>
        simp only [List.getElem?_cons_succ] at hs ⊢
        have : s ≠ n := by
          rintro rfl
          exact hn'.1 (List.mem_of_getElem? hs)
        rw [List.zip_cons_cons, List.lookup_cons]
        simp only [beq_eq_false_iff_ne.2 this]
        exact ih hn'.2 args i hs

theorem mapM_ok {α β : Type} {f : α → Except Err β} {l : List α} {g : α → β} (h : ∀ a ∈ l, f a = .ok (g a)) :
    l.mapM f = .ok (l.map g) := by
  induction l with
  | nil => rfl
  | cons a l ih =>
    rw [List.mapM_cons, h a (by simp), ih fun b hb => h b (by simp [hb])]
    rfl

theorem mapM_error {α β : Type} {f : α → Except Err β} {l : List α} (hf : ∀ a ∈ l, f a = .error .typeError ∨ ∃ b, f a = .ok b)
    {a : α} (ha : a ∈ l) (h : f a = .error .typeError) : l.mapM f = .error .typeError := by
  induction l with
  | nil => simp at ha
  | cons c l ih =>
    rw [List.mapM_cons]
    rcases hf c (by simp) with hc | ⟨b, hc⟩
    · rw [hc]; rfl
    · rw [hc]
      rcases List.mem_cons.1 ha with rfl | ha'
      · rw [h] at hc; cases hc
      · rw [ih (fun x hx => hf x (by simp [hx])) ha']; rfl

/-- What `bind` does for an ordinary signature, in terms of the i-th parameter. -/
theorem valueOf_ordinary {ps : List (Param V)} (h : Ordinary ps) (args : List V) (kw : PyDict String V) (i : ℕ) (p : Param V)
    (hp : ps[i]? = some p) :
    valueOf ps args kw p =
      match value (fun _ => none) args kw i p with
      | some v => .ok (p.name, v)
      | none => .error .typeError := by
  unfold valueOf Spec.value
  rw [positional_ordinary h, keywords_ordinary h,
    lookup_zip h.2 args i p.name (by rw [List.getElem?_map, hp]; rfl),
    if_pos (List.mem_map_of_mem (List.mem_of_getElem? hp))]
  cases args[i]? <;> cases PyDict.get? kw p.name <;> cases p.default <;> simp

theorem value_pre (pre : String → Option V) (args : List V) (kw kw' : PyDict String V) (i : ℕ) (p : Param V)
    (h : PyDict.get? kw' p.name = (PyDict.get? kw p.name).or (pre p.name)) :
    value (fun _ => none) args kw' i p = value pre args kw i p := by
  unfold Spec.value
  rw [h]
  cases args[i]? <;> cases PyDict.get? kw p.name <;> cases pre p.name <;> simp

theorem get?_map_names {ps : List (Param V)} (hn : (ps.map Param.name).Nodup) (f : Param V → V) (p : Param V) (hp : p ∈ ps) :
    PyDict.get? (ps.map fun q => (q.name, f q)) p.name = some (f p) := by
  apply PyDict.get?_of_mem
  · simpa [PyDict.keys, Function.comp_def] using hn
  · exact List.mem_map.2 ⟨p, hp, rfl⟩

/-- The call is bound iff it is allowed, and then every parameter has the value described. -/
theorem bind_ordinary {ps : List (Param V)} (h : Ordinary ps) (pre : String → Option V) (args : List V) (kw kw' : PyDict String V)
    (hkw : ∀ k ∈ ps.map Param.name, PyDict.get? kw' k = (PyDict.get? kw k).or (pre k))
    (hkeys : ∀ k, k ∉ ps.map Param.name → (k ∈ PyDict.keys kw' ↔ k ∈ PyDict.keys kw)) :
    (Accepts ps pre args kw → ∃ b, bind ps args kw' = .ok b ∧ b.rest = [] ∧ b.extra = [] ∧
      PyDict.keys b.named = ps.map Param.name ∧
      ∀ i p, ps[i]? = some p → PyDict.get? b.named p.name = value pre args kw i p) ∧
    (¬ Accepts ps pre args kw → bind ps args kw' = .error .typeError) := by
  have hval : ∀ i p, ps[i]? = some p → valueOf ps args kw' p =
      match value pre args kw i p with
      | some v => .ok (p.name, v)
      | none => .error .typeError := by
    intro i p hp
    rw [valueOf_ordinary h args kw' i p hp, value_pre pre args kw kw' i p
      (hkw _ (List.mem_map_of_mem (List.mem_of_getElem? hp)))]
  have hvp : ¬ ∃ p ∈ ps, p.kind = Kind.varPos := by rintro ⟨p, hp, e⟩; rw [h.1 p hp] at e; cases e
  have hvk : ¬ ∃ p ∈ ps, p.kind = Kind.varKw := by rintro ⟨p, hp, e⟩; rw [h.1 p hp] at e; cases e
  have hpos := positional_ordinary h
  have hsin := single_ordinary h
  have hkey := keywords_ordinary h
  constructor
  · intro ha
    have hc : ¬ ((positional ps).length < args.length ∧ ¬ ∃ p ∈ ps, p.kind = Kind.varPos) := by
      rw [hpos]; have := ha.count; omega
    have ht : ¬ ∃ k ∈ PyDict.keys kw', k ∈ keywords ps ∧ k ∈ ((positional ps).take args.length).map Param.name := by
      rw [hpos]
      rintro ⟨k, hk, hk1, hk2⟩
      rw [List.mem_map] at hk2
      obtain ⟨p, hp, rfl⟩ := hk2
      rw [List.mem_iff_getElem?] at hp
      obtain ⟨i, hi⟩ := hp
      rw [List.getElem?_take] at hi
      split at hi
      · rename_i hlt
        have := ha.once i p hi hlt
        have h2 := hkw p.name (List.mem_map_of_mem (List.mem_of_getElem? hi))
        rw [this.1, this.2] at h2
        exact (PyDict.get?_eq_none_iff _ _).1 (by simpa using h2) hk
      · cases hi
    have hu : ¬ ∃ k ∈ PyDict.keys kw', k ∉ keywords ps := by
      rw [hkey]
      rintro ⟨k, hk, hk1⟩
      exact hk1 (ha.known k ((hkeys k hk1).1 hk))
    have hget : ∀ p ∈ ps, ∃ v, valueOf ps args kw' p = .ok (p.name, v) ∧
        ∀ i, ps[i]? = some p → value pre args kw i p = some v := by
      intro p hp
      obtain ⟨i, hi⟩ := List.mem_iff_getElem?.1 hp
      obtain ⟨v, hv⟩ := Option.isSome_iff_exists.1 (ha.complete i p hi)
      refine ⟨v, by rw [hval i p hi, hv], ?_⟩
      intro j hj
      obtain ⟨w, hw⟩ := Option.isSome_iff_exists.1 (ha.complete j p hj)
      have e1 := hval i p hi
      have e2 := hval j p hj
      rw [e1, hv, hw] at e2
      simp at e2
      rw [hw, e2]
    have e2 : (kw'.filter fun kv => decide (kv.1 ∉ keywords ps)) = [] := by
      rw [List.filter_eq_nil_iff]
      intro kv hkv
      by_contra hcon
      exact hu ⟨kv.1, List.mem_map_of_mem hkv, by simpa using hcon⟩
    have e1 : List.drop ps.length args = [] := List.drop_eq_nil_of_le ha.count
    rcases ps.eq_nil_or_concat with hnil | ⟨_, p₀, hp₀⟩
    · refine ⟨⟨[], [], []⟩, ?_, rfl, rfl, by rw [hnil]; rfl, ?_⟩
      · unfold bind
        rw [if_neg hc, if_neg ht, if_neg (fun e => hu e.1), hsin, hpos]
        simp only [e2, e1]
        rw [hnil]; rfl
      · intro i p hp; rw [hnil] at hp; simp at hp
    obtain ⟨v₀, -, -⟩ := hget p₀ (by rw [hp₀]; simp)
    haveI : Nonempty V := ⟨v₀⟩
    classical
    choose! f hf hfi using hget
    refine ⟨⟨ps.map fun p => (p.name, f p), [], []⟩, ?_, rfl, rfl, by simp [PyDict.keys, Function.comp_def], ?_⟩
    · unfold bind
      rw [if_neg hc, if_neg ht, if_neg (fun e => hu e.1), hsin, mapM_ok hf, hpos]
      rw [e1]
      simp only [e2]
      rfl
    · intro i p hp
      rw [get?_map_names h.2 f p (List.mem_of_getElem? hp), hfi p (List.mem_of_getElem? hp) i hp]
  · intro hna
    unfold bind
    by_cases hc : (positional ps).length < args.length ∧ ¬ ∃ p ∈ ps, p.kind = Kind.varPos
    · rw [if_pos hc]
    by_cases ht : ∃ k ∈ PyDict.keys kw', k ∈ keywords ps ∧ k ∈ ((positional ps).take args.length).map Param.name
    · rw [if_neg hc, if_pos ht]
    by_cases hu : ∃ k ∈ PyDict.keys kw', k ∉ keywords ps
    · rw [if_neg hc, if_neg ht, if_pos ⟨hu, hvk⟩]
    rw [if_neg hc, if_neg ht, if_neg (fun e => hu e.1), hsin]
    have : ∃ i p, ps[i]? = some p ∧ value pre args kw i p = none := by
      by_contra hcon
      push Not at hcon
      apply hna
      refine ⟨?_, ?_, ?_, ?_⟩
      · rw [hpos] at hc; by_contra hlt; exact hc ⟨by omega, hvp⟩
      · intro k hk
        by_contra hk1
        exact hu ⟨k, (hkeys k hk1).2 hk, by rw [hkey]; exact hk1⟩
      · intro i p hp hi
        have hm : p.name ∈ ps.map Param.name := List.mem_map_of_mem (List.mem_of_getElem? hp)
        have hnk : p.name ∉ PyDict.keys kw' := by
          intro hk
          refine ht ⟨p.name, hk, by rw [hkey]; exact hm, ?_⟩
          rw [hpos]
          refine List.mem_map_of_mem (List.mem_iff_getElem?.2 ⟨i, ?_⟩)
          rw [List.getElem?_take, if_pos hi, hp]
        have h2 := hkw p.name hm
        rw [(PyDict.get?_eq_none_iff _ _).2 hnk] at h2
        have h3 := h2.symm
        simpa [Option.or_eq_none_iff] using h3
      · intro i p hp
        exact Option.isSome_iff_ne_none.2 (hcon i p hp)
    obtain ⟨i, p, hp, hv⟩ := this
    have e : ps.mapM (valueOf ps args kw') = .error .typeError := by
      refine mapM_error ?_ (List.mem_of_getElem? hp) (by rw [hval i p hp, hv])
      intro q hq
      obtain ⟨j, hj⟩ := List.mem_iff_getElem?.1 hq
      rw [hval j q hj]
      cases value pre args kw j q
      · left; rfl
      · right; exact ⟨_, rfl⟩
    rw [e]; rfl

/-- `create_object` once the creator is found. -/
theorem createObject_found {W : World V} {specs kwargs : PyDict String V} {c : V} (hs : (PyDict.keys specs).Nodup)
    (hf : Found W specs c) :
    createObject W specs kwargs =
      if ∃ k ∈ PyDict.keys (PyDict.del (PyDict.del specs "module_name") "function_name"), k ∈ PyDict.keys kwargs then .error .valueError
      else build W c (PyDict.del (PyDict.del specs "module_name") "function_name") kwargs := by
  obtain ⟨m, n, module, hm, hi, hn, hg⟩ := hf
  have hn' : PyDict.get? (PyDict.del specs "module_name") "function_name" = some n := by
    rw [PyDict.get?_del hs]; simpa using hn
  unfold createObject pop
  rw [hm]
  simp only [Bind.bind, Except.bind, hi, hn', hg]

theorem nodup_rest {specs : PyDict String V} (hs : (PyDict.keys specs).Nodup) :
    (PyDict.keys (PyDict.del (PyDict.del specs "module_name") "function_name")).Nodup := by
  rw [PyDict.keys_del, PyDict.keys_del]; exact (hs.erase _).erase _

theorem mem_rest {specs : PyDict String V} (hs : (PyDict.keys specs).Nodup) (k : String) :
    k ∈ PyDict.keys (PyDict.del (PyDict.del specs "module_name") "function_name") ↔
      k ≠ "module_name" ∧ k ≠ "function_name" ∧ k ∈ PyDict.keys specs := by
  have h1 : (PyDict.keys (PyDict.del specs "module_name")).Nodup := by rw [PyDict.keys_del]; exact hs.erase _
  rw [PyDict.mem_keys_del' h1, PyDict.mem_keys_del' hs]
  tauto

theorem get?_rest {specs : PyDict String V} (hs : (PyDict.keys specs).Nodup) (k : String) :
    PyDict.get? (PyDict.del (PyDict.del specs "module_name") "function_name") k =
      if k = "module_name" ∨ k = "function_name" then none else PyDict.get? specs k := by
  have h1 : (PyDict.keys (PyDict.del specs "module_name")).Nodup := by rw [PyDict.keys_del]; exact hs.erase _
  rw [PyDict.get?_del h1, PyDict.get?_del hs]
  by_cases h2 : k = "function_name" <;> by_cases h3 : k = "module_name" <;> simp [h2, h3, eq_comm]

theorem twice_iff {specs kwargs : PyDict String V} (hs : (PyDict.keys specs).Nodup) :
    (∃ k ∈ PyDict.keys (PyDict.del (PyDict.del specs "module_name") "function_name"), k ∈ PyDict.keys kwargs) ↔ Twice specs kwargs := by
  unfold Twice
  constructor
  · rintro ⟨k, h1, h2⟩
    obtain ⟨a, b, c⟩ := (mem_rest hs k).1 h1
    exact ⟨k, a, b, c, h2⟩
  · rintro ⟨k, a, b, c, h2⟩
    exact ⟨k, (mem_rest hs k).2 ⟨a, b, c⟩, h2⟩

theorem get?_all {specs kwargs : PyDict String V} (hs : (PyDict.keys specs).Nodup) (hk : (PyDict.keys kwargs).Nodup)
    (ht : ¬ Twice specs kwargs) (k : String) :
    PyDict.get? (merge (PyDict.del (PyDict.del specs "module_name") "function_name") kwargs) k = given specs kwargs k := by
  rw [get?_merge _ _ hk, get?_rest hs]
  unfold given
  by_cases h : k = "module_name" ∨ k = "function_name"
  · rw [if_pos h, if_pos h]; simp
  · rw [if_neg h, if_neg h]
    cases h1 : PyDict.get? kwargs k with
    | none => simp
    | some v =>
      cases h2 : PyDict.get? specs k with
      | none => simp
      | some w =>
        push Not at h
        exact absurd ⟨k, h.1, h.2, (PyDict.mem_keys_iff _ _).2 ⟨w, h2⟩, (PyDict.mem_keys_iff _ _).2 ⟨v, h1⟩⟩ ht

end ZQ.CreateObject
