import Verif.Model.Sorting
import Mathlib.Data.List.Lex
import Mathlib.Data.List.TakeWhile
import Mathlib.Data.Prod.Lex
import Mathlib.Data.List.Sort
import Mathlib.Data.Nat.Digits.Defs
import Mathlib.Tactic.Linarith

/-!
# C69: natural ordering of symbols
-/

namespace ZQ.Sorting

open ZQ

/-- Keys whose elements alternate between text and number, beginning and ending with text. -/
inductive Alternating : List Item → Prop
  | one (t : List Char) : Alternating [.text t]
  | cons (t : List Char) (n : ℕ) {k : List Item} (h : Alternating k) : Alternating (.text t :: .num n :: k)

theorem Alternating.snoc {k : List Item} (h : Alternating k) (n : ℕ) (t : List Char) : Alternating (k ++ [.num n, .text t]) := by
  induction h with
  | one s => exact .cons s n (.one t)
  | cons s m _ ih => exact .cons s m ih

theorem Alternating.reverse {k : List Item} (h : Alternating k) : Alternating k.reverse := by
  induction h with
  | one s => exact .one s
  | cons s m _ ih =>
    rw [List.reverse_cons, List.reverse_cons, List.append_assoc]
    exact ih.snoc m s

theorem splitDigits_nodigit (p : List Char) (hp : p.all fun c => !isDigit c) : splitDigits p = [p] := by
  have h1 : p.dropWhile (fun c => !isDigit c) = [] := by
    rw [List.dropWhile_eq_nil_iff]
    intro c hc
    exact List.all_eq_true.1 hp c hc
  have h2 : p.takeWhile (fun c => !isDigit c) = p := by
    rw [List.takeWhile_eq_self_iff]
    intro c hc
    exact List.all_eq_true.1 hp c hc
  rw [splitDigits]
  split
  · rw [h2]
  · rename_i h; rw [h1] at h; cases h

theorem splitDigits_indexed (p ds : List Char) (hp : p.all fun c => !isDigit c) (hd : ds.all isDigit) (hne : ds ≠ []) : splitDigits (p ++ ds) = [p, ds, []] := by
  have hp' : ∀ c ∈ p, (!isDigit c) = true := fun c hc => List.all_eq_true.1 hp c hc
  cases ds with
  | nil => exact absurd rfl hne
  | cons d ds =>
    rw [List.all_cons, Bool.and_eq_true] at hd
    have h1 : (p ++ d :: ds).dropWhile (fun c => !isDigit c) = d :: ds := by
      rw [List.dropWhile_append_of_pos hp', List.dropWhile_cons, if_neg (by simp [hd.1])]
    have h2 : (p ++ d :: ds).takeWhile (fun c => !isDigit c) = p := by
      rw [List.takeWhile_append_of_pos hp', List.takeWhile_cons, if_neg (by simp [hd.1]), List.append_nil]
    have h3 : ds.dropWhile isDigit = [] := by
      rw [List.dropWhile_eq_nil_iff]; intro c hc; exact List.all_eq_true.1 hd.2 c hc
    have h4 : ds.takeWhile isDigit = ds := by
      rw [List.takeWhile_eq_self_iff]; intro c hc; exact List.all_eq_true.1 hd.2 c hc
    rw [splitDigits]
    split
    · rename_i h; rw [h1] at h; cases h
    · rename_i c r h
      rw [h1] at h
      cases h
      rw [h2, h3, h4, splitDigits_nodigit [] rfl]

theorem naturalKey_alternating (name : List Char) : Alternating (naturalKey name) := by
  induction hn : name.length using Nat.strong_induction_on generalizing name with
  | _ n ih =>
    have ht : convert (name.takeWhile fun c => !isDigit c) = .text (name.takeWhile fun c => !isDigit c) := by
      rw [convert, if_neg]
      rintro ⟨h1, h2⟩
      cases hl : name.takeWhile (fun c => !isDigit c) with
      | nil => exact h1 hl
      | cons c r =>
        have : c ∈ name.takeWhile (fun c => !isDigit c) := by rw [hl]; simp
        have h3 := List.mem_takeWhile_imp this
        have h4 := List.all_eq_true.1 h2 c this
        rw [h4] at h3
        cases h3
    rw [naturalKey, splitDigits]
    split
    · rw [List.map_cons, List.map_nil, ht]
      exact .one _
    · rename_i c r h
      rw [List.map_cons, List.map_cons, ht]
      have hc : isDigit c = true := by
        have := List.head?_dropWhile_not (p := fun c => !isDigit c) name
        rw [h] at this
        simpa using this
      have hd : convert (c :: r.takeWhile isDigit) = .num (intOf (c :: r.takeWhile isDigit)) := by
        rw [convert, if_pos]
        refine ⟨by simp, ?_⟩
        rw [List.all_cons, hc, Bool.true_and, List.all_eq_true]
        intro d hd
        exact List.mem_takeWhile_imp hd
      rw [hd]
      refine .cons _ _ (ih (r.dropWhile isDigit).length ?_ (r.dropWhile isDigit) rfl)
      have h1 := dropWhile_length_le (fun c => !isDigit c) name
      have h2 := dropWhile_length_le isDigit r
      rw [h] at h1
      simp only [List.length_cons] at h1
      omega

/-- The order of key elements, as an embedding into a linear order. -/
def emb : Item → ℕ ×ₗ (List ℕ)
  | .text s => toLex (0, s.map Char.toNat)
  | .num n => toLex (n, [])

theorem charsLt_iff (a b : List Char) : charsLt a b = true ↔ a.map Char.toNat < b.map Char.toNat := by
  induction a generalizing b with
  | nil =>
    cases b with
    | nil => simp [charsLt]
    | cons b bs => simp [charsLt]
  | cons a as ih =>
    cases b with
    | nil => simp [charsLt]
    | cons b bs =>
      rw [charsLt, List.map_cons, List.map_cons, List.cons_lt_cons_iff]
      by_cases h : a = b
      · subst h; simp [ih]
      · rw [if_neg h]
        have : a.toNat ≠ b.toNat := fun e => h (Char.ext (UInt32.toNat_inj.1 e))
        simp [this]

theorem text_emb_inj {s t : List Char} (h : s.map Char.toNat = t.map Char.toNat) : s = t :=
  List.map_injective_iff.2 (fun _ _ e => Char.ext (UInt32.toNat_inj.1 e)) h

theorem keyLt_iff {a b : List Item} (ha : Alternating a) (hb : Alternating b) : ∃ r, keyLt a b = some r ∧ (r = true ↔ a.map emb < b.map emb) := by
  have htext : ∀ (s t : List Char) (as bs : List Item) , (∃ r, keyLt as bs = some r ∧ (r = true ↔ as.map emb < bs.map emb)) →
      ∃ r, keyLt (.text s :: as) (.text t :: bs) = some r ∧ (r = true ↔ (Item.text s :: as).map emb < (Item.text t :: bs).map emb) := by
    intro s t as bs ⟨r, h1, h2⟩
    rw [keyLt, List.map_cons, List.map_cons, List.cons_lt_cons_iff]
    by_cases h : s = t
    · subst h
      exact ⟨r, by rw [if_pos rfl, h1], by rw [h2]; simp⟩
    · rw [if_neg (by simpa using h)]
      refine ⟨_, rfl, ?_⟩
      rw [charsLt_iff]
      have hne : emb (.text s) ≠ emb (.text t) := by
        intro e
        have := congrArg (fun x => (ofLex x).2) e
        exact h (text_emb_inj this)
      simp only [hne, false_and, or_false]
      rw [emb, emb, Prod.Lex.toLex_lt_toLex]
      simp
  have hnum : ∀ (m n : ℕ) (as bs : List Item) , (∃ r, keyLt as bs = some r ∧ (r = true ↔ as.map emb < bs.map emb)) →
      ∃ r, keyLt (.num m :: as) (.num n :: bs) = some r ∧ (r = true ↔ (Item.num m :: as).map emb < (Item.num n :: bs).map emb) := by
    intro m n as bs ⟨r, h1, h2⟩
    rw [keyLt, List.map_cons, List.map_cons, List.cons_lt_cons_iff]
    by_cases h : m = n
    · subst h
      exact ⟨r, by rw [if_pos rfl, h1], by rw [h2]; simp⟩
    · rw [if_neg (by simpa using h)]
      refine ⟨_, rfl, ?_⟩
      have hne : emb (.num m) ≠ emb (.num n) := by
        intro e
        have := congrArg (fun x => (ofLex x).1) e
        exact h this
      simp only [hne, false_and, or_false]
      rw [emb, emb, Prod.Lex.toLex_lt_toLex]
      simp
  induction ha generalizing b with
  | one s =>
    cases hb with
    | one t => exact htext s t [] [] ⟨false, rfl, by simp⟩
    | cons t n hb => exact htext s t [] _ ⟨true, rfl, by simp⟩
  | cons s m ha ih =>
    cases hb with
    | one t => exact htext s t _ [] ⟨false, rfl, by simp⟩
    | cons t n hb => exact htext s t _ _ (hnum m n _ _ (ih hb))

theorem emb_inj_alternating {a b : List Item} (ha : Alternating a) (hb : Alternating b) (h : a.map emb = b.map emb) : a = b := by
  induction ha generalizing b with
  | one s =>
    cases hb with
    | one t =>
      simp only [List.map_cons, List.map_nil, List.cons.injEq, and_true] at h
      rw [text_emb_inj (congrArg (fun x => (ofLex x).2) h)]
    | cons t n hb => simp at h
  | cons s m ha ih =>
    cases hb with
    | one t => simp at h
    | cons t n hb =>
      simp only [List.map_cons, List.cons.injEq] at h
      obtain ⟨h1, h2, h3⟩ := h
      rw [text_emb_inj (congrArg (fun x => (ofLex x).2) h1), ih hb h3]
      have : m = n := congrArg (fun x => (ofLex x).1) h2
      rw [this]

/-- For every key that alternates between text and numbers, comparing two names never raises: text is compared with text, numbers with numbers. The comparison is a strict order in which
only names with equal keys are tied. -/
theorem alternating_order (key : List Char → List Item) (hk : ∀ x, Alternating (key x)) (a b c : List Char) :
    ∃ ab ba bc ac, keyLt (key a) (key b) = some ab ∧ keyLt (key b) (key a) = some ba ∧ keyLt (key b) (key c) = some bc ∧ keyLt (key a) (key c) = some ac ∧
      (ab = true → bc = true → ac = true) ∧ (ab = false → bc = false → ac = false) ∧ (ab = true → ba = false) ∧ ((ab = false ∧ ba = false) ↔ key a = key b) := by
  obtain ⟨ab, h1, h1'⟩ := keyLt_iff (hk a) (hk b)
  obtain ⟨ba, h2, h2'⟩ := keyLt_iff (hk b) (hk a)
  obtain ⟨bc, h3, h3'⟩ := keyLt_iff (hk b) (hk c)
  obtain ⟨ac, h4, h4'⟩ := keyLt_iff (hk a) (hk c)
  refine ⟨ab, ba, bc, ac, h1, h2, h3, h4, ?_, ?_, ?_, ?_⟩
  · intro e1 e2
    exact h4'.2 (lt_trans (h1'.1 e1) (h3'.1 e2))
  · intro e1 e2
    have f1 : ¬ _ := fun hh => by rw [h1'.2 hh] at e1; cases e1
    have f2 : ¬ _ := fun hh => by rw [h3'.2 hh] at e2; cases e2
    cases ac with
    | false => rfl
    | true => exact absurd (h4'.1 rfl) (not_lt.2 (le_trans (not_lt.1 f2) (not_lt.1 f1)))
  · intro e1
    cases ba with
    | false => rfl
    | true => exact absurd (h2'.1 rfl) (lt_asymm (h1'.1 e1))
  · constructor
    · rintro ⟨e1, e2⟩
      have f1 : ¬ _ := fun hh => by rw [h1'.2 hh] at e1; cases e1
      have f2 : ¬ _ := fun hh => by rw [h2'.2 hh] at e2; cases e2
      exact emb_inj_alternating (hk a) (hk b) (le_antisymm (not_lt.1 f2) (not_lt.1 f1))
    · intro e
      rw [e] at h1' h2'
      constructor
      · cases ab with
        | false => rfl
        | true => exact absurd (h1'.1 rfl) (lt_irrefl _)
      · cases ba with
        | false => rfl
        | true => exact absurd (h2'.1 rfl) (lt_irrefl _)

theorem natural_alternating (key : List Char → List Item) (hkey : key = naturalKey ∨ key = naturalKeyRevlex) (x : List Char) : Alternating (key x) := by
  rcases hkey with rfl | rfl
  · exact naturalKey_alternating x
  · exact (naturalKey_alternating x).reverse

theorem strKey_alternating (x : List Char) : Alternating (strKey x) := .one x

/-- C69. For both keys, comparing two names never raises: text is compared with text, numbers with numbers. The comparison is a strict order in which
only names with equal keys are tied. -/
theorem keys_order (key : List Char → List Item) (hkey : key = naturalKey ∨ key = naturalKeyRevlex) (a b c : List Char) :
    ∃ ab ba bc ac, keyLt (key a) (key b) = some ab ∧ keyLt (key b) (key a) = some ba ∧ keyLt (key b) (key c) = some bc ∧ keyLt (key a) (key c) = some ac ∧
      (ab = true → bc = true → ac = true) ∧ (ab = false → bc = false → ac = false) ∧ (ab = true → ba = false) ∧ ((ab = false ∧ ba = false) ↔ key a = key b) := alternating_order key (natural_alternating key hkey) a b c

/-- Sorting by such a key succeeds, rearranges the names, puts them in increasing order, and keeps names with equal keys in their original order. -/
theorem sortedBy_alternating (key : List Char → List Item) (hk : ∀ x, Alternating (key x)) (names : List (List Char)) :
    ∃ out, sortedBy key names = .ok out ∧ out.Perm names ∧ out.Pairwise (fun a b => keyLt (key b) (key a) = some false) ∧
      ∀ sub : List (List Char), sub.Sublist names → sub.Pairwise (fun a b => key a = key b) → sub.Sublist out := by
  have htot : ∀ a b, (keyLt (key a) (key b)).isSome := by
    intro a b
    obtain ⟨ab, _, _, _, h, _⟩ := alternating_order key hk a b a
    rw [h]; rfl
  have htrans : ∀ a b c, (!((keyLt (key b) (key a)).getD false)) = true → (!((keyLt (key c) (key b)).getD false)) = true →
      (!((keyLt (key c) (key a)).getD false)) = true := by
    intro a b c h1 h2
    obtain ⟨cb, bc, ba, ca, e1, e2, e3, e4, -, h, -⟩ := alternating_order key hk c b a
    rw [e3] at h1; rw [e1] at h2; rw [e4]
    simp only [Option.getD_some, Bool.not_eq_true'] at *
    exact h h2 h1
  have hle : ∀ a b, ((!((keyLt (key b) (key a)).getD false)) || (!((keyLt (key a) (key b)).getD false))) = true := by
    intro a b
    obtain ⟨ab, ba, _, _, e1, e2, _, _, _, _, h, _⟩ := alternating_order key hk a b a
    rw [e1, e2]
    cases ab with
    | false => simp
    | true => simp [h rfl]
  refine ⟨names.mergeSort fun a b => !((keyLt (key b) (key a)).getD false), ?_, List.mergeSort_perm _ _, ?_, ?_⟩
  · rw [sortedBy, if_pos]
    rw [List.all_eq_true]
    intro a _
    rw [List.all_eq_true]
    intro b _
    exact htot a b
  · refine (List.pairwise_mergeSort htrans hle names).imp ?_
    intro a b h
    have := htot b a
    cases hk : keyLt (key b) (key a) with
    | none => rw [hk] at this; cases this
    | some r =>
      rw [hk] at h
      simp only [Option.getD_some, Bool.not_eq_true'] at h
      rw [h]
  · intro sub hs hp
    refine List.sublist_mergeSort htrans hle ?_ hs
    refine hp.imp ?_
    intro a b e
    obtain ⟨ab, ba, _, _, e1, e2, _, _, _, _, _, h⟩ := alternating_order key hk a b a
    rw [e2, (h.2 e).2]
    rfl

/-- C69. Sorting by either key succeeds, rearranges the names, puts them in increasing order, and keeps names with equal keys in their original order. -/
theorem sortedBy_spec (key : List Char → List Item) (hkey : key = naturalKey ∨ key = naturalKeyRevlex) (names : List (List Char)) :
    ∃ out, sortedBy key names = .ok out ∧ out.Perm names ∧ out.Pairwise (fun a b => keyLt (key b) (key a) = some false) ∧
      ∀ sub : List (List Char), sub.Sublist names → sub.Pairwise (fun a b => key a = key b) → sub.Sublist out := sortedBy_alternating key (natural_alternating key hkey) names

/-- Specification: a decimal numeral denotes a number. -/
def Numeral (ds : List Char) (n : ℕ) : Prop := ds ≠ [] ∧ ds.all isDigit ∧ intOf ds = n

theorem key_indexed {p ds : List Char} {n : ℕ} (hp : p.all fun c => !isDigit c) (hd : Numeral ds n) : naturalKey (p ++ ds) = [.text p, .num n, .text []] := by
  obtain ⟨h1, h2, h3⟩ := hd
  rw [naturalKey, splitDigits_indexed p ds hp h2 h1]
  have hc : convert p = .text p := by
    rw [convert, if_neg]
    rintro ⟨e1, e2⟩
    cases p with
    | nil => exact e1 rfl
    | cons c r =>
      rw [List.all_cons, Bool.and_eq_true] at hp e2
      rw [e2.1] at hp
      cases hp.1
  rw [List.map_cons, List.map_cons, List.map_cons, List.map_nil, hc, convert, if_pos ⟨h1, h2⟩, h3]
  rfl

/-- C69. Names made of a digit-free base followed by an index: `natural_key` orders by base and then by the numerical value of the index,
`natural_key_revlex` by the index and then by the base. -/
theorem indexed_order (p q ds es : List Char) (m n : ℕ) (hp : p.all fun c => !isDigit c) (hq : q.all fun c => !isDigit c) (hd : Numeral ds m) (he : Numeral es n) :
    keyLt (naturalKey (p ++ ds)) (naturalKey (q ++ es)) = some (charsLt p q || (decide (p = q) && decide (m < n))) ∧
      keyLt (naturalKeyRevlex (p ++ ds)) (naturalKeyRevlex (q ++ es)) = some (decide (m < n) || (decide (m = n) && charsLt p q)) := by
  have hirr : ∀ s, charsLt s s = false := by
    intro s
    by_contra h
    exact lt_irrefl _ ((charsLt_iff s s).1 (by simpa using h))
  rw [naturalKeyRevlex, naturalKeyRevlex, key_indexed hp hd, key_indexed hq he]
  simp only [List.reverse_cons, List.reverse_nil, List.nil_append, List.cons_append]
  constructor
  · by_cases h : p = q
    · subst h
      by_cases hmn : m = n
      · subst hmn; simp [keyLt, hirr]
      · simp [keyLt, itemLt, hmn, hirr]
    · simp [keyLt, itemLt, h]
  · by_cases hmn : m = n
    · subst hmn
      by_cases h : p = q
      · subst h; simp [keyLt, hirr]
      · simp [keyLt, itemLt, h]
    · simp [keyLt, itemLt, hmn]

/-- C69. Two different names can have the same key: leading zeros are lost. -/
theorem natural_key_not_injective : ∃ a b : List Char, a ≠ b ∧ naturalKey a = naturalKey b :=
  ⟨['x', '1'], ['x', '0', '1'], by simp, by
    rw [show (['x', '1'] : List Char) = ['x'] ++ ['1'] from rfl, show (['x', '0', '1'] : List Char) = ['x'] ++ ['0', '1'] from rfl,
      key_indexed (n := 1) (by decide) ⟨by simp, by decide, by decide⟩, key_indexed (n := 1) (by decide) ⟨by simp, by decide, by decide⟩]⟩

theorem splitUnderscore_spec (p ds : List Char) (hp : '_' ∉ p) (hd : '_' ∉ ds) : splitUnderscore (p ++ '_' :: ds) = [p, ds] := by
  have h0 : ∀ l : List Char, '_' ∉ l → splitUnderscore l = [l] := by
    intro l
    induction l with
    | nil => intro _; rfl
    | cons c cs ih =>
      intro h
      rw [splitUnderscore, ih (fun hh => h (by simp [hh]))]
      have : c ≠ '_' := fun e => h (by simp [e])
      simp [this]
  induction p with
  | nil => rw [List.nil_append, splitUnderscore, h0 ds hd]; simp
  | cons c cs ih =>
    have : c ≠ '_' := fun e => hp (by simp [e])
    rw [List.cons_append, splitUnderscore, ih (fun hh => hp (by simp [hh]))]
    simp [this]

/-- C69. With a fixed order of distinct names, `base_index` gets the key (index, position of the base in the list); a base that is not listed is a
`KeyError`. -/
theorem fixedNamesKey_spec (names : List (List Char)) (hn : names.Nodup) (p ds : List Char) (m : ℕ) (hp : '_' ∉ p) (hd : Numeral ds m) :
    (∀ i, names[i]? = some p → fixedNamesKey names (p ++ '_' :: ds) = .ok (m, i)) ∧ (p ∉ names → fixedNamesKey names (p ++ '_' :: ds) = .error .keyError) := by
  obtain ⟨h1, h2, h3⟩ := hd
  have hu : '_' ∉ ds := by
    intro h
    have := List.all_eq_true.1 h2 _ h
    revert this
    decide
  rw [fixedNamesKey, splitUnderscore_spec p ds hp hu]
  simp only [h1, h2, ne_eq, not_false_eq_true, and_self, ↓reduceIte]
  constructor
  · intro i hi
    have hmem : (p, i) ∈ names.zipIdx.reverse := by
      rw [List.mem_reverse, List.mk_mem_zipIdx_iff_getElem?]; exact hi
    cases hf : names.zipIdx.reverse.find? (fun x => decide (x.1 = p)) with
    | none =>
      have := List.find?_eq_none.1 hf _ hmem
      simp at this
    | some x =>
      have hx1 := List.find?_some hf
      have hx2 := List.mem_of_find?_eq_some hf
      rw [List.mem_reverse] at hx2
      obtain ⟨s, j⟩ := x
      rw [List.mk_mem_zipIdx_iff_getElem?] at hx2
      simp only [decide_eq_true_eq] at hx1
      subst hx1
      obtain ⟨hi1, hi2⟩ := List.getElem?_eq_some_iff.1 hi
      obtain ⟨hj1, hj2⟩ := List.getElem?_eq_some_iff.1 hx2
      have : j = i := (List.Nodup.getElem_inj_iff hn).1 (hj2.trans hi2.symm)
      subst this
      simp only [h3]
  · intro hno
    have hf : names.zipIdx.reverse.find? (fun x => decide (x.1 = p)) = none := by
      rw [List.find?_eq_none]
      intro x hx
      rw [List.mem_reverse] at hx
      obtain ⟨s, j⟩ := x
      rw [List.mk_mem_zipIdx_iff_getElem?] at hx
      have := List.mem_of_getElem? hx
      simp only [decide_eq_true_eq]
      rintro rfl
      exact hno this
    rw [hf]

/-- Non-vacuity: `beta_2 < beta_10`, although `"10" < "2"` as strings. -/
example : keyLt (naturalKey "beta_2".toList) (naturalKey "beta_10".toList) = some true ∧ charsLt "beta_10".toList "beta_2".toList = true := by
  refine ⟨?_, by decide⟩
  have := (indexed_order "beta_".toList "beta_".toList "2".toList "10".toList 2 10 (by decide) (by decide) ⟨by decide, by decide, by decide⟩
    ⟨by decide, by decide, by decide⟩).1
  have h1 : "beta_".toList ++ "2".toList = "beta_2".toList := by decide
  have h2 : "beta_".toList ++ "10".toList = "beta_10".toList := by decide
  rw [h1, h2] at this
  rw [this]
  decide

/-- Non-vacuity: gamma before beta. -/
example : fixedNamesKey ["gamma".toList, "beta".toList] ("beta".toList ++ '_' :: "7".toList) = .ok (7, 1) :=
  (fixedNamesKey_spec _ (by decide) _ _ 7 (by decide) ⟨by decide, by decide, by decide⟩).1 1 rfl

end ZQ.Sorting
