import Verif.Model.OpString
import Verif.Spec.OpString
import Verif.Lemmas.Pauli
import Verif.Lemmas.ExceptList
import Verif.Props.SymOp
import Verif.Props.QubitOp
import Verif.Props.Ising
import Verif.Props.ContextSelection

/-! # C79: operators as text -/

namespace ZQ.OpStr

open ZQ ZQ.Op PyDict

variable {A : Type} [DecidableEq A]

theorem digits_digit (n : ℕ) : ∀ ch ∈ Nat.toDigits 10 n, ch.isDigit := fun _ h => Nat.isDigit_of_mem_toDigits (by decide) (by decide) h

theorem digits_ne_nil (n : ℕ) : Nat.toDigits 10 n ≠ [] := Nat.toDigits_ne_nil

theorem digit_not_space {ch : Char} (h : ch.isDigit) : ch.isWhitespace = false := by
  simp only [Char.isDigit, Bool.and_eq_true, decide_eq_true_eq] at h
  by_contra hw
  rw [Bool.not_eq_false] at hw
  simp only [Char.isWhitespace, Bool.or_eq_true, decide_eq_true_eq] at hw
  rcases hw with ((rfl | rfl) | rfl) | rfl <;> exact absurd h (by decide)

theorem takeWhile_append_all {α : Type} {p : α → Bool} {a b : List α} (ha : ∀ x ∈ a, p x) (hb : ∀ x, b.head? = some x → p x = false) :
    (a ++ b).takeWhile p = a ∧ (a ++ b).dropWhile p = b := by
  induction a with
  | nil =>
    cases b with
    | nil => simp
    | cons x b => have := hb x rfl; simp [this]
  | cons y a ih =>
    have hy := ha y (by simp)
    obtain ⟨h1, h2⟩ := ih fun x hx => ha x (by simp [hx])
    simp [hy, h1, h2]

theorem rtakeWhile_append_all {α : Type} {p : α → Bool} {a b : List α} (ha : ∀ x ∈ b, p x) (hb : ∀ x, a.getLast? = some x → p x = false) :
    (a ++ b).rtakeWhile p = b ∧ (a ++ b).rdropWhile p = a := by
  obtain ⟨h1, h2⟩ := takeWhile_append_all (p := p) (a := b.reverse) (b := a.reverse) (fun x hx => ha x (by simpa using hx)) (fun x hx => hb x (by simpa using hx))
  constructor
  · rw [List.rtakeWhile, List.reverse_append, h1, List.reverse_reverse]
  · rw [List.rdropWhile, List.reverse_append, h2, List.reverse_reverse]

/-! ### Words -/

theorem findAction_iff (st : Style A) (s : Text) (a : A) : findAction st s = .ok a ↔ ∃ e, st.table.find? (fun e => e.1 = s) = some e ∧ e.2 = a := by
  rw [findAction]
  cases st.table.find? fun e => e.1 = s <;> simp

theorem parseFactor_before {st : Style A} (hb : st.before = true) (hd : ∀ e ∈ st.table, ∀ ch, e.1.getLast? = some ch → ch.isDigit = false ∧ ch ≠ '-')
    (w : Text) (i : ℕ) (a : A) :
    parseFactor st w = .ok (i, a) ↔ ∃ s, findAction st s = .ok a ∧ IndexAfter w s i := by
  have hmem : ∀ {s : Text} {a : A}, findAction st s = .ok a → ∀ ch, s.getLast? = some ch → ch.isDigit = false ∧ ch ≠ '-' := by
    intro s a h ch hch
    obtain ⟨e, he, _⟩ := (findAction_iff st s a).1 h
    have h2 := List.find?_some he
    exact hd e (List.mem_of_find?_eq_some he) ch (by rw [decide_eq_true_eq] at h2; rw [h2, hch])
  rw [parseFactor, if_pos hb]
  constructor
  · intro h
    split_ifs at h with h1 h2
    simp only [bind, Except.bind] at h
    cases ha : findAction st (w.rdropWhile Char.isDigit) with
    | error e => rw [ha] at h; cases h
    | ok a' =>
      rw [ha] at h
      simp only [Except.ok.injEq, Prod.mk.injEq] at h
      obtain ⟨e1, rfl⟩ := h
      refine ⟨_, ha, w.rtakeWhile Char.isDigit, ?_, fun ch hch => List.mem_rtakeWhile_imp hch, e1, (List.rdropWhile_append_rtakeWhile).symm⟩
      intro hn
      rw [List.rtakeWhile_eq_nil_iff] at hn
      apply h1
      cases hw : w.getLast? with
      | none => rfl
      | some ch =>
        have hne : w ≠ [] := by rintro rfl; cases hw
        rw [List.getLast?_eq_some_getLast hne] at hw
        cases hw
        have := hn hne
        simp only [Option.all_some, Bool.not_eq_true'] at this ⊢
        simpa using this
  · rintro ⟨s, hs, ds, d1, d2, d3, rfl⟩
    obtain ⟨r1, r2⟩ := rtakeWhile_append_all (p := Char.isDigit) (a := s) (b := ds) d2 fun ch hch => (hmem hs ch hch).1
    have hl : ((s ++ ds).getLast?.all fun ch => !ch.isDigit) = false := by
      rw [List.getLast?_append_of_ne_nil _ d1, List.getLast?_eq_some_getLast d1, Option.all_some, d2 _ (List.getLast_mem d1)]; rfl
    rw [hl, if_neg Bool.false_ne_true, r1, r2, if_neg fun h => (hmem hs '-' h).2 rfl, hs, d3]
    rfl

theorem parseFactor_after {st : Style A} (hb : st.before = false) (hd : ∀ e ∈ st.table, ∀ ch, e.1.head? = some ch → ch.isDigit = false)
    (w : Text) (i : ℕ) (a : A) :
    parseFactor st w = .ok (i, a) ↔ ∃ s, findAction st s = .ok a ∧ IndexBefore w s i := by
  have hmem : ∀ {s : Text} {a : A}, findAction st s = .ok a → ∀ ch, s.head? = some ch → ch.isDigit = false := by
    intro s a h ch hch
    obtain ⟨e, he, _⟩ := (findAction_iff st s a).1 h
    have h2 := List.find?_some he
    exact hd e (List.mem_of_find?_eq_some he) ch (by rw [decide_eq_true_eq] at h2; rw [h2, hch])
  rw [parseFactor, hb, if_neg Bool.false_ne_true]
  constructor
  · intro h
    split_ifs at h with h1 h2
    simp only [bind, Except.bind] at h
    cases ha : findAction st (w.dropWhile Char.isDigit) with
    | error e => rw [ha] at h; cases h
    | ok a' =>
      rw [ha] at h
      simp only [Except.ok.injEq, Prod.mk.injEq] at h
      obtain ⟨e1, rfl⟩ := h
      refine ⟨_, ha, w.takeWhile Char.isDigit, ?_, fun ch hch => List.mem_takeWhile_imp hch, e1, List.takeWhile_append_dropWhile.symm⟩
      intro hn
      apply h2
      cases w with
      | nil => rfl
      | cons ch w =>
        rw [List.takeWhile_cons] at hn
        split_ifs at hn with hc
        simpa using hc
  · rintro ⟨s, hs, ds, d1, d2, d3, rfl⟩
    obtain ⟨r1, r2⟩ := takeWhile_append_all (p := Char.isDigit) (a := ds) (b := s) d2 fun ch hch => hmem hs ch hch
    cases ds with
    | nil => exact absurd rfl d1
    | cons ch ds =>
      have hc := d2 ch (by simp)
      rw [r1, r2, if_neg, if_neg, hs, d3]
      · rfl
      · simp [hc]
      · simp only [List.cons_append, List.head?_cons, Option.some.injEq]
        rintro rfl
        exact absurd hc (by decide)

/-- C79: the words `QubitOperator` accepts are a letter `X`, `Y` or `Z` followed by digits. -/
theorem parseFactor_qubit (w : Text) (i : ℕ) (a : Letter) :
    parseFactor qubitStyle w = .ok (i, a) ↔
      (a = .X ∧ IndexAfter w ['X'] i) ∨ (a = .Y ∧ IndexAfter w ['Y'] i) ∨ (a = .Z ∧ IndexAfter w ['Z'] i) := by
  rw [parseFactor_before rfl (by decide)]
  constructor
  · rintro ⟨s, hs, h⟩
    obtain ⟨e, he, rfl⟩ := (findAction_iff _ _ _).1 hs
    have h1 := List.mem_of_find?_eq_some he
    have h2 := List.find?_some he
    rw [decide_eq_true_eq] at h2
    subst h2
    simp only [qubitStyle, List.mem_cons, List.not_mem_nil, or_false] at h1
    rcases h1 with rfl | rfl | rfl
    · exact Or.inl ⟨rfl, h⟩
    · exact Or.inr (Or.inl ⟨rfl, h⟩)
    · exact Or.inr (Or.inr ⟨rfl, h⟩)
  · rintro (⟨rfl, h⟩ | ⟨rfl, h⟩ | ⟨rfl, h⟩)
    · exact ⟨_, rfl, h⟩
    · exact ⟨_, rfl, h⟩
    · exact ⟨_, rfl, h⟩

/-- C79: the words `FermionOperator` accepts are digits, followed by `^` for a creation operator. -/
theorem parseFactor_fermion (w : Text) (i : ℕ) (a : Bool) :
    parseFactor fermionStyle w = .ok (i, a) ↔ (a = true ∧ IndexBefore w ['^'] i) ∨ (a = false ∧ IndexBefore w [] i) := by
  rw [parseFactor_after rfl (by decide)]
  constructor
  · rintro ⟨s, hs, h⟩
    obtain ⟨e, he, rfl⟩ := (findAction_iff _ _ _).1 hs
    have h1 := List.mem_of_find?_eq_some he
    have h2 := List.find?_some he
    rw [decide_eq_true_eq] at h2
    subst h2
    simp only [fermionStyle, List.mem_cons, List.not_mem_nil, or_false] at h1
    rcases h1 with rfl | rfl
    · exact Or.inl ⟨rfl, h⟩
    · exact Or.inr ⟨rfl, h⟩
  · rintro (⟨rfl, h⟩ | ⟨rfl, h⟩)
    · exact ⟨_, rfl, h⟩
    · exact ⟨_, rfl, h⟩

/-! ### Printing and reading a term -/

/-- The word of a factor is printed, and read back as the factor. -/
def FactorText (st : Style A) (f : ℕ × A) (w : Text) : Prop :=
  printFactor st f = .ok (w ++ [' ']) ∧ w ≠ [] ∧ (∀ ch ∈ w, ch.isWhitespace = false) ∧ ']' ∉ w ∧ parseFactor st w = .ok f

theorem digits_no_bracket (n : ℕ) : ']' ∉ Nat.toDigits 10 n := fun h => absurd (digits_digit n _ h) (by decide)

theorem factorText_before {st : Style A} (hb : st.before = true) (hd : ∀ e ∈ st.table, ∀ ch, e.1.getLast? = some ch → ch.isDigit = false ∧ ch ≠ '-')
    {s : Text} {a : A} (h1 : st.table.find? (fun e => e.2 = a) = some (s, a)) (h2 : findAction st s = .ok a)
    (h3 : ∀ ch ∈ s, ch.isWhitespace = false) (h4 : ']' ∉ s) (i : ℕ) : FactorText st (i, a) (s ++ Nat.toDigits 10 i) := by
  refine ⟨?_, by simp [digits_ne_nil], ?_, ?_, ?_⟩
  · rw [printFactor, h1]; simp [hb]
  · intro ch hch
    rcases List.mem_append.1 hch with h | h
    · exact h3 ch h
    · exact digit_not_space (digits_digit i ch h)
  · intro h
    rcases List.mem_append.1 h with h | h
    · exact h4 h
    · exact digits_no_bracket i h
  · exact (parseFactor_before hb hd _ _ _).2 ⟨s, h2, _, digits_ne_nil i, digits_digit i, Nat.ofDigitChars_ten_toDigits, rfl⟩

theorem factorText_after {st : Style A} (hb : st.before = false) (hd : ∀ e ∈ st.table, ∀ ch, e.1.head? = some ch → ch.isDigit = false)
    {s : Text} {a : A} (h1 : st.table.find? (fun e => e.2 = a) = some (s, a)) (h2 : findAction st s = .ok a)
    (h3 : ∀ ch ∈ s, ch.isWhitespace = false) (h4 : ']' ∉ s) (i : ℕ) : FactorText st (i, a) (Nat.toDigits 10 i ++ s) := by
  refine ⟨?_, by simp [digits_ne_nil], ?_, ?_, ?_⟩
  · rw [printFactor, h1]; simp [hb]
  · intro ch hch
    rcases List.mem_append.1 hch with h | h
    · exact digit_not_space (digits_digit i ch h)
    · exact h3 ch h
  · intro h
    rcases List.mem_append.1 h with h | h
    · exact digits_no_bracket i h
    · exact h4 h
  · exact (parseFactor_after hb hd _ _ _).2 ⟨s, h2, _, digits_ne_nil i, digits_digit i, Nat.ofDigitChars_ten_toDigits, rfl⟩

theorem qubit_factor (f : ℕ × Letter) (h : f.2 ≠ .I) : ∃ w, FactorText qubitStyle f w := by
  obtain ⟨i, a⟩ := f
  cases a with
  | I => exact absurd rfl h
  | X => exact ⟨_, factorText_before rfl (by decide) (s := ['X']) rfl rfl (by decide) (by decide) i⟩
  | Y => exact ⟨_, factorText_before rfl (by decide) (s := ['Y']) rfl rfl (by decide) (by decide) i⟩
  | Z => exact ⟨_, factorText_before rfl (by decide) (s := ['Z']) rfl rfl (by decide) (by decide) i⟩

theorem ising_factor (f : ℕ × Letter) (h : f.2 = .Z) : ∃ w, FactorText isingStyle f w := by
  obtain ⟨i, a⟩ := f
  subst h
  exact ⟨_, factorText_before rfl (by decide) (s := ['Z']) rfl rfl (by decide) (by decide) i⟩

theorem fermion_factor (f : ℕ × Bool) : ∃ w, FactorText fermionStyle f w := by
  obtain ⟨i, a⟩ := f
  cases a with
  | true => exact ⟨_, factorText_after rfl (by decide) (s := ['^']) rfl rfl (by decide) (by decide) i⟩
  | false => exact ⟨_, factorText_after rfl (by decide) (s := []) rfl rfl (by decide) (by decide) i⟩

theorem words_cons {w : Text} (h : ∀ ch ∈ w, ch.isWhitespace = false) (hn : w ≠ []) (rest : Text) : words (w ++ ' ' :: rest) = w :: words rest := by
  rw [words, List.splitOnP_append_cons_of_forall_mem h _ (by decide), List.filter_cons_of_pos (by simpa using hn), words]

theorem words_single {w : Text} (h : ∀ ch ∈ w, ch.isWhitespace = false) (hn : w ≠ []) : words w = [w] := by
  rw [words, List.splitOnP_eq_singleton h]
  simp [hn]

/-- The blanks after the words are removed by `strip`, the words stay. -/
theorem words_spec (ws : List Text) (h1 : ∀ w ∈ ws, w ≠ []) (h2 : ∀ w ∈ ws, ∀ ch ∈ w, ch.isWhitespace = false) :
    ∃ body : Text, words body = ws ∧ (∀ ch ∈ body, ch = ' ' ∨ ∃ w ∈ ws, ch ∈ w) ∧
      ∀ q : Text, (q.getLast?.all fun ch => !ch.isWhitespace) → (q ++ (ws.map (· ++ [' '])).flatten).rdropWhile Char.isWhitespace = q ++ body := by
  rcases List.eq_nil_or_concat ws with rfl | ⟨init, w, rfl⟩
  · refine ⟨[], rfl, by simp, fun q hq => ?_⟩
    simp only [List.map_nil, List.flatten_nil, List.append_nil]
    rw [List.rdropWhile_eq_self_iff]
    intro hl
    rw [List.getLast?_eq_some_getLast hl] at hq
    simpa using hq
  · have hw := h2 w (by simp)
    have hn := h1 w (by simp)
    refine ⟨(init.map (· ++ [' '])).flatten ++ w, ?_, ?_, fun q _ => ?_⟩
    · have : ∀ l : List Text, (∀ w ∈ l, w ≠ []) → (∀ w ∈ l, ∀ ch ∈ w, ch.isWhitespace = false) → words ((l.map (· ++ [' '])).flatten ++ w) = l ++ [w] := by
        intro l
        induction l with
        | nil => intro _ _; simpa using words_single hw hn
        | cons v l ih =>
          intro a b
          have := ih (fun w hw => a w (by simp [hw])) fun w hw => b w (by simp [hw])
          simp only [List.map_cons, List.flatten_cons, List.append_assoc, List.cons_append, List.nil_append]
          rw [words_cons (b v (by simp)) (a v (by simp)), this]
      rw [this init (fun w hw => h1 w (by simp [hw])) fun w hw => h2 w (by simp [hw]), List.concat_eq_append]
    · intro ch hch
      rcases List.mem_append.1 hch with h | h
      · obtain ⟨l, hl, hc⟩ := List.mem_flatten.1 h
        obtain ⟨v, hv, rfl⟩ := List.mem_map.1 hl
        rcases List.mem_append.1 hc with h | h
        · exact Or.inr ⟨v, by simp [hv], h⟩
        · exact Or.inl (by simpa using h)
      · exact Or.inr ⟨w, by simp, h⟩
    · rw [List.concat_eq_append, List.map_append, List.flatten_append]
      simp only [List.map_cons, List.map_nil, List.flatten_cons, List.flatten_nil, List.append_nil, ← List.append_assoc]
      rw [List.rdropWhile_concat_pos _ _ _ (by decide), List.rdropWhile_eq_self_iff]
      intro hl
      rw [List.getLast_append_of_ne_nil _ hn]
      simpa using hw _ (List.getLast_mem hn)

/-- A term is printed as the coefficient, a blank and the words in brackets. -/
theorem printTerm_spec {st : Style A} {N : Numbers} {t : Term A} {c : ℂ} (hf : ∀ f ∈ t, ∃ w, FactorText st f w) (hc : Prints N c) :
    ∃ body : Text, printTerm st N (t, c) = .ok (N.print c ++ [' ', '['] ++ body ++ [']', ' ', '+', '\n']) ∧ ']' ∉ body ∧ parseString st body = .ok t := by
  have hws : ∃ ws : List Text, t.mapM (printFactor st) = .ok (ws.map (· ++ [' '])) ∧ (∀ w ∈ ws, w ≠ []) ∧ (∀ w ∈ ws, ∀ ch ∈ w, ch.isWhitespace = false) ∧
      (∀ w ∈ ws, ']' ∉ w) ∧ ws.mapM (parseFactor st) = .ok t := by
    clear hc
    induction t with
    | nil => exact ⟨[], rfl, by simp, by simp, by simp, rfl⟩
    | cons f t ih =>
      obtain ⟨w, w1, w2, w3, w4, w5⟩ := hf f (by simp)
      obtain ⟨ws, i1, i2, i3, i4, i5⟩ := ih fun g hg => hf g (by simp [hg])
      refine ⟨w :: ws, ?_, ?_, ?_, ?_, ?_⟩
      · rw [List.mapM_cons, w1, i1]; rfl
      · simpa using ⟨w2, i2⟩
      · intro v hv
        rcases List.mem_cons.1 hv with rfl | hv
        · exact w3
        · exact i3 v hv
      · simpa using ⟨w4, i4⟩
      · rw [List.mapM_cons, w5, i5]; rfl
  obtain ⟨ws, i1, i2, i3, i4, i5⟩ := hws
  obtain ⟨body, b1, b2, b3⟩ := words_spec ws i2 i3
  refine ⟨body, ?_, ?_, ?_⟩
  · rw [printTerm]
    dsimp only
    rw [i1]
    change Except.ok (strip _ ++ _) = _
    congr 2
    rw [strip]
    have hd : (N.print c ++ [' ', '['] ++ (ws.map (· ++ [' '])).flatten).dropWhile Char.isWhitespace = N.print c ++ [' ', '['] ++ (ws.map (· ++ [' '])).flatten := by
      cases hp : N.print c with
      | nil => exact absurd hp hc.nonempty
      | cons ch r =>
        have := hc.space ch (by simp [hp])
        simp [this]
    rw [hd, b3]
    simp
  · intro h
    rcases b2 _ h with h | ⟨w, hw, h⟩
    · exact absurd h (by decide)
    · exact i4 w hw h
  · rw [parseString, b1, i5]

/-! ### Whole texts -/

theorem findTerms_none {s : Text} (h : '[' ∉ s) : findTerms s = [] := by
  rw [findTerms]
  have : s.dropWhile (fun ch => decide (ch ≠ '[')) = [] := by
    rw [List.dropWhile_eq_nil_iff]
    intro ch hch
    rw [decide_eq_true_eq]
    rintro rfl
    exact h hch
  split
  · rfl
  · next hs => rw [this] at hs; cases hs

theorem findTerms_cons {pre body : Text} (hp : '[' ∉ pre) (hb : ']' ∉ body) (rest : Text) :
    findTerms (pre ++ '[' :: (body ++ ']' :: rest)) = (pre, body) :: findTerms rest := by
  obtain ⟨p1, p2⟩ := takeWhile_append_all (p := fun ch : Char => decide (ch ≠ '[')) (a := pre) (b := '[' :: (body ++ ']' :: rest))
    (fun ch hch => by rw [decide_eq_true_eq]; rintro rfl; exact hp hch) (fun ch hch => by cases hch; decide)
  obtain ⟨q1, q2⟩ := takeWhile_append_all (p := fun ch : Char => decide (ch ≠ ']')) (a := body) (b := ']' :: rest)
    (fun ch hch => by rw [decide_eq_true_eq]; rintro rfl; exact hb hch) (fun ch hch => by cases hch; decide)
  rw [findTerms]
  split
  · next hs => rw [p2] at hs; cases hs
  · next hs =>
    rw [p2] at hs
    cases hs
    split
    · next hr => rw [q2] at hr; cases hr
    · next hr =>
      rw [q2] at hr
      cases hr
      rw [p1, q1]

/-- The terms of a text, one after the other: coefficient text and factor text. -/
def LongText (items : List (Text × Text)) : Text := (items.map fun m => m.1 ++ '[' :: (m.2 ++ [']'])).flatten

theorem findTerms_longText (items : List (Text × Text)) (h : ∀ m ∈ items, '[' ∉ m.1 ∧ ']' ∉ m.2) : findTerms (LongText items) = items := by
  induction items with
  | nil => exact findTerms_none (by simp [LongText])
  | cons m items ih =>
    have hm := h m (by simp)
    have : LongText (m :: items) = m.1 ++ '[' :: (m.2 ++ ']' :: LongText items) := by simp [LongText]
    rw [this, findTerms_cons hm.1 hm.2, ih fun m hm => h m (by simp [hm])]

/-- The coefficient of a term in a list of terms with coefficients. -/
noncomputable def total (items : List (Term A × ℂ)) (u : Term A) : ℂ := (items.map fun kv => if kv.1 = u then kv.2 else 0).sum

theorem coeff_eq_total {o : Terms A} (h : WF o) (u : Term A) : coeff o u = total o u := by
  induction o with
  | nil => rfl
  | cons kv o ih =>
    have h1 : kv.1 ∉ keys o ∧ WF o := by
      have h' : (keys (kv :: o)).Nodup := h
      rw [keys, List.map_cons, List.nodup_cons] at h'
      exact h'
    rw [coeff_cons, total, List.map_cons, List.sum_cons, ← total, ← ih h1.2]
    split_ifs with e
    · rw [← e, coeff_of_not_mem h1.1, add_zero]
    · rw [zero_add]

theorem foldlM_long (S : OpClass A) (st : Style A) (N : Numbers) (c : ℂ) (items : List ((Text × Text) × ℂ × Term A))
    (h : ∀ m ∈ items, readCoef N (coefText m.1.1) = .ok m.2.1 ∧ parseString st m.1.2 = .ok m.2.2) (acc : Terms A) (hacc : WF acc) :
    ∃ o, (items.map Prod.fst).foldlM (longStep S st N c) acc = .ok o ∧ WF o ∧
      ∀ u, coeff o u = coeff acc u + total (items.map fun m => ((S.simplify m.2.2 (m.2.1 * c)).2, (S.simplify m.2.2 (m.2.1 * c)).1)) u := by
  induction items generalizing acc with
  | nil => exact ⟨acc, rfl, hacc, fun u => by simp [total]⟩
  | cons m items ih =>
    obtain ⟨o, o1, o2, o3⟩ := ih (fun m hm => h m (by simp [hm])) (accum acc (S.simplify m.2.2 (m.2.1 * c)).2 (S.simplify m.2.2 (m.2.1 * c)).1) (wf_accum hacc _ _)
    obtain ⟨h1, h2⟩ := h m (by simp)
    refine ⟨o, ?_, o2, fun u => ?_⟩
    · rw [List.map_cons, List.foldlM_cons, longStep, h1]
      change (do let t ← parseString st m.1.2; _) >>= _ = _
      rw [h2]
      exact o1
    · rw [o3, coeff_accum, List.map_cons, total, total, List.map_cons, List.sum_cons, add_assoc]

/-- C79: a text of several terms stands for the sum of the terms; terms that are equal after simplification are added up, and every coefficient is multiplied by
the argument `coefficient`. -/
theorem init_long (S : OpClass A) (st : Style A) (N : Numbers) (c : ℂ) (items : List ((Text × Text) × ℂ × Term A)) (hne : items ≠ [])
    (hb : ∀ m ∈ items, '[' ∉ m.1.1 ∧ ']' ∉ m.1.2) (h : ∀ m ∈ items, readCoef N (coefText m.1.1) = .ok m.2.1 ∧ parseString st m.1.2 = .ok m.2.2) :
    ∃ o, init S st N (LongText (items.map Prod.fst)) c = .ok o ∧ WF o ∧
      ∀ u, coeff o u = total (items.map fun m => ((S.simplify m.2.2 (m.2.1 * c)).2, (S.simplify m.2.2 (m.2.1 * c)).1)) u := by
  obtain ⟨o, o1, o2, o3⟩ := foldlM_long S st N c items h [] wf_nil
  refine ⟨o, ?_, o2, fun u => by rw [o3]; simp [coeff, get?]⟩
  have hin : '[' ∈ LongText (items.map Prod.fst) := by
    cases items with
    | nil => exact absurd rfl hne
    | cons m items => simp [LongText]
  rw [init, if_pos hin, longInit, findTerms_longText _ fun m hm => by obtain ⟨k, hk, rfl⟩ := List.mem_map.1 hm; exact hb k hk, o1]

theorem readCoef_print {N : Numbers} {c : ℂ} (h : Prints N c) {q : Text} (hq : q = [] ∨ q = [' ', '+', '\n']) :
    readCoef N (coefText (q ++ N.print c ++ [' '])) = .ok c := by
  have hf : (N.print c).filter (fun ch => !ch.isWhitespace) = N.print c := by
    rw [List.filter_eq_self]
    intro ch hch
    simp [h.space ch hch]
  have ht : coefText (q ++ N.print c ++ [' ']) = N.print c := by
    rcases hq with rfl | rfl
    · rw [coefText]
      simp only [List.nil_append, List.filter_append, hf]
      have : ([' '] : Text).filter (fun ch => !ch.isWhitespace) = [] := by decide
      rw [this, List.append_nil, if_neg h.not_plus]
    · rw [coefText]
      simp only [List.filter_append, hf]
      have h1 : ([' '] : Text).filter (fun ch => !ch.isWhitespace) = [] := by decide
      have h2 : ([' ', '+', '\n'] : Text).filter (fun ch => !ch.isWhitespace) = ['+'] := by decide
      rw [h1, h2, List.append_nil]
      rfl
  rw [ht, readCoef, if_neg h.nonempty, if_neg h.not_minus]
  by_cases hj : 'j' ∈ N.print c
  · rw [if_pos hj]
    by_cases hm : (N.print c).head? = some '-'
    · rw [if_pos hm, h.minus hj hm]
      simp
    · rw [if_neg hm, h.imag hj hm]
  · rw [if_neg hj, h.real hj]

theorem rdrop_append {α : Type} (x y : List α) (k : ℕ) (h : k ≤ y.length) : (x ++ y).rdrop k = x ++ y.rdrop k := by
  rw [List.rdrop, List.rdrop, List.length_append, show x.length + y.length - k = x.length + (y.length - k) by omega, List.take_length_add_append]

/-- The coefficient texts between the brackets: the first one follows `q`, the others a plus sign and a line break. -/
def tagged : Text → List (Text × Text) → List (Text × Text)
  | _, [] => []
  | q, p :: ps => (q ++ p.1 ++ [' '], p.2) :: tagged [' ', '+', '\n'] ps

/-- The text of a list of terms, after the last separator has been cut off. -/
theorem cut_longText (ps : List (Text × Text)) (hne : ps ≠ []) (q : Text) :
    q ++ (ps.map fun p => p.1 ++ [' ', '['] ++ p.2 ++ [']', ' ', '+', '\n']).flatten.rdrop 3 = LongText (tagged q ps) := by
  induction ps generalizing q with
  | nil => exact absurd rfl hne
  | cons p ps ih =>
    cases ps with
    | nil =>
      rw [List.map_cons, List.map_nil, List.flatten_cons, List.flatten_nil, List.append_nil, rdrop_append _ _ 3 (by decide)]
      simp [LongText, List.rdrop, tagged]
    | cons p' ps =>
      have h := ih (by simp) [' ', '+', '\n']
      have e : LongText (tagged q (p :: p' :: ps)) = (q ++ p.1 ++ [' ']) ++ '[' :: (p.2 ++ [']']) ++ LongText (tagged [' ', '+', '\n'] (p' :: ps)) := rfl
      rw [e, ← h, List.map_cons, List.flatten_cons, rdrop_append _ _ 3 (by simp; omega)]
      simp

theorem mem_tagged {ps : List (Text × Text)} {q : Text} {m : Text × Text} (h : m ∈ tagged q ps) :
    ∃ p ∈ ps, ∃ q', (q' = q ∨ q' = [' ', '+', '\n']) ∧ m = (q' ++ p.1 ++ [' '], p.2) := by
  induction ps generalizing q with
  | nil => simp [tagged] at h
  | cons p ps ih =>
    rcases List.mem_cons.1 h with rfl | h
    · exact ⟨p, by simp, q, Or.inl rfl, rfl⟩
    · obtain ⟨p', h1, q', h2, h3⟩ := ih h
      exact ⟨p', by simp [h1], q', Or.inr (by tauto), h3⟩

/-- Printing an operator with at least one term that is not small, and reading the text. -/
theorem roundtrip (S : OpClass A) (st : Style A) (N : Numbers) (le : Term A → Term A → Bool) (o : Terms A) (hw : WF o)
    (hfix : ∀ kv ∈ o, S.simplify kv.1 kv.2 = (kv.2, kv.1)) (hf : ∀ kv ∈ o, ∀ f ∈ kv.1, ∃ w, FactorText st f w)
    (hp : ∀ kv ∈ o, 1 / 10 ^ 8 ≤ ‖kv.2‖ → Prints N kv.2) (hne : ∃ kv ∈ o, 1 / 10 ^ 8 ≤ ‖kv.2‖) :
    ∃ s o', toText st N le o = .ok s ∧ init S st N s 1 = .ok o' ∧ WF o' ∧ ∀ u, coeff o' u = if ‖coeff o u‖ < 1 / 10 ^ 8 then 0 else coeff o u := by
  set kept := (o.insertionSort fun a b => le a.1 b.1).filter fun kv => decide (¬ IsSmall kv.2 eqTol) with hk
  have hperm : kept.Perm (o.filter fun kv => decide (¬ IsSmall kv.2 eqTol)) := (List.perm_insertionSort _ o).filter _
  have hmem : ∀ kv, kv ∈ kept ↔ kv ∈ o ∧ 1 / 10 ^ 8 ≤ ‖kv.2‖ := by
    intro kv
    rw [hperm.mem_iff, List.mem_filter, decide_eq_true_eq, IsSmall, eqTol, not_lt]
  have hk0 : kept ≠ [] := by
    obtain ⟨kv, h1, h2⟩ := hne
    exact List.ne_nil_of_mem ((hmem kv).2 ⟨h1, h2⟩)
  have hb : ∀ kv : Term A × ℂ, ∃ body : Text, kv ∈ kept → printTerm st N kv = .ok (N.print kv.2 ++ [' ', '['] ++ body ++ [']', ' ', '+', '\n']) ∧ ']' ∉ body ∧
      parseString st body = .ok kv.1 := by
    intro kv
    by_cases h : kv ∈ kept
    · obtain ⟨h1, h2⟩ := (hmem kv).1 h
      obtain ⟨b, b1⟩ := printTerm_spec (st := st) (t := kv.1) (hf kv h1) (hp kv h1 h2)
      exact ⟨b, fun _ => b1⟩
    · exact ⟨[], fun h' => absurd h' h⟩
  choose body hbody using hb
  let ps : List (Text × Text) := kept.map fun kv => (N.print kv.2, body kv)
  have hm : kept.mapM (printTerm st N) = .ok (ps.map fun p => p.1 ++ [' ', '['] ++ p.2 ++ [']', ' ', '+', '\n']) := by
    have : ∀ l : List (Term A × ℂ), (∀ kv ∈ l, kv ∈ kept) → l.mapM (printTerm st N) =
        .ok ((l.map fun kv => (N.print kv.2, body kv)).map fun p => p.1 ++ [' ', '['] ++ p.2 ++ [']', ' ', '+', '\n']) := by
      intro l
      induction l with
      | nil => intro _; rfl
      | cons kv l ih =>
        intro h
        rw [List.mapM_cons, (hbody kv (h kv (by simp))).1, ih fun x hx => h x (by simp [hx])]
        rfl
    exact this kept fun _ h => h
  have hps : ps ≠ [] := by simpa [ps] using hk0
  refine ⟨LongText (tagged [] ps), ?_⟩
  -- the terms with what is read for them
  let items : List ((Text × Text) × ℂ × Term A) := (tagged [] ps).zip (kept.map fun kv => (kv.2, kv.1))
  have hlen : (tagged [] ps).length = kept.length := by
    have : ∀ (q : Text) (l : List (Text × Text)), (tagged q l).length = l.length := by
      intro q l
      induction l generalizing q with
      | nil => rfl
      | cons p l ih => simp [tagged, ih]
    rw [this]; simp [ps]
  have hfst : items.map Prod.fst = tagged [] ps := List.map_fst_zip (by simp [hlen])
  have hsnd : items.map Prod.snd = kept.map fun kv => (kv.2, kv.1) := List.map_snd_zip (by simp [hlen])
  have hitems : ∀ m ∈ items, ∃ kv ∈ kept, ∃ q : Text, (q = [] ∨ q = [' ', '+', '\n']) ∧ m = ((q ++ N.print kv.2 ++ [' '], body kv), kv.2, kv.1) := by
    have : ∀ (l : List (Term A × ℂ)) (q : Text), (q = [] ∨ q = [' ', '+', '\n']) → ∀ m ∈ (tagged q (l.map fun kv => (N.print kv.2, body kv))).zip (l.map fun kv => (kv.2, kv.1)),
        ∃ kv ∈ l, ∃ q : Text, (q = [] ∨ q = [' ', '+', '\n']) ∧ m = ((q ++ N.print kv.2 ++ [' '], body kv), kv.2, kv.1) := by
      intro l
      induction l with
      | nil => intro q _ m hm; simp at hm
      | cons kv l ih =>
        intro q hq m hm
        rw [List.map_cons, tagged, List.map_cons, List.zip_cons_cons] at hm
        rcases List.mem_cons.1 hm with rfl | hm
        · exact ⟨kv, by simp, q, hq, rfl⟩
        · obtain ⟨kv', h1, h2⟩ := ih _ (Or.inr rfl) m hm
          exact ⟨kv', by simp [h1], h2⟩
    exact this kept [] (Or.inl rfl)
  obtain ⟨o', o1, o2, o3⟩ := init_long S st N 1 items (by
      intro h0
      rw [h0, List.map_nil] at hsnd
      exact hk0 (List.map_eq_nil_iff.1 hsnd.symm))
    (fun m hm => by
      obtain ⟨kv, h1, q, h2, rfl⟩ := hitems m hm
      obtain ⟨h3, h4⟩ := (hmem kv).1 h1
      refine ⟨?_, (hbody kv h1).2.1⟩
      have hb := (hp kv h3 h4).bracket
      rcases h2 with rfl | rfl <;> simp [hb])
    (fun m hm => by
      obtain ⟨kv, h1, q, h2, rfl⟩ := hitems m hm
      obtain ⟨h3, h4⟩ := (hmem kv).1 h1
      exact ⟨readCoef_print (hp kv h3 h4) h2, (hbody kv h1).2.2⟩)
  refine ⟨o', ?_, by rw [← hfst]; exact o1, o2, fun u => ?_⟩
  · have ho : o ≠ [] := by rintro rfl; obtain ⟨kv, h, _⟩ := hne; simp at h
    rw [toText, if_neg ho, ← hk, hm]
    change Except.ok _ = _
    rw [← cut_longText ps hps, List.nil_append]
  · have e1 : (items.map fun m => ((S.simplify m.2.2 (m.2.1 * 1)).2, (S.simplify m.2.2 (m.2.1 * 1)).1)) = kept := by
      have : (items.map fun m => ((S.simplify m.2.2 (m.2.1 * 1)).2, (S.simplify m.2.2 (m.2.1 * 1)).1)) =
          (items.map Prod.snd).map fun m => ((S.simplify m.2 (m.1 * 1)).2, (S.simplify m.2 (m.1 * 1)).1) := by rw [List.map_map]; rfl
      rw [this, hsnd, List.map_map]
      refine (List.map_congr_left fun kv hkv => ?_).trans (List.map_id _)
      have := hfix kv ((hmem kv).1 hkv).1
      simp [this]
    rw [o3, e1, total, (hperm.map _).sum_eq]
    have hw' : WF (o.filter fun kv => decide (¬ IsSmall kv.2 eqTol)) := (List.filter_sublist.map _).nodup hw
    rw [← total, ← coeff_eq_total hw']
    by_cases hu : u ∈ keys o
    · obtain ⟨⟨_, c⟩, hc, rfl⟩ := List.mem_map.1 hu
      rw [coeff_of_mem hw hc]
      split_ifs with hs
      · apply coeff_of_not_mem
        intro h
        obtain ⟨⟨_, c'⟩, hc', rfl⟩ := List.mem_map.1 h
        obtain ⟨h1, h2⟩ := List.mem_filter.1 hc'
        rw [decide_eq_true_eq] at h2
        have : c' = c := by rw [← coeff_of_mem hw h1, coeff_of_mem hw hc]
        subst this
        exact h2 hs
      · exact coeff_of_mem hw' (List.mem_filter.2 ⟨hc, by rw [decide_eq_true_eq]; exact hs⟩)
    · rw [coeff_of_not_mem hu, coeff_of_not_mem, norm_zero, if_pos (by norm_num)]
      intro h
      obtain ⟨kv, hkv, rfl⟩ := List.mem_map.1 h
      exact hu (List.mem_map_of_mem (List.mem_filter.1 hkv).1)

/-! ### The properties -/

/-- C79: a qubit operator printed with `str` and read back by the constructor is the same operator without the terms below `1e-8`, when at least one term is not
small. -/
theorem qubit_roundtrip_partial (N : Numbers) (le : Term Letter → Term Letter → Bool) (o : Terms Letter) (h : CanonicalOp o)
    (hp : ∀ kv ∈ o, 1 / 10 ^ 8 ≤ ‖kv.2‖ → Prints N kv.2) (hne : ∃ kv ∈ o, 1 / 10 ^ 8 ≤ ‖kv.2‖) :
    ∃ s o', toText qubitStyle N le o = .ok s ∧ init qubit qubitStyle N s 1 = .ok o' ∧ WF o' ∧
      ∀ u, coeff o' u = if ‖coeff o u‖ < 1 / 10 ^ 8 then 0 else coeff o u :=
  roundtrip qubit qubitStyle N le o h.1 (fun kv hkv => qubitSimplify_of_canonical (h.2 kv.1 (List.mem_map_of_mem hkv)) _)
    (fun kv hkv f hf => qubit_factor f ((h.2 kv.1 (List.mem_map_of_mem hkv)).2 f hf)) hp hne

/-- C79 for Ising operators. -/
theorem ising_roundtrip_partial (N : Numbers) (le : Term Letter → Term Letter → Bool) (o : Terms Letter) (h : CanonicalOp o) (hz : ∀ kv ∈ o, ∀ f ∈ kv.1, f.2 = .Z)
    (hp : ∀ kv ∈ o, 1 / 10 ^ 8 ≤ ‖kv.2‖ → Prints N kv.2) (hne : ∃ kv ∈ o, 1 / 10 ^ 8 ≤ ‖kv.2‖) :
    ∃ s o', toText isingStyle N le o = .ok s ∧ init ising isingStyle N s 1 = .ok o' ∧ WF o' ∧
      ∀ u, coeff o' u = if ‖coeff o u‖ < 1 / 10 ^ 8 then 0 else coeff o u :=
  roundtrip ising isingStyle N le o h.1 (fun kv hkv => Est.isingSimplify_fixed (h.2 kv.1 (List.mem_map_of_mem hkv)).1 (hz kv hkv) _)
    (fun kv hkv f hf => ising_factor f (hz kv hkv f hf)) hp hne

/-- C79 for fermion operators: any product of ladder operators. -/
theorem fermion_roundtrip_partial (N : Numbers) (le : Term Bool → Term Bool → Bool) (o : Terms Bool) (h : WF o)
    (hp : ∀ kv ∈ o, 1 / 10 ^ 8 ≤ ‖kv.2‖ → Prints N kv.2) (hne : ∃ kv ∈ o, 1 / 10 ^ 8 ≤ ‖kv.2‖) :
    ∃ s o', toText fermionStyle N le o = .ok s ∧ init fermion fermionStyle N s 1 = .ok o' ∧ WF o' ∧
      ∀ u, coeff o' u = if ‖coeff o u‖ < 1 / 10 ^ 8 then 0 else coeff o u :=
  roundtrip fermion fermionStyle N le o h (fun _ _ => rfl) (fun _ _ f _ => fermion_factor f) hp hne

/-- C79, the negation for the zero fermion operator: it is printed as `0`, which is read as the annihilation operator of mode 0. -/
theorem fermion_zero_counterexample (N : Numbers) (le : Term Bool → Term Bool → Bool) :
    toText fermionStyle N le [] = .ok ['0'] ∧ init fermion fermionStyle N ['0'] 1 = .ok [([(0, false)], 1)] := by
  refine ⟨by rw [toText, if_pos rfl], ?_⟩
  rw [init, if_neg (by decide)]
  have : parseString fermionStyle ['0'] = .ok [(0, false)] := by decide
  rw [this]
  rfl

/-- C79, the negation for the zero qubit operator: its text is refused. -/
theorem qubit_zero_counterexample (N : Numbers) (le : Term Letter → Term Letter → Bool) :
    toText qubitStyle N le [] = .ok ['0'] ∧ init qubit qubitStyle N ['0'] 1 = .error .valueError := by
  refine ⟨by rw [toText, if_pos rfl], ?_⟩
  rw [init, if_neg (by decide)]
  have : parseString qubitStyle ['0'] = .error .valueError := by decide
  rw [this]
  rfl

/-- C79, the negation for operators with small terms only: they are printed as the empty text, which is read as the identity. -/
theorem qubit_small_counterexample (N : Numbers) (le : Term Letter → Term Letter → Bool) (t : Term Letter) (c : ℂ) (hc : ‖c‖ < 1 / 10 ^ 8) :
    toText qubitStyle N le [(t, c)] = .ok [] ∧ init qubit qubitStyle N [] 1 = .ok [([], 1)] := by
  constructor
  · rw [toText, if_neg (by simp), List.insertionSort_cons, List.insertionSort_nil, List.orderedInsert_nil, List.filter_cons_of_neg (by
      rw [decide_eq_true_eq, not_not]; exact hc)]
    rfl
  · rw [init, if_neg (by simp)]
    rfl

/-- C79: a coefficient text with a `j` and a leading minus sign is read as the opposite of the rest, so that `-1+2j` is read as `-(1+2j) = -1-2j`. -/
theorem minus_complex_counterexample (N : Numbers) (h : N.complex "1+2j".toList = some (1 + 2 * Complex.I)) :
    readCoef N (coefText "-1+2j ".toList) = .ok (-1 - 2 * Complex.I) := by
  have : coefText "-1+2j ".toList = '-' :: "1+2j".toList := by decide
  rw [this, readCoef, if_neg (by simp), if_neg (by decide), if_pos (by decide), if_pos (show ('-' :: "1+2j".toList).head? = some '-' from rfl), List.tail_cons, h]
  simp only [Option.map_some]
  congr 1
  ring

theorem parseFactor_error {st : Style A} {w : Text} {e : Err} (h : parseFactor st w = .error e) : e = .valueError := by
  have hf : ∀ {s : Text} {e : Err}, findAction st s = .error e → e = .valueError := by
    intro s e h
    rw [findAction] at h
    cases hs : st.table.find? fun e => e.1 = s <;> rw [hs] at h <;> simp_all
  rw [parseFactor] at h
  simp only [bind, Except.bind] at h
  split_ifs at h
  · exact (Except.error.inj h).symm
  · exact (Except.error.inj h).symm
  · split at h
    · next hs => exact (Except.error.inj h) ▸ hf hs
    · cases h
  · exact (Except.error.inj h).symm
  · exact (Except.error.inj h).symm
  · split at h
    · next hs => exact (Except.error.inj h) ▸ hf hs
    · cases h

theorem mapM_error {α β : Type} {f : α → Except Err β} {l : List α} {e : Err} (h : l.mapM f = .error e) : ∃ x ∈ l, f x = .error e := by
  induction l with
  | nil => cases h
  | cons x l ih =>
    rw [List.mapM_cons] at h
    cases hx : f x with
    | error e' =>
      rw [hx] at h
      cases h
      exact ⟨x, by simp, hx⟩
    | ok y =>
      rw [hx] at h
      cases hl : l.mapM f with
      | error e' =>
        rw [hl] at h
        cases h
        obtain ⟨z, h1, h2⟩ := ih hl
        exact ⟨z, by simp [h1], h2⟩
      | ok ys => rw [hl] at h; cases h

theorem parseString_error {st : Style A} {s : Text} {e : Err} (h : parseString st s = .error e) : e = .valueError := by
  obtain ⟨w, _, hw⟩ := mapM_error h
  exact parseFactor_error hw

/-- C79: whatever is wrong with a text, the constructor raises `ValueError`. -/
theorem init_error (S : OpClass A) (st : Style A) (N : Numbers) (s : Text) (c : ℂ) (e : Err) (h : init S st N s c = .error e) : e = .valueError := by
  rw [init] at h
  split_ifs at h with hb
  · rw [longInit] at h
    have : ∀ (l : List (Text × Text)) (acc : Terms A), l.foldlM (longStep S st N c) acc = .error e → e = .valueError := by
      intro l
      induction l with
      | nil => intro acc h; cases h
      | cons m l ih =>
        intro acc h
        rw [List.foldlM_cons] at h
        cases hm : longStep S st N c acc m with
        | ok acc' => rw [hm] at h; exact ih acc' h
        | error e' =>
          rw [hm] at h
          cases h
          rw [longStep] at hm
          cases hr : readCoef N (coefText m.1) with
          | error e'' =>
            rw [hr] at hm
            cases hm
            rw [readCoef] at hr
            split_ifs at hr
            all_goals
              split at hr
              · cases hr
              · exact (Except.error.inj hr).symm
          | ok k =>
            rw [hr] at hm
            cases hp : parseString st m.2 with
            | error e'' =>
              have hm' : (Except.error e'' : Except Err (Terms A)) = .error e := by rw [← hm]; change _ = (parseString st m.2 >>= _); rw [hp]; rfl
              cases hm'
              exact parseString_error hp
            | ok t =>
              exfalso
              have hm' : (parseString st m.2 >>= fun t => .ok (accum acc (S.simplify t (k * c)).2 (S.simplify t (k * c)).1)) = .error e := hm
              rw [hp] at hm'
              cases hm'
    exact this _ _ h
  · cases hp : parseString st s with
    | error e' => rw [hp] at h; cases h; exact parseString_error hp
    | ok t => rw [hp] at h; cases h

/-! ### Concrete cases -/

/-- Python's printing and reading of `2.0`, of `-0.5j` and of `(1+2j)`. -/
noncomputable def sampleNumbers : Numbers where
  float s := if s = ['2', '.', '0'] then some 2 else none
  complex s := if s = ['0', '.', '5', 'j'] then some (Complex.I / 2) else if s = ['(', '1', '+', '2', 'j', ')'] then some (1 + 2 * Complex.I) else none
  print c := by
    classical
    exact if c = 2 then ['2', '.', '0'] else if c = -(Complex.I / 2) then ['-', '0', '.', '5', 'j'] else ['(', '1', '+', '2', 'j', ')']

theorem sample_prints : Prints sampleNumbers 2 ∧ Prints sampleNumbers (-(Complex.I / 2)) ∧ Prints sampleNumbers (1 + 2 * Complex.I) := by
  have p1 : sampleNumbers.print 2 = ['2', '.', '0'] := by simp [sampleNumbers]
  have n2 : -(Complex.I / 2) ≠ (2 : ℂ) := fun h => by simpa using congrArg Complex.re h
  have p2 : sampleNumbers.print (-(Complex.I / 2)) = ['-', '0', '.', '5', 'j'] := by simp [sampleNumbers, n2]
  have n3 : (1 + 2 * Complex.I : ℂ) ≠ 2 := fun h => by simpa using congrArg Complex.im h
  have n4 : (1 + 2 * Complex.I : ℂ) ≠ -(Complex.I / 2) := fun h => by simpa using congrArg Complex.re h
  have p3 : sampleNumbers.print (1 + 2 * Complex.I) = ['(', '1', '+', '2', 'j', ')'] := by simp only [sampleNumbers]; rw [if_neg n3, if_neg n4]
  refine ⟨⟨?_, ?_, ?_, ?_, ?_, ?_, ?_, ?_⟩, ⟨?_, ?_, ?_, ?_, ?_, ?_, ?_, ?_⟩, ⟨?_, ?_, ?_, ?_, ?_, ?_, ?_, ?_⟩⟩
  · rw [p1]; decide
  · rw [p1]; decide
  · rw [p1]; decide
  · rw [p1]; decide
  · rw [p1]; decide
  · intro _; rw [p1, sampleNumbers]; dsimp only; rw [if_pos rfl]
  · intro h; rw [p1] at h; exact absurd h (by decide)
  · intro h; rw [p1] at h; exact absurd h (by decide)
  · rw [p2]; decide
  · rw [p2]; decide
  · rw [p2]; decide
  · rw [p2]; decide
  · rw [p2]; decide
  · intro h; rw [p2] at h; exact absurd h (by decide)
  · intro _ h; rw [p2] at h; exact absurd rfl h
  · intro _ _; rw [p2, neg_neg, sampleNumbers]; dsimp only [List.tail_cons]; rw [if_pos rfl]
  · rw [p3]; decide
  · rw [p3]; decide
  · rw [p3]; decide
  · rw [p3]; decide
  · rw [p3]; decide
  · intro h; rw [p3] at h; exact absurd h (by decide)
  · intro _ _; rw [p3, sampleNumbers]; dsimp only; rw [if_neg (by decide), if_pos rfl]
  · intro _ h; rw [p3] at h; exact absurd h (by decide)

/-- `2.0 [X0 Y12] + -0.5j []` is printed and read back. -/
example : ∃ s o', toText qubitStyle sampleNumbers (fun _ _ => true) [([(0, Letter.X), (12, Letter.Y)], 2), ([], -(Complex.I / 2))] = .ok s ∧
    init qubit qubitStyle sampleNumbers s 1 = .ok o' ∧ WF o' ∧ coeff o' [(0, Letter.X), (12, Letter.Y)] = 2 ∧ coeff o' [] = -(Complex.I / 2) := by
  obtain ⟨s, o', h1, h2, h3, h4⟩ := qubit_roundtrip_partial sampleNumbers (fun _ _ => true) [([(0, Letter.X), (12, Letter.Y)], 2), ([], -(Complex.I / 2))]
    ⟨by simp [WF, keys], by intro t ht; simp only [keys, List.map_cons, List.map_nil, List.mem_cons, List.not_mem_nil, or_false] at ht; rcases ht with rfl | rfl <;>
      simp [Canonical]⟩
    (by
      intro kv hkv _
      simp only [List.mem_cons, List.not_mem_nil, or_false] at hkv
      rcases hkv with rfl | rfl
      · exact sample_prints.1
      · exact sample_prints.2.1)
    ⟨_, List.mem_cons_self, by norm_num⟩
  refine ⟨s, o', h1, h2, h3, ?_, ?_⟩
  · rw [h4]; simp [coeff, get?]; norm_num
  · rw [h4]; simp [coeff, get?]; norm_num

/-- `X0` and `2^` are words; `X-1` and `-1^` are not. -/
example : parseFactor qubitStyle "X07".toList = .ok (7, .X) ∧ parseFactor fermionStyle "2^".toList = .ok (2, true) ∧
    parseFactor qubitStyle "X-1".toList = .error .valueError ∧ parseFactor fermionStyle "-1^".toList = .error .valueError := by decide

end ZQ.OpStr
