import Verif.Lemmas.Distribution

/-! Decimal printing and parsing of outcome tuples. -/

namespace ZQ.Dist

open ZQ.Bits

theorem mapM_some_append {α β : Type} (f : α → Option β) (a b : List α) {x y : List β}
    (ha : a.mapM f = some x) (hb : b.mapM f = some y) : (a ++ b).mapM f = some (x ++ y) := by
  rw [List.mapM_append, ha, hb]; rfl

/-- The decimal digits of `n`, most significant first. -/
def digs (n : ℕ) : List ℕ :=
  if _h : n < 10 then [n] else digs (n / 10) ++ [n % 10]
termination_by n
decreasing_by omega

theorem pyStr_digs (n : ℕ) : pyStr n = (digs n).map digitChar := by
  induction n using Nat.strong_induction_on with
  | _ n ih =>
    rw [pyStr, digs]
    by_cases h : n < 10
    · rw [dif_pos h, dif_pos h]; rfl
    · rw [dif_neg h, dif_neg h, ih (n / 10) (by omega)]; simp

theorem digs_lt (n : ℕ) : ∀ d ∈ digs n, d < 10 := by
  induction n using Nat.strong_induction_on with
  | _ n ih =>
    rw [digs]
    by_cases h : n < 10
    · rw [dif_pos h]; simpa using h
    · rw [dif_neg h]
      intro d hd
      rcases List.mem_append.1 hd with hd | hd
      · exact ih (n / 10) (by omega) d hd
      · simp at hd; omega

theorem digs_ne_nil (n : ℕ) : digs n ≠ [] := by
  rw [digs]; split <;> simp

theorem digs_value (n : ℕ) : (digs n).foldl (fun acc d => 10 * acc + d) 0 = n := by
  induction n using Nat.strong_induction_on with
  | _ n ih =>
    rw [digs]
    by_cases h : n < 10
    · rw [dif_pos h]; simp
    · rw [dif_neg h, List.foldl_append, ih (n / 10) (by omega)]
      simp only [List.foldl_cons, List.foldl_nil]; omega

theorem mapM_charInt (l : List ℕ) (h : ∀ d ∈ l, d < 10) : (l.map digitChar).mapM charInt = some l := by
  induction l with
  | nil => rfl
  | cons d l ih =>
    rw [List.map_cons, List.mapM_cons, charInt_digitChar d (h d (by simp)),
      ih (fun x hx => h x (by simp [hx]))]
    rfl

theorem digitChar_toNat {d : ℕ} (h : d < 10) : (digitChar d).toNat = 48 + d := by
  interval_cases d <;> rfl

theorem mem_pyStr {n : ℕ} {c : Char} (h : c ∈ pyStr n) : 48 ≤ c.toNat ∧ c.toNat ≤ 57 := by
  rw [pyStr_digs] at h
  obtain ⟨d, hd, rfl⟩ := List.mem_map.1 h
  have := digs_lt n d hd
  rw [digitChar_toNat this]; omega

theorem pyStr_ne_nil (n : ℕ) : pyStr n ≠ [] := by
  rw [pyStr_digs]; simpa using digs_ne_nil n

theorem pyIntDigits_pyStr (n : ℕ) : pyIntDigits (pyStr n) = some n := by
  have h : (pyStr n).mapM charInt = some (digs n) := by
    rw [pyStr_digs]; exact mapM_charInt _ (digs_lt n)
  have hne := pyStr_ne_nil n
  cases hs : pyStr n with
  | nil => exact absurd hs hne
  | cons c s =>
    rw [hs] at h
    rw [pyIntDigits, h]
    · simp [digs_value]
    · simp

theorem pyInt_pyStr (n : ℕ) : pyInt (pyStr n) = some (n : ℤ) := by
  have h := pyIntDigits_pyStr n
  unfold pyInt
  split
  · next s hs =>
    have : '-' ∈ pyStr n := by rw [hs]; simp
    have := (mem_pyStr this).1
    exact absurd this (by decide)
  · rw [h]; rfl

theorem pyInt_intStr (z : ℤ) : pyInt (intStr z) = some z := by
  cases z with
  | ofNat n => exact pyInt_pyStr n
  | negSucc n =>
    show pyInt ('-' :: pyStr (n + 1)) = _
    rw [pyInt, pyIntDigits_pyStr]; rfl

theorem comma_not_mem_intStr (z : ℤ) : ',' ∉ intStr z := by
  have key : ∀ n, ',' ∉ pyStr n := fun n h => absurd (mem_pyStr h).1 (by decide)
  cases z with
  | ofNat n => exact key n
  | negSucc n => show ',' ∉ ('-' :: pyStr (n + 1)); simp [key]

theorem splitComma_ne_nil (s : List Char) : splitComma s ≠ [] := by
  cases s with
  | nil => simp [splitComma]
  | cons c s => rw [splitComma]; split
                · simp
                · split <;> simp

theorem splitComma_append (w s : List Char) (h : ',' ∉ w) :
    splitComma (w ++ ',' :: s) = w :: splitComma s := by
  induction w with
  | nil => simp [splitComma]
  | cons c w ih =>
    rw [List.mem_cons, not_or] at h
    rw [List.cons_append, splitComma, if_neg (Ne.symm h.1), ih h.2]

theorem splitComma_single (w : List Char) (h : ',' ∉ w) : splitComma w = [w] := by
  induction w with
  | nil => rfl
  | cons c w ih =>
    rw [List.mem_cons, not_or] at h
    rw [splitComma, if_neg (Ne.symm h.1), ih h.2]

theorem splitComma_join : ∀ (ws : List (List Char)), ws ≠ [] → (∀ w ∈ ws, ',' ∉ w) →
    splitComma (joinComma ws) = ws
  | [], h, _ => absurd rfl h
  | [w], _, hw => splitComma_single w (hw w (by simp))
  | w :: v :: ws, _, hw => by
    rw [joinComma, splitComma_append w _ (hw w (by simp)),
      splitComma_join (v :: ws) (by simp) (fun u hu => hw u (by simp [hu]))]
    simp

theorem comma_mem_join : ∀ (ws : List (List Char)), 2 ≤ ws.length → ',' ∈ joinComma ws
  | [], h => by simp at h
  | [w], h => by simp at h
  | w :: v :: ws, _ => by rw [joinComma]; simp; simp

theorem mapM_pyInt_intStr (t : List ℤ) : (t.map intStr).mapM pyInt = some t := by
  induction t with
  | nil => rfl
  | cons z t ih => rw [List.map_cons, List.mapM_cons, pyInt_intStr, ih]; rfl

/-- A printed outcome is parsed back when it has at least two entries, or entries of one digit. -/
theorem preprocess_commaKey (t : List ℤ) (h : 2 ≤ t.length ∨ ∀ z ∈ t, 0 ≤ z ∧ z < 10) :
    preprocessKey (commaKey (.tup t)) = .ok t := by
  rw [commaKey, preprocessKey]
  rcases Nat.lt_or_ge t.length 2 with hl | hl
  · have hz := h.resolve_left (by omega)
    match t, hl with
    | [], _ => rfl
    | [z], _ =>
      obtain ⟨h0, h9⟩ := hz z (by simp)
      obtain ⟨n, rfl⟩ := Int.eq_ofNat_of_zero_le h0
      have hn : n < 10 := by omega
      have hs : intStr (n : ℤ) = [digitChar n] := by
        show pyStr n = _
        rw [pyStr, dif_pos hn]
      have hc := comma_not_mem_intStr (n : ℤ)
      simp only [List.map_cons, List.map_nil, joinComma]
      rw [hs] at hc ⊢
      rw [if_pos hc]
      have := pyInt_intStr (n : ℤ)
      rw [hs] at this
      simp only [List.map_cons, List.map_nil, List.mapM_cons, List.mapM_nil, this]
      rfl
  · have hc : ',' ∈ joinComma (t.map intStr) := comma_mem_join _ (by simpa using hl)
    rw [if_neg (by simpa using hc), splitComma_join _ (by
      intro e; rw [List.map_eq_nil_iff] at e; subst e; simp at hl) (by
      intro w hw; obtain ⟨z, _, rfl⟩ := List.mem_map.1 hw; exact comma_not_mem_intStr z),
      mapM_pyInt_intStr]

end ZQ.Dist
