import Verif.Model.Measurement
import Verif.Spec.Measurement
import Verif.Lemmas.CommaKeys

/-! Lemmas about measurements. -/

namespace ZQ.Meas

open ZQ.Bits ZQ.PyDict

theorem toStr_digit (t : List ℕ) (h : ∀ b ∈ t, b < 10) : (t.map pyStr).flatten = digitString t := by
  induction t with
  | nil => rfl
  | cons b t ih =>
    rw [List.map_cons, List.flatten_cons, ih (fun x hx => h x (by simp [hx])), pyStr, dif_pos (h b (by simp))]
    rfl

theorem tuplesToBitstrings_eq (m : List (List ℕ)) (h : ∀ t ∈ m, ∀ b ∈ t, b < 10) :
    tuplesToBitstrings m = m.map digitString := by
  unfold tuplesToBitstrings
  exact List.map_congr_left fun t ht => toStr_digit t (h t ht)

theorem mapM_charInt_digitString (t : List ℕ) (h : ∀ b ∈ t, b < 10) : (digitString t).mapM charInt = some t :=
  Dist.mapM_charInt t h

theorem digitString_of_mapM {s : List Char} {t : List ℕ} (h : s.mapM charInt = some t) :
    digitString t = s ∧ (t.map pyStr).flatten = s := by
  have h1 : bitstringsToTuples [s] = some [t] := by
    unfold bitstringsToTuples; rw [List.mapM_cons, h]; rfl
  have h2 := bitstrings_roundtrip _ _ h1
  have h3 : (t.map pyStr).flatten = s := by simpa [tuplesToBitstrings] using h2
  refine ⟨?_, h3⟩
  rw [← h3, toStr_digit]
  intro b hb
  rw [mapM_some_iff] at h
  clear h1 h2 h3
  induction h with
  | nil => simp at hb
  | cons h1 _ ih =>
    rcases List.mem_cons.1 hb with rfl | hb
    · exact (digitChar_charInt _ _ h1).1
    · exact ih hb

theorem digitString_inj {a b : List ℕ} (ha : ∀ x ∈ a, x < 10) (hb : ∀ x ∈ b, x < 10)
    (h : digitString a = digitString b) : a = b := by
  have h1 := mapM_charInt_digitString a ha
  rw [h, mapM_charInt_digitString b hb] at h1
  injection h1 with h1
  exact h1.symm

/-! ### Parities -/

theorem checkParityLoop_eq (b : List ℕ) (marked : List ℕ) (h : ∀ q ∈ marked, q < b.length) (r : Bool) :
    checkParityLoop b marked r = some (if Even (onesOn marked b) then r else !r) := by
  induction marked generalizing r with
  | nil => simp [checkParityLoop, onesOn]
  | cons q qs ih =>
    have hq := h q (by simp)
    have hqs := ih (fun x hx => h x (by simp [hx]))
    rw [checkParityLoop, List.getElem?_eq_getElem hq]
    simp only []
    rw [hqs]
    have e : b.getD q 0 = b[q] := by simp [List.getD, List.getElem?_eq_getElem hq]
    by_cases h1 : b[q] = 1
    · have ho : onesOn (q :: qs) b = onesOn qs b + 1 := by
        unfold onesOn; rw [List.filter_cons_of_pos (by rw [e, h1]; simp)]; simp
      rw [if_pos h1, ho]
      by_cases he : Even (onesOn qs b)
      · rw [if_pos he, if_neg (by rw [Nat.even_add_one]; simpa using he)]
      · rw [if_neg he, if_pos (by rw [Nat.even_add_one]; simpa using he), Bool.not_not]
    · have ho : onesOn (q :: qs) b = onesOn qs b := by
        unfold onesOn; rw [List.filter_cons_of_neg (by rw [e]; simpa using h1)]
      rw [if_neg h1, ho]

theorem bits_sum_eq (row marked : List ℕ) (hb : ∀ b ∈ row, b = 0 ∨ b = 1) (h : ∀ q ∈ marked, q < row.length) :
    (marked.mapM fun q => row[q]?) = some (marked.map fun q => row.getD q 0) ∧
    (marked.map fun q => row.getD q 0).sum = onesOn marked row := by
  constructor
  · refine mapM_some_of _ _ _ fun q hq => ?_
    have := h q hq
    simp [List.getD, List.getElem?_eq_getElem this]
  · induction marked with
    | nil => rfl
    | cons q qs ih =>
      have hq := h q (by simp)
      have e : row.getD q 0 = row[q] := by simp [List.getD, List.getElem?_eq_getElem hq]
      rw [List.map_cons, List.sum_cons, ih (fun x hx => h x (by simp [hx]))]
      rcases hb row[q] (List.getElem_mem hq) with h0 | h1
      · rw [e, h0]; unfold onesOn; rw [List.filter_cons_of_neg (by rw [e, h0]; simp)]; simp
      · rw [e, h1]; unfold onesOn; rw [List.filter_cons_of_pos (by rw [e, h1]; simp)]; simp [Nat.add_comm]

/-- 1 if an even number of the marked qubits is in state 1, else 0. -/
def evenBit (marked s : List ℕ) : ℕ := if Even (onesOn marked s) then 1 else 0

theorem checkParityOfVector_eq (n : ℕ) (rows : List (List ℕ)) (marked : List ℕ) (hb : Bitstrings n rows)
    (hq : ∀ q ∈ marked, q < n) (hne : rows ≠ [] ∨ marked = []) :
    checkParityOfVector rows marked = .ok (rows.map fun s => evenBit marked s) := by
  unfold checkParityOfVector
  by_cases hm : marked = []
  · subst hm
    rw [if_pos rfl]
    simp [evenBit, onesOn]
  · rw [if_neg hm, if_neg (hne.resolve_right hm)]
    have : ∀ row ∈ rows, parityRow marked row = .ok (evenBit marked row) := by
      intro row hr
      unfold parityRow
      obtain ⟨hl, hbits⟩ := hb row hr
      obtain ⟨h1, h2⟩ := bits_sum_eq row marked hbits (fun q h => hl ▸ hq q h)
      rw [h1]
      simp only []
      rw [h2, evenBit]
      by_cases he : Even (onesOn marked row)
      · rw [if_pos he]; obtain ⟨k, hk⟩ := he; congr 1; omega
      · rw [if_neg he]; rw [Nat.not_even_iff_odd] at he; obtain ⟨k, hk⟩ := he; congr 1; omega
    clear hne hb
    induction rows with
    | nil => rfl
    | cons r rows ih =>
      rw [List.mapM_cons, this r (by simp), ih (fun row h => this row (by simp [h]))]; rfl

theorem termSpin_eq (marked s : List ℕ) : termSpin marked s = (evenBit marked s : ℝ) * 2 - 1 := by
  unfold evenBit
  induction marked with
  | nil => simp [termSpin, onesOn]; norm_num
  | cons q qs ih =>
    have e : termSpin (q :: qs) s = spin (s.getD q 0) * termSpin qs s := by
      simp [termSpin]
    rw [e, ih]
    unfold spin
    by_cases h1 : s.getD q 0 = 1
    · have ho : onesOn (q :: qs) s = onesOn qs s + 1 := by
        unfold onesOn; rw [List.filter_cons_of_pos (by simpa using h1)]; simp
      rw [if_pos h1, ho]
      by_cases he : Even (onesOn qs s)
      · rw [if_pos he, if_neg (by rw [Nat.even_add_one]; simpa using he)]; norm_num
      · rw [if_neg he, if_pos (by rw [Nat.even_add_one]; simpa using he)]; norm_num
    · have ho : onesOn (q :: qs) s = onesOn qs s := by
        unfold onesOn; rw [List.filter_cons_of_neg (by simpa using h1)]
      rw [if_neg h1, ho, one_mul]

theorem spin_sq (b : ℕ) : spin b * spin b = 1 := by unfold spin; split_ifs <;> norm_num

theorem termSpin_sq (t s : List ℕ) : termSpin t s * termSpin t s = 1 := by
  induction t with
  | nil => simp [termSpin]
  | cons q t ih =>
    have e : termSpin (q :: t) s = spin (s.getD q 0) * termSpin t s := by simp [termSpin]
    rw [e, mul_mul_mul_comm, spin_sq, ih, one_mul]

theorem termSpin_abs (t s : List ℕ) : |termSpin t s| = 1 := by
  have := termSpin_sq t s
  rw [← abs_mul_abs_self] at this
  nlinarith [abs_nonneg (termSpin t s)]

theorem termSpin_append (a b s : List ℕ) : termSpin (a ++ b) s = termSpin a s * termSpin b s := by
  simp [termSpin]

theorem termSpin_perm {a b : List ℕ} (h : a.Perm b) (s : List ℕ) : termSpin a s = termSpin b s := by
  unfold termSpin; exact (h.map _).prod_eq

/-- The product term lives on the symmetric difference of the qubits. -/
theorem termSpin_symDiff (a b s : List ℕ) (ha : a.Nodup) (hb : b.Nodup) :
    termSpin (symDiff a b) s = termSpin a s * termSpin b s := by
  unfold symDiff
  rw [ha.dedup, hb.dedup, termSpin_append]
  have split : ∀ (l : List ℕ) (p : ℕ → Prop) [DecidablePred p],
      termSpin l s = termSpin (l.filter (fun x => ¬ p x)) s * termSpin (l.filter (fun x => p x)) s := by
    intro l p _
    induction l with
    | nil => simp [termSpin]
    | cons q l ih =>
      have e : ∀ l, termSpin (q :: l) s = spin (s.getD q 0) * termSpin l s := by intro l; simp [termSpin]
      rw [e, ih]
      by_cases hp : p q
      · rw [List.filter_cons_of_neg (by simpa using hp), List.filter_cons_of_pos (by simpa using hp), e]; ring
      · rw [List.filter_cons_of_pos (by simpa using hp), List.filter_cons_of_neg (by simpa using hp), e]; ring
  have hperm : (a.filter (fun x => x ∈ b)).Perm (b.filter (fun x => x ∈ a)) := by
    refine (List.perm_ext_iff_of_nodup (ha.filter _) (hb.filter _)).2 fun x => ?_
    simp [and_comm]
  rw [split a (· ∈ b), split b (· ∈ a), termSpin_perm hperm]
  have h := termSpin_sq (b.filter (fun x => x ∈ a)) s
  linear_combination (-termSpin (a.filter (fun x => ¬ x ∈ b)) s * termSpin (b.filter (fun x => ¬ x ∈ a)) s) * h

/-! ### Frequencies -/

theorem chunks_flatten (n : ℕ) (hn : 0 < n) (ls : List (List ℕ)) (h : ∀ l ∈ ls, l.length = n) :
    chunks n ls.flatten = ls ∧ ls.flatten.length = n * ls.length := by
  have hlen : ∀ ls : List (List ℕ), (∀ l ∈ ls, l.length = n) → ls.flatten.length = n * ls.length := by
    intro ls h
    induction ls with
    | nil => rfl
    | cons l ls ih =>
      rw [List.flatten_cons, List.length_append, ih (fun x hx => h x (by simp [hx])), h l (by simp),
        List.length_cons]; ring
  refine ⟨?_, hlen ls h⟩
  unfold chunks
  rw [hlen ls h, Nat.mul_div_cancel_left _ hn]
  induction ls with
  | nil => rfl
  | cons l ls ih =>
    have ih := ih (fun x hx => h x (by simp [hx]))
    rw [List.length_cons, List.range_succ_eq_map, List.map_cons, List.map_map]
    congr 1
    · simp [h l (by simp)]
    · conv_rhs => rw [← ih]
      refine List.map_congr_left fun i _ => ?_
      simp only [Function.comp]
      congr 1
      rw [List.flatten_cons, Nat.succ_eq_add_one, add_mul, one_mul, Nat.add_comm, ← List.drop_drop]
      congr 1
      rw [← h l (by simp), List.drop_left]

theorem decode_digitString (t : List ℕ) (h : ∀ b ∈ t, b < 10) :
    (digitString t).map (fun c => c.toNat - 48) = t := by
  unfold digitString
  rw [List.map_map]
  conv_rhs => rw [← List.map_id t]
  refine List.map_congr_left fun b hb => ?_
  have := Dist.digitChar_toNat (h b hb)
  simp only [Function.comp, id]
  rw [digitChar] at this
  rw [this]; omega

theorem bits_lt_ten {n : ℕ} {m : List (List ℕ)} (h : Bitstrings n m) : ∀ t ∈ m, ∀ b ∈ t, b < 10 :=
  fun t ht b hb => by rcases (h t ht).2 b hb with h | h <;> omega

theorem zipWith_map_self {α β γ : Type} (f : α → β → γ) (g : δ → α) (h : δ → β) (l : List δ) :
    (l.map g).zipWith f (l.map h) = l.map fun x => f (g x) (h x) := by
  induction l with
  | nil => rfl
  | cons x l ih => simp [ih]

theorem bitstringsToVector_counts (n : ℕ) (hn : 0 < n) (m : List (List ℕ)) (hne : m ≠ []) (hb : Bitstrings n m) :
    bitstringsToVector (keys (getCounts m)) = .ok ((keys (getCounts m)).map fun s => s.map fun c => c.toNat - 48) := by
  have hkey : ∀ s ∈ keys (getCounts m), s.length = n := by
    intro s hs
    unfold getCounts at hs
    rw [mem_keys_counter, tuplesToBitstrings_eq m (bits_lt_ten hb)] at hs
    obtain ⟨t, ht, rfl⟩ := List.mem_map.1 hs
    simp [digitString, (hb t ht).1]
  have hkne : keys (getCounts m) ≠ [] := by
    obtain ⟨t, ht⟩ := List.exists_mem_of_ne_nil m hne
    have : digitString t ∈ keys (getCounts m) := by
      unfold getCounts
      rw [mem_keys_counter, tuplesToBitstrings_eq m (bits_lt_ten hb)]
      exact List.mem_map.2 ⟨t, ht, rfl⟩
    exact List.ne_nil_of_mem this
  generalize keys (getCounts m) = ks at hkey hkne
  cases ks with
  | nil => exact absurd rfl hkne
  | cons b bs =>
    unfold bitstringsToVector
    simp only []
    have hbl : b.length = n := hkey b (by simp)
    have hfl : ((b :: bs).flatten.map fun c => c.toNat - 48)
        = ((b :: bs).map fun s => s.map fun c => c.toNat - 48).flatten := by
      rw [List.map_flatten]
    have hc := chunks_flatten n hn ((b :: bs).map fun s => s.map fun c => c.toNat - 48) (by
      intro l hl
      obtain ⟨s, hs, rfl⟩ := List.mem_map.1 hl
      simp [hkey s hs])
    rw [hbl, if_neg (by omega), hfl, if_neg (by rw [hc.2]; simp), hc.1]

/-- The frequency based average equals the average over the samples. -/
theorem expectation_eq_mean (n : ℕ) (hn : 0 < n) (m : List (List ℕ)) (hne : m ≠ []) (hb : Bitstrings n m)
    (marked : List ℕ) (hq : ∀ q ∈ marked, q < n) :
    expectationFromFrequencies marked (getCounts m) = .ok (mean (termSpin marked) m) := by
  have hd := bits_lt_ten hb
  set dec : List Char → List ℕ := fun s => s.map fun c => c.toNat - 48 with hdec
  have hdecm : ∀ t ∈ m, dec (digitString t) = t := fun t ht => decode_digitString t (hd t ht)
  have hrows : Bitstrings n ((keys (getCounts m)).map dec) := by
    intro r hr
    obtain ⟨s, hs, rfl⟩ := List.mem_map.1 hr
    unfold getCounts at hs
    rw [mem_keys_counter, tuplesToBitstrings_eq m hd] at hs
    obtain ⟨t, ht, rfl⟩ := List.mem_map.1 hs
    rw [hdecm t ht]; exact hb t ht
  have hkne : (keys (getCounts m)).map dec ≠ [] := by
    obtain ⟨t, ht⟩ := List.exists_mem_of_ne_nil m hne
    have : digitString t ∈ keys (getCounts m) := by
      unfold getCounts
      rw [mem_keys_counter, tuplesToBitstrings_eq m hd]
      exact List.mem_map.2 ⟨t, ht, rfl⟩
    exact List.ne_nil_of_mem (List.mem_map.2 ⟨_, this, rfl⟩)
  unfold expectationFromFrequencies
  rw [bitstringsToVector_counts n hn m hne hb]
  show (do
    let par ← checkParityOfVector ((keys (getCounts m)).map dec) marked
    _) = _
  rw [checkParityOfVector_eq n _ marked hrows hq (Or.inl hkne)]
  have htot : (values (getCounts m)).sum = m.length := by
    unfold getCounts; rw [sum_counter_values]; simp [tuplesToBitstrings]
  have hml : m.length ≠ 0 := by simpa using hne
  show (if (values (getCounts m)).sum = 0 then _ else _) = _
  rw [if_neg (by rw [htot]; exact hml), htot]
  show Except.ok _ = _
  congr 1
  rw [List.map_map, values, keys, List.map_map, zipWith_map_self]
  have := sum_counter (fun s => termSpin marked (dec s) / (m.length : ℝ)) (tuplesToBitstrings m)
  have e1 : ((getCounts m).map fun x : List Char × ℕ =>
      (x.2 : ℝ) * ((((fun s => evenBit marked s) ∘ dec) ∘ Prod.fst) x * 2 - 1) / (m.length : ℝ))
      = (counter (tuplesToBitstrings m)).map fun kv => kv.2 • (termSpin marked (dec kv.1) / (m.length : ℝ)) := by
    refine List.map_congr_left fun kv _ => ?_
    rw [nsmul_eq_mul, termSpin_eq]
    simp only [Function.comp]
    ring
  rw [e1, this, tuplesToBitstrings_eq m hd, List.map_map, mean, div_eq_mul_inv, ← List.sum_map_mul_right]
  congr 1
  refine List.map_congr_left fun t ht => ?_
  simp only [Function.comp]
  rw [hdecm t ht, div_eq_mul_inv]

end ZQ.Meas
