import Verif.Lemmas.Wavefunction
import Mathlib.Data.List.Sort
import Mathlib.Tactic.IntervalCases

/-!
# C22, C19: integer/bitstring conversions and amplitude flipping
-/

namespace ZQ.Bits

/-! ## C22 -/

/-- C22: a number below `2^w` is written by `dec2bin` as exactly `w` binary digits, digit `q` (from the left)
being the bit of weight `2^(w-1-q)`, and `bin2dec` reads the number back. -/
theorem dec2bin_spec (n w : ℕ) (hw : 0 < w) (h : n < 2 ^ w) :
    ∃ l, dec2bin n w = some l ∧ l.length = w ∧
      (∀ q, q < w → l[q]? = some (n / 2 ^ (w - 1 - q) % 2)) ∧
      bin2dec (l.map (fun d : ℕ => (d : ℤ))) = n := by
  have hl := (pyBin_length_le_iff n w hw).2 h
  have key : dec2bin n w = some (zfill w (pyBin n)) := by
    unfold dec2bin zfill
    rw [if_neg (by omega)]
    by_cases h1 : (pyBin n).length < w
    · simp [h1]
    · have : w - (pyBin n).length = 0 := by omega
      simp [h1, this]
  refine ⟨_, key, ?_, ?_, ?_⟩
  · rw [zfill_pyBin w n hw h]; simp
  · intro q hq
    rw [zfill_pyBin w n hw h, List.getElem?_eq_getElem (by simpa using hq), toBits_getElem]
  · rw [bin2dec_cast, zfill_pyBin w n hw h, pyInt2_toBits, Nat.mod_eq_of_lt h]

example : (0 : ℕ) < 3 ∧ 5 < 2 ^ 3 ∧ dec2bin 5 3 = some [1, 0, 1] := by decide +kernel

/-- C22: reading a non-empty binary list with `bin2dec` and writing it with the same length gives it back. -/
theorem dec2bin_bin2dec (l : List ℕ) (hne : l ≠ []) (h : ∀ d ∈ l, d = 0 ∨ d = 1) :
    ∃ n : ℕ, bin2dec (l.map (fun d : ℕ => (d : ℤ))) = n ∧ dec2bin n l.length = some l := by
  have hd : ∀ d ∈ l, d < 2 := fun d hd => by rcases h d hd with h | h <;> omega
  refine ⟨pyInt2 l, bin2dec_cast l, ?_⟩
  have hw : 0 < l.length := List.length_pos_of_ne_nil hne
  have hlt := pyInt2_lt l hd
  have hl := (pyBin_length_le_iff _ _ hw).2 hlt
  have hz := zfill_pyBin l.length _ hw hlt
  rw [toBits_pyInt2 l hd] at hz
  unfold dec2bin
  rw [if_neg (by omega)]
  by_cases h1 : (pyBin (pyInt2 l)).length < l.length
  · simp only [h1, if_true]; rw [← zfill, hz]
  · have h2 : l.length - (pyBin (pyInt2 l)).length = 0 := by omega
    simp only [h1, if_false]
    rw [zfill, h2, List.replicate_zero, List.nil_append] at hz
    rw [hz]

example : [0, 1, 1] ≠ ([] : List ℕ) ∧ ∀ d ∈ [0, 1, 1], d = 0 ∨ d = 1 := by decide

/-- C22 (partial): numbers strictly above `2^w` are rejected by `dec2bin`.  Missing for the full claim
("every number that does not fit is reported"): the boundary `n = 2^w`, where the code is wrong, see
`dec2bin_boundary_counterexample`. -/
theorem dec2bin_rejects_partial (n w : ℕ) (h : 2 ^ w < n) : dec2bin n w = none := by
  unfold dec2bin; rw [if_pos h]

example : 2 ^ 2 < 7 := by decide

/-- C22, disagreement: the number `2^w` does not fit in `w` bits, yet `dec2bin` accepts it, for every `w`,
and returns `w + 1` digits. -/
theorem dec2bin_boundary_counterexample (w : ℕ) :
    ∃ l, dec2bin (2 ^ w) w = some l ∧ l.length = w + 1 := by
  have hlen : (pyBin (2 ^ w)).length = w + 1 := by
    have h1 := (pyBin_length_le_iff (2 ^ w) (w + 1) (by omega)).2 (by rw [pow_succ]; have := Nat.two_pow_pos w; omega)
    rcases Nat.eq_zero_or_pos w with rfl | hw
    · have := pyBin_length_pos (2 ^ 0); omega
    · have h2 := (pyBin_length_le_iff (2 ^ w) w hw).not.2 (by omega)
      omega
  refine ⟨pyBin (2 ^ w), ?_, hlen⟩
  unfold dec2bin
  rw [if_neg (by omega)]
  simp [hlen]

/-- C22: what `dec2bin` accepts is exactly `n ≤ 2^w`, and it always encodes the number faithfully. -/
theorem dec2bin_accepts_iff (n w : ℕ) : (dec2bin n w).isSome ↔ n ≤ 2 ^ w := by
  unfold dec2bin
  split
  · simp; omega
  · dsimp only
    split <;> simp <;> omega

/-- C22: whatever `dec2bin` returns is binary and evaluates to the number. -/
theorem dec2bin_sound (n w : ℕ) (l : List ℕ) (h : dec2bin n w = some l) :
    (∀ d ∈ l, d = 0 ∨ d = 1) ∧ bin2dec (l.map (fun d : ℕ => (d : ℤ))) = n ∧ w ≤ l.length := by
  unfold dec2bin at h
  split at h
  · cases h
  · dsimp only at h
    split at h
    · simp only [Option.some.injEq] at h
      subst h
      refine ⟨?_, ?_, ?_⟩
      · intro d hd
        rw [List.mem_append, List.mem_replicate] at hd
        rcases hd with ⟨_, rfl⟩ | hd
        · left; rfl
        · have := pyBin_digit n d hd; omega
      · rw [bin2dec_cast, pyInt2_replicate_zero, pyInt2_pyBin]
      · simp; omega
    · simp only [Option.some.injEq] at h
      subst h
      refine ⟨?_, ?_, by omega⟩
      · intro d hd
        have := pyBin_digit n d hd; omega
      · rw [bin2dec_cast, pyInt2_pyBin]

/-- C22: `bin2dec` is the positional value with the first element most significant, for any integer digits. -/
theorem bin2dec_spec (l : List ℤ) :
    bin2dec l = ((List.range l.length).map fun i => l.getD i 0 * 2 ^ (l.length - 1 - i)).sum := by
  induction l using List.reverseRecOn with
  | nil => rfl
  | append_singleton l d ih =>
    rw [bin2dec_append, ih, List.length_append, List.length_singleton, List.range_succ,
      List.map_append, List.sum_append]
    simp only [List.map_singleton, List.sum_singleton]
    have e : (l ++ [d]).getD l.length 0 = d := by simp
    rw [e]
    have e2 : (List.range l.length).map (fun i => (l ++ [d]).getD i 0 * 2 ^ (l.length + 1 - 1 - i)) =
        (List.range l.length).map (fun i => 2 * (l.getD i 0 * 2 ^ (l.length - 1 - i))) := by
      apply List.map_congr_left
      intro i hi
      rw [List.mem_range] at hi
      have e3 : l.length + 1 - 1 - i = (l.length - 1 - i) + 1 := by omega
      rw [e3, pow_succ]
      have : (l ++ [d]).getD i 0 = l.getD i 0 := by
        simp [List.getD_eq_getElem?_getD, List.getElem?_append_left hi]
      rw [this]; ring
    rw [e2, List.sum_map_mul_left]
    simp

/-- C22: `get_ordered_list_of_bitstrings(w)` (w ≥ 1) lists `2^w` strings; the `i`-th is the `w`-digit binary
expansion of `i`; so all have length `w`, values increase by one, and every binary string of length `w` occurs. -/
theorem orderedBitstrings_spec (w : ℕ) (hw : 0 < w) :
    (orderedBitstrings w).length = 2 ^ w ∧
    (∀ i, i < 2 ^ w → ∃ s, (orderedBitstrings w)[i]? = some s ∧ s.length = w ∧
        (∀ d ∈ s, d = 0 ∨ d = 1) ∧ pyInt2 s = i) ∧
    (orderedBitstrings w).Nodup ∧
    (∀ s : List ℕ, s.length = w → (∀ d ∈ s, d = 0 ∨ d = 1) → s ∈ orderedBitstrings w) := by
  have key : orderedBitstrings w = (List.range (2 ^ w)).map (toBits w) := by
    unfold orderedBitstrings
    apply List.map_congr_left
    intro i hi
    rw [padLoop_eq, zfill_pyBin w i hw (List.mem_range.1 hi)]
  rw [key]
  refine ⟨by simp, ?_, ?_, ?_⟩
  · intro i hi
    refine ⟨toBits w i, by simp [hi], by simp, ?_, ?_⟩
    · intro d hd
      have := toBits_lt_two w i d hd; omega
    · rw [pyInt2_toBits, Nat.mod_eq_of_lt hi]
  · apply List.Nodup.map_on _ List.nodup_range
    intro i hi j hj h
    exact toBits_injOn w (List.mem_range.1 hi) (List.mem_range.1 hj) h
  · intro s hs hd
    have hd' : ∀ d ∈ s, d < 2 := fun d h => by rcases hd d h with h | h <;> omega
    rw [List.mem_map]
    refine ⟨pyInt2 s, ?_, ?_⟩
    · rw [List.mem_range, ← hs]; exact pyInt2_lt s hd'
    · have := toBits_pyInt2 s hd'; rwa [hs] at this

example : orderedBitstrings 2 = [[0, 0], [0, 1], [1, 0], [1, 1]] := by decide +kernel

theorem charInt_digitChar (d : ℕ) (h : d < 10) : charInt (digitChar d) = some d := by
  interval_cases d <;> decide

theorem digitChar_charInt (c : Char) (d : ℕ) (h : charInt c = some d) : d < 10 ∧ digitChar d = c := by
  unfold charInt at h
  split at h
  · rename_i hc
    simp only [Option.some.injEq] at h
    subst h
    refine ⟨by omega, ?_⟩
    unfold digitChar
    rw [show 48 + (c.toNat - 48) = c.toNat by omega]
    exact Char.ofNat_toNat c
  · cases h

/-- C22: writing tuples of single digits as strings and reading them back gives the same tuples. -/
theorem tuples_roundtrip (ts : List (List ℕ)) (h : ∀ t ∈ ts, ∀ d ∈ t, d < 10) :
    bitstringsToTuples (tuplesToBitstrings ts) = some ts := by
  have one : ∀ t : List ℕ, (∀ d ∈ t, d < 10) → ((t.map pyStr).flatten).mapM charInt = some t := by
    intro t
    induction t with
    | nil => intro _; rfl
    | cons d t ih =>
      intro h
      have hd := h d List.mem_cons_self
      have := ih (fun x hx => h x (List.mem_cons_of_mem _ hx))
      rw [List.map_cons, List.flatten_cons, pyStr, dif_pos hd]
      simp [charInt_digitChar d hd, this]
  unfold bitstringsToTuples tuplesToBitstrings
  induction ts with
  | nil => rfl
  | cons t ts ih =>
    have h1 := one t (h t List.mem_cons_self)
    have h2 := ih (fun x hx => h x (List.mem_cons_of_mem _ hx))
    rw [List.map_cons, List.mapM_cons, h1, h2]; rfl

example : ∀ t ∈ [[0, 1], [1, 1, 0]], ∀ d ∈ t, d < 10 := by decide

/-- C22: reading bitstrings as tuples and writing them back gives the same strings (whenever reading succeeds). -/
theorem bitstrings_roundtrip (bs : List (List Char)) (ts : List (List ℕ))
    (h : bitstringsToTuples bs = some ts) : tuplesToBitstrings ts = bs := by
  have one : ∀ (b : List Char) (t : List ℕ), b.mapM charInt = some t → (t.map pyStr).flatten = b := by
    intro b
    induction b with
    | nil => intro t h; simp at h; subst h; rfl
    | cons c b ih =>
      intro t h
      rw [List.mapM_cons] at h
      cases hc : charInt c with
      | none => rw [hc] at h; cases h
      | some d =>
        cases hb : b.mapM charInt with
        | none => rw [hc, hb] at h; cases h
        | some t' =>
          rw [hc, hb] at h
          simp at h
          subst h
          obtain ⟨hd, hch⟩ := digitChar_charInt c d hc
          rw [List.map_cons, List.flatten_cons, ih t' hb, pyStr, dif_pos hd, hch]; rfl
  unfold bitstringsToTuples at h
  unfold tuplesToBitstrings
  induction bs generalizing ts with
  | nil => simp at h; subst h; rfl
  | cons b bs ih =>
    rw [List.mapM_cons] at h
    cases hc : b.mapM charInt with
    | none => rw [hc] at h; cases h
    | some d =>
      cases hb : bs.mapM (fun b => b.mapM charInt) with
      | none => rw [hc, hb] at h; cases h
      | some t' =>
        rw [hc, hb] at h
        simp at h
        subst h
        rw [List.map_cons, one b d hc, ih t' hb]

example : bitstringsToTuples [['0', '1'], ['1', '1']] = some [[0, 1], [1, 1]] := by decide

/-- C22, disagreement: with an entry of two digits the tuple is not recovered. -/
theorem tuples_roundtrip_counterexample :
    bitstringsToTuples (tuplesToBitstrings [[10]]) = some [[1, 0]] := by decide +kernel

/-! ## C19 -/

/-- Specification: `r` is the `n`-bit reversal of `i`. -/
def IsBitReversal (n i r : ℕ) : Prop := r < 2 ^ n ∧ ∀ q, q < n → r.testBit q = i.testBit (n - 1 - q)

theorem bitLength_two_pow (n : ℕ) : bitLength (2 ^ n) - 1 = n := by
  have hp := Nat.two_pow_pos n
  unfold bitLength
  rw [if_neg (by omega)]
  obtain ⟨l, h1, h2⟩ := dec2bin_boundary_counterexample n
  have : dec2bin (2 ^ n) n = some (pyBin (2 ^ n)) := by
    unfold dec2bin
    rw [if_neg (by omega)]
    dsimp only
    split
    · rename_i h
      rcases Nat.eq_zero_or_pos n with rfl | hn
      · omega
      · have := (pyBin_length_le_iff (2 ^ n) n hn).1 (by omega); omega
    · rfl
  rw [this] at h1
  simp only [Option.some.injEq] at h1
  rw [h1, h2]; omega

theorem getElem_mod_two (l : List ℕ) (h : ∀ d ∈ l, d < 2) (q : ℕ) (hq : q < l.length) :
    (pyInt2 l).testBit (l.length - 1 - q) = decide (l[q] = 1) := by
  have h1 := toBits_pyInt2 l h
  have h2 := toBits_getElem l.length (pyInt2 l) q (by simpa using hq)
  have h3 : (toBits l.length (pyInt2 l))[q]'(by simpa using hq) = l[q] := by simp [h1]
  rw [h3] at h2
  rw [h2, Nat.testBit_eq_decide_div_mod_eq]

theorem flipBits_isBitReversal (n i : ℕ) (hi : i < 2 ^ n) : IsBitReversal n i (flipBits i n) := by
  rcases Nat.eq_zero_or_pos n with rfl | hn
  · simp at hi
    subst hi
    refine ⟨?_, by omega⟩
    decide +kernel
  · unfold flipBits
    rw [zfill_pyBin n i hn hi]
    have hd : ∀ d ∈ (toBits n i).reverse, d < 2 := fun d h => toBits_lt_two n i d (by simpa using h)
    refine ⟨by simpa using pyInt2_lt _ hd, ?_⟩
    intro q hq
    have h := getElem_mod_two _ hd (n - 1 - q) (by simp; omega)
    have e1 : (toBits n i).reverse.length - 1 - (n - 1 - q) = q := by simp; omega
    rw [e1, List.getElem_reverse, toBits_getElem] at h
    rw [h, Nat.testBit_eq_decide_div_mod_eq, toBits_length]
    have e2 : n - 1 - (n - 1 - (n - 1 - q)) = n - 1 - q := by omega
    rw [e2]

theorem isBitReversal_unique {n i r r' : ℕ} (h : IsBitReversal n i r) (h' : IsBitReversal n i r') :
    r = r' := by
  apply Nat.eq_of_testBit_eq
  intro q
  by_cases hq : q < n
  · rw [h.2 q hq, h'.2 q hq]
  · have hle : 2 ^ n ≤ 2 ^ q := Nat.pow_le_pow_right (by omega) (by omega)
    rw [Nat.testBit_lt_two_pow (lt_of_lt_of_le h.1 hle), Nat.testBit_lt_two_pow (lt_of_lt_of_le h'.1 hle)]

theorem isBitReversal_symm {n i r : ℕ} (hi : i < 2 ^ n) (h : IsBitReversal n i r) :
    IsBitReversal n r i := by
  refine ⟨hi, ?_⟩
  intro q hq
  rw [h.2 (n - 1 - q) (by omega)]
  congr 1; omega

theorem flipBits_flipBits (n i : ℕ) (hi : i < 2 ^ n) : flipBits (flipBits i n) n = i := by
  have h := flipBits_isBitReversal n i hi
  exact isBitReversal_unique (flipBits_isBitReversal n _ h.1) (isBitReversal_symm hi h)

/-- C19: `flip_amplitudes` of a `2^n` vector never fails, keeps the length, and entry `i` of the result is the
entry of the argument at the bit-reversed index. -/
theorem flipAmplitudes_spec {α : Type} (n : ℕ) (amps : List α) (hl : amps.length = 2 ^ n) :
    ∃ res, flipAmplitudes amps = some res ∧ res.length = 2 ^ n ∧
      ∀ i r, i < 2 ^ n → IsBitReversal n i r → res[i]? = amps[r]? := by
  have hrange : ∀ i ∈ List.range (2 ^ n), amps[flipBits i n]? =
      some (amps[flipBits i n]?.getD (amps[0]'(by rw [hl]; exact Nat.two_pow_pos n))) := by
    intro i hi
    have := (flipBits_isBitReversal n i (List.mem_range.1 hi)).1
    rw [List.getElem?_eq_getElem (by omega)]; rfl
  have key : ∀ (is : List ℕ), (∀ i ∈ is, i ∈ List.range (2 ^ n)) →
      (is.map fun k => flipBits k n).mapM (fun i => amps[i]?) =
        some (is.map fun i => amps[flipBits i n]?.getD (amps[0]'(by rw [hl]; exact Nat.two_pow_pos n))) := by
    intro is
    induction is with
    | nil => intro _; rfl
    | cons a is ih =>
      intro h
      have h1 := hrange a (h a List.mem_cons_self)
      have h2 := ih (fun i hi => h i (List.mem_cons_of_mem _ hi))
      rw [List.map_cons, List.mapM_cons, h1, h2]; rfl
  refine ⟨(List.range (2 ^ n)).map fun i => amps[flipBits i n]?.getD
      (amps[0]'(by rw [hl]; exact Nat.two_pow_pos n)), ?_, ?_, ?_⟩
  · unfold flipAmplitudes
    simp only [hl, bitLength_two_pow]
    exact key _ (fun i hi => hi)
  · simp
  · intro i r hi hr
    have e : r = flipBits i n := isBitReversal_unique hr (flipBits_isBitReversal n i hi)
    rw [List.getElem?_map, List.getElem?_range hi, e, hrange i (List.mem_range.2 hi)]
    simp

/-- C19: flipping twice gives the amplitudes back. -/
theorem flipAmplitudes_involutive {α : Type} (n : ℕ) (amps res : List α) (hl : amps.length = 2 ^ n)
    (h : flipAmplitudes amps = some res) : flipAmplitudes res = some amps := by
  obtain ⟨r1, h1, hl1, hs1⟩ := flipAmplitudes_spec n amps hl
  rw [h1, Option.some.injEq] at h
  subst h
  obtain ⟨r2, h2, hl2, hs2⟩ := flipAmplitudes_spec n r1 hl1
  rw [h2, Option.some.injEq]
  apply List.ext_getElem?
  intro i
  by_cases hi : i < 2 ^ n
  · have hr := flipBits_isBitReversal n i hi
    rw [hs2 i _ hi hr, hs1 _ _ hr.1 (isBitReversal_symm hi hr)]
  · rw [List.getElem?_eq_none (by omega), List.getElem?_eq_none (by omega)]

/-- C19: flipping only permutes the amplitudes (so any sum over them, in particular the norm, is preserved). -/
theorem flipAmplitudes_perm {α : Type} (n : ℕ) (amps res : List α) (hl : amps.length = 2 ^ n)
    (h : flipAmplitudes amps = some res) : res.Perm amps := by
  obtain ⟨r1, h1, hl1, hs1⟩ := flipAmplitudes_spec n amps hl
  rw [h1, Option.some.injEq] at h
  subst h
  have hpos : 0 < amps.length := by rw [hl]; exact Nat.two_pow_pos n
  have e1 : r1 = (List.range (2 ^ n)).map (fun i => amps.getD (flipBits i n) (amps[0])) := by
    apply List.ext_getElem?
    intro i
    by_cases hi : i < 2 ^ n
    · have hr := flipBits_isBitReversal n i hi
      rw [hs1 i _ hi hr, List.getElem?_map, List.getElem?_range hi]
      have := hr.1
      simp [List.getElem?_eq_getElem (by omega : flipBits i n < amps.length)]
    · rw [List.getElem?_eq_none (by omega), List.getElem?_eq_none (by simp; omega)]
  have e2 : amps = (List.range (2 ^ n)).map (fun i => amps.getD i (amps[0])) := by
    apply List.ext_getElem?
    intro i
    by_cases hi : i < 2 ^ n
    · rw [List.getElem?_map, List.getElem?_range hi]
      simp [List.getElem?_eq_getElem (by omega : i < amps.length)]
    · rw [List.getElem?_eq_none (by omega), List.getElem?_eq_none (by simp; omega)]
  have e3 : ((List.range (2 ^ n)).map fun i => flipBits i n).Perm (List.range (2 ^ n)) := by
    rw [List.perm_ext_iff_of_nodup]
    · intro a
      simp only [List.mem_map, List.mem_range]
      constructor
      · rintro ⟨i, hi, rfl⟩; exact (flipBits_isBitReversal n i hi).1
      · intro ha
        exact ⟨flipBits a n, (flipBits_isBitReversal n a ha).1, flipBits_flipBits n a ha⟩
    · apply List.Nodup.map_on _ List.nodup_range
      intro i hi j hj h
      rw [← flipBits_flipBits n i (List.mem_range.1 hi), h, flipBits_flipBits n j (List.mem_range.1 hj)]
    · exact List.nodup_range
  rw [e1]
  conv_rhs => rw [e2]
  have := e3.map (fun i => amps.getD i (amps[0]))
  rw [List.map_map] at this
  exact this

example : [10, 11, 12, 13].length = 2 ^ 2 ∧ flipAmplitudes [10, 11, 12, 13] = some [10, 12, 11, 13] := by
  decide +kernel

end ZQ.Bits
