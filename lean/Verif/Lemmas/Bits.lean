import Verif.Model.Bits
import Verif.Spec.Bits
import Mathlib.Tactic.Ring
import Mathlib.Tactic.Linarith
import Mathlib.Data.List.Induction

/-! Helper lemmas about the bit level model. -/

namespace ZQ.Bits

@[simp] theorem toBits_length (w i : ℕ) : (toBits w i).length = w := by
  induction w generalizing i with
  | zero => rfl
  | succ w ih => simp [toBits, ih]

theorem toBits_getElem (w i q : ℕ) (h : q < (toBits w i).length) :
    (toBits w i)[q] = i / 2 ^ (w - 1 - q) % 2 := by
  induction w generalizing i with
  | zero => simp at h
  | succ w ih =>
    simp only [toBits, toBits_length, List.length_append, List.length_singleton] at h
    rcases Nat.lt_or_ge q w with hq | hq
    · have := ih (i / 2) (by simpa using hq)
      simp only [toBits]
      rw [List.getElem_append_left (by simpa using hq), this, Nat.div_div_eq_div_mul]
      congr 2
      rw [← pow_succ']
      congr 1; omega
    · have : q = w := by omega
      subst this
      simp [toBits]

theorem toBits_lt_two (w i : ℕ) : ∀ d ∈ toBits w i, d < 2 := by
  induction w generalizing i with
  | zero => simp [toBits]
  | succ w ih =>
    intro d hd
    simp only [toBits, List.mem_append, List.mem_singleton] at hd
    rcases hd with hd | hd
    · exact ih _ d hd
    · omega

theorem pyInt2_append (l : List ℕ) (d : ℕ) : pyInt2 (l ++ [d]) = 2 * pyInt2 l + d := by
  simp [pyInt2]

theorem foldl_two (l : List ℕ) (a : ℕ) :
    l.foldl (fun acc d => 2 * acc + d) a = a * 2 ^ l.length + pyInt2 l := by
  induction l generalizing a with
  | nil => simp [pyInt2]
  | cons d l ih =>
    simp only [List.foldl_cons, pyInt2, List.length_cons]
    rw [ih, ih (2 * 0 + d)]
    ring

theorem pyInt2_cons (d : ℕ) (l : List ℕ) : pyInt2 (d :: l) = d * 2 ^ l.length + pyInt2 l := by
  have := foldl_two l d
  simpa [pyInt2] using this

theorem pyInt2_append_list (l m : List ℕ) :
    pyInt2 (l ++ m) = pyInt2 l * 2 ^ m.length + pyInt2 m := by
  have := foldl_two m (pyInt2 l)
  rw [← this]
  simp [pyInt2]

theorem pyInt2_replicate_zero (k : ℕ) (l : List ℕ) : pyInt2 (List.replicate k 0 ++ l) = pyInt2 l := by
  induction k with
  | zero => simp
  | succ k ih => simp [List.replicate_succ, pyInt2_cons, ih]

theorem pyInt2_lt (l : List ℕ) (h : ∀ d ∈ l, d < 2) : pyInt2 l < 2 ^ l.length := by
  induction l with
  | nil => simp [pyInt2]
  | cons d l ih =>
    have h1 := ih (fun x hx => h x (List.mem_cons_of_mem _ hx))
    have h2 : d < 2 := h d List.mem_cons_self
    rw [pyInt2_cons, List.length_cons, pow_succ]
    have : d = 0 ∨ d = 1 := by omega
    rcases this with rfl | rfl <;> omega

theorem pyInt2_toBits (w i : ℕ) : pyInt2 (toBits w i) = i % 2 ^ w := by
  induction w generalizing i with
  | zero => simp [toBits, pyInt2, Nat.mod_one]
  | succ w ih =>
    rw [toBits, pyInt2_append, ih, pow_succ', Nat.mod_mul]; ring

theorem toBits_pyInt2 (l : List ℕ) (h : ∀ d ∈ l, d < 2) : toBits l.length (pyInt2 l) = l := by
  induction l using List.reverseRecOn with
  | nil => rfl
  | append_singleton l d ih =>
    have hd : d < 2 := h d (by simp)
    have := ih (fun x hx => h x (by simp [hx]))
    rw [List.length_append, List.length_singleton, toBits, pyInt2_append]
    have e1 : (2 * pyInt2 l + d) / 2 = pyInt2 l := by omega
    have e2 : (2 * pyInt2 l + d) % 2 = d := by omega
    rw [e1, e2, this]

theorem pyBin_two_le {n : ℕ} (h : 2 ≤ n) : pyBin n = pyBin (n / 2) ++ [n % 2] := by
  rw [pyBin, dif_neg (by omega)]

theorem pyBin_lt_two {n : ℕ} (h : n < 2) : pyBin n = [n] := by
  rw [pyBin, dif_pos h]

theorem pyInt2_pyBin (n : ℕ) : pyInt2 (pyBin n) = n := by
  induction n using Nat.strongRecOn with
  | ind n ih =>
    rcases Nat.lt_or_ge n 2 with h | h
    · rw [pyBin_lt_two h]; simp [pyInt2]
    · rw [pyBin_two_le h, pyInt2_append, ih _ (by omega)]; omega

theorem pyBin_digit (n : ℕ) : ∀ d ∈ pyBin n, d < 2 := by
  induction n using Nat.strongRecOn with
  | ind n ih =>
    rcases Nat.lt_or_ge n 2 with h | h
    · rw [pyBin_lt_two h]; simpa using h
    · rw [pyBin_two_le h]
      intro d hd
      simp only [List.mem_append, List.mem_singleton] at hd
      rcases hd with hd | hd
      · exact ih _ (by omega) d hd
      · omega

theorem pyBin_length_pos (n : ℕ) : 1 ≤ (pyBin n).length := by
  rcases Nat.lt_or_ge n 2 with h | h
  · rw [pyBin_lt_two h]; simp
  · rw [pyBin_two_le h]; simp

theorem pyBin_length_le_iff (n w : ℕ) (hw : 0 < w) : (pyBin n).length ≤ w ↔ n < 2 ^ w := by
  induction n using Nat.strongRecOn generalizing w with
  | ind n ih =>
    rcases Nat.lt_or_ge n 2 with h | h
    · rw [pyBin_lt_two h]
      have : 2 ^ 1 ≤ 2 ^ w := Nat.pow_le_pow_right (by omega) hw
      simp; constructor <;> intro <;> omega
    · rw [pyBin_two_le h]
      obtain ⟨w, rfl⟩ : ∃ k, w = k + 1 := ⟨w - 1, by omega⟩
      rcases Nat.eq_zero_or_pos w with rfl | hw'
      · have := pyBin_length_pos (n / 2)
        simp only [List.length_append, List.length_singleton, Nat.zero_add, pow_one]
        constructor <;> intro <;> omega
      · have := ih (n / 2) (by omega) w hw'
        simp only [List.length_append, List.length_singleton, Nat.add_le_add_iff_right]
        rw [this, pow_succ]; omega

theorem zfill_length (w : ℕ) (l : List ℕ) : (zfill w l).length = max w l.length := by
  simp [zfill]; omega

theorem zfill_pyBin (w n : ℕ) (hw : 0 < w) (h : n < 2 ^ w) : zfill w (pyBin n) = toBits w n := by
  have hl := (pyBin_length_le_iff n w hw).2 h
  have hlen : (zfill w (pyBin n)).length = w := by rw [zfill_length]; omega
  have hd : ∀ d ∈ zfill w (pyBin n), d < 2 := by
    intro d hd
    simp only [zfill, List.mem_append, List.mem_replicate] at hd
    rcases hd with ⟨_, rfl⟩ | hd
    · omega
    · exact pyBin_digit n d hd
  have := toBits_pyInt2 _ hd
  rw [hlen] at this
  rw [← this]
  congr 1
  rw [zfill, pyInt2_replicate_zero, pyInt2_pyBin]

theorem basisBitstring_eq (i w : ℕ) (hw : 0 < w) (h : i < 2 ^ w) :
    basisBitstring i w = toBits w i := zfill_pyBin w i hw h

theorem padLoop_eq (w : ℕ) (l : List ℕ) : padLoop w l = zfill w l := by
  rw [zfill]
  generalize hk : w - l.length = k
  induction k generalizing l with
  | zero =>
    rw [padLoop, dif_neg (by omega)]; simp
  | succ k ih =>
    rw [padLoop, dif_pos (by omega), ih (0 :: l) (by simp; omega)]
    simp [List.replicate_succ', List.append_assoc]

theorem toBits_injOn (w : ℕ) {i j : ℕ} (hi : i < 2 ^ w) (hj : j < 2 ^ w)
    (h : toBits w i = toBits w j) : i = j := by
  have := congrArg pyInt2 h
  rwa [pyInt2_toBits, pyInt2_toBits, Nat.mod_eq_of_lt hi, Nat.mod_eq_of_lt hj] at this

theorem bin2decLoop_eq (l : List ℤ) (dec coeff : ℤ) :
    bin2decLoop l dec coeff = dec + coeff * bin2decLoop l 0 1 := by
  induction l generalizing dec coeff with
  | nil => simp [bin2decLoop]
  | cons d l ih =>
    simp only [bin2decLoop]
    rw [ih (dec + coeff * d), ih (0 + 1 * d) (1 * 2)]
    ring

theorem bin2dec_append (l : List ℤ) (d : ℤ) : bin2dec (l ++ [d]) = 2 * bin2dec l + d := by
  rw [bin2dec, List.reverse_append]
  simp only [List.reverse_singleton, List.singleton_append, bin2decLoop]
  rw [bin2decLoop_eq, bin2dec]; ring

theorem bin2dec_cast (l : List ℕ) : bin2dec (l.map (fun d : ℕ => (d : ℤ))) = (pyInt2 l : ℤ) := by
  induction l using List.reverseRecOn with
  | nil => rfl
  | append_singleton l d ih =>
    rw [List.map_append, List.map_singleton, bin2dec_append, ih, pyInt2_append]; push_cast; ring

@[simp] theorem popcount_zero : popcount 0 = 0 := by rw [popcount]; simp

theorem popcount_eq (n : ℕ) : popcount n = n % 2 + popcount (n / 2) := by
  rcases Nat.eq_zero_or_pos n with rfl | h
  · simp
  · rw [popcount, dif_neg (by omega)]

theorem popcount_mul_add (k a r : ℕ) (hr : r < 2 ^ k) :
    popcount (a * 2 ^ k + r) = popcount a + popcount r := by
  induction k generalizing r with
  | zero => simp at hr; subst hr; simp
  | succ k ih =>
    rw [popcount_eq, popcount_eq r]
    have e1 : (a * 2 ^ (k + 1) + r) / 2 = a * 2 ^ k + r / 2 := by
      rw [pow_succ, ← mul_assoc]; omega
    have e2 : (a * 2 ^ (k + 1) + r) % 2 = r % 2 := by
      rw [pow_succ, ← mul_assoc]; omega
    rw [e1, e2, ih _ (by rw [pow_succ] at hr; omega)]; omega

theorem popcount_pos {n : ℕ} (h : 0 < n) : 0 < popcount n := by
  induction n using Nat.strongRecOn with
  | ind n ih =>
    rw [popcount_eq]
    rcases Nat.lt_or_ge n 2 with h2 | h2
    · have : n = 1 := by omega
      subst this; simp
    · have := ih (n / 2) (by omega) (by omega); omega

theorem two_pow_popcount_le (n : ℕ) : 2 ^ popcount n ≤ n + 1 := by
  induction n using Nat.strongRecOn with
  | ind n ih =>
    rcases Nat.eq_zero_or_pos n with rfl | h
    · simp
    · rw [popcount_eq]
      have := ih (n / 2) (by omega)
      have h2 : n % 2 = 0 ∨ n % 2 = 1 := by omega
      rcases h2 with h2 | h2 <;> rw [h2]
      · rw [Nat.zero_add]; omega
      · rw [Nat.add_comm, pow_succ]; omega

theorem popcount_two_pow_sub_one (k : ℕ) : popcount (2 ^ k - 1) = k := by
  induction k with
  | zero => simp
  | succ k ih =>
    rw [popcount_eq]
    have h : 0 < 2 ^ k := Nat.two_pow_pos k
    have e1 : (2 ^ (k + 1) - 1) / 2 = 2 ^ k - 1 := by rw [pow_succ]; omega
    have e2 : (2 ^ (k + 1) - 1) % 2 = 1 := by rw [pow_succ]; omega
    rw [e1, e2, ih]; omega

theorem popcount_le (w n : ℕ) (h : n < 2 ^ w) : popcount n ≤ w := by
  induction w generalizing n with
  | zero => simp at h; subst h; simp
  | succ w ih =>
    rw [popcount_eq]
    have := ih (n / 2) (by rw [pow_succ] at h; omega)
    omega

end ZQ.Bits
