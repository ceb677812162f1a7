import Verif.Model.Wavefunction
import Verif.Lemmas.Gosper
import Mathlib.Data.Nat.Choose.Basic
import Mathlib.Tactic.FieldSimp
import Mathlib.Algebra.BigOperators.Group.List.Basic

/-! Helper lemmas for the wavefunction model. -/

namespace ZQ.Bits

theorem popcount_lt_two {n : ℕ} (h : n < 2) : popcount n = n := by
  have : n = 0 ∨ n = 1 := by omega
  rcases this with rfl | rfl
  · simp
  · exact popcount_two_pow_sub_one 1

theorem count_one_pyBin (n : ℕ) : (pyBin n).count 1 = popcount n := by
  induction n using Nat.strongRecOn with
  | ind n ih =>
    rcases Nat.lt_or_ge n 2 with h | h
    · rw [pyBin_lt_two h, popcount_lt_two h]
      have : n = 0 ∨ n = 1 := by omega
      rcases this with rfl | rfl <;> simp
    · rw [pyBin_two_le h, List.count_append, ih _ (by omega), popcount_eq n]
      have : n % 2 = 0 ∨ n % 2 = 1 := by omega
      rcases this with h | h <;> simp [h]; omega

theorem popcount_two_pow (k : ℕ) : popcount (2 ^ k) = 1 := by
  have := popcount_mul_add k 1 0 (Nat.two_pow_pos k)
  simp only [Nat.one_mul, Nat.add_zero, popcount_zero] at this
  rw [this]; exact popcount_two_pow_sub_one 1

theorem popcount_eq_zero {n : ℕ} : popcount n = 0 ↔ n = 0 := by
  constructor
  · intro h
    by_contra hn
    have := popcount_pos (Nat.pos_of_ne_zero hn)
    omega
  · rintro rfl; simp

theorem exists_eq_two_pow_of_popcount (n : ℕ) (h : popcount n = 1) : ∃ k, n = 2 ^ k := by
  induction n using Nat.strongRecOn with
  | ind n ih =>
    rw [popcount_eq] at h
    have : n % 2 = 0 ∨ n % 2 = 1 := by omega
    rcases this with h' | h'
    · have hn : n ≠ 0 := by rintro rfl; simp at h
      obtain ⟨k, hk⟩ := ih (n / 2) (by omega) (by omega)
      exact ⟨k + 1, by rw [pow_succ, ← hk]; omega⟩
    · have : n / 2 = 0 := popcount_eq_zero.1 (by omega)
      exact ⟨0, by rw [pow_zero]; omega⟩

theorem pyInt2_replicate_one (k : ℕ) : pyInt2 (List.replicate k 1) = 2 ^ k - 1 := by
  induction k with
  | zero => rfl
  | succ k ih =>
    have := Nat.two_pow_pos k
    rw [List.replicate_succ, pyInt2_cons, ih, List.length_replicate, pow_succ]; omega

/-- The number of `i < 2^n` of weight `k` is the binomial coefficient. -/
theorem countP_popcount (n k : ℕ) :
    ((List.range (2 ^ n)).filter (fun i => popcount i = k)).length = n.choose k := by
  induction n generalizing k with
  | zero =>
    cases k <;> simp [List.range_succ]
  | succ n ih =>
    have e : 2 ^ (n + 1) = 2 ^ n + 2 ^ n := by rw [pow_succ]; omega
    rw [e, List.range_add, List.filter_append, List.length_append, ih, List.filter_map,
      List.length_map]
    cases k with
    | zero =>
      have : (List.range (2 ^ n)).filter ((fun i => decide (popcount i = 0)) ∘ fun x => 2 ^ n + x) = [] := by
        rw [List.filter_eq_nil_iff]
        intro a _
        simp only [Function.comp, decide_eq_true_eq, popcount_eq_zero]
        have := Nat.two_pow_pos n; omega
      rw [this]; simp
    | succ k =>
      have : (List.range (2 ^ n)).filter ((fun i => decide (popcount i = k + 1)) ∘ fun x => 2 ^ n + x)
          = (List.range (2 ^ n)).filter (fun i => popcount i = k) := by
        apply List.filter_congr
        intro a ha
        rw [List.mem_range] at ha
        have h := popcount_mul_add n 1 a ha
        rw [Nat.one_mul, popcount_lt_two (by omega : 1 < 2)] at h
        simp only [Function.comp, h]
        simp only [decide_eq_decide]; omega
      rw [this, ih, Nat.choose_succ_succ']; omega

end ZQ.Bits

namespace ZQ.Wavefunction

open ZQ.Bits

theorem dickeLoop_spec (n k : ℕ) (hk : 0 < k) (hn : 0 < n) (fuel cur : ℕ) (hc : cur < 2 ^ n)
    (hp : popcount cur = k) (hf : 2 ^ n - cur ≤ fuel) :
    dickeLoop n fuel cur =
      some ((List.range' (cur + 1) (2 ^ n - (cur + 1))).filter (fun i => popcount i = k)) := by
  induction fuel generalizing cur with
  | zero => omega
  | succ fuel ih =>
    have hcur : 0 < cur := by
      rcases Nat.eq_zero_or_pos cur with h | h
      · subst h; simp at hp; omega
      · exact h
    obtain ⟨w, hw, hlt, hpw, hgap⟩ := nextSameWeight_spec cur hcur
    rw [dickeLoop, hw]
    have hms : mostSignificantSetBit w ≤ n ↔ w < 2 ^ n := pyBin_length_le_iff w n hn
    simp only [Int.toNat_natCast]
    by_cases hwn : w < 2 ^ n
    · rw [if_pos (hms.2 hwn), ih w hwn (by omega) (by omega)]
      have e1 : 2 ^ n - (cur + 1) = (w - (cur + 1)) + (1 + (2 ^ n - (w + 1))) := by omega
      rw [e1, ← List.range'_append_1, List.filter_append, ← List.range'_append_1,
        List.filter_append]
      have h1 : (List.range' (cur + 1) (w - (cur + 1))).filter (fun i => popcount i = k) = [] := by
        rw [List.filter_eq_nil_iff]
        intro a ha
        rw [List.mem_range'_1] at ha
        have := hgap a (by omega) (by omega)
        simp; omega
      have e2 : cur + 1 + (w - (cur + 1)) = w := by omega
      have hpwk : popcount w = k := by omega
      rw [h1, e2]
      simp [List.range'_succ, hpwk]
    · rw [if_neg (fun h => hwn (hms.1 h))]
      have h1 : (List.range' (cur + 1) (2 ^ n - (cur + 1))).filter (fun i => popcount i = k) = [] := by
        rw [List.filter_eq_nil_iff]
        intro a ha
        rw [List.mem_range'_1] at ha
        have := hgap a (by omega) (by omega)
        simp; omega
      rw [h1]

theorem dickeIndices_eq (n k : ℕ) (hk : 0 < k) (hkn : k ≤ n) :
    dickeIndices n k = some ((List.range (2 ^ n)).filter (fun i => popcount i = k)) := by
  have h2k := Nat.two_pow_pos k
  have hle : 2 ^ k ≤ 2 ^ n := Nat.pow_le_pow_right (by omega) hkn
  unfold dickeIndices
  simp only [pyInt2_replicate_one]
  rw [dickeLoop_spec n k hk (by omega) _ _ (by omega) (popcount_two_pow_sub_one k) (by omega)]
  simp only [Option.map_some, Option.some.injEq]
  have e : 2 ^ n = (2 ^ k - 1) + (1 + (2 ^ n - (2 ^ k - 1 + 1))) := by omega
  conv_rhs => rw [e]
  rw [List.range_eq_range', ← List.range'_append_1, List.filter_append, ← List.range'_append_1,
        List.filter_append]
  have h1 : (List.range' 0 (2 ^ k - 1)).filter (fun i => popcount i = k) = [] := by
    rw [List.filter_eq_nil_iff]
    intro a ha
    rw [List.mem_range'_1] at ha
    simp only [decide_eq_true_eq]
    intro h
    have := two_pow_popcount_le a
    rw [h] at this; omega
  rw [h1]
  simp [List.range'_succ, popcount_two_pow_sub_one]

theorem setMany_length {α : Type} (l : List α) (is : List ℕ) (a : α) :
    (setMany l is a).length = l.length := by
  induction is generalizing l with
  | nil => rfl
  | cons i is ih => simp only [setMany, List.foldl_cons] at *; rw [ih]; simp

theorem setMany_getElem? {α : Type} (l : List α) (is : List ℕ) (a : α) (j : ℕ) (hj : j < l.length) :
    (setMany l is a)[j]? = if j ∈ is then some a else l[j]? := by
  induction is generalizing l with
  | nil => simp [setMany]
  | cons i is ih =>
    have := ih (l.set i a) (by simpa using hj)
    simp only [setMany, List.foldl_cons] at *
    rw [this]
    by_cases h1 : j ∈ is
    · simp [h1]
    · by_cases h2 : j = i
      · subst h2; simp [hj]
      · have : ¬ i = j := fun h => h2 h.symm
        simp [h1, h2, this]

theorem setMany_replicate (n : ℕ) {α : Type} (z a : α) (p : ℕ → Bool) :
    setMany (List.replicate n z) ((List.range n).filter p) a =
      (List.range n).map fun i => if p i then a else z := by
  apply List.ext_getElem?
  intro j
  by_cases hj : j < n
  · rw [setMany_getElem? _ _ _ _ (by simpa using hj)]
    simp only [List.mem_filter, List.mem_range, hj, true_and, List.getElem?_map,
      List.getElem?_range hj, List.getElem?_replicate, if_true, Option.map_some]
    split <;> rfl
  · rw [List.getElem?_eq_none (by rw [setMany_length]; simp; omega),
      List.getElem?_eq_none (by simp; omega)]

variable {σ : Type}

theorem sum_ite_count (l : List ℕ) (p : ℕ → Bool) (x : ℝ) :
    (l.map fun i => if p i then x else 0).sum = (l.filter p).length * x := by
  induction l with
  | nil => simp
  | cons a l ih =>
    rw [List.map_cons, List.sum_cons, ih]
    by_cases h : p a
    · simp [List.filter_cons, h]; ring
    · simp [List.filter_cons, h]

end ZQ.Wavefunction
