import Verif.Spec.Fenwick
import Verif.Model.BravyiKitaev

/-! # The index arithmetic of Fenwick trees -/

namespace ZQ.Op

/-- Every positive number is an odd multiple of a power of two. -/
theorem exists_odd_part (k : ℕ) (hk : 0 < k) : ∃ a b, k = 2 ^ a * (2 * b + 1) := by
  induction k using Nat.strong_induction_on with
  | _ k ih =>
    rcases Nat.even_or_odd' k with ⟨m, rfl | rfl⟩
    · obtain ⟨a, b, h⟩ := ih m (by omega) (by omega)
      exact ⟨a + 1, b, by conv_lhs => { rw [h] }; ring⟩
    · exact ⟨0, m, by simp⟩

theorem val_odd_part (a b : ℕ) : padicValNat 2 (2 ^ a * (2 * b + 1)) = a := by
  rw [padicValNat.mul (by positivity) (by omega), padicValNat.prime_pow, padicValNat.eq_zero_of_not_dvd (by omega), add_zero]

theorem clearLow_even (m : ℕ) (hm : 0 < m) : clearLow (2 * m) = 2 * clearLow m := by
  have h1 : 2 * m = Nat.bit false m := by simp [Nat.bit]
  have h2 : 2 * m - 1 = Nat.bit true (m - 1) := by simp [Nat.bit]; omega
  rw [clearLow, h2, h1, Nat.land_bit, clearLow]
  simp [Nat.bit]

theorem clearLow_odd (m : ℕ) : clearLow (2 * m + 1) = 2 * m := by
  have h1 : 2 * m + 1 = Nat.bit true m := by simp [Nat.bit]
  have h2 : 2 * m + 1 - 1 = Nat.bit false m := by simp [Nat.bit]
  rw [clearLow, h2, h1, Nat.land_bit, Nat.and_self]
  simp [Nat.bit]

theorem clearLow_val (a b : ℕ) : clearLow (2 ^ a * (2 * b + 1)) = 2 ^ a * (2 * b) := by
  induction a with
  | zero => simpa using clearLow_odd b
  | succ a ih =>
    rw [pow_succ, show 2 ^ a * 2 * (2 * b + 1) = 2 * (2 ^ a * (2 * b + 1)) by ring, clearLow_even _ (by positivity), ih]
    ring

theorem lowBit_ldiff (k : ℕ) : lowBit (k + 1) = Nat.ldiff (k + 1) k := by
  rw [lowBit]
  have : (-((k + 1 : ℕ) : ℤ)) = Int.negSucc k := by simp [Int.negSucc_eq]
  rw [this]
  rfl

theorem lowBit_val (a b : ℕ) : lowBit (2 ^ a * (2 * b + 1)) = 2 ^ a := by
  have key : ∀ a k, k + 1 = 2 ^ a * (2 * b + 1) → Nat.ldiff (k + 1) k = 2 ^ a := by
    intro a
    induction a with
    | zero =>
      intro k hk
      have hk' : k = 2 * b := by simp at hk; omega
      subst hk'
      have h1 : 2 * b + 1 = Nat.bit true b := by simp [Nat.bit]
      have h2 : 2 * b = Nat.bit false b := by simp [Nat.bit]
      rw [h1]
      conv_lhs => rw [h2]
      rw [Nat.ldiff_bit]
      have : Nat.ldiff b b = 0 := by
        apply Nat.eq_of_testBit_eq; intro i; simp [Nat.testBit_ldiff]
      rw [this]; simp [Nat.bit]
    | succ a ih =>
      intro k hk
      have hpos : 0 < 2 ^ a * (2 * b + 1) := by positivity
      obtain ⟨m, hm⟩ : ∃ m, m + 1 = 2 ^ a * (2 * b + 1) := ⟨_, Nat.sub_add_cancel hpos⟩
      have hk' : k = 2 * m + 1 := by rw [pow_succ, show 2 ^ a * 2 * (2 * b + 1) = 2 * (2 ^ a * (2 * b + 1)) by ring, ← hm] at hk; omega
      subst hk'
      have h1 : 2 * m + 1 + 1 = Nat.bit false (m + 1) := by simp [Nat.bit]; ring
      have h2 : 2 * m + 1 = Nat.bit true m := by simp [Nat.bit]
      rw [h1]
      conv_lhs => rw [h2]
      rw [Nat.ldiff_bit, ih m hm]
      simp [Nat.bit, pow_succ]; ring
  have hpos : 0 < 2 ^ a * (2 * b + 1) := by positivity
  obtain ⟨k, hk⟩ : ∃ k, k + 1 = 2 ^ a * (2 * b + 1) := ⟨_, Nat.sub_add_cancel hpos⟩
  rw [← hk, lowBit_ldiff]
  exact key a k hk

theorem clearLow_add_lowBit (k : ℕ) (hk : 0 < k) : clearLow k + lowBit k = k := by
  obtain ⟨a, b, rfl⟩ := exists_odd_part k hk
  rw [clearLow_val, lowBit_val]; ring

theorem lowBit_pos (k : ℕ) (hk : 0 < k) : 0 < lowBit k := by
  obtain ⟨a, b, rfl⟩ := exists_odd_part k hk
  rw [lowBit_val]; positivity

theorem clearLow_lt (k : ℕ) (hk : 0 < k) : clearLow k < k := by
  have := clearLow_add_lowBit k hk
  have := lowBit_pos k hk
  omega

theorem blockStart_eq (i : ℕ) : blockStart i = clearLow (i + 1) := by
  obtain ⟨a, b, h⟩ := exists_odd_part (i + 1) (by omega)
  have h1 := clearLow_add_lowBit (i + 1) (by omega)
  rw [blockStart, h, val_odd_part, ← h]
  rw [h, lowBit_val, ← h] at h1
  omega

/-- Clearing bits of a number inside a block does not leave the block. -/
theorem clearLow_ge (k x : ℕ) (hx : clearLow k < x) (hk : x ≤ k) : clearLow k ≤ clearLow x := by
  obtain ⟨a, b, rfl⟩ := exists_odd_part k (by omega)
  obtain ⟨c, d, rfl⟩ := exists_odd_part x (by omega)
  rw [clearLow_val] at hx ⊢
  rw [clearLow_val]
  by_contra hlt
  push Not at hlt
  -- between `2^c * 2d` and `2^c * (2d+1)` there is no multiple of `2^a * 2`
  rcases le_or_gt c a with h | h
  · obtain ⟨e, rfl⟩ := Nat.exists_eq_add_of_le h
    rw [pow_add, mul_assoc] at hx hlt
    have h1 := Nat.lt_of_mul_lt_mul_left hx
    have h2 := Nat.lt_of_mul_lt_mul_left hlt
    omega
  · obtain ⟨e, rfl⟩ := Nat.exists_eq_add_of_lt h
    have e1 : 2 ^ (a + e + 1) * (2 * d + 1) = 2 ^ a * (2 * (2 ^ e * (2 * d + 1))) := by ring
    have e2 : 2 ^ (a + e + 1) * (2 * d) = 2 ^ a * (2 * (2 ^ e * (2 * d))) := by ring
    rw [e1] at hx hk
    have h1 := Nat.lt_of_mul_lt_mul_left hx
    have h2 := Nat.le_of_mul_le_mul_left hk (by positivity)
    omega

/-- The next node of the update chain is the next one whose block contains the mode. -/
theorem up_iff (k K : ℕ) (hk : 0 < k) : (clearLow K < k ∧ k < K) ↔ (clearLow K < k + lowBit k ∧ k + lowBit k ≤ K) := by
  by_cases hK : K = 0
  · subst hK; constructor <;> rintro ⟨h1, h2⟩ <;> omega
  obtain ⟨a, b, rfl⟩ := exists_odd_part K (by omega)
  obtain ⟨c, d, rfl⟩ := exists_odd_part k hk
  rw [clearLow_val, lowBit_val]
  have e0 : 2 ^ c * (2 * d + 1) + 2 ^ c = 2 ^ c * (2 * d + 2) := by ring
  rw [e0]
  rcases le_or_gt c a with h | h
  · obtain ⟨e, rfl⟩ := Nat.exists_eq_add_of_le h
    rw [pow_add, mul_assoc, mul_assoc]
    have hp : 0 < 2 ^ c := by positivity
    simp only [Nat.mul_lt_mul_left hp, Nat.mul_le_mul_left_iff hp]
    rcases Nat.eq_zero_or_pos e with rfl | he
    · simp only [pow_zero, one_mul]; omega
    · obtain ⟨e', rfl⟩ : ∃ e', e = e' + 1 := ⟨e - 1, by omega⟩
      rw [pow_succ, mul_comm (2 ^ e') 2, mul_assoc, mul_assoc]
      omega
  · obtain ⟨e, rfl⟩ := Nat.exists_eq_add_of_lt h
    have e1 : 2 ^ (a + e + 1) * (2 * d + 1) = 2 ^ a * (2 * (2 ^ e * (2 * d + 1))) := by ring
    have e2 : 2 ^ (a + e + 1) * (2 * d + 2) = 2 ^ a * (2 * (2 ^ e * (2 * d + 2))) := by ring
    rw [e1, e2]
    have hp : 0 < 2 ^ a := by positivity
    simp only [Nat.mul_lt_mul_left hp, Nat.mul_le_mul_left_iff hp]
    omega

theorem mem_updateLoop (n : ℕ) : ∀ (fuel k : ℕ) (acc : Finset ℕ), 0 < k → n < k + fuel → ∀ i, i ∈ updateLoop n fuel k acc ↔
    i ∈ acc ∨ (i < n ∧ clearLow (i + 1) < k ∧ k ≤ i + 1) := by
  intro fuel
  induction fuel with
  | zero =>
    intro k acc hk hf i
    rw [updateLoop]
    constructor
    · exact Or.inl
    · rintro (h | ⟨h1, h2, h3⟩)
      · exact h
      · omega
  | succ fuel ih =>
    intro k acc hk hf i
    have hl := lowBit_pos k hk
    rw [updateLoop]
    by_cases hkn : k ≤ n
    · rw [if_pos hkn, ih _ _ (by omega) (by omega), Finset.mem_insert, ← up_iff k (i + 1) hk]
      constructor
      · rintro ((rfl | h) | ⟨h1, h2, h3⟩)
        · exact Or.inr ⟨by omega, by rw [Nat.sub_add_cancel hk]; exact clearLow_lt k hk, by omega⟩
        · exact Or.inl h
        · exact Or.inr ⟨h1, h2, by omega⟩
      · rintro (h | ⟨h1, h2, h3⟩)
        · exact Or.inl (Or.inr h)
        · by_cases e : k = i + 1
          · exact Or.inl (Or.inl (by omega))
          · exact Or.inr ⟨h1, h2, by omega⟩
    · rw [if_neg hkn]
      constructor
      · exact Or.inl
      · rintro (h | ⟨h1, h2, h3⟩)
        · exact h
        · omega

/-- C48: the update set of a mode, with the mode's own qubit: the qubits of the register whose block contains the mode. -/
theorem mem_update (p n i : ℕ) (hp : p < n) : i ∈ insert p (updateSet p n) ↔ i < n ∧ p ∈ block i := by
  have hl := lowBit_pos (p + 1) (by omega)
  rw [Finset.mem_insert, updateSet, mem_updateLoop n _ _ _ (by omega) (by omega), ← up_iff (p + 1) (i + 1) (by omega), block, Finset.mem_Icc, blockStart_eq]
  have hc := clearLow_lt (p + 1) (by omega)
  constructor
  · rintro (rfl | h | ⟨h1, h2, h3⟩)
    · exact ⟨hp, by omega, le_rfl⟩
    · simp at h
    · exact ⟨h1, by omega, by omega⟩
  · rintro ⟨h1, h2, h3⟩
    by_cases e : i = p
    · exact Or.inl e
    · exact Or.inr (Or.inr ⟨h1, by omega, by omega⟩)

theorem updateSet_gt (p n i : ℕ) (hp : p < n) (h : i ∈ updateSet p n) : p < i := by
  rw [updateSet, mem_updateLoop n _ _ _ (by omega) (by have := lowBit_pos (p + 1) (by omega); omega)] at h
  have := lowBit_pos (p + 1) (by omega)
  rcases h with h | ⟨_, _, h⟩
  · simp at h
  · omega

/-! ### Products over the sets -/

section
variable (x : ℕ → ℂ)

/-- Product of `x` over a half-open range of modes. -/
noncomputable def rangeProd (lo hi : ℕ) : ℂ := ∏ m ∈ Finset.Ico lo hi, x m

theorem rangeProd_concat {a b c : ℕ} (h1 : a ≤ b) (h2 : b ≤ c) : rangeProd x a b * rangeProd x b c = rangeProd x a c :=
  Finset.prod_Ico_consecutive x h1 h2

/-- Product over the block of qubit `i`. -/
noncomputable def blockProd (i : ℕ) : ℂ := rangeProd x (clearLow (i + 1)) (i + 1)

theorem parityLoop_prod : ∀ (fuel k : ℕ) (acc : Finset ℕ), k < fuel → (∀ i ∈ acc, k ≤ i) →
    (∏ i ∈ parityLoop fuel k acc, blockProd x i) = rangeProd x 0 k * ∏ i ∈ acc, blockProd x i ∧
    ∀ i ∈ parityLoop fuel k acc, i ∈ acc ∨ i < k := by
  intro fuel
  induction fuel with
  | zero => intro k acc h; omega
  | succ fuel ih =>
    intro k acc hf hacc
    rw [parityLoop]
    by_cases hk : 0 < k
    · rw [if_pos hk]
      have hc := clearLow_lt k hk
      have hn : k - 1 ∉ acc := fun h => by have := hacc _ h; omega
      obtain ⟨h1, h2⟩ := ih (clearLow k) (insert (k - 1) acc) (by omega) (by
        intro i hi
        rcases Finset.mem_insert.1 hi with rfl | hi
        · omega
        · have := hacc i hi; omega)
      refine ⟨?_, ?_⟩
      · rw [h1, Finset.prod_insert hn, blockProd, Nat.sub_add_cancel hk, ← mul_assoc, rangeProd_concat x (Nat.zero_le _) (le_of_lt hc)]
      · intro i hi
        rcases h2 i hi with h | h
        · rcases Finset.mem_insert.1 h with rfl | h
          · right; omega
          · exact Or.inl h
        · right; omega
    · have : k = 0 := by omega
      subst this
      rw [if_neg hk]
      refine ⟨?_, fun i hi => Or.inl hi⟩
      rw [rangeProd, Finset.Ico_self, Finset.prod_empty, one_mul]

/-- C48: the blocks of the parity set partition the modes before `p`. -/
theorem paritySet_prod (p : ℕ) : ∏ i ∈ paritySet p, blockProd x i = rangeProd x 0 p := by
  rw [paritySet, (parityLoop_prod x (p + 1) p ∅ (by omega) (by simp)).1, Finset.prod_empty, mul_one]

theorem paritySet_lt (p i : ℕ) (h : i ∈ paritySet p) : i < p := by
  rcases (parityLoop_prod 1 (p + 1) p ∅ (by omega) (by simp)).2 i h with h | h
  · simp at h
  · exact h

theorem occupationLoop_prod (K : ℕ) (hK : 0 < K) : ∀ (fuel k : ℕ) (acc : Finset ℕ), k < fuel → clearLow K ≤ k → k ≤ K → (∀ i ∈ acc, k ≤ i) →
    (∏ i ∈ occupationLoop (clearLow K) fuel k acc, blockProd x i) = rangeProd x (clearLow K) k * ∏ i ∈ acc, blockProd x i ∧
    ∀ i, i ∈ occupationLoop (clearLow K) fuel k acc → i ∈ acc ∨ i < k := by
  intro fuel
  induction fuel with
  | zero => intro k acc h; omega
  | succ fuel ih =>
    intro k acc hf hlo hhi hacc
    rw [occupationLoop]
    by_cases hk : k ≠ clearLow K
    · rw [if_pos hk]
      have hk0 : 0 < k := by omega
      have hc := clearLow_lt k hk0
      have hge := clearLow_ge K k (by omega) hhi
      have hn : k - 1 ∉ acc := fun h => by have := hacc _ h; omega
      obtain ⟨h1, h2⟩ := ih (clearLow k) (insert (k - 1) acc) (by omega) hge (by omega) (by
        intro i hi
        rcases Finset.mem_insert.1 hi with rfl | hi
        · omega
        · have := hacc i hi; omega)
      refine ⟨?_, ?_⟩
      · rw [h1, Finset.prod_insert hn, blockProd, Nat.sub_add_cancel hk0, ← mul_assoc, rangeProd_concat x hge (le_of_lt hc)]
      · intro i hi
        rcases h2 i hi with h | h
        · rcases Finset.mem_insert.1 h with rfl | h
          · right; omega
          · exact Or.inl h
        · right; omega
    · rw [if_neg hk]
      push Not at hk
      refine ⟨?_, fun i hi => Or.inl hi⟩
      rw [← hk, rangeProd, Finset.Ico_self, Finset.prod_empty, one_mul]

/-- C48: the parity of the occupation set is the occupation of mode `p` (here for signs: `x m * x m = 1`). -/
theorem occupationSet_prod (hx : ∀ m, x m * x m = 1) (p : ℕ) : ∏ i ∈ occupationSet p, blockProd x i = x p := by
  have hc := clearLow_lt (p + 1) (by omega)
  rw [occupationSet, (occupationLoop_prod x (p + 1) (by omega) (p + 1) p {p} (by omega) (by omega) (by omega) (by simp)).1, Finset.prod_singleton, blockProd,
    ← rangeProd_concat x (b := p) (by omega) (by omega : p ≤ p + 1), ← mul_assoc]
  have h2 : rangeProd x (clearLow (p + 1)) p * rangeProd x (clearLow (p + 1)) p = 1 := by
    rw [rangeProd, ← Finset.prod_mul_distrib]
    exact Finset.prod_eq_one fun m _ => hx m
  rw [h2, one_mul, rangeProd]
  simp

theorem occupationLoop_sub (parent fuel : ℕ) : ∀ k (acc : Finset ℕ), acc ⊆ occupationLoop parent fuel k acc := by
  induction fuel with
  | zero => intro k acc; exact Finset.Subset.refl _
  | succ fuel ih =>
    intro k acc
    rw [occupationLoop]
    split
    · exact Finset.Subset.trans (Finset.subset_insert _ _) (ih _ _)
    · exact Finset.Subset.refl _

theorem mem_occupationSet_self (p : ℕ) : p ∈ occupationSet p := occupationLoop_sub _ _ _ _ (Finset.mem_singleton_self p)

theorem occupationSet_le (p i : ℕ) (h : i ∈ occupationSet p) : i ≤ p := by
  have hc := clearLow_lt (p + 1) (by omega)
  rcases (occupationLoop_prod 1 (p + 1) (by omega) (p + 1) p {p} (by omega) (by omega) (by omega) (by simp)).2 i h with h | h
  · rw [Finset.mem_singleton.1 h]
  · omega

end

end ZQ.Op
