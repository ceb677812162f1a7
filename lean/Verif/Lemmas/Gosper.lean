import Verif.Lemmas.Bits

/-! Correctness of the "next number with the same Hamming weight" bit trick. -/

namespace ZQ.Bits

/-- Every positive number splits as `a·2^(s+c+1) + (2^c-1)·2^s` with `c ≥ 1`. -/
theorem block_decomp (v : ℕ) (hv : 0 < v) :
    ∃ a s c, 0 < c ∧ v = a * 2 ^ (s + c + 1) + (2 ^ c - 1) * 2 ^ s := by
  induction v using Nat.strongRecOn with
  | ind v ih =>
    rcases Nat.mod_two_eq_zero_or_one v with h | h
    · obtain ⟨a, s, c, hc, e⟩ := ih (v / 2) (by omega) (by omega)
      refine ⟨a, s + 1, c, hc, ?_⟩
      have : v = 2 * (v / 2) := by omega
      rw [this, e]; ring
    · rcases Nat.mod_two_eq_zero_or_one (v / 2) with h' | h'
      · refine ⟨v / 4, 0, 1, by omega, ?_⟩
        norm_num; omega
      · obtain ⟨a, s, c, hc, e⟩ := ih (v / 2) (by omega) (by omega)
        have hs : s = 0 := by
          rcases Nat.eq_zero_or_pos s with hs | hs
          · exact hs
          · exfalso
            obtain ⟨s, rfl⟩ : ∃ k, s = k + 1 := ⟨s - 1, by omega⟩
            have : v / 2 = 2 * (a * 2 ^ (s + c + 1) + (2 ^ c - 1) * 2 ^ s) := by rw [e]; ring
            omega
        subst hs
        refine ⟨a, 0, c + 1, by omega, ?_⟩
        have hp : 0 < 2 ^ c := Nat.two_pow_pos c
        have : v = 2 * (v / 2) + 1 := by omega
        rw [this, e]
        have e3 : (2 ^ (c + 1) - 1) * 2 ^ 0 = 2 * ((2 ^ c - 1) * 2 ^ 0) + 1 := by
          rw [pow_succ]; omega
        rw [e3]; ring

theorem lor_mul_add (k a b r t : ℕ) (hr : r < 2 ^ k) (ht : t < 2 ^ k) :
    (2 ^ k * a + r) ||| (2 ^ k * b + t) = 2 ^ k * (a ||| b) + (r ||| t) := by
  have hrt : r ||| t < 2 ^ k := Nat.or_lt_two_pow hr ht
  apply Nat.eq_of_testBit_eq
  intro i
  rw [Nat.testBit_or, Nat.testBit_two_pow_mul_add _ hr, Nat.testBit_two_pow_mul_add _ ht,
    Nat.testBit_two_pow_mul_add _ hrt]
  split <;> simp

/-- `v | (v-1)` fills the trailing zeros. -/
theorem lor_pred (m s : ℕ) (hm : m % 2 = 1) :
    (2 ^ s * m) ||| (2 ^ s * m - 1) = 2 ^ s * m + (2 ^ s - 1) := by
  have hp : 0 < 2 ^ s := Nat.two_pow_pos s
  obtain ⟨j, rfl⟩ : ∃ j, m = 2 * j + 1 := ⟨m / 2, by omega⟩
  have e : 2 ^ s * (2 * j + 1) - 1 = 2 ^ s * (2 * j) + (2 ^ s - 1) := by
    rw [Nat.mul_add]; omega
  have h0 := lor_mul_add s (2 * j + 1) (2 * j) 0 (2 ^ s - 1) hp (by omega)
  rw [Nat.add_zero] at h0
  rw [e, h0]
  have h1 := lor_mul_add 1 j j 1 0 (by omega) (by omega)
  simp at h1
  rw [h1]; simp

/-- Lowest set bit as `ldiff`. -/
theorem ldiff_pred (m s : ℕ) (hm : m % 2 = 1) :
    Nat.ldiff (2 ^ s * m) (2 ^ s * m - 1) = 2 ^ s := by
  have hp : 0 < 2 ^ s := Nat.two_pow_pos s
  obtain ⟨j, rfl⟩ : ∃ j, m = 2 * j + 1 := ⟨m / 2, by omega⟩
  have e : 2 ^ s * (2 * j + 1) - 1 = 2 ^ s * (2 * j) + (2 ^ s - 1) := by
    rw [Nat.mul_add]; omega
  rw [e]
  apply Nat.eq_of_testBit_eq
  intro i
  have h1 : (2 ^ s * (2 * j + 1)).testBit i = if i < s then false else (2 * j + 1).testBit (i - s) := by
    have := Nat.testBit_two_pow_mul_add (2 * j + 1) (b := 0) hp i
    simpa using this
  rw [Nat.testBit_ldiff, h1, Nat.testBit_two_pow_mul_add _ (by omega : 2 ^ s - 1 < 2 ^ s),
    Nat.testBit_two_pow]
  split
  · rename_i h; simp; omega
  · rename_i h
    rcases Nat.eq_or_lt_of_le (Nat.le_of_not_lt h) with h' | h'
    · subst h'; simp
    · obtain ⟨k, hk⟩ : ∃ k, i - s = k + 1 := ⟨i - s - 1, by omega⟩
      rw [hk, Nat.testBit_succ, Nat.testBit_succ]
      have e1 : (2 * j + 1) / 2 = j := by omega
      have e2 : 2 * j / 2 = j := by omega
      rw [e1, e2]
      have : ¬ s = i := by omega
      simp [this]

theorem int_land_neg (m s : ℕ) (hm : m % 2 = 1) :
    Int.land ((2 ^ s * m : ℕ) : ℤ) (-((2 ^ s * m : ℕ) : ℤ)) = ((2 ^ s : ℕ) : ℤ) := by
  have hpos : 0 < 2 ^ s * m := Nat.mul_pos (Nat.two_pow_pos s) (by omega)
  obtain ⟨k, hk⟩ : ∃ k, 2 ^ s * m = k + 1 := ⟨2 ^ s * m - 1, by omega⟩
  have h := ldiff_pred m s hm
  rw [hk] at h ⊢
  simp only [Nat.add_sub_cancel] at h
  have : -((k + 1 : ℕ) : ℤ) = Int.negSucc k := rfl
  rw [this]
  show ((Nat.ldiff (k + 1) k : ℕ) : ℤ) = _
  rw [h]

/-- The result of the bit trick on the block decomposition. -/
theorem nextSameWeight_block (a s c : ℕ) (hc : 0 < c) :
    nextSameWeight ((a * 2 ^ (s + c + 1) + (2 ^ c - 1) * 2 ^ s : ℕ) : ℤ) =
      ((a * 2 ^ (s + c + 1) + 2 ^ (s + c) + (2 ^ (c - 1) - 1) : ℕ) : ℤ) := by
  have hps : 0 < 2 ^ s := Nat.two_pow_pos s
  have hpc : 0 < 2 ^ c := Nat.two_pow_pos c
  obtain ⟨d, rfl⟩ : ∃ d, c = d + 1 := ⟨c - 1, by omega⟩
  have hpd : 0 < 2 ^ d := Nat.two_pow_pos d
  -- v = 2^s * m, m odd
  set m := a * 2 ^ (d + 2) + (2 ^ (d + 1) - 1) with hm
  have hmodd : m % 2 = 1 := by
    rw [hm, pow_succ 2 (d + 1), pow_succ 2 d, ← mul_assoc]; omega
  have hv : a * 2 ^ (s + (d + 1) + 1) + (2 ^ (d + 1) - 1) * 2 ^ s = 2 ^ s * m := by
    rw [hm]; ring
  have hvpos : 0 < 2 ^ s * m := Nat.mul_pos hps (by omega)
  have ht : 2 ^ s * m + (2 ^ s - 1) + 1 = 2 ^ (s + (d + 1)) * (2 * a + 1) := by
    rw [Nat.add_assoc, Nat.sub_add_cancel hps, hm]
    have e : a * 2 ^ (d + 2) + (2 ^ (d + 1) - 1) + 1 = 2 ^ (d + 1) * (2 * a + 1) := by
      rw [Nat.add_assoc, Nat.sub_add_cancel hpc]; ring
    calc 2 ^ s * (a * 2 ^ (d + 2) + (2 ^ (d + 1) - 1)) + 2 ^ s
        = 2 ^ s * (a * 2 ^ (d + 2) + (2 ^ (d + 1) - 1) + 1) := by ring
      _ = _ := by rw [e]; ring
  rw [hv]
  unfold nextSameWeight
  have hpred : ((2 ^ s * m : ℕ) : ℤ) - 1 = ((2 ^ s * m - 1 : ℕ) : ℤ) := by
    rw [Nat.cast_sub hvpos]; simp
  have hlor : Int.lor ((2 ^ s * m : ℕ) : ℤ) (((2 ^ s * m : ℕ) : ℤ) - 1) + 1
      = ((2 ^ (s + (d + 1)) * (2 * a + 1) : ℕ) : ℤ) := by
    rw [hpred]
    show (((2 ^ s * m) ||| (2 ^ s * m - 1) : ℕ) : ℤ) + 1 = _
    rw [lor_pred m s hmodd, ← ht]; push_cast; ring
  simp only []
  rw [hlor, int_land_neg m s hmodd, int_land_neg (2 * a + 1) (s + (d + 1)) (by omega)]
  have hdiv : ((2 ^ (s + (d + 1)) : ℕ) : ℤ) / ((2 ^ s : ℕ) : ℤ) = ((2 ^ (d + 1) : ℕ) : ℤ) := by
    rw [← Int.natCast_div]
    congr 1
    rw [pow_add, Nat.mul_div_cancel_left _ hps]
  rw [hdiv]
  have hshift : ((2 ^ (d + 1) : ℕ) : ℤ) >>> (1 : ℕ) - 1 = ((2 ^ d - 1 : ℕ) : ℤ) := by
    rw [Int.shiftRight_eq_div_pow, Nat.cast_sub hpd, pow_succ]
    push_cast
    rw [Int.mul_ediv_cancel _ (by norm_num)]
  rw [hshift]
  show (((2 ^ (s + (d + 1)) * (2 * a + 1)) ||| (2 ^ d - 1) : ℕ) : ℤ) = _
  have hlt : 2 ^ d - 1 < 2 ^ (s + (d + 1)) := by
    have : 2 ^ d ≤ 2 ^ (s + (d + 1)) := Nat.pow_le_pow_right (by omega) (by omega)
    omega
  rw [← Nat.two_pow_add_eq_or_of_lt hlt]
  congr 1
  rw [show d + 1 - 1 = d by omega]
  ring

/-- The bit trick computes the next larger number with the same number of one bits: it is larger, has the same
weight, and nothing in between has. -/
theorem nextSameWeight_spec (v : ℕ) (hv : 0 < v) :
    ∃ w : ℕ, nextSameWeight v = w ∧ v < w ∧ popcount w = popcount v ∧
      ∀ u, v < u → u < w → popcount u ≠ popcount v := by
  obtain ⟨a, s, c, hc, e⟩ := block_decomp v hv
  obtain ⟨d, rfl⟩ : ∃ d, c = d + 1 := ⟨c - 1, by omega⟩
  have hps : 0 < 2 ^ s := Nat.two_pow_pos s
  have hpd : 0 < 2 ^ d := Nat.two_pow_pos d
  have h2 : 2 ^ (s + (d + 1) + 1) = 2 ^ (s + (d + 1)) * 2 := pow_succ _ _
  have hle : 2 ^ d ≤ 2 ^ (s + (d + 1)) := Nat.pow_le_pow_right (by omega) (by omega)
  have hblock : (2 ^ (d + 1) - 1) * 2 ^ s + 2 ^ s = 2 ^ (s + (d + 1)) := by
    rw [← Nat.succ_mul, Nat.succ_eq_add_one, Nat.sub_add_cancel (Nat.two_pow_pos _)]; ring
  have hpv : popcount v = popcount a + (d + 1) := by
    rw [e, popcount_mul_add _ _ _ (by omega)]
    have := popcount_mul_add s (2 ^ (d + 1) - 1) 0 hps
    rw [Nat.add_zero] at this
    rw [this, popcount_two_pow_sub_one, popcount_zero]
  refine ⟨a * 2 ^ (s + (d + 1) + 1) + 2 ^ (s + (d + 1)) + (2 ^ (d + 1 - 1) - 1), ?_, ?_, ?_, ?_⟩
  · rw [e]; exact nextSameWeight_block a s (d + 1) hc
  · rw [e]; omega
  · rw [hpv, Nat.add_sub_cancel]
    have e2 : a * 2 ^ (s + (d + 1) + 1) + 2 ^ (s + (d + 1)) + (2 ^ d - 1)
        = (a * 2 + 1) * 2 ^ (s + (d + 1)) + (2 ^ d - 1) := by rw [h2]; ring
    rw [e2, popcount_mul_add _ _ _ (by omega), popcount_two_pow_sub_one]
    have := popcount_mul_add 1 a 1 (by omega)
    rw [pow_one] at this
    rw [this]
    have h1 : popcount 1 = 1 := popcount_two_pow_sub_one 1
    omega
  · intro u hu1 hu2 hp
    rw [hpv] at hp
    rw [Nat.add_sub_cancel] at hu2
    rw [e] at hu1
    rcases Nat.lt_or_ge u (a * 2 ^ (s + (d + 1) + 1) + 2 ^ (s + (d + 1))) with h | h
    · -- u below t
      obtain ⟨r, hr⟩ : ∃ r, u = a * 2 ^ (s + (d + 1) + 1) + ((2 ^ (d + 1) - 1) * 2 ^ s + r) :=
        ⟨u - (a * 2 ^ (s + (d + 1) + 1) + (2 ^ (d + 1) - 1) * 2 ^ s), by omega⟩
      have hr0 : 0 < r := by omega
      have hrs : r < 2 ^ s := by omega
      rw [hr, popcount_mul_add _ _ _ (by omega), popcount_mul_add _ _ _ hrs,
        popcount_two_pow_sub_one] at hp
      have := popcount_pos hr0
      omega
    · obtain ⟨r, hr⟩ : ∃ r, u = (a * 2 + 1) * 2 ^ (s + (d + 1)) + r :=
        ⟨u - (a * 2 + 1) * 2 ^ (s + (d + 1)), by
          have : (a * 2 + 1) * 2 ^ (s + (d + 1)) =
            a * 2 ^ (s + (d + 1) + 1) + 2 ^ (s + (d + 1)) := by rw [h2]; ring
          omega⟩
      have heq : (a * 2 + 1) * 2 ^ (s + (d + 1)) =
            a * 2 ^ (s + (d + 1) + 1) + 2 ^ (s + (d + 1)) := by rw [h2]; ring
      have hrlt : r < 2 ^ d - 1 := by omega
      rw [hr, popcount_mul_add _ _ _ (by omega)] at hp
      have h3 := popcount_mul_add 1 a 1 (by omega)
      rw [pow_one] at h3
      have h1 : popcount 1 = 1 := popcount_two_pow_sub_one 1
      have h4 := two_pow_popcount_le r
      have h5 : popcount r = d := by omega
      rw [h5] at h4; omega

end ZQ.Bits
