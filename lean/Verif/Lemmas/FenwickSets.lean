import Verif.Lemmas.Fenwick
import Verif.Model.BKInteraction

/-! How the update, parity and occupation sets of two qubits meet. -/

namespace ZQ.Op

theorem updateSet_lt {p n i : ℕ} (hp : p < n) (h : i ∈ updateSet p n) : i < n := ((mem_update p n i hp).1 (Finset.mem_insert_of_mem h)).1

theorem mem_updateSet {p n i : ℕ} (hp : p < n) : i ∈ updateSet p n ↔ i < n ∧ p ∈ block i ∧ p ≠ i := by
  constructor
  · intro h
    have := updateSet_gt p n i hp h
    obtain ⟨h1, h2⟩ := (mem_update p n i hp).1 (Finset.mem_insert_of_mem h)
    exact ⟨h1, h2, by omega⟩
  · rintro ⟨h1, h2, h3⟩
    rcases Finset.mem_insert.1 ((mem_update p n i hp).2 ⟨h1, h2⟩) with h | h
    · exact absurd h.symm h3
    · exact h

/-- Two at one mode. -/
def twoAt (m : ℕ) : ℕ → ℂ := fun k => if k = m then 2 else 1

theorem rangeProd_twoAt (m a b : ℕ) : rangeProd (twoAt m) a b = if a ≤ m ∧ m < b then 2 else 1 := by
  rw [rangeProd]
  simp only [twoAt, Finset.prod_ite_eq', Finset.mem_Ico]

theorem blockProd_twoAt (m q : ℕ) : blockProd (twoAt m) q = if m ∈ block q then 2 else 1 := by
  rw [blockProd, rangeProd_twoAt]
  have : m ∈ block q ↔ clearLow (q + 1) ≤ m ∧ m < q + 1 := by rw [block, Finset.mem_Icc, blockStart_eq]; omega
  by_cases h : m ∈ block q
  · rw [if_pos h, if_pos (this.1 h)]
  · rw [if_neg h, if_neg fun h' => h (this.2 h')]

theorem prod_twoAt (m : ℕ) (S : Finset ℕ) : ∏ q ∈ S, blockProd (twoAt m) q = 2 ^ (S.filter fun q => m ∈ block q).card := by
  simp only [blockProd_twoAt]
  rw [Finset.prod_ite, Finset.prod_const, Finset.prod_const_one, mul_one]

theorem pow_two_inj {a b : ℕ} (h : (2 : ℂ) ^ a = 2 ^ b) : a = b := by
  have : (2 : ℕ) ^ a = 2 ^ b := by exact_mod_cast h
  exact Nat.pow_right_injective le_rfl this

/-- Every mode below `j` is stored by exactly one qubit of the parity set. -/
theorem paritySet_unique {i j : ℕ} (h : i < j) : ∃ a, (paritySet j).filter (fun q => i ∈ block q) = {a} := by
  have e := paritySet_prod (twoAt i) j
  rw [prod_twoAt, rangeProd_twoAt, if_pos ⟨Nat.zero_le _, h⟩] at e
  exact Finset.card_eq_one.1 (pow_two_inj (by rw [e, pow_one]))

/-- The qubits of the occupation set storing another mode: two or none. -/
theorem occupationSet_count {i j : ℕ} (h : i < j) : ((occupationSet j).filter fun q => i ∈ block q).card = if i ∈ block j then 2 else 0 := by
  have hc := clearLow_lt (j + 1) (by omega)
  have e := (occupationLoop_prod (twoAt i) (j + 1) (by omega) (j + 1) j {j} (by omega) (by omega) (by omega) (by simp)).1
  rw [← occupationSet, prod_twoAt, rangeProd_twoAt, Finset.prod_singleton, blockProd_twoAt] at e
  have hb : i ∈ block j ↔ clearLow (j + 1) ≤ i ∧ i < j := by
    rw [block, Finset.mem_Icc, blockStart_eq]; omega
  by_cases hi : i ∈ block j
  · rw [if_pos hi, if_pos (hb.1 hi)] at e
    rw [if_pos hi]
    exact pow_two_inj (by rw [e]; norm_num)
  · rw [if_neg hi, if_neg fun h => hi (hb.2 h)] at e
    rw [if_neg hi]
    exact pow_two_inj (by rw [e]; norm_num)

theorem parityLoop_acc (fuel k : ℕ) (acc : Finset ℕ) : parityLoop fuel k acc = acc ∪ parityLoop fuel k ∅ := by
  induction fuel generalizing k acc with
  | zero => simp [parityLoop]
  | succ fuel ih =>
    rw [parityLoop, parityLoop]
    split
    · rw [ih, ih _ (insert _ ∅)]
      ext q; simp only [Finset.mem_union, Finset.mem_insert, Finset.notMem_empty]; tauto
    · simp

theorem occupation_sub_loop (K : ℕ) : ∀ (fuel k : ℕ) (acc : Finset ℕ), clearLow K ≤ k → k ≤ K →
    occupationLoop (clearLow K) fuel k acc ⊆ acc ∪ parityLoop fuel k ∅ := by
  intro fuel
  induction fuel with
  | zero => intro k acc _ _; simp [occupationLoop]
  | succ fuel ih =>
    intro k acc h1 h2
    rw [occupationLoop, parityLoop]
    by_cases hk : k = clearLow K
    · rw [if_neg (by simpa using hk)]
      exact Finset.subset_union_left
    · have hlt : clearLow K < k := by omega
      rw [if_pos hk, if_pos (by omega), parityLoop_acc]
      have hc := clearLow_lt k (by omega)
      refine (ih (clearLow k) _ (clearLow_ge K k hlt h2) (by omega)).trans ?_
      intro q hq
      simp only [Finset.mem_union, Finset.mem_insert, Finset.notMem_empty, or_false] at hq ⊢
      tauto

/-- Apart from the qubit itself the occupation set is part of the parity set. -/
theorem occupation_sub {q j : ℕ} (h : q ∈ occupationSet j) : q = j ∨ q ∈ paritySet j := by
  have hc := clearLow_lt (j + 1) (by omega)
  have := occupation_sub_loop (j + 1) (j + 1) j {j} (by omega) (by omega) h
  rw [Finset.mem_union, Finset.mem_singleton] at this
  exact this

theorem parityLoop_odd : ∀ (fuel k : ℕ), k % 2 = 0 → ∀ q ∈ parityLoop fuel k ∅, q % 2 = 1 := by
  intro fuel
  induction fuel with
  | zero => intro k _ q hq; simp [parityLoop] at hq
  | succ fuel ih =>
    intro k hk q hq
    rw [parityLoop] at hq
    by_cases h0 : 0 < k
    · rw [if_pos h0, parityLoop_acc, Finset.mem_union, Finset.mem_insert] at hq
      rcases hq with (rfl | hq) | hq
      · omega
      · simp at hq
      · refine ih (clearLow k) ?_ q hq
        obtain ⟨m, rfl⟩ : ∃ m, k = 2 * m := ⟨k / 2, by omega⟩
        rw [clearLow_even m (by omega)]; omega
    · rw [if_neg h0] at hq; simp at hq

theorem paritySet_even {j q : ℕ} (hj : j % 2 = 0) (hq : q ∈ paritySet j) : q % 2 = 1 := parityLoop_odd _ _ hj q hq

theorem paritySet_odd (m : ℕ) : paritySet (2 * m + 1) = insert (2 * m) (paritySet (2 * m)) := by
  rw [paritySet, parityLoop, if_pos (by omega), clearLow_odd, parityLoop_acc, paritySet]
  ext q; simp

theorem occupationSet_even {j : ℕ} (hj : j % 2 = 0) : occupationSet j = {j} := by
  obtain ⟨m, rfl⟩ : ∃ m, j = 2 * m := ⟨j / 2, by omega⟩
  rw [occupationSet, occupationLoop, clearLow_odd, if_neg (by simp)]

theorem block_even {q : ℕ} (hq : q % 2 = 0) : block q = {q} := by
  obtain ⟨m, rfl⟩ : ∃ m, q = 2 * m := ⟨q / 2, by omega⟩
  rw [block, blockStart_eq, clearLow_odd, Finset.Icc_self]

theorem updateSet_odd {i n q : ℕ} (hi : i < n) (h : q ∈ updateSet i n) : q % 2 = 1 := by
  by_contra hq
  obtain ⟨_, h1, h2⟩ := (mem_updateSet hi).1 h
  rw [block_even (by omega), Finset.mem_singleton] at h1
  exact h2 h1

theorem mem_updateSet_succ {i n : ℕ} (hi : i % 2 = 0) (hn : i + 1 < n) : i + 1 ∈ updateSet i n := by
  refine (mem_updateSet (by omega)).2 ⟨hn, ?_, by omega⟩
  obtain ⟨m, rfl⟩ : ∃ m, i = 2 * m := ⟨i / 2, by omega⟩
  rw [block, Finset.mem_Icc, blockStart_eq, show 2 * m + 1 + 1 = 2 * (m + 1) by ring, clearLow_even _ (by omega)]
  have := clearLow_lt (m + 1) (by omega)
  omega

/-- The qubit of the parity set of `j` that stores mode `i < j`: the only one that a change of mode `i` flips; it is in the occupation set of `j`
exactly when qubit `j` stores mode `i`. -/
theorem parity_meets {i j n : ℕ} (hij : i < j) (hj : j < n) :
    ∃ a ∈ paritySet j, (∀ q ∈ paritySet j, (q = i ∨ q ∈ updateSet i n) ↔ q = a) ∧ (a ∈ occupationSet j ↔ j ∈ updateSet i n) := by
  obtain ⟨a, ha⟩ := paritySet_unique hij
  have hm : ∀ q, (q ∈ paritySet j ∧ i ∈ block q) ↔ q = a := fun q => by
    rw [← Finset.mem_singleton, ← ha, Finset.mem_filter]
  have h1 := (hm a).2 rfl
  have hU : ∀ q < n, (q = i ∨ q ∈ updateSet i n) ↔ i ∈ block q := fun q hq => by
    rw [← Finset.mem_insert, mem_update i n q (by omega)]; simp [hq]
  have hju : j ∈ updateSet i n ↔ i ∈ block j := by
    rw [mem_updateSet (by omega)]
    exact ⟨fun h => h.2.1, fun h => ⟨hj, h, by omega⟩⟩
  refine ⟨a, h1.1, fun q hq => ?_, ?_⟩
  · have := paritySet_lt j q hq
    rw [hU q (by omega), ← hm q]
    exact ⟨fun h => ⟨hq, h⟩, fun h => h.2⟩
  · have hcount := occupationSet_count hij
    rw [hju]
    constructor
    · intro h
      by_contra hb
      rw [if_neg hb, Finset.card_eq_zero] at hcount
      have : a ∈ (occupationSet j).filter fun q => i ∈ block q := Finset.mem_filter.2 ⟨h, h1.2⟩
      rw [hcount] at this
      simp at this
    · intro hb
      rw [if_pos hb] at hcount
      obtain ⟨x, hx, hxj⟩ := Finset.exists_mem_ne (by omega : 1 < ((occupationSet j).filter fun q => i ∈ block q).card) j
      obtain ⟨x1, x2⟩ := Finset.mem_filter.1 hx
      rcases occupation_sub x1 with h | h
      · exact absurd h hxj
      · rwa [← (hm x).1 ⟨h, x2⟩]

end ZQ.Op
