import Verif.Spec.Gates
import Verif.Lemmas.Gates

/-! Helpers: controlled matrices and adjoints. -/

namespace ZQ

open Matrix Bits

namespace Mat.Same

variable {K : Type}

theorem refl (A : Mat K) : A.Same A := ⟨rfl, rfl, fun _ _ _ _ => rfl⟩
theorem symm {A B : Mat K} (h : A.Same B) : B.Same A :=
  ⟨h.1.symm, h.2.1.symm, fun i hi j hj => (h.2.2 i (h.1 ▸ hi) j (h.2.1 ▸ hj)).symm⟩
theorem trans {A B C : Mat K} (h : A.Same B) (h' : B.Same C) : A.Same C :=
  ⟨h.1.trans h'.1, h.2.1.trans h'.2.1, fun i hi j hj =>
    (h.2.2 i hi j hj).trans (h'.2.2 i (h.1 ▸ hi) j (h.2.1 ▸ hj))⟩
theorem adjoint [Star K] {A B : Mat K} (h : A.Same B) : A.adjoint.Same B.adjoint :=
  ⟨h.2.1, h.1, fun i hi j hj => congrArg star (h.2.2 j hj i hi)⟩
theorem onBits {A B : Mat K} (h : A.Same B) (n : ℕ) (hr : A.rows = 2 ^ n) (hc : A.cols = 2 ^ n) :
    A.onBits n = B.onBits n := by
  ext x y
  exact h.2.2 _ (hr ▸ basisIndex_lt x) _ (hc ▸ basisIndex_lt y)

end Mat.Same

/-- The matrix expression used by `ControlledGate.matrix`. -/
def ctrlMat (w k : ℕ) (M : Mat ℂ) : Mat ℂ := Mat.diag (Mat.eye (2 ^ (w + k) - 2 ^ w)) M

theorem pow_le_pow_add (w k : ℕ) : 2 ^ w ≤ 2 ^ (w + k) := Nat.pow_le_pow_right (by norm_num) (by omega)

theorem ctrlMat_rows {w k : ℕ} {M : Mat ℂ} (h : M.rows = 2 ^ w) : (ctrlMat w k M).rows = 2 ^ (w + k) := by
  have := pow_le_pow_add w k
  simp only [ctrlMat, Mat.diag, Mat.eye, h]; omega

theorem ctrlMat_cols {w k : ℕ} {M : Mat ℂ} (h : M.cols = 2 ^ w) : (ctrlMat w k M).cols = 2 ^ (w + k) := by
  have := pow_le_pow_add w k
  simp only [ctrlMat, Mat.diag, Mat.eye, h]; omega

theorem ctrlMat_e (w k : ℕ) (M : Mat ℂ) (i j : ℕ) : (ctrlMat w k M).e i j =
    if i < 2 ^ (w + k) - 2 ^ w ∧ j < 2 ^ (w + k) - 2 ^ w then (if i = j then 1 else 0)
    else if 2 ^ (w + k) - 2 ^ w ≤ i ∧ 2 ^ (w + k) - 2 ^ w ≤ j then
      M.e (i - (2 ^ (w + k) - 2 ^ w)) (j - (2 ^ (w + k) - 2 ^ w)) else 0 := rfl

theorem ctrlMat_congr {w k : ℕ} {M N : Mat ℂ} (h : M.Same N) : (ctrlMat w k M).Same (ctrlMat w k N) := by
  refine ⟨?_, ?_, ?_⟩
  · simp only [ctrlMat, Mat.diag, Mat.eye, h.1]
  · simp only [ctrlMat, Mat.diag, Mat.eye, h.2.1]
  · intro i hi j hj
    have hi' : i < 2 ^ (w + k) - 2 ^ w + M.rows := hi
    have hj' : j < 2 ^ (w + k) - 2 ^ w + M.cols := hj
    rw [ctrlMat_e, ctrlMat_e]
    split
    · rfl
    · split
      · exact h.2.2 _ (by omega) _ (by omega)
      · rfl

theorem ctrlMat_adjoint (w k : ℕ) (M : Mat ℂ) : (ctrlMat w k M).adjoint.Same (ctrlMat w k M.adjoint) := by
  refine ⟨rfl, rfl, ?_⟩
  intro i _ j _
  show star ((ctrlMat w k M).e j i) = _
  rw [ctrlMat_e, ctrlMat_e]
  by_cases h1 : i < 2 ^ (w + k) - 2 ^ w ∧ j < 2 ^ (w + k) - 2 ^ w
  · rw [if_pos h1, if_pos h1.symm]
    by_cases h : i = j
    · simp [h]
    · rw [if_neg h, if_neg (Ne.symm h), star_zero]
  · rw [if_neg h1, if_neg (fun h => h1 h.symm)]
    by_cases h2 : 2 ^ (w + k) - 2 ^ w ≤ i ∧ 2 ^ (w + k) - 2 ^ w ≤ j
    · rw [if_pos h2, if_pos h2.symm]; rfl
    · rw [if_neg h2, if_neg (fun h => h2 h.symm), star_zero]

theorem ctrlMat_ctrlMat (w c k : ℕ) (M : Mat ℂ) (hr : M.rows = 2 ^ w) (hc : M.cols = 2 ^ w) :
    (ctrlMat (w + c) k (ctrlMat w c M)).Same (ctrlMat w (c + k) M) := by
  have h1 := pow_le_pow_add w c
  have h2 := pow_le_pow_add (w + c) k
  have e : w + (c + k) = w + c + k := by omega
  refine ⟨?_, ?_, ?_⟩
  · rw [ctrlMat_rows (ctrlMat_rows hr), ctrlMat_rows hr, e]
  · rw [ctrlMat_cols (ctrlMat_cols hc), ctrlMat_cols hc, e]
  · intro i hi j hj
    rw [ctrlMat_rows (ctrlMat_rows hr)] at hi
    rw [ctrlMat_cols (ctrlMat_cols hc)] at hj
    rw [ctrlMat_e, ctrlMat_e, ctrlMat_e, e]
    set A := 2 ^ (w + c + k)
    set B := 2 ^ (w + c)
    set C := 2 ^ w
    have e1 : ∀ t, t - (A - B) - (B - C) = t - (A - C) := by intro t; omega
    rw [e1, e1]
    by_cases hij : i = j
    · subst hij
      by_cases ha : i < A - B
      · rw [if_pos ⟨ha, ha⟩, if_pos rfl, if_pos (show i < A - C ∧ i < A - C by omega)]
      · rw [if_neg (by omega), if_pos (by omega)]
        by_cases hb : i - (A - B) < B - C
        · rw [if_pos ⟨hb, hb⟩, if_pos rfl, if_pos (show i < A - C ∧ i < A - C by omega), if_pos rfl]
        · rw [if_neg (by omega), if_pos (by omega), if_neg (by omega), if_pos (by omega)]
    · rw [if_neg hij]
      by_cases h3 : A - C ≤ i ∧ A - C ≤ j
      · rw [if_neg (by omega), if_pos (by omega), if_neg (by omega), if_pos (by omega), if_neg (by omega), if_pos h3]
      · have hr : (if i < A - C ∧ j < A - C then (0 : ℂ) else
            if A - C ≤ i ∧ A - C ≤ j then M.e (i - (A - C)) (j - (A - C)) else 0) = 0 := by
          rw [if_neg h3]; split <;> rfl
        rw [hr]
        split
        · rfl
        · split
          · rw [if_neg (show ¬ (B - C ≤ i - (A - B) ∧ B - C ≤ j - (A - B)) by omega)]
            split
            · rw [if_neg (by omega)]
            · rfl
          · rfl

theorem basisIndex_all_true (k : ℕ) : basisIndex (fun _ : Fin k => true) = 2 ^ k - 1 := by
  rw [basisIndex_eq_pyInt2]
  induction k with
  | zero => rfl
  | succ k ih =>
    rw [List.ofFn_succ, pyInt2_cons, ih, List.length_ofFn]
    have : 0 < 2 ^ k := by positivity
    simp only [Bool.toNat_true, pow_succ]
    omega

theorem basisIndex_append (k w : ℕ) (x : Fin (k + w) → Bool) :
    basisIndex x = basisIndex (fun c => x (Fin.castAdd w c)) * 2 ^ w + basisIndex (fun q => x (Fin.natAdd k q)) := by
  unfold basisIndex
  rw [Fin.sum_univ_add, Finset.sum_mul]
  congr 1
  · apply Finset.sum_congr rfl
    intro c _
    have hc := c.2
    have e : k + w - 1 - (Fin.castAdd w c : ℕ) = (k - 1 - (c : ℕ)) + w := by
      rw [Fin.val_castAdd]; omega
    rw [e, pow_add, ite_mul, zero_mul]
  · apply Finset.sum_congr rfl
    intro q _
    have e : k + w - 1 - (Fin.natAdd k q : ℕ) = w - 1 - (q : ℕ) := by
      rw [Fin.val_natAdd]; omega
    rw [e]

/-- On bit assignments `ctrlMat` is the controlled operator. -/
theorem ctrlMat_onBits (w k : ℕ) (M : Mat ℂ) :
    (ctrlMat w k M).onBits (k + w) = controlledOp k (M.onBits w) := by
  ext x y
  have hD : 2 ^ (w + k) - 2 ^ w = (2 ^ k - 1) * 2 ^ w := by
    rw [pow_add, Nat.sub_mul, one_mul, mul_comm]
  have key : ∀ z : Fin (k + w) → Bool,
      ((∀ c : Fin k, z (Fin.castAdd w c) = true) → basisIndex z = 2 ^ (w + k) - 2 ^ w + basisIndex (fun q => z (Fin.natAdd k q))) ∧
      ((¬ ∀ c : Fin k, z (Fin.castAdd w c) = true) → basisIndex z < 2 ^ (w + k) - 2 ^ w) := by
    intro z
    have hR := basisIndex_lt (fun q => z (Fin.natAdd k q))
    have hC := basisIndex_lt (fun c => z (Fin.castAdd w c))
    rw [basisIndex_append k w z, hD]
    constructor
    · intro h
      have : (fun c => z (Fin.castAdd w c)) = fun _ => true := funext h
      rw [this, basisIndex_all_true]
    · intro h
      have hne : basisIndex (fun c => z (Fin.castAdd w c)) ≠ 2 ^ k - 1 := by
        intro he
        rw [← basisIndex_all_true] at he
        exact h (fun c => congrFun (basisIndex_injective he) c)
      have hle : basisIndex (fun c => z (Fin.castAdd w c)) + 1 ≤ 2 ^ k - 1 := by omega
      calc _ < basisIndex (fun c => z (Fin.castAdd w c)) * 2 ^ w + 2 ^ w := by omega
        _ = (basisIndex (fun c => z (Fin.castAdd w c)) + 1) * 2 ^ w := by ring
        _ ≤ _ := Nat.mul_le_mul_right _ hle
  show (ctrlMat w k M).e (basisIndex x) (basisIndex y) = _
  rw [ctrlMat_e]
  unfold controlledOp
  by_cases hx : ∀ c : Fin k, x (Fin.castAdd w c) = true
  · have hx' := (key x).1 hx
    by_cases hy : ∀ c : Fin k, y (Fin.castAdd w c) = true
    · have hy' := (key y).1 hy
      rw [if_neg (by omega), if_pos (by omega), if_pos ⟨hx, hy⟩, hx', hy', Nat.add_sub_cancel_left,
        Nat.add_sub_cancel_left]
      rfl
    · have hy' := (key y).2 hy
      rw [if_neg (by omega), if_neg (by omega), if_neg (fun h => hy h.2), if_neg]
      rintro rfl; exact hy hx
  · have hx' := (key x).2 hx
    by_cases hy : ∀ c : Fin k, y (Fin.castAdd w c) = true
    · have hy' := (key y).1 hy
      rw [if_neg (by omega), if_neg (by omega), if_neg (fun h => hx h.1), if_neg]
      rintro rfl; exact hx hy
    · have hy' := (key y).2 hy
      rw [if_pos ⟨hx', hy'⟩]
      rw [if_neg (show ¬ ((∀ c : Fin k, x (Fin.castAdd w c) = true) ∧ (∀ c : Fin k, y (Fin.castAdd w c) = true)) from
        fun h => hx h.1)]
      by_cases hxy : x = y
      · simp [hxy]
      · rw [if_neg hxy, if_neg (fun e => hxy (basisIndex_injective e))]

/-- Controlled unitaries are unitary. -/
theorem ctrlMat_unitary (w k : ℕ) (M : Mat ℂ) (hr : M.rows = 2 ^ w) (hc : M.cols = 2 ^ w)
    (hM : M.onBits w ∈ Matrix.unitaryGroup (Fin w → Bool) ℂ) :
    (ctrlMat w k M).onBits (w + k) ∈ Matrix.unitaryGroup (Fin (w + k) → Bool) ℂ := by
  have hent : ∀ i < 2 ^ w, ∀ j < 2 ^ w, ∑ l ∈ Finset.range (2 ^ w), M.e i l * (starRingEnd ℂ) (M.e j l) = if i = j then 1 else 0 := by
    intro i hi j hj
    rw [Matrix.mem_unitaryGroup_iff] at hM
    have := congrFun (congrFun hM (bitsOf w i)) (bitsOf w j)
    rw [Matrix.mul_apply] at this
    simp only [Matrix.star_apply, Mat.onBits, basisIndex_bitsOf w i hi, basisIndex_bitsOf w j hj] at this
    rw [← sum_range_eq_sum_bits w (fun l => M.e i l * star (M.e j l))] at this
    refine Eq.trans this ?_
    rw [Matrix.one_apply]
    by_cases hij : i = j
    · simp [hij]
    · rw [if_neg hij, if_neg]
      intro h
      apply hij
      rw [← basisIndex_bitsOf w i hi, h, basisIndex_bitsOf w j hj]
  apply onBits_unitary_of_entries
  intro i hi j hj
  have hle := pow_le_pow_add w k
  obtain ⟨D, hD⟩ : ∃ D, 2 ^ (w + k) = D + 2 ^ w := ⟨2 ^ (w + k) - 2 ^ w, by omega⟩
  have hD' : 2 ^ (w + k) - 2 ^ w = D := by omega
  rw [hD, Finset.sum_range_add]
  simp only [ctrlMat_e, hD']
  rw [hD] at hi hj
  by_cases h1 : i < D
  · have z2 : ∀ l ∈ Finset.range (2 ^ w), (if i < D ∧ D + l < D then (if i = D + l then (1:ℂ) else 0) else
        if D ≤ i ∧ D ≤ D + l then M.e (i - D) (D + l - D) else 0) *
        (starRingEnd ℂ) (if j < D ∧ D + l < D then (if j = D + l then (1:ℂ) else 0) else
        if D ≤ j ∧ D ≤ D + l then M.e (j - D) (D + l - D) else 0) = 0 := by
      intro l _
      rw [if_neg (by omega), if_neg (by omega), zero_mul]
    rw [Finset.sum_eq_zero z2, add_zero]
    by_cases h2 : j < D
    · rw [Finset.sum_eq_single i]
      · rw [if_pos ⟨h1, h1⟩, if_pos rfl, if_pos ⟨h2, h1⟩, one_mul]
        by_cases hij : i = j
        · simp [hij]
        · rw [if_neg hij, if_neg (Ne.symm hij), map_zero]
      · intro l hl hne
        rw [if_pos ⟨h1, Finset.mem_range.1 hl⟩, if_neg (Ne.symm hne), zero_mul]
      · intro h; exact absurd (Finset.mem_range.2 h1) h
    · rw [if_neg (by omega)]
      apply Finset.sum_eq_zero
      intro l hl
      have := Finset.mem_range.1 hl
      rw [if_neg (show ¬ (j < D ∧ l < D) by omega), if_neg (show ¬ (D ≤ j ∧ D ≤ l) by omega), map_zero, mul_zero]
  · have z1 : ∀ l ∈ Finset.range D, (if i < D ∧ l < D then (if i = l then (1:ℂ) else 0) else
        if D ≤ i ∧ D ≤ l then M.e (i - D) (l - D) else 0) *
        (starRingEnd ℂ) (if j < D ∧ l < D then (if j = l then (1:ℂ) else 0) else
        if D ≤ j ∧ D ≤ l then M.e (j - D) (l - D) else 0) = 0 := by
      intro l hl
      have := Finset.mem_range.1 hl
      rw [if_neg (by omega), if_neg (by omega), zero_mul]
    rw [Finset.sum_eq_zero z1, zero_add]
    by_cases h2 : j < D
    · rw [if_neg (by omega)]
      apply Finset.sum_eq_zero
      intro l _
      rw [if_neg (show ¬ (j < D ∧ D + l < D) by omega), if_neg (show ¬ (D ≤ j ∧ D ≤ D + l) by omega), map_zero, mul_zero]
    · have := hent (i - D) (by omega) (j - D) (by omega)
      rw [show (if i = j then (1:ℂ) else 0) = if i - D = j - D then 1 else 0 by
        by_cases hij : i = j
        · simp [hij]
        · rw [if_neg hij, if_neg (by omega)], ← this]
      apply Finset.sum_congr rfl
      intro l _
      rw [if_neg (show ¬ (i < D ∧ D + l < D) by omega), if_pos (show D ≤ i ∧ D ≤ D + l by omega),
        if_neg (show ¬ (j < D ∧ D + l < D) by omega), if_pos (show D ≤ j ∧ D ≤ D + l by omega), Nat.add_sub_cancel_left]

end ZQ
