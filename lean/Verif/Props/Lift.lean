import Verif.Lemmas.ActOn

/-!
# C05, C06: lifting a gate matrix to a register
-/

namespace ZQ.LiftProps

open ZQ ZQ.UnitaryTools Bits Matrix

variable {K : Type} [CommRing K]

/-- **C05.** Lifting a `2^k × 2^k` matrix to distinct qubits `qs 0, …, qs (k-1)` of an `n`-qubit register succeeds, and the
result acts as the matrix on these qubits (in the given order) and as the identity on all others. -/
theorem lift_acts_on_its_qubits {n k : ℕ} (m : Mat K) (qs : Fin k → Fin n) (hk : 0 < k)
    (hq : Function.Injective qs) (hr : m.rows = 2 ^ k) (hc : m.cols = 2 ^ k) :
    ∃ L : Mat K, liftMatrix m (List.ofFn fun i => (qs i : ℕ)) n = .ok L ∧
      L.rows = 2 ^ n ∧ L.cols = 2 ^ n ∧ L.onBits n = actOn qs (m.onBits k) :=
  liftMatrix_onBits m qs hk hq hr hc

/-- The same statement read entry by entry. -/
theorem lift_entry {n k : ℕ} (m L : Mat K) (qs : Fin k → Fin n) (hk : 0 < k)
    (hq : Function.Injective qs) (hr : m.rows = 2 ^ k) (hc : m.cols = 2 ^ k)
    (hL : liftMatrix m (List.ofFn fun i => (qs i : ℕ)) n = .ok L) (x y : Fin n → Bool) :
    L.e (basisIndex x) (basisIndex y) =
      if ∀ q, q ∉ Set.range qs → x q = y q then
        m.e (basisIndex fun i => x (qs i)) (basisIndex fun i => y (qs i)) else 0 := by
  obtain ⟨L', h1, _, _, h4⟩ := liftMatrix_onBits m qs hk hq hr hc
  rw [h1] at hL
  cases hL
  have := congrFun (congrFun h4 x) y
  simp only [Mat.onBits, actOn] at this
  rw [this]
  have hiff : (∀ q, (∀ i, qs i ≠ q) → x q = y q) ↔ (∀ q, q ∉ Set.range qs → x q = y q) := by
    constructor
    · intro h q hqr; exact h q (fun i hi => hqr ⟨i, hi⟩)
    · intro h q hqr; exact h q (by rintro ⟨i, hi⟩; exact hqr i hi)
  by_cases h : ∀ q, (∀ i, qs i ≠ q) → x q = y q
  · rw [if_pos h, if_pos (hiff.1 h)]; rfl
  · rw [if_neg h, if_neg (fun h' => h (hiff.2 h'))]

/-- Integer index 2 = |10⟩ on two qubits: bit of qubit 0 is 1. -/
example : basisIndex (![true, false] : Fin 2 → Bool) = 2 := by decide

/-- The hypotheses are satisfiable with a reordering: a two-qubit matrix on qubits (2, 0) of 3. -/
example : Function.Injective (![2, 0] : Fin 2 → Fin 3) := by decide

/-- **C05**, rejected inputs: no qubits. -/
theorem lift_no_qubits (m : Mat K) (n : ℕ) : liftMatrix m [] n = .error .valueError := rfl

/-- A list with a repeated qubit is never accepted. -/
theorem lift_rejects_duplicates (m : Mat K) (qs : List ℕ) (n : ℕ) (h : ¬ qs.Nodup) :
    liftMatrix m qs n = .error .valueError := by
  unfold liftMatrix
  split
  · rename_i s l hs hl
    have hdup : ¬ (permutationMakingQubitsAdjacent (qs.map fun i => i - s) (l - s + 1)).Nodup := by
      unfold permutationMakingQubitsAdjacent
      intro hnd
      have h1 := (List.nodup_append.1 hnd).1
      exact h (List.Nodup.of_map _ h1)
    have hne : (permutationMakingQubitsAdjacent (qs.map fun i => i - s) (l - s + 1)).mergeSort (· ≤ ·) ≠
        List.range (permutationMakingQubitsAdjacent (qs.map fun i => i - s) (l - s + 1)).length := by
      intro he
      apply hdup
      have hp := List.mergeSort_perm (permutationMakingQubitsAdjacent (qs.map fun i => i - s) (l - s + 1))
        (fun a b => decide (a ≤ b))
      rw [← hp.nodup_iff, he]
      exact List.nodup_range
    unfold permutationMatrix
    dsimp only
    rw [if_pos hne]
    rfl
  · rfl

/-- A qubit outside the register is never accepted. -/
theorem lift_rejects_outside (m : Mat K) (qs : List ℕ) (n q : ℕ) (hq : q ∈ qs) (hn : n ≤ q) (L : Mat K) :
    liftMatrix m qs n ≠ .ok L := by
  unfold liftMatrix
  split
  · rename_i s l hs hl
    have hle : q ≤ l := (List.max?_eq_some_iff.1 hl).2 q hq
    dsimp only
    generalize permutationMatrix (K := K) (permutationMakingQubitsAdjacent (qs.map fun i => i - s) (l - s + 1)) = P
    cases P with
    | error e => simp [bind, Except.bind]
    | ok P =>
      simp only [bind, Except.bind]
      have h0 : n < l + 1 := by omega
      rw [if_pos h0]
      split
      · simp
      · split <;> simp
  · simp

example : liftMatrix (Mat.eye 2 : Mat ℤ) [0, 0] 3 = .error .valueError := lift_rejects_duplicates _ _ _ (by decide)

/-- **C06.** The lift of the identity is the identity. -/
theorem lift_one {n k : ℕ} (L : Mat K) (qs : Fin k → Fin n) (hk : 0 < k) (hq : Function.Injective qs)
    (hL : liftMatrix (Mat.eye (2 ^ k) : Mat K) (List.ofFn fun i => (qs i : ℕ)) n = .ok L) :
    L.onBits n = 1 := by
  obtain ⟨_, h1, _, _, h2⟩ := liftMatrix_onBits (Mat.eye (2 ^ k) : Mat K) qs hk hq rfl rfl
  rw [h1] at hL
  cases hL
  rw [h2, onBits_eye, actOn_one]

/-- **C06.** For matrices of matching shape on the same qubits: lifting a product is the product of the lifts. -/
theorem lift_mul {n k : ℕ} (a b La Lb Lab : Mat K) (qs : Fin k → Fin n) (hk : 0 < k)
    (hq : Function.Injective qs) (har : a.rows = 2 ^ k) (hac : a.cols = 2 ^ k) (hbr : b.rows = 2 ^ k)
    (hbc : b.cols = 2 ^ k)
    (ha : liftMatrix a (List.ofFn fun i => (qs i : ℕ)) n = .ok La)
    (hb : liftMatrix b (List.ofFn fun i => (qs i : ℕ)) n = .ok Lb)
    (hab : liftMatrix (a.mul b) (List.ofFn fun i => (qs i : ℕ)) n = .ok Lab) :
    Lab.onBits n = La.onBits n * Lb.onBits n := by
  obtain ⟨_, h1, _, _, h2⟩ := liftMatrix_onBits a qs hk hq har hac
  obtain ⟨_, h3, _, _, h4⟩ := liftMatrix_onBits b qs hk hq hbr hbc
  obtain ⟨_, h5, _, _, h6⟩ := liftMatrix_onBits (a.mul b) qs hk hq har hbc
  rw [h1] at ha; rw [h3] at hb; rw [h5] at hab
  cases ha; cases hb; cases hab
  rw [h2, h4, h6, onBits_mul a b k hac, actOn_mul qs hq]

/-- **C06.** Lifting commutes with the adjoint. -/
theorem lift_adjoint [StarRing K] {n k : ℕ} (a La Lad : Mat K) (qs : Fin k → Fin n) (hk : 0 < k)
    (hq : Function.Injective qs) (har : a.rows = 2 ^ k) (hac : a.cols = 2 ^ k)
    (ha : liftMatrix a (List.ofFn fun i => (qs i : ℕ)) n = .ok La)
    (had : liftMatrix a.adjoint (List.ofFn fun i => (qs i : ℕ)) n = .ok Lad) :
    Lad.onBits n = (La.onBits n)ᴴ := by
  obtain ⟨_, h1, _, _, h2⟩ := liftMatrix_onBits a qs hk hq har hac
  obtain ⟨_, h5, _, _, h6⟩ := liftMatrix_onBits a.adjoint qs hk hq hac har
  rw [h1] at ha; rw [h5] at had
  cases ha; cases had
  rw [h2, h6, onBits_adjoint, actOn_conjTranspose]

/-- **C06.** Lifting preserves unitarity. -/
theorem lift_unitary [StarRing K] {n k : ℕ} (a La : Mat K) (qs : Fin k → Fin n) (hk : 0 < k)
    (hq : Function.Injective qs) (har : a.rows = 2 ^ k) (hac : a.cols = 2 ^ k)
    (ha : liftMatrix a (List.ofFn fun i => (qs i : ℕ)) n = .ok La)
    (hu : a.onBits k ∈ Matrix.unitaryGroup (Fin k → Bool) K) :
    La.onBits n ∈ Matrix.unitaryGroup (Fin n → Bool) K := by
  obtain ⟨_, h1, _, _, h2⟩ := liftMatrix_onBits a qs hk hq har hac
  rw [h1] at ha
  cases ha
  rw [h2]
  exact actOn_unitary qs hq _ hu

/-- **C06.** Operations on disjoint qubits commute. -/
theorem lift_disjoint_commute {n k l : ℕ} (a b La Lb : Mat K) (qs : Fin k → Fin n) (rs : Fin l → Fin n)
    (hk : 0 < k) (hl : 0 < l) (hq : Function.Injective qs) (hr : Function.Injective rs)
    (har : a.rows = 2 ^ k) (hac : a.cols = 2 ^ k) (hbr : b.rows = 2 ^ l) (hbc : b.cols = 2 ^ l)
    (hd : Disjoint (Set.range qs) (Set.range rs))
    (ha : liftMatrix a (List.ofFn fun i => (qs i : ℕ)) n = .ok La)
    (hb : liftMatrix b (List.ofFn fun i => (rs i : ℕ)) n = .ok Lb) :
    La.onBits n * Lb.onBits n = Lb.onBits n * La.onBits n := by
  obtain ⟨_, h1, _, _, h2⟩ := liftMatrix_onBits a qs hk hq har hac
  obtain ⟨_, h3, _, _, h4⟩ := liftMatrix_onBits b rs hl hr hbr hbc
  rw [h1] at ha; rw [h3] at hb
  cases ha; cases hb
  rw [h2, h4]
  apply actOn_commute
  intro i j hij
  exact Set.disjoint_left.1 hd ⟨i, rfl⟩ ⟨j, hij.symm⟩

/-- **C06.** Enlarging the register: lifting to `n` qubits and reading the result as an operator on the first `n` qubits of a larger register
is the same as lifting to the larger register directly. -/
theorem lift_register_size {n k N : ℕ} (hN : n ≤ N) (a La LN : Mat K) (qs : Fin k → Fin n) (hk : 0 < k)
    (hq : Function.Injective qs) (har : a.rows = 2 ^ k) (hac : a.cols = 2 ^ k)
    (ha : liftMatrix a (List.ofFn fun i => (qs i : ℕ)) n = .ok La)
    (haN : liftMatrix a (List.ofFn fun i => (qs i : ℕ)) N = .ok LN) :
    LN.onBits N = actOn (Fin.castLE hN) (La.onBits n) := by
  obtain ⟨_, h1, _, _, h2⟩ := liftMatrix_onBits a qs hk hq har hac
  have hinj : Function.Injective (Fin.castLE hN ∘ qs) := (Fin.castLE_injective hN).comp hq
  obtain ⟨_, h3, _, _, h4⟩ := liftMatrix_onBits a (Fin.castLE hN ∘ qs) hk hinj har hac
  have e : (List.ofFn fun i => ((Fin.castLE hN ∘ qs) i : ℕ)) = List.ofFn fun i => (qs i : ℕ) := rfl
  rw [e] at h3
  rw [h1] at ha; rw [h3] at haN
  cases ha; cases haN
  rw [h2, h4, actOn_actOn _ (Fin.castLE_injective hN)]

/-- The hypotheses of the previous theorems are met by concrete operations: disjoint qubits (0,2) and (1) of 3. -/
example : Disjoint (Set.range (![0, 2] : Fin 2 → Fin 3)) (Set.range (![1] : Fin 1 → Fin 3)) := by
  rw [Set.disjoint_left]
  rintro a ⟨i, rfl⟩ ⟨j, hj⟩
  revert i j
  decide

end ZQ.LiftProps
