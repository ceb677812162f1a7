import Verif.Lemmas.Lift
import Mathlib.LinearAlgebra.Matrix.ConjTranspose
import Mathlib.LinearAlgebra.UnitaryGroup
import Mathlib.Algebra.BigOperators.Fin

/-! Algebra of operators acting on some qubits; bridge from natural indices to bit assignments. -/

namespace ZQ

open Bits Matrix

section index

theorem basisIndex_eq_pyInt2 {n : ℕ} (x : Fin n → Bool) :
    basisIndex x = pyInt2 (List.ofFn fun q => (x q).toNat) := by
  induction n with
  | zero => simp [basisIndex, pyInt2]
  | succ n ih =>
    rw [List.ofFn_succ, pyInt2_cons, List.length_ofFn]
    have := ih (fun q => x q.succ)
    rw [← this]
    unfold basisIndex
    rw [Fin.sum_univ_succ]
    congr 1
    · cases x 0 <;> simp
    · apply Finset.sum_congr rfl
      intro q _
      have e : n + 1 - 1 - ((q.succ : Fin (n + 1)) : ℕ) = n - 1 - (q : ℕ) := by
        rw [Fin.val_succ]; omega
      rw [e]

theorem ofFn_toNat_lt {n : ℕ} (x : Fin n → Bool) : ∀ d ∈ List.ofFn fun q => (x q).toNat, d < 2 := by
  intro d hd
  obtain ⟨q, rfl⟩ := (List.mem_ofFn' _ _).1 hd
  show (x q).toNat < 2
  cases x q <;> decide

theorem basisIndex_lt {n : ℕ} (x : Fin n → Bool) : basisIndex x < 2 ^ n := by
  rw [basisIndex_eq_pyInt2]
  have := pyInt2_lt _ (ofFn_toNat_lt x)
  simpa using this

theorem bitAt_basisIndex {n : ℕ} (x : Fin n → Bool) (q : Fin n) : bitAt n (basisIndex x) q = (x q).toNat := by
  have h := toBits_pyInt2 _ (ofFn_toNat_lt x)
  rw [← basisIndex_eq_pyInt2, List.length_ofFn, toBits_eq_map] at h
  have h2 := congrArg (fun l => l[(q : ℕ)]?) h
  simpa using h2

theorem basisIndex_injective {n : ℕ} : Function.Injective (basisIndex : (Fin n → Bool) → ℕ) := by
  intro x y h
  funext q
  have h1 := bitAt_basisIndex x q
  rw [h, bitAt_basisIndex] at h1
  cases hx : x q <;> cases hy : y q <;> simp [hx, hy] at h1 <;> rfl

/-- The basis state with integer index `i`. -/
def bitsOf (n i : ℕ) : Fin n → Bool := fun q => decide (bitAt n i q = 1)

theorem bitsOf_toNat (n i : ℕ) (q : Fin n) : (bitsOf n i q).toNat = bitAt n i q := by
  have := bitAt_lt n i q
  unfold bitsOf
  by_cases h : bitAt n i q = 1
  · simp [h]
  · simp [h]; omega

theorem basisIndex_bitsOf (n i : ℕ) (hi : i < 2 ^ n) : basisIndex (bitsOf n i) = i := by
  apply bitAt_ext (basisIndex_lt _) hi
  intro q hq
  rw [bitAt_basisIndex (bitsOf n i) ⟨q, hq⟩, bitsOf_toNat]

theorem bitsOf_basisIndex {n : ℕ} (x : Fin n → Bool) : bitsOf n (basisIndex x) = x :=
  basisIndex_injective (basisIndex_bitsOf n _ (basisIndex_lt x))

theorem sum_range_eq_sum_bits {M : Type} [AddCommMonoid M] (n : ℕ) (f : ℕ → M) :
    ∑ k ∈ Finset.range (2 ^ n), f k = ∑ z : Fin n → Bool, f (basisIndex z) := by
  symm
  apply Finset.sum_bij (fun z _ => basisIndex z)
  · intro z _; exact Finset.mem_range.2 (basisIndex_lt z)
  · intro a _ b _ h; exact basisIndex_injective h
  · intro b hb; exact ⟨bitsOf n b, Finset.mem_univ _, basisIndex_bitsOf n b (Finset.mem_range.1 hb)⟩
  · intro a _; rfl

/-- The qubit-assignment / integer index correspondence as an equivalence. -/
def bitsEquiv (n : ℕ) : (Fin n → Bool) ≃ Fin (2 ^ n) where
  toFun x := ⟨basisIndex x, basisIndex_lt x⟩
  invFun i := bitsOf n i
  left_inv x := bitsOf_basisIndex x
  right_inv i := Fin.ext (basisIndex_bitsOf n i i.2)

end index

section onBits

variable {K : Type} [CommRing K]

theorem onBits_mul (A B : Mat K) (n : ℕ) (h : A.cols = 2 ^ n) :
    (A.mul B).onBits n = A.onBits n * B.onBits n := by
  ext x y
  simp only [Mat.onBits, Mat.mul, Matrix.mul_apply, h]
  exact sum_range_eq_sum_bits n _

theorem onBits_eye (n : ℕ) : (Mat.eye (2 ^ n) : Mat K).onBits n = 1 := by
  ext x y
  simp only [Mat.onBits, Mat.eye, Matrix.one_apply]
  by_cases h : x = y
  · simp [h]
  · rw [if_neg h, if_neg (fun e => h (basisIndex_injective e))]

theorem onBits_adjoint [StarRing K] (A : Mat K) (n : ℕ) : A.adjoint.onBits n = (A.onBits n)ᴴ := by
  ext x y
  rfl

theorem onBits_smul (c : K) (A : Mat K) (n : ℕ) : (A.smul c).onBits n = c • A.onBits n := by
  ext x y
  rfl

end onBits

section actOn

variable {K : Type} [CommRing K] {n k l : ℕ}

theorem actOn_one (qs : Fin k → Fin n) : actOn qs (1 : Matrix _ _ K) = 1 := by
  ext x y
  unfold actOn
  by_cases h : x = y
  · subst h; simp
  · rw [Matrix.one_apply_ne h]
    by_cases hc : ∀ q, (∀ i, qs i ≠ q) → x q = y q
    · rw [if_pos hc, Matrix.one_apply_ne]
      intro he
      apply h
      funext q
      by_cases hq : ∃ i, qs i = q
      · obtain ⟨i, rfl⟩ := hq
        exact congrFun he i
      · exact hc q (fun i hi => hq ⟨i, hi⟩)
    · rw [if_neg hc]

theorem actOn_add (qs : Fin k → Fin n) (A B : Matrix (Fin k → Bool) (Fin k → Bool) K) :
    actOn qs (A + B) = actOn qs A + actOn qs B := by
  ext x y
  simp only [actOn, Matrix.add_apply]
  split <;> simp

theorem actOn_smul (qs : Fin k → Fin n) (c : K) (A : Matrix (Fin k → Bool) (Fin k → Bool) K) :
    actOn qs (c • A) = c • actOn qs A := by
  ext x y
  simp only [actOn, Matrix.smul_apply]
  split <;> simp

theorem actOn_conjTranspose [StarRing K] (qs : Fin k → Fin n) (A : Matrix (Fin k → Bool) (Fin k → Bool) K) :
    actOn qs Aᴴ = (actOn qs A)ᴴ := by
  ext x y
  simp only [actOn, Matrix.conjTranspose_apply]
  by_cases h : ∀ q, (∀ i, qs i ≠ q) → x q = y q
  · rw [if_pos h, if_pos (fun q hq => (h q hq).symm)]
  · rw [if_neg h, if_neg (fun h' => h (fun q hq => (h' q hq).symm)), star_zero]

theorem actOn_mul (qs : Fin k → Fin n) (hq : Function.Injective qs)
    (A B : Matrix (Fin k → Bool) (Fin k → Bool) K) :
    actOn qs (A * B) = actOn qs A * actOn qs B := by
  ext x y
  rw [Matrix.mul_apply]
  unfold actOn
  by_cases h : ∀ q, (∀ i, qs i ≠ q) → x q = y q
  · rw [if_pos h, Matrix.mul_apply]
    apply Finset.sum_of_injOn (fun u => Function.extend qs u x)
    · intro u _ v _ huv
      funext i
      have := congrFun huv (qs i)
      simpa [hq.extend_apply] using this
    · intro u _; simp
    · intro z _ hz
      by_cases hxz : ∀ q, (∀ i, qs i ≠ q) → x q = z q
      · exfalso
        apply hz
        refine ⟨z ∘ qs, by simp, ?_⟩
        funext q
        by_cases hqr : ∃ i, qs i = q
        · obtain ⟨i, rfl⟩ := hqr
          simp [hq.extend_apply]
        · show Function.extend qs (z ∘ qs) x q = z q
          rw [Function.extend_apply' _ _ _ hqr]
          exact hxz q (fun i hi => hqr ⟨i, hi⟩)
      · rw [if_neg hxz, zero_mul]
    · intro u _
      have h1 : ∀ q, (∀ i, qs i ≠ q) → Function.extend qs u x q = x q := by
        intro q hqr
        rw [Function.extend_apply']
        rintro ⟨i, hi⟩; exact hqr i hi
      have h2 : Function.extend qs u x ∘ qs = u := by
        funext i; simp [hq.extend_apply]
      rw [if_pos (fun q hqr => (h1 q hqr).symm), if_pos (fun q hqr => by rw [h1 q hqr]; exact h q hqr), h2]
  · rw [if_neg h]
    symm
    apply Finset.sum_eq_zero
    intro z _
    by_cases h1 : ∀ q, (∀ i, qs i ≠ q) → x q = z q
    · have h3 : ¬ ∀ q, (∀ i, qs i ≠ q) → z q = y q :=
        fun h2 => h (fun q hq => (h1 q hq).trans (h2 q hq))
      rw [if_neg h3, mul_zero]
    · rw [if_neg h1, zero_mul]

theorem actOn_mul_disjoint (qs : Fin k → Fin n) (rs : Fin l → Fin n) (hd : ∀ i j, qs i ≠ rs j)
    (A : Matrix (Fin k → Bool) (Fin k → Bool) K) (B : Matrix (Fin l → Bool) (Fin l → Bool) K)
    (x y : Fin n → Bool) :
    (actOn qs A * actOn rs B) x y =
      if ∀ q, (∀ i, qs i ≠ q) → (∀ j, rs j ≠ q) → x q = y q then
        A (x ∘ qs) (y ∘ qs) * B (x ∘ rs) (y ∘ rs) else 0 := by
  classical
  rw [Matrix.mul_apply]
  unfold actOn
  set z0 : Fin n → Bool := fun q => if ∃ i, qs i = q then y q else x q with hz0
  have hz0q : z0 ∘ qs = y ∘ qs := by
    funext i; simp [hz0]
  have hz0r : z0 ∘ rs = x ∘ rs := by
    funext j
    simp only [hz0, Function.comp]
    rw [if_neg]
    rintro ⟨i, hi⟩; exact hd i j hi
  have hx0 : ∀ q, (∀ i, qs i ≠ q) → x q = z0 q := by
    intro q hq
    simp only [hz0]
    rw [if_neg]; rintro ⟨i, hi⟩; exact hq i hi
  rw [Finset.sum_eq_single z0]
  · rw [if_pos hx0, hz0q, hz0r]
    by_cases h : ∀ q, (∀ i, qs i ≠ q) → (∀ j, rs j ≠ q) → x q = y q
    · rw [if_pos h, if_pos]
      intro q hq
      simp only [hz0]
      split
      · rfl
      · rename_i hne
        exact h q (fun i hi => hne ⟨i, hi⟩) hq
    · rw [if_neg h, if_neg, mul_zero]
      intro h2
      apply h
      intro q hq hr
      rw [hx0 q hq, h2 q hr]
  · intro z _ hne
    by_cases h1 : ∀ q, (∀ i, qs i ≠ q) → x q = z q
    · by_cases h2 : ∀ q, (∀ j, rs j ≠ q) → z q = y q
      · exfalso
        apply hne
        funext q
        simp only [hz0]
        split
        · rename_i hex
          obtain ⟨i, rfl⟩ := hex
          exact h2 _ (fun j hj => hd i j hj.symm)
        · rename_i hnex
          exact (h1 q (fun i hi => hnex ⟨i, hi⟩)).symm
      · rw [if_neg h2, mul_zero]
    · rw [if_neg h1, zero_mul]
  · intro h; exact absurd (Finset.mem_univ _) h

theorem actOn_commute (qs : Fin k → Fin n) (rs : Fin l → Fin n) (hd : ∀ i j, qs i ≠ rs j)
    (A : Matrix (Fin k → Bool) (Fin k → Bool) K) (B : Matrix (Fin l → Bool) (Fin l → Bool) K) :
    actOn qs A * actOn rs B = actOn rs B * actOn qs A := by
  ext x y
  rw [actOn_mul_disjoint qs rs hd, actOn_mul_disjoint rs qs (fun i j h => hd j i h.symm)]
  by_cases h : ∀ q, (∀ i, qs i ≠ q) → (∀ j, rs j ≠ q) → x q = y q
  · rw [if_pos h, if_pos (fun q h1 h2 => h q h2 h1), mul_comm]
  · rw [if_neg h, if_neg (fun h' => h (fun q h1 h2 => h' q h2 h1))]

theorem actOn_actOn (qs : Fin k → Fin n) (hq : Function.Injective qs) (rs : Fin l → Fin k)
    (A : Matrix (Fin l → Bool) (Fin l → Bool) K) :
    actOn qs (actOn rs A) = actOn (qs ∘ rs) A := by
  ext x y
  unfold actOn
  by_cases h : ∀ q, (∀ i, (qs ∘ rs) i ≠ q) → x q = y q
  · rw [if_pos h, if_pos, if_pos]
    · rfl
    · intro r hr
      exact h (qs r) (fun i hi => hr i (hq hi))
    · intro q hqq
      exact h q (fun i hi => hqq (rs i) hi)
  · rw [if_neg h]
    by_cases h1 : ∀ q, (∀ i, qs i ≠ q) → x q = y q
    · rw [if_pos h1, if_neg]
      intro h2
      apply h
      intro q hqr
      by_cases hex : ∃ i, qs i = q
      · obtain ⟨i, rfl⟩ := hex
        exact h2 i (fun j hj => hqr j (by simp [hj]))
      · exact h1 q (fun i hi => hex ⟨i, hi⟩)
    · rw [if_neg h1]

theorem actOn_unitary [StarRing K] (qs : Fin k → Fin n) (hq : Function.Injective qs)
    (A : Matrix (Fin k → Bool) (Fin k → Bool) K) (hA : A ∈ Matrix.unitaryGroup (Fin k → Bool) K) :
    actOn qs A ∈ Matrix.unitaryGroup (Fin n → Bool) K := by
  rw [Matrix.mem_unitaryGroup_iff] at *
  rw [Matrix.star_eq_conjTranspose, ← actOn_conjTranspose, ← actOn_mul qs hq, ← Matrix.star_eq_conjTranspose, hA,
    actOn_one]

end actOn

/-- The lifted matrix, indexed by bit assignments, is `actOn`. -/
theorem liftMatrix_onBits {K : Type} [CommRing K] {n k : ℕ} (m : Mat K) (qs : Fin k → Fin n) (hk : 0 < k)
    (hq : Function.Injective qs) (hr : m.rows = 2 ^ k) (hc : m.cols = 2 ^ k) :
    ∃ L : Mat K, UnitaryTools.liftMatrix m (List.ofFn fun i => (qs i : ℕ)) n = .ok L ∧
      L.rows = 2 ^ n ∧ L.cols = 2 ^ n ∧ L.onBits n = actOn qs (m.onBits k) := by
  obtain ⟨L, h1, h2, h3, h4⟩ := UnitaryTools.liftMatrix_spec m (List.ofFn fun i => (qs i : ℕ)) n
    (by intro h; have := congrArg List.length h; simp at this; omega)
    (by
      rw [List.nodup_ofFn]
      intro a b hab
      exact hq (Fin.ext hab))
    (by
      intro q hmem
      obtain ⟨i, rfl⟩ := (List.mem_ofFn' _ _).1 hmem
      exact (qs i).2)
    (by simpa using hr) (by simpa using hc)
  refine ⟨L, h1, h2, h3, ?_⟩
  ext x y
  have hmap : ∀ z : Fin n → Bool, pyInt2 ((List.ofFn fun i => (qs i : ℕ)).map (bitAt n (basisIndex z))) =
      basisIndex (z ∘ qs) := by
    intro z
    rw [basisIndex_eq_pyInt2 (z ∘ qs), List.map_ofFn]
    congr 2
    funext i
    simp only [Function.comp]
    exact bitAt_basisIndex z (qs i)
  simp only [Mat.onBits, actOn]
  rw [h4 _ _ (basisIndex_lt x) (basisIndex_lt y), hmap, hmap]
  have hiff : (∀ q, q < n → (q ∉ List.ofFn fun i => (qs i : ℕ)) → bitAt n (basisIndex x) q = bitAt n (basisIndex y) q) ↔
      ∀ q, (∀ i, qs i ≠ q) → x q = y q := by
    constructor
    · intro h q hqs
      have := h q q.2 (by
        intro hmem
        obtain ⟨i, hi⟩ := (List.mem_ofFn' _ _).1 hmem
        exact hqs i (Fin.ext hi))
      rw [bitAt_basisIndex, bitAt_basisIndex] at this
      cases hx : x q <;> cases hy : y q <;> simp [hx, hy] at this <;> rfl
    · intro h q hqn hmem
      have e : q = ((⟨q, hqn⟩ : Fin n) : ℕ) := rfl
      rw [e, bitAt_basisIndex, bitAt_basisIndex, h ⟨q, hqn⟩]
      intro i hi
      apply hmem
      rw [List.mem_ofFn']
      exact ⟨i, by simp [hi]⟩
  by_cases h : ∀ q, (∀ i, qs i ≠ q) → x q = y q
  · rw [if_pos h, if_pos (hiff.2 h)]
  · rw [if_neg h, if_neg (fun h' => h (hiff.1 h'))]

end ZQ
