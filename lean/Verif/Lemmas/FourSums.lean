import Mathlib.Algebra.BigOperators.Group.Finset.Basic
import Mathlib.Algebra.BigOperators.Group.Finset.Piecewise
import Mathlib.Algebra.BigOperators.Ring.Finset
import Mathlib.Algebra.BigOperators.Group.Finset.Sigma
import Mathlib.Tactic.Abel
import Mathlib.Tactic.Linarith

/-! Fourfold sums of a function that is symmetric in its first two and in its last two arguments. -/

namespace ZQ.FourSums

open Finset

variable {M : Type} [AddCommGroup M]

/-- The sum over four indices below `n`. -/
def S (n : ℕ) (f : ℕ → ℕ → ℕ → ℕ → M) : M := ∑ p ∈ range n, ∑ q ∈ range n, ∑ r ∈ range n, ∑ s ∈ range n, f p q r s

/-- The sum over three indices below `n`. -/
def U (n : ℕ) (g : ℕ → ℕ → ℕ → M) : M := ∑ i ∈ range n, ∑ j ∈ range n, ∑ k ∈ range n, g i j k

theorem S_add (n : ℕ) (f g : ℕ → ℕ → ℕ → ℕ → M) : S n (fun p q r s => f p q r s + g p q r s) = S n f + S n g := by
  simp only [S, sum_add_distrib]

theorem U_add (n : ℕ) (f g : ℕ → ℕ → ℕ → M) : U n (fun i j k => f i j k + g i j k) = U n f + U n g := by
  simp only [U, sum_add_distrib]

theorem S_congr {n : ℕ} {f g : ℕ → ℕ → ℕ → ℕ → M} (h : ∀ p < n, ∀ q < n, ∀ r < n, ∀ s < n, f p q r s = g p q r s) : S n f = S n g :=
  sum_congr rfl fun p hp => sum_congr rfl fun q hq => sum_congr rfl fun r hr => sum_congr rfl fun s hs =>
    h p (mem_range.1 hp) q (mem_range.1 hq) r (mem_range.1 hr) s (mem_range.1 hs)

theorem U_congr {n : ℕ} {f g : ℕ → ℕ → ℕ → M} (h : ∀ p < n, ∀ q < n, ∀ r < n, f p q r = g p q r) : U n f = U n g :=
  sum_congr rfl fun p hp => sum_congr rfl fun q hq => sum_congr rfl fun r hr => h p (mem_range.1 hp) q (mem_range.1 hq) r (mem_range.1 hr)

theorem S_swap12 (n : ℕ) (f : ℕ → ℕ → ℕ → ℕ → M) : S n f = S n fun p q r s => f q p r s := sum_comm

theorem S_swap23 (n : ℕ) (f : ℕ → ℕ → ℕ → ℕ → M) : S n f = S n fun p q r s => f p r q s := sum_congr rfl fun _ _ => sum_comm

theorem S_swap34 (n : ℕ) (f : ℕ → ℕ → ℕ → ℕ → M) : S n f = S n fun p q r s => f p q s r := sum_congr rfl fun _ _ => sum_congr rfl fun _ _ => sum_comm

theorem U_swap23 (n : ℕ) (g : ℕ → ℕ → ℕ → M) : U n g = U n fun i j k => g i k j := sum_congr rfl fun _ _ => sum_comm

theorem S_14 (n : ℕ) (g : ℕ → ℕ → ℕ → M) : S n (fun p q r s => if p = s then g p q r else 0) = U n g := by
  refine sum_congr rfl fun p hp => sum_congr rfl fun q _ => sum_congr rfl fun r _ => ?_
  rw [sum_ite_eq, if_pos hp]

theorem S_13 (n : ℕ) (g : ℕ → ℕ → ℕ → M) : S n (fun p q r s => if p = r then g p q s else 0) = U n g := by
  rw [S_swap34]; exact S_14 n g

theorem S_24 (n : ℕ) (g : ℕ → ℕ → ℕ → M) : S n (fun p q r s => if q = s then g q p r else 0) = U n g := by
  rw [S_swap12]; exact S_14 n g

theorem S_23 (n : ℕ) (g : ℕ → ℕ → ℕ → M) : S n (fun p q r s => if q = r then g q p s else 0) = U n g := by
  rw [S_swap12]; exact S_13 n g

theorem S_13_24 (n : ℕ) (g : ℕ → ℕ → M) : S n (fun p q r s => if p = r then if q = s then g p q else 0 else 0) = ∑ p ∈ range n, ∑ q ∈ range n, g p q := by
  refine sum_congr rfl fun p hp => sum_congr rfl fun q hq => ?_
  have : ∀ r, ∑ s ∈ range n, (if p = r then if q = s then g p q else 0 else 0) = if p = r then g p q else 0 := by
    intro r
    by_cases h : p = r
    · simp only [if_pos h]; rw [sum_ite_eq, if_pos hq]
    · simp only [if_neg h, sum_const_zero]
  simp only [this]
  rw [sum_ite_eq, if_pos hp]

/-- A double sum as a sum over ordered pairs. -/
theorem sum_pairs (n : ℕ) (F : ℕ → ℕ → M) (h0 : ∀ p, F p p = 0) :
    ∑ p ∈ range n, ∑ q ∈ range n, F p q = ∑ p ∈ range n, ∑ q ∈ range n, if q < p then F p q + F q p else 0 := by
  have e : ∀ p q, F p q = (if q < p then F p q else 0) + if p < q then F p q else 0 := by
    intro p q
    rcases lt_trichotomy p q with h | h | h
    · rw [if_pos h, if_neg h.not_gt, zero_add]
    · subst h; simp [h0]
    · rw [if_pos h, if_neg h.not_gt, add_zero]
  have e' : ∀ p q, (if q < p then F p q + F q p else 0) = (if q < p then F p q else 0) + if q < p then F q p else 0 := by
    intro p q; split <;> simp
  calc _ = ∑ p ∈ range n, ∑ q ∈ range n, ((if q < p then F p q else 0) + if p < q then F p q else 0) :=
        sum_congr rfl fun p _ => sum_congr rfl fun q _ => e p q
    _ = (∑ p ∈ range n, ∑ q ∈ range n, if q < p then F p q else 0) + ∑ p ∈ range n, ∑ q ∈ range n, if p < q then F p q else 0 := by
        simp only [sum_add_distrib]
    _ = (∑ p ∈ range n, ∑ q ∈ range n, if q < p then F p q else 0) + ∑ p ∈ range n, ∑ q ∈ range n, if q < p then F q p else 0 := by
        congr 1; exact sum_comm
    _ = _ := by simp only [e', sum_add_distrib]

/-- The fourfold sum over `q < p`, `s < r`, by coincidences of the indices. -/
theorem S_split (n : ℕ) (W : ℕ → ℕ → ℕ → ℕ → M) (h1 : ∀ p q r s, W q p r s = W p q r s) (h2 : ∀ p q r s, W p q s r = W p q r s) :
    S n (fun p q r s => if q < p ∧ s < r then W p q r s else 0) =
      (∑ i ∈ range n, ∑ j ∈ range n, if j < i then W i j j i else 0) +
      U n (fun i j k => if k < j ∧ i ≠ j ∧ i ≠ k then W i j k i + W i k j i else 0) +
      S n (fun i j k l => if j < i ∧ k < j ∧ l < k then
        W i j k l + W k l i j + (W i k j l + W j l i k) + (W i l j k + W j k i l) else 0) := by
  have point : ∀ p q r s, (if q < p ∧ s < r then W p q r s else 0) =
      (if p = r then if q = s then (if q < p then W p q q p else 0) else 0 else 0)
      + (if p = r then (if q ≠ s ∧ q < p ∧ s < p then W p q s p else 0) else 0)
      + (if p = s then (if q < p ∧ p < r then W p q r p else 0) else 0)
      + (if q = r then (if s < q ∧ q < p then W q p s q else 0) else 0)
      + (if q = s then (if p ≠ r ∧ q < p ∧ q < r then W q p r q else 0) else 0)
      + (if q < p ∧ r < q ∧ s < r then W p q r s else 0)
      + (if r < p ∧ q < r ∧ s < q then W p q r s else 0)
      + (if r < p ∧ s < r ∧ q < s then W p q r s else 0)
      + (if p < r ∧ q < p ∧ s < q then W p q r s else 0)
      + (if p < r ∧ s < p ∧ q < s then W p q r s else 0)
      + (if s < r ∧ p < s ∧ q < p then W p q r s else 0) := by
    intro p q r s
    have e1 := h1 p q r s
    have e2 := h2 p q r s
    have e3 := h2 q p r s
    by_cases ha : q < p
    · by_cases hb : s < r
      · rw [if_pos ⟨ha, hb⟩]
        rcases lt_trichotomy p r with e | e | e <;> rcases lt_trichotomy q s with f | f | f <;> rcases lt_trichotomy p s with g | g | g <;>
          rcases lt_trichotomy q r with k | k | k <;> try omega
        all_goals first | subst e | skip
        all_goals first | subst f | skip
        all_goals first | subst g | skip
        all_goals first | subst k | skip
        all_goals grind
      · grind (splits := 30)
    · grind (splits := 30)
  rw [S_congr fun p _ q _ r _ s _ => point p q r s]
  rw [S_add, S_add, S_add, S_add, S_add, S_add, S_add, S_add, S_add, S_add]
  rw [S_13_24 n fun p q => if q < p then W p q q p else 0, S_13 n fun p q s => if q ≠ s ∧ q < p ∧ s < p then W p q s p else 0,
    S_14 n fun p q r => if q < p ∧ p < r then W p q r p else 0, S_23 n fun q p s => if s < q ∧ q < p then W q p s q else 0,
    S_24 n fun q p r => if p ≠ r ∧ q < p ∧ q < r then W q p r q else 0]
  have hU : U n (fun i j k => if k < j ∧ i ≠ j ∧ i ≠ k then W i j k i + W i k j i else 0) =
      U n (fun p q s => if q ≠ s ∧ q < p ∧ s < p then W p q s p else 0) + U n (fun p q r => if q < p ∧ p < r then W p q r p else 0) +
      U n (fun q p s => if s < q ∧ q < p then W q p s q else 0) + U n (fun q p r => if p ≠ r ∧ q < p ∧ q < r then W q p r q else 0) := by
    have : U n (fun i j k => if k < j ∧ i ≠ j ∧ i ≠ k then W i j k i + W i k j i else 0) =
        U n (fun i j k => if j ≠ k ∧ i ≠ j ∧ i ≠ k then W i j k i else 0) := by
      refine Eq.symm (sum_congr rfl fun i _ => ?_)
      refine (sum_pairs n (fun j k => if j ≠ k ∧ i ≠ j ∧ i ≠ k then W i j k i else 0) (fun p => by simp)).trans ?_
      refine sum_congr rfl fun j _ => sum_congr rfl fun k _ => ?_
      grind
    rw [this, ← U_add, ← U_add, ← U_add]
    clear this point h1 h2
    refine U_congr fun i _ j _ k _ => ?_
    generalize W i j k i = w
    grind (splits := 30)
  have d2 : S n (fun p q r s => if r < p ∧ q < r ∧ s < q then W p q r s else 0) = S n (fun i j k l => if j < i ∧ k < j ∧ l < k then W i k j l else 0) := by
    rw [S_swap23]
  have d3 : S n (fun p q r s => if r < p ∧ s < r ∧ q < s then W p q r s else 0) = S n (fun i j k l => if j < i ∧ k < j ∧ l < k then W i l j k else 0) := by
    rw [S_swap23, S_swap34]
  have d4 : S n (fun p q r s => if p < r ∧ q < p ∧ s < q then W p q r s else 0) = S n (fun i j k l => if j < i ∧ k < j ∧ l < k then W j k i l else 0) := by
    rw [S_swap23, S_swap12]
  have d5 : S n (fun p q r s => if p < r ∧ s < p ∧ q < s then W p q r s else 0) = S n (fun i j k l => if j < i ∧ k < j ∧ l < k then W j l i k else 0) := by
    rw [S_swap23, S_swap12, S_swap34]
  have d6 : S n (fun p q r s => if s < r ∧ p < s ∧ q < p then W p q r s else 0) = S n (fun i j k l => if j < i ∧ k < j ∧ l < k then W k l i j else 0) := by
    rw [S_swap23, S_swap12, S_swap34, S_swap23]
  have hD : S n (fun i j k l => if j < i ∧ k < j ∧ l < k then W i j k l + W k l i j + (W i k j l + W j l i k) + (W i l j k + W j k i l) else 0) =
      S n (fun i j k l => if j < i ∧ k < j ∧ l < k then W i j k l else 0) + S n (fun i j k l => if j < i ∧ k < j ∧ l < k then W i k j l else 0) +
      S n (fun i j k l => if j < i ∧ k < j ∧ l < k then W i l j k else 0) + S n (fun i j k l => if j < i ∧ k < j ∧ l < k then W j k i l else 0) +
      S n (fun i j k l => if j < i ∧ k < j ∧ l < k then W j l i k else 0) + S n (fun i j k l => if j < i ∧ k < j ∧ l < k then W k l i j else 0) := by
    rw [← S_add, ← S_add, ← S_add, ← S_add, ← S_add]
    refine S_congr fun i _ j _ k _ l _ => ?_
    split
    · abel
    · simp
  rw [d2, d3, d4, d5, d6, hU, hD]
  abel

end ZQ.FourSums
