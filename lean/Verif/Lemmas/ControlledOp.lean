import Verif.Lemmas.GateMatrix
import Mathlib.Logic.Equiv.Fin.Basic
import Mathlib.Data.Fin.Tuple.Basic

/-! Algebra of the controlled operator. -/

namespace ZQ

open Matrix

theorem controlledOp_mul (k : ℕ) {w : ℕ} (A B : Matrix (Fin w → Bool) (Fin w → Bool) ℂ) :
    controlledOp k (A * B) = controlledOp k A * controlledOp k B := by
  ext x y
  rw [Matrix.mul_apply, ← (Fin.appendEquiv (α := Bool) k w).sum_comp, Fintype.sum_prod_type]
  have hL : ∀ (a : Fin k → Bool) (b : Fin w → Bool), (∀ c : Fin k, Fin.append a b (Fin.castAdd w c) = true) ↔ a = fun _ => true := by
    intro a b
    simp [Fin.append_left, funext_iff]
  have hsplit : ∀ z : Fin (k + w) → Bool, z = Fin.append (fun c => z (Fin.castAdd w c)) (fun q => z (Fin.natAdd k q)) := by
    intro z
    exact (Fin.append_castAdd_natAdd).symm
  have hap : ∀ (a a' : Fin k → Bool) (b b' : Fin w → Bool), Fin.append a b = Fin.append a' b' ↔ a = a' ∧ b = b' := by
    intro a a' b b'
    constructor
    · intro h
      have := (Fin.appendEquiv (α := Bool) k w).injective (a₁ := (a, b)) (a₂ := (a', b')) h
      exact ⟨congrArg Prod.fst this, congrArg Prod.snd this⟩
    · rintro ⟨rfl, rfl⟩; rfl
  rw [hsplit x, hsplit y]
  generalize (fun c => x (Fin.castAdd w c)) = xa
  generalize (fun c => x (Fin.natAdd k c)) = xb
  generalize (fun c => y (Fin.castAdd w c)) = ya
  generalize (fun c => y (Fin.natAdd k c)) = yb
  simp only [Fin.appendEquiv, Equiv.coe_fn_mk, controlledOp, hL, hap, Fin.append_right]
  by_cases hx : xa = fun _ => true
  · rw [Finset.sum_eq_single (fun _ => true)]
    · subst hx
      by_cases hy : ya = fun _ => true
      · simp [hy, Matrix.mul_apply]
      · simp [hy, Ne.symm hy]
    · intro a _ ha
      apply Finset.sum_eq_zero
      intro b _
      have h1 : ¬ ((xa = fun _ => true) ∧ a = fun _ => true) := fun h => ha h.2
      have h2 : ¬ (xa = a ∧ xb = b) := fun h => ha (h.1 ▸ hx)
      rw [if_neg h1, if_neg h2, zero_mul]
    · simp
  · simp only [hx, false_and, if_false]
    rw [Finset.sum_eq_single xa]
    · rw [Finset.sum_eq_single xb]
      · simp [hx]
      · intro b _ hb
        have h2 : ¬ (xa = xa ∧ xb = b) := fun h => hb h.2.symm
        rw [if_neg h2, zero_mul]
      · simp
    · intro a _ ha
      apply Finset.sum_eq_zero
      intro b _
      have h2 : ¬ (xa = a ∧ xb = b) := fun h => ha h.1.symm
      rw [if_neg h2, zero_mul]
    · simp

end ZQ
