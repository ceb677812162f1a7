import Verif.Spec.Operators
import Mathlib.NumberTheory.Padics.PadicVal.Basic
import Mathlib.Data.Finset.Card
import Mathlib.Order.Interval.Finset.Nat

/-!
# Specification: the Bravyi-Kitaev encoding of occupations

Qubit `i` (of `n`) stores the parity of the occupations of the modes `m` in its Fenwick block: the `2^v` modes ending with `i`, where `2^v` is the
largest power of two dividing `i + 1`.
-/

namespace ZQ.Op

/-- First mode of the block of qubit `i`. -/
def blockStart (i : ℕ) : ℕ := i + 1 - 2 ^ padicValNat 2 (i + 1)

/-- The modes whose parity qubit `i` stores. -/
def block (i : ℕ) : Finset ℕ := Finset.Icc (blockStart i) i

/-- The bits of the encoded occupations on `n` qubits (bits from `n` on are left as they are). -/
def encode (n : ℕ) (s : ℕ → Bool) : ℕ → Bool :=
  fun i => if i < n then decide (Odd ((block i).filter fun m => s m).card) else s i

/-- Reading the amplitudes of encoded bit strings as amplitudes of occupations. -/
def decodeState (n : ℕ) : Module.End ℂ State where
  toFun ψ := fun s => ψ (encode n s)
  map_add' _ _ := rfl
  map_smul' _ _ := rfl

end ZQ.Op
