import Verif.Model.OpString

/-! # Specification: what a printed number must be for an operator to be read back -/

namespace ZQ.OpStr

/-- The number `c` is printed without blanks and brackets, and Python reads the printed text as `c`. A printed complex number has a `j`; if it starts with
a minus sign, then it is a bare imaginary number, and the text after the sign is the opposite number. -/
structure Prints (N : Numbers) (c : ℂ) : Prop where
  space : ∀ ch ∈ N.print c, ch.isWhitespace = false
  bracket : '[' ∉ N.print c
  nonempty : N.print c ≠ []
  not_minus : N.print c ≠ ['-']
  not_plus : (N.print c).head? ≠ some '+'
  real : 'j' ∉ N.print c → N.float (N.print c) = some c
  imag : 'j' ∈ N.print c → (N.print c).head? ≠ some '-' → N.complex (N.print c) = some c
  minus : 'j' ∈ N.print c → (N.print c).head? = some '-' → N.complex (N.print c).tail = some (-c)

/-- A word is a letter followed by digits that stand for `i`. -/
def IndexAfter (w : Text) (letter : Text) (i : ℕ) : Prop :=
  ∃ ds : Text, ds ≠ [] ∧ (∀ ch ∈ ds, ch.isDigit) ∧ Nat.ofDigitChars 10 ds 0 = i ∧ w = letter ++ ds

/-- A word is digits that stand for `i` followed by a mark. -/
def IndexBefore (w : Text) (mark : Text) (i : ℕ) : Prop :=
  ∃ ds : Text, ds ≠ [] ∧ (∀ ch ∈ ds, ch.isDigit) ∧ Nat.ofDigitChars 10 ds 0 = i ∧ w = ds ++ mark

end ZQ.OpStr
