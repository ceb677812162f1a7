import Mathlib.Data.Nat.Bitwise
import Mathlib.Data.Int.Bitwise

/-!
# Integer / bitstring helpers

Model of the bit level helpers of `utils.py`, `wavefunction.py` and
`circuits/_unitary_tools.py`.  Bits are natural numbers (Python ints 0/1), bit strings are lists,
most significant bit first unless stated otherwise.
-/

namespace ZQ.Bits

/-- Python's `bin(n)[2:]` as a list of digits (most significant first); `bin(0)[2:] = "0"`.
External: CPython builtin, used in utils.py:82-84, wavefunction.py:38-39, 223 and
circuits/_unitary_tools.py:27. -/
def pyBin (n : ℕ) : List ℕ :=
  if _h : n < 2 then [n] else pyBin (n / 2) ++ [n % 2]
termination_by n
decreasing_by omega

/-- Python's `str.zfill(w)` on a digit string. External: CPython builtin
(circuits/_unitary_tools.py:27, wavefunction.py:223). -/
def zfill (w : ℕ) (l : List ℕ) : List ℕ := List.replicate (w - l.length) 0 ++ l

/-- Python's `int(s, 2)` on a list of digits. External: CPython builtin (wavefunction.py:223,165). -/
def pyInt2 (l : List ℕ) : ℕ := l.foldl (fun acc d => 2 * acc + d) 0

/-- utils.py:63-87 `dec2bin(number, length)`; `none` models `sys.exit(..)` (lines 75-78).
`np.zeros(k)` is a list of `k` zeros.  Only non-negative `number` and `length` are modelled
(Python's `bin` of a negative number starts with "-0b"). -/
def dec2bin (number length : ℕ) : Option (List ℕ) :=
  if 2 ^ length < number then none
  else
    let bitString := pyBin number
    if bitString.length < length then
      some (List.replicate (length - bitString.length) 0 ++ bitString)
    else some bitString

/-- utils.py:101-105, the loop `for i in range(len(x))` of `bin2dec`, with state `(dec, coeff)`.
`x[len(x)-1-i]` for `i = 0, 1, ..` walks the reversed list. -/
def bin2decLoop : List ℤ → ℤ → ℤ → ℤ
  | [], dec, _ => dec
  | d :: rest, dec, coeff => bin2decLoop rest (dec + coeff * d) (coeff * 2)

/-- utils.py:90-106 `bin2dec`. -/
def bin2dec (x : List ℤ) : ℤ := bin2decLoop x.reverse 0 1

/-- utils.py:626-628, the `while len(bitstring) < num_qubits` loop that prepends "0" until the width is
reached (modelled by recursion on the missing width). -/
def padLoop (w : ℕ) (l : List ℕ) : List ℕ :=
  if _h : l.length < w then padLoop w (0 :: l) else l
termination_by w - l.length
decreasing_by simp; omega

/-- utils.py:615-631 `get_ordered_list_of_bitstrings`. -/
def orderedBitstrings (numQubits : ℕ) : List (List ℕ) :=
  (List.range (2 ^ numQubits)).map fun i => padLoop numQubits (pyBin i)

/-- Python's `str(d)` for one decimal digit. -/
def digitChar (d : ℕ) : Char := Char.ofNat (48 + d)

/-- Python's `str(n)` for a natural number, as a list of characters. -/
def pyStr (n : ℕ) : List Char :=
  if _h : n < 10 then [digitChar n] else pyStr (n / 10) ++ [digitChar (n % 10)]
termination_by n
decreasing_by omega

/-- Python's `int(c)` for a single character; `none` models the `ValueError`. -/
def charInt (c : Char) : Option ℕ :=
  if 48 ≤ c.toNat ∧ c.toNat ≤ 57 then some (c.toNat - 48) else none

/-- utils.py:205-222 `convert_bitstrings_to_tuples`: `int(char)` for each character. -/
def bitstringsToTuples (bs : List (List Char)) : Option (List (List ℕ)) :=
  bs.mapM fun b => b.mapM charInt

/-- utils.py:225-236 `convert_tuples_to_bitstrings`: `"".join(map(str, tup))`. -/
def tuplesToBitstrings (ts : List (List ℕ)) : List (List Char) :=
  ts.map fun t => (t.map pyStr).flatten

/-- wavefunction.py:30-34 `_get_next_number_with_same_hamming_weight`, on Python's unbounded two's complement ints. -/
def nextSameWeight (v : ℤ) : ℤ :=
  let t := Int.lor v (v - 1) + 1
  Int.lor t ((Int.land t (-t) / Int.land v (-v)) >>> (1 : ℕ) - 1)

/-- wavefunction.py:37-39 `_most_significant_set_bit`: the length of the binary representation. -/
def mostSignificantSetBit (v : ℕ) : ℕ := (pyBin v).length

/-- wavefunction.py:222-223 `_flip_bits`. -/
def flipBits (n numBits : ℕ) : ℕ := pyInt2 (zfill numBits (pyBin n)).reverse

/-- Python's `int.bit_length()` (external builtin, wavefunction.py:216). -/
def bitLength (n : ℕ) : ℕ := if n = 0 then 0 else (pyBin n).length

/-- wavefunction.py:213-219 `flip_amplitudes`. `none` would be an `IndexError`. -/
def flipAmplitudes {α : Type} (amps : List α) : Option (List α) :=
  let numberOfStates := amps.length
  let ordering := (List.range numberOfStates).map fun n => flipBits n (bitLength numberOfStates - 1)
  ordering.mapM fun i => amps[i]?

/-- circuits/_unitary_tools.py:25-27 `_basis_bitstring`. -/
def basisBitstring (i numQubits : ℕ) : List ℕ := zfill numQubits (pyBin i)

/-- circuits/_unitary_tools.py:11-22 `_permute`; `none` models the `IndexError`. -/
def permute {α : Type} (v : List α) (perm : List ℕ) : Option (List α) := perm.mapM fun i => v[i]?

end ZQ.Bits
