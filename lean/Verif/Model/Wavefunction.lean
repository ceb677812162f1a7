import Verif.Model.Bits
import Mathlib.Analysis.SpecialFunctions.Pow.Real
import Mathlib.Analysis.Complex.Basic

/-!
# Model of `wavefunction.py`

Amplitudes are exact complex numbers or symbolic expressions (elements of an arbitrary type `σ`,
standing for sympy expressions that still contain a free symbol).
-/

namespace ZQ.Wavefunction

open ZQ.Bits

/-- Exceptions raised by the modelled functions. -/
inductive Err
  | valueError | typeError | indexError
  deriving DecidableEq, Repr

/-- One entry of an amplitude vector: a number (`_is_number` holds, wavefunction.py:13-18) or an
expression with free symbols. -/
inductive Amp (σ : Type)
  | num (z : ℂ)
  | sym (s : σ)

/-- wavefunction.py:57-60: the vector is stored as a numpy complex array if it converts, else as a
sympy `Matrix`. -/
structure Wf (σ : Type) where
  numpy : Bool
  amps : List (Amp σ)

variable {σ : Type}

/-- `|a|²` of a number entry, 0 contribution of a symbolic one (wavefunction.py:89, 94-97). -/
noncomputable def ampSq : Amp σ → ℝ
  | .num z => Complex.normSq z
  | .sym _ => 0

/-- Whether an entry is a number. -/
def Amp.isNum : Amp σ → Bool
  | .num _ => true
  | .sym _ => false

open Classical in
/-- wavefunction.py:80-102 `_check_normalization`; `true` means no exception.
`np.isclose(p, 1.0)` is `|p - 1| <= 1e-8 + 1e-5 * |1.0|` (numpy defaults). -/
noncomputable def checkNormalization (w : Wf σ) : Bool :=
  let p := (w.amps.map ampSq).sum
  if w.numpy ∨ w.amps.all Amp.isNum then
    decide (|p - 1| ≤ (1 : ℝ) / 10 ^ 8 + 1 / 10 ^ 5)
  else decide (p ≤ 1)

/-- wavefunction.py:51-62 `__init__`: power of two test via `bin(len(..)).count("1")`, conversion,
normalisation check. -/
noncomputable def mk? (amps : List (Amp σ)) : Except Err (Wf σ) :=
  if (pyBin amps.length).count 1 ≠ 1 then .error .valueError
  else
    let w : Wf σ := ⟨amps.all Amp.isNum, amps⟩
    if checkNormalization w then .ok w else .error .valueError

/-- wavefunction.py:71-73 `n_qubits = int(log2(len))`. -/
def nQubits (w : Wf σ) : ℕ := Nat.log2 w.amps.length

/-- Python index normalisation for sequences: negative indices count from the end. External:
Python/numpy/sympy indexing. -/
def pyIndex (len : ℕ) (idx : ℤ) : Option ℕ :=
  if 0 ≤ idx ∧ idx < len then some idx.toNat
  else if idx < 0 ∧ -(len : ℤ) ≤ idx then some (idx + len).toNat
  else none

/-- wavefunction.py:112-121 `__setitem__` with an integer index; returns the new object state and the
exception, if any.  Storing a symbolic expression in a numpy complex array is a `TypeError` raised
by numpy at line 114, before anything is stored. -/
noncomputable def setItem (w : Wf σ) (idx : ℤ) (val : Amp σ) : Wf σ × Option Err :=
  match pyIndex w.amps.length idx with
  | none => (w, some .indexError)
  | some i =>
    match w.amps[i]? with
    | none => (w, some .indexError)
    | some oldVal =>
      if w.numpy && !val.isNum then (w, some .typeError)
      else
        let w' := { w with amps := w.amps.set i val }
        if checkNormalization w' then (w', none)
        else ({ w' with amps := w'.amps.set i oldVal }, some .valueError)

/-- wavefunction.py:134-147 `zero_state` (integer argument). -/
noncomputable def zeroState (n : ℤ) : Except Err (Wf σ) :=
  if n ≤ 0 then .error .valueError
  else mk? ((List.replicate (2 ^ n.toNat) (Amp.num 0)).set 0 (.num 1))

/-- wavefunction.py:171-176, the `while True` loop; `fuel` bounds the number of iterations (`none` = fuel exhausted; shown
unreachable).  Returns the indices appended after the first one. -/
def dickeLoop (n : ℕ) : ℕ → ℕ → Option (List ℕ)
  | 0, _ => none
  | fuel + 1, cur =>
    let next := (nextSameWeight cur).toNat
    if mostSignificantSetBit next ≤ n then (dickeLoop n fuel next).map (next :: ·)
    else some []

/-- wavefunction.py:165-170: `indices`, starting at `int("1" * hamming_weight, base=2)`. -/
def dickeIndices (n k : ℕ) : Option (List ℕ) :=
  let first := pyInt2 (List.replicate k 1)
  (dickeLoop n (2 ^ n) first).map (first :: ·)

/-- `wf[indices] = amplitude` (wavefunction.py:181). -/
def setMany {α : Type} (l : List α) (is : List ℕ) (a : α) : List α := is.foldl (fun l i => l.set i a) l

/-- wavefunction.py:149-183 `dicke_state`. The outer `Option` is `none` only if the loop did not
terminate within the fuel. -/
noncomputable def dickeState (n k : ℤ) : Option (Except Err (Wf σ)) :=
  match (zeroState n : Except Err (Wf σ)) with
  | .error e => some (.error e)
  | .ok w0 =>
    if k < 0 then some (.error .valueError)
    else if k > n then some (.error .valueError)
    else if k = 0 then some (.ok w0)
    else
      (dickeIndices n.toNat k.toNat).map fun indices =>
        let amplitude : ℂ := ((1 / Real.sqrt (indices.length : ℝ) : ℝ) : ℂ)
        mk? (setMany (List.replicate (2 ^ n.toNat) (Amp.num 0)) indices (.num amplitude))

/-- wavefunction.py:185-194 `bind`: `subs` is sympy's substitution on one symbolic entry (external). -/
noncomputable def bind (w : Wf σ) (subs : σ → Amp σ) : Except Err (Wf σ) :=
  if w.amps.all Amp.isNum then .ok w
  else
    match mk? (w.amps.map fun a => match a with | .num z => .num z | .sym s => subs s) with
    | .ok w' => .ok w'
    | .error _ => .error .valueError

/-- wavefunction.py:196-197 `get_probabilities` (numeric wavefunctions; a symbolic entry would make
`np.abs` symbolic and is modelled as `none`). -/
noncomputable def getProbabilities (w : Wf σ) : Option (List ℝ) :=
  w.amps.mapM fun a => match a with | .num z => some (Complex.normSq z) | .sym _ => none

/-- wavefunction.py:199-206 `get_outcome_probs`, as the list of items of the resulting dict (the keys are shown to be distinct, so `dict`
drops nothing). `format(i, "0nb")` pads to width n. -/
noncomputable def getOutcomeProbs (w : Wf σ) : Option (List (List ℕ × ℝ)) :=
  let values := (List.range w.amps.length).map fun i => (zfill (nQubits w) (pyBin i)).reverse
  (getProbabilities w).map fun probs => values.zip probs

end ZQ.Wavefunction
