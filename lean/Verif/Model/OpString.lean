import Verif.Model.SymOp
import Mathlib.Data.List.DropRight
import Mathlib.Data.List.Sort

/-!
# Operators as text

Model of the constructor from a string and of `__str__` in `openfermion/ops/operators/symbolic_operator.py`. Texts are lists of characters. Reading and
printing numbers (`float(…)`, `complex(…)`, `"{}".format(…)`) is Python's and stays a parameter (`Numbers`). Simplification: a character is white space when
it is a blank, tab, carriage return or line feed, and a digit when it is an ASCII digit. Coefficients are numbers, not symbols.
-/

namespace ZQ.OpStr

open ZQ ZQ.Op

/-- A Python string. -/
abbrev Text := List Char

/-- Python's own reading and printing of numbers. -/
structure Numbers where
  /-- `float(text)`; `none` stands for a `ValueError` -/
  float : Text → Option ℂ
  /-- `complex(text)` -/
  complex : Text → Option ℂ
  /-- `"{}".format(number)` -/
  print : ℂ → Text

/-- qubit_operator.py:90-103, ising_operator.py:38-51, fermion_operator.py:65-78: `action_before_index`, and `action_strings` zipped with `actions`. -/
structure Style (A : Type) where
  before : Bool
  table : List (Text × A)

/-- `QubitOperator`. -/
def qubitStyle : Style Letter := ⟨true, [(['X'], .X), (['Y'], .Y), (['Z'], .Z)]⟩

/-- `IsingOperator`. -/
def isingStyle : Style Letter := ⟨true, [(['Z'], .Z)]⟩

/-- `FermionOperator`. -/
def fermionStyle : Style Bool := ⟨false, [(['^'], true), ([], false)]⟩

/-- `str.split()`. External builtin. -/
def words (s : Text) : List Text := (s.splitOnP Char.isWhitespace).filter fun w => !w.isEmpty

/-- `str.strip()`. External builtin. -/
def strip (s : Text) : Text := (s.dropWhile Char.isWhitespace).rdropWhile Char.isWhitespace

variable {A : Type} [DecidableEq A]

/-- symbolic_operator.py:290-297: the action of an action string. -/
def findAction (st : Style A) (s : Text) : Except Err A :=
  match st.table.find? fun e => e.1 = s with
  | some e => .ok e.2
  | none => .error .valueError

/-- symbolic_operator.py:252-301, one factor of `_parse_string`. The loops that move `index_start` and `index_end` take the longest run of digits. -/
def parseFactor (st : Style A) (w : Text) : Except Err (ℕ × A) :=
  if st.before then
    if w.getLast?.all fun ch => !ch.isDigit then .error .valueError
    else if (w.rdropWhile Char.isDigit).getLast? = some '-' then .error .valueError
    else do
      let a ← findAction st (w.rdropWhile Char.isDigit)
      .ok (Nat.ofDigitChars 10 (w.rtakeWhile Char.isDigit) 0, a)
  else
    if w.head? = some '-' then .error .valueError
    else if w.head?.all fun ch => !ch.isDigit then .error .valueError
    else do
      let a ← findAction st (w.dropWhile Char.isDigit)
      .ok (Nat.ofDigitChars 10 (w.takeWhile Char.isDigit) 0, a)

/-- symbolic_operator.py:243-306 `_parse_string`. -/
def parseString (st : Style A) (s : Text) : Except Err (Term A) := (words s).mapM (parseFactor st)

/-- symbolic_operator.py:166-167: `re.findall(r"(.*?)\[(.*?)\]", …)`, the texts before a bracket and between it and the next closing bracket. -/
def findTerms (s : Text) : List (Text × Text) :=
  match hs : s.dropWhile (· ≠ '[') with
  | [] => []
  | _ :: r =>
    match hr : r.dropWhile (· ≠ ']') with
    | [] => []
    | _ :: rest => (s.takeWhile (· ≠ '['), r.takeWhile (· ≠ ']')) :: findTerms rest
termination_by s.length
decreasing_by
  have h1 := congrArg List.length hs
  have h2 := congrArg List.length hr
  have h3 := (List.dropWhile_suffix (fun ch : Char => decide (ch ≠ '[')) (l := s)).length_le
  have h4 := (List.dropWhile_suffix (fun ch : Char => decide (ch ≠ ']')) (l := r)).length_le
  simp only [List.length_cons] at h1 h2
  omega

/-- symbolic_operator.py:170-172: white space and a leading plus are removed. -/
def coefText (s : Text) : Text :=
  let t := s.filter fun ch => !ch.isWhitespace
  if t.head? = some '+' then t.tail else t

/-- symbolic_operator.py:173-187: the coefficient of a term. -/
noncomputable def readCoef (N : Numbers) (t : Text) : Except Err ℂ :=
  if t = [] then .ok 1
  else if t = ['-'] then .ok (-1)
  else
    match (if 'j' ∈ t then (if t.head? = some '-' then (N.complex t.tail).map (- ·) else N.complex t) else N.float t) with
    | some c => .ok c
    | none => .error .valueError

/-- symbolic_operator.py:170-196, one round of the loop. -/
noncomputable def longStep (S : OpClass A) (st : Style A) (N : Numbers) (c : ℂ) (acc : Terms A) (m : Text × Text) : Except Err (Terms A) := do
  let k ← readCoef N (coefText m.1)
  let t ← parseString st m.2
  .ok (accum acc (S.simplify t (k * c)).2 (S.simplify t (k * c)).1)

/-- symbolic_operator.py:158-196 `_long_string_init`. -/
noncomputable def longInit (S : OpClass A) (st : Style A) (N : Numbers) (s : Text) (c : ℂ) : Except Err (Terms A) :=
  (findTerms s).foldlM (longStep S st N c) []

/-- symbolic_operator.py:124-156 `__init__` on a string. -/
noncomputable def init (S : OpClass A) (st : Style A) (N : Numbers) (s : Text) (c : ℂ) : Except Err (Terms A) :=
  if '[' ∈ s then longInit S st N s c
  else do
    let t ← parseString st s
    .ok (ofTerm S t c)

/-- symbolic_operator.py:346-351: the text of a factor and a blank. -/
def printFactor (st : Style A) (f : ℕ × A) : Except Err Text :=
  match st.table.find? fun e => e.2 = f.2 with
  | some e => .ok (if st.before then e.1 ++ Nat.toDigits 10 f.1 ++ [' '] else Nat.toDigits 10 f.1 ++ e.1 ++ [' '])
  | none => .error .valueError

/-- symbolic_operator.py:344-352: the text of a term. -/
def printTerm (st : Style A) (N : Numbers) (kv : Term A × ℂ) : Except Err Text := do
  let fs ← kv.1.mapM (printFactor st)
  .ok (strip (N.print kv.2 ++ [' ', '['] ++ fs.flatten) ++ [']', ' ', '+', '\n'])

/-- symbolic_operator.py:336-353 `__str__`. `le` is Python's order of tuples, used by `sorted(self.terms.items())`; two items never have the same term, so the
coefficients are not compared. -/
noncomputable def toText (st : Style A) (N : Numbers) (le : Term A → Term A → Bool) (o : Terms A) : Except Err Text :=
  if o = [] then .ok ['0']
  else do
    let ts ← ((o.insertionSort fun a b => le a.1 b.1).filter fun kv => decide (¬ IsSmall kv.2 eqTol)).mapM (printTerm st N)
    .ok (ts.flatten.rdrop 3)

end ZQ.OpStr
