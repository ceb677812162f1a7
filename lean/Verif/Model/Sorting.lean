import Verif.Model.Matrices
import Mathlib.Data.Nat.Notation

/-!
# Orders of symbols

Model of `circuits/symbolic/_sorting.py`. Names are lists of characters. Simplification: only the digits 0-9 count as digits (`\d` and `str.isdigit` also
know other scripts).
-/

namespace ZQ.Sorting

open ZQ

/-- An element of a key: a string or an integer. -/
inductive Item
  | text (s : List Char)
  | num (n : ℕ)
  deriving DecidableEq

/-- Whether a character is one of 0-9. -/
def isDigit (c : Char) : Bool := c.isDigit

/-- `int(text)` of a string of digits. -/
def intOf (ds : List Char) : ℕ := ds.foldl (fun n c => 10 * n + (c.toNat - '0'.toNat)) 0

theorem dropWhile_length_le (p : Char → Bool) (l : List Char) : (l.dropWhile p).length ≤ l.length := (List.dropWhile_sublist p).length_le

/-- `re.split(r"(\d+)", name)`: the texts between maximal groups of digits, and the groups. External. -/
def splitDigits (name : List Char) : List (List Char) :=
  let t := name.takeWhile fun c => !isDigit c
  match h : name.dropWhile fun c => !isDigit c with
  | [] => [t]
  | c :: r => t :: (c :: r.takeWhile isDigit) :: splitDigits (r.dropWhile isDigit)
termination_by name.length
decreasing_by
  have h1 := dropWhile_length_le (fun c => !isDigit c) name
  have h2 := dropWhile_length_le isDigit r
  rw [h] at h1
  simp only [List.length_cons] at h1
  omega

/-- circuits/symbolic/_sorting.py:8-9 `_convert_string_to_int_if_possible`; `"".isdigit()` is `False`. -/
def convert (t : List Char) : Item := if t ≠ [] ∧ t.all isDigit then .num (intOf t) else .text t

/-- circuits/symbolic/_sorting.py:12-33 `natural_key`. -/
def naturalKey (name : List Char) : List Item := (splitDigits name).map convert

/-- circuits/symbolic/_sorting.py:36-47 `natural_key_revlex`. -/
def naturalKeyRevlex (name : List Char) : List Item := (naturalKey name).reverse

/-- The key `str`, which cost_function.py:44-45 uses by default; comparing one-element lists of strings is comparing the strings. -/
def strKey (name : List Char) : List Item := [.text name]

/-- Python `<` on strings: by code points. -/
def charsLt : List Char → List Char → Bool
  | _, [] => false
  | [], _ :: _ => true
  | a :: as, b :: bs => if a = b then charsLt as bs else decide (a.toNat < b.toNat)

/-- Python `<` on key elements; `none` is the `TypeError` of comparing a string with an integer. -/
def itemLt : Item → Item → Option Bool
  | .text s, .text t => some (charsLt s t)
  | .num m, .num n => some (decide (m < n))
  | _, _ => none

/-- Python `<` on lists: the first position where they differ decides. -/
def keyLt : List Item → List Item → Option Bool
  | _, [] => some false
  | [], _ :: _ => some true
  | a :: as, b :: bs => if a = b then keyLt as bs else itemLt a b

/-- `sorted(symbols, key=key)`: a stable sort. External. If any two keys cannot be compared it may raise `TypeError`; the model then raises. -/
def sortedBy (key : List Char → List Item) (names : List (List Char)) : Except Err (List (List Char)) :=
  if names.all fun a => names.all fun b => (keyLt (key a) (key b)).isSome then
    .ok (names.mergeSort fun a b => !((keyLt (key b) (key a)).getD false))
  else .error .typeError

/-- `name.split("_")`. External. -/
def splitUnderscore : List Char → List (List Char)
  | [] => [[]]
  | c :: cs =>
    match splitUnderscore cs with
    | [] => [[]]
    | p :: ps => if c = '_' then [] :: p :: ps else (c :: p) :: ps

/-- circuits/symbolic/_sorting.py:50-68 `natural_key_fixed_names_order`: the dictionary of weights (later duplicates win), unpacking of the two parts,
`int(index)` (simplification: only plain digits are accepted), and the look-up of the weight. -/
def fixedNamesKey (names : List (List Char)) (name : List Char) : Except Err (ℕ × ℕ) :=
  match splitUnderscore name with
  | [base, index] =>
    if index ≠ [] ∧ index.all isDigit then
      match (names.zipIdx.reverse.find? fun p => p.1 = base) with
      | some p => .ok (intOf index, p.2)
      | none => .error .keyError
    else .error .valueError
  | _ => .error .valueError

end ZQ.Sorting
