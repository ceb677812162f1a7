import Verif.Model.OpString

/-!
# The next version: subtrees/z_quantum_actions/bin/get_next_version.py

Regular expressions are modelled with the backtracking semantics of Python's `re`: the list of all matches of a prefix, in the order in which they are tried.
-/

namespace ZQ.Version

abbrev Text := List Char

/-- The regular expressions that the script uses (an external library).  `plus` and `opt` are the greedy `+` and `?`. -/
inductive Re where
  | chr (p : Char → Bool)
  | plus (p : Char → Bool)
  | seq (a b : Re)
  | opt (a : Re)
  | group (name : String) (a : Re)

/-- All ways to match a prefix of a text, the preferred ones first, with the captured groups and the rest of the text. -/
def Re.run : Re → Text → List (List (String × Text) × Text)
  | .chr p, s => match s with
    | c :: t => if p c then [([], t)] else []
    | [] => []
  | .plus p, s => (List.range (s.takeWhile p).length).reverse.map fun k => ([], s.drop (k + 1))
  | .seq a b, s => (a.run s).flatMap fun x => (b.run x.2).map fun y => (x.1 ++ y.1, y.2)
  | .opt a, s => a.run s ++ [([], s)]
  | .group name a, s => (a.run s).map fun x => ((name, s.take (s.length - x.2.length)) :: x.1, x.2)

/-- `re.match(...).groupdict()`; `None` if there is no match. -/
def Re.matchGroups (r : Re) (s : Text) : Option (List (String × Text)) := (r.run s).head?.map (·.1)

/-- get_next_version.py:45-47 `SEMVER_REGEX`: `(?P<major>[0-9]+)\.(?P<minor>[0-9]+)(\.(?P<patch>[0-9]+))?([-\.](?P<pre>.+))?`; a dot matches all but line ends. -/
def semverRegex : Re :=
  .seq (.group "major" (.plus Char.isDigit)) (.seq (.chr (· == '.')) (.seq (.group "minor" (.plus Char.isDigit))
    (.seq (.opt (.seq (.chr (· == '.')) (.group "patch" (.plus Char.isDigit)))) (.opt (.seq (.chr fun c => c == '-' || c == '.') (.group "pre" (.plus (· != '\n'))))))))

/-- get_next_version.py:16-20 `Semver`. -/
structure Semver where
  major : ℕ
  minor : ℕ
  patch : Option ℕ
  pre : Option Text
  deriving DecidableEq

/-- get_next_version.py:22-30 `version_str`. -/
def Semver.versionStr (v : Semver) : Text :=
  let version := Nat.toDigits 10 v.major ++ '.' :: Nat.toDigits 10 v.minor
  let version := match v.patch with
    | some p => version ++ '.' :: Nat.toDigits 10 p
    | none => version
  match v.pre with
  | some p => if p = [] then version else version ++ '.' :: p
  | none => version

/-- get_next_version.py:32-39 `bump_minor`. -/
def Semver.bumpMinor (v : Semver) : Semver := { major := v.major, minor := v.minor + 1, patch := some 0, pre := none }

/-- `int(...)` of a text of digits. -/
def int (t : Text) : ℕ := Nat.ofDigitChars 10 t 0

/-- get_next_version.py:50-71 `parse_version_str`. -/
def parseVersionStr (version : Text) : Except Err Semver :=
  match semverRegex.matchGroups version with
  | none => .error .valueError
  | some groups =>
    match groups.lookup "major", groups.lookup "minor" with
    | some major, some minor => .ok { major := int major, minor := int minor, patch := (groups.lookup "patch").map int, pre := groups.lookup "pre" }
    | _, _ => .error .typeError

/-- get_next_version.py:81-94 `main`: the value of the output, given what `setup.py --version` prints. -/
def nextVersion (printed : Text) : Except Err Text := do
  let v ← parseVersionStr printed
  .ok v.bumpMinor.versionStr

end ZQ.Version
