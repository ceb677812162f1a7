import Verif.Model.OpString
import Mathlib.Data.List.SplitOn

/-!
# Geometries in text files and units of length: openfermion/chem/molecular_data.py

Python's `float(text)` is a parameter: `none` stands for its `ValueError`. White space is as in `OpString`.
-/

namespace ZQ.Geometry

open ZQ ZQ.OpStr

/-- molecular_data.py:53-55 `bohr_to_angstroms`. -/
noncomputable def bohrToAngstroms (d : ℝ) : ℝ := 0.5291772458017723 * d

/-- molecular_data.py:58-59 `angstroms_to_bohr`. -/
noncomputable def angstromsToBohr (d : ℝ) : ℝ := 1.889726 * d

/-- An atom and its coordinates. -/
abbrev Atom := Text × ℝ × ℝ × ℝ

/-- molecular_data.py:319-323: what one line adds to the geometry. -/
def readLine (float : Text → Option ℝ) (line : Text) : Except Err (List Atom) :=
  match words line with
  | [a, tx, ty, tz] =>
    match float tx, float ty, float tz with
    | some x, some y, some z => .ok [(a, x, y, z)]
    | _, _, _ => .error .valueError
  | _ => .ok []

/-- molecular_data.py:316-323: the loop. -/
def readLines (float : Text → Option ℝ) : List Text → List Atom → Except Err (List Atom)
  | [], geometry => .ok geometry
  | line :: lines, geometry =>
    match readLine float line with
    | .error e => .error e
    | .ok new => readLines float lines (geometry ++ new)

/-- molecular_data.py:303-324 `geometry_from_file`, of the text in the file. Lines end with a line feed: opening the file in text mode has translated other ends. -/
def geometryFromFile (float : Text → Option ℝ) (text : Text) : Except Err (List Atom) := readLines float (text.splitOn '\n') []

end ZQ.Geometry
