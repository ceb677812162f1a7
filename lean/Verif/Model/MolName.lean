import Verif.Model.MolStore
import Verif.Model.Molecule

/-!
# Names and electrons of molecules

Model of `name_molecule`, the constructor of `MolecularData`, `get_n_alpha_electrons`, `get_n_beta_electrons`, `load_molecular_hamiltonian`
(`openfermion/chem/molecular_data.py`) and `get_molecular_data` (`openfermion/transforms/repconversions/conversions.py`). The order in which a Python set is
iterated is a parameter. Simplifications: charges are integers; `MoleculeNameError` is `runtimeError`; in `load_molecular_hamiltonian` no more electrons are
active than there are (the code would use negative indices).
-/

namespace ZQ.MolStore

open ZQ ZQ.Results ZQ.PolyT

/-- molecular_data.py:63-168 `periodic_table`. -/
def periodicTable : List String :=
  ["?", "H", "He", "Li", "Be", "B", "C", "N", "O", "F", "Ne", "Na", "Mg", "Al", "Si", "P", "S", "Cl", "Ar", "K", "Ca", "Sc", "Ti", "V", "Cr", "Mn",
   "Fe", "Co", "Ni", "Cu", "Zn", "Ga", "Ge", "As", "Se", "Br", "Kr", "Rb", "Sr", "Y", "Zr", "Nb", "Mo", "Tc", "Ru", "Rh", "Pd", "Ag", "Cd", "In", "Sn", "Sb",
   "Te", "I", "Xe", "Cs", "Ba", "La", "Ce", "Pr", "Nd", "Pm", "Sm", "Eu", "Gd", "Tb", "Dy", "Ho", "Er", "Tm", "Yb", "Lu", "Hf", "Ta", "W", "Re", "Os", "Ir",
   "Pt", "Au", "Hg", "Tl", "Pb", "Bi", "Po", "At", "Rn", "Fr", "Ra", "Ac", "Th", "Pa", "U", "Np", "Pu", "Am", "Cm", "Bk", "Cf", "Es", "Fm", "Md", "No", "Lr"]

/-- molecular_data.py:170-172 `periodic_hash_table`: the atomic number of a symbol. -/
def number (s : Str) : Option ℕ := if s ∈ periodicTable.map String.toList then some ((periodicTable.map String.toList).idxOf s) else none

/-- molecular_data.py:258-261, with the symbols in the order `l`: every symbol with how often it occurs, sorted by atomic number. A symbol that does not
exist is a `KeyError`. -/
def sortedInfo (atoms l : List Str) : Except Err (List (Str × ℕ)) :=
  if l.all fun s => (number s).isSome then
    .ok ((l.map fun s => (s, atoms.count s)).insertionSort fun x y => (number x.1).getD 0 ≤ (number y.1).getD 0)
  else .error .keyError

/-- `"{}{}".format(info[0], info[1])`. -/
def infoText (x : Str × ℕ) : Str := x.1 ++ Nat.toDigits 10 x.2

/-- molecular_data.py:264-266; there is no first item of an empty list. -/
def formulaText : List (Str × ℕ) → Except Err Str
  | [] => .error .indexError
  | x :: l => .ok (infoText x ++ l.flatMap fun y => '-' :: infoText y)

/-- molecular_data.py:274-287 `multiplicity_dict`. -/
def multiplicityName (m : ℤ) : Option String :=
  if m < 1 then none
  else ["singlet", "doublet", "triplet", "quartet", "quintet", "sextet", "septet", "octet", "nonet", "dectet", "undectet", "duodectet"][(m - 1).toNat]?

/-- `"{}".format(charge)`. -/
def intText (z : ℤ) : Str := if z < 0 then '-' :: Nat.toDigits 10 z.natAbs else Nat.toDigits 10 z.natAbs

/-- molecular_data.py:294-297. -/
def chargeText (c : ℤ) : Str := if c > 0 then '_' :: intText c ++ ['+'] else if c < 0 then '_' :: intText c ++ ['-'] else []

/-- molecular_data.py:272-300: what follows the formula. -/
def nameRest (basis : Str) (multiplicity charge : ℤ) (description : Str) : Except Err Str :=
  match multiplicityName multiplicity with
  | none => .error .runtimeError
  | some t => .ok ('_' :: basis ++ '_' :: t.toList ++ chargeText charge ++ (if description = [] then [] else '_' :: description))

/-- molecular_data.py:254-269: the formula, or the geometry itself if it is a name; `order` is the order of a set. -/
def nameStart (order : List Str → List Str) : Geometry → Except Err Str
  | .text s => .ok s
  | .atoms l => sortedInfo (l.map Prod.fst) (order (l.map Prod.fst)) >>= formulaText

/-- molecular_data.py:234-300 `name_molecule`. -/
def nameMolecule (order : List Str → List Str) (g : Geometry) (basis : Str) (multiplicity charge : ℤ) (description : Str) : Except Err Str := do
  let a ← nameStart order g
  let b ← nameRest basis multiplicity charge description
  .ok (a ++ b)

/-- molecular_data.py:523-530: the symbols sorted by atomic number. -/
def sortedAtoms (l : List Str) : List Str := l.insertionSort fun x y => (number x).getD 0 ≤ (number y).getD 0

/-- molecular_data.py:457-566: the constructor with geometry, basis and multiplicity. -/
def construct {D : Type} (order : List Str → List Str) (g : Geometry) (basis : Str) (multiplicity charge : ℤ) (description filename directory : Str) : Except Err (Obj D) := do
  let name ← nameMolecule order g basis multiplicity charge description
  let file := if filename = [] then directory ++ '/' :: name else stem filename
  let info : Info := match g with
    | .text _ => ⟨g, basis, multiplicity, charge, description, name, 0, [], [], some 0⟩
    | .atoms l =>
      let atoms := sortedAtoms (l.map Prod.fst)
      let protons := atoms.map fun s => (number s).getD 0
      ⟨g, basis, multiplicity, charge, description, name, l.length, atoms, protons, some ((protons.sum : ℕ) - charge)⟩
  .ok ⟨file, info, fun _ => none, fun _ => none, some (some [])⟩

/-- molecular_data.py:1012-1014 `get_n_alpha_electrons`. -/
def nAlpha (electrons multiplicity : ℤ) : ℤ := (electrons + (multiplicity - 1)) / 2

/-- molecular_data.py:1016-1018 `get_n_beta_electrons`. -/
def nBeta (electrons multiplicity : ℤ) : ℤ := (electrons - (multiplicity - 1)) / 2

/-- The attributes that `get_molecular_data` sets from the operator. -/
structure Reduced where
  nOrbitals : ℕ
  nQubits : ℕ
  nuclearRepulsion : ℂ
  one : Tensor
  two : Tensor

/-- repconversions/conversions.py:113-179 `get_molecular_data`. -/
def getMolecularData (n : ℕ) (constant : ℂ) (one two : Tensor) (reduceSpin : Bool) : Reduced :=
  let idx := if reduceSpin then (List.range ((n + 1) / 2)).map (2 * ·) else List.range n
  ⟨idx.length, n, constant, fun i => one (i.map fun a => idx.getD a 0), fun i => two (i.map fun a => idx.getD a 0)⟩

/-- molecular_data.py:1223-1270 `load_molecular_hamiltonian`, for a molecule whose file has been loaded. -/
noncomputable def loadMolecularHamiltonian (m : ℕ) (electrons : ℕ) (c : ℝ) (ints : Option (Mol.RTensor × Mol.RTensor)) (activeElectrons activeOrbitals : Option ℕ) :
    Except Err PolyTensor :=
  let core := match activeElectrons with
    | none => 0
    | some k => (electrons - k) / 2
  let occupied := match activeElectrons with
    | none => none
    | some _ => some (List.range core)
  let active := activeOrbitals.map fun k => List.range' core k
  Mol.getMolecularHamiltonian m c ints occupied active

end ZQ.MolStore
