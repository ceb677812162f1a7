import Verif.Model.Molecule
import Verif.Model.Files

/-!
# A molecule's arrays and the objects made from them

Second model of the methods of `MolecularData` (`openfermion/chem/molecular_data.py`) that hand out data, in which numpy arrays live in a store, so that an
update in place is seen by everything that holds the array.  One molecule object with its file.  Simplifications: numbers are exact and real; the file holds
the six arrays used by these methods only (`MolStore` models all of it) and is written and read without failure.
-/

namespace ZQ.MolHeap

open ZQ ZQ.Mol ZQ.Files

/-- molecular_data.py:571-591: the attributes that hold the arrays. -/
inductive Slot
  | one | two | fciOne | fciTwo | cisdOne | cisdTwo
  deriving DecidableEq

/-- The other attributes that the methods read. -/
structure Fixed where
  orbitals : ℕ
  nuclearRepulsion : ℝ
  fciEnergy : Option ℝ
  cisdEnergy : Option ℝ

/-- The methods. -/
inductive Method
  | integrals | activeSpace | hamiltonian | rdm | coulomb | exchange | antisym
  deriving DecidableEq

/-- What a method returned: a number if there is one, and arrays. `made` is not part of the program: the method, for statements. -/
structure Result where
  made : Method
  const : Option ℝ
  refs : List ℕ

/-- The arrays that exist, the molecule's attributes, its file, and all results so far. -/
structure World where
  next : ℕ
  mem : ℕ → RTensor
  slot : Slot → Option ℕ
  file : Slot → Option RTensor
  results : List Result

/-- molecular_data.py:599-724, 992-1010: a getter; the array is read from the file if it has not been. -/
def getArr (w : World) (a : Slot) : World × Option ℕ :=
  match w.slot a with
  | some r => (w, some r)
  | none => match w.file a with
    | none => (w, none)
    | some t => ({ w with next := w.next + 1, mem := Function.update w.mem w.next t, slot := Function.update w.slot a (some w.next) }, some w.next)

/-- Returning arrays that exist. -/
def give (w : World) (k : Method) (refs : List ℕ) : World := { w with results := w.results ++ [⟨k, none, refs⟩] }

/-- Returning new arrays. -/
def giveNew (w : World) (k : Method) (c : Option ℝ) (ts : List RTensor) : World :=
  { w with
    next := w.next + ts.length
    mem := fun r => if w.next ≤ r then ts.getD (r - w.next) (w.mem r) else w.mem r
    results := w.results ++ [⟨k, c, (List.range ts.length).map (w.next + ·)⟩] }

/-- molecular_data.py:1020-1038 `get_integrals`, up to the return. `MissingCalculationError` is a `runtimeError`. -/
def getIntegrals (w : World) : World × Except FErr (ℕ × ℕ) :=
  match getArr w .one with
  | (w, none) => (w, .error (.py .runtimeError))
  | (w, some r) => match getArr w .two with
    | (w, none) => (w, .error (.py .runtimeError))
    | (w, some s) => (w, .ok (r, s))

/-- Calling `f` with the integrals; its arrays are new. -/
def withIntegrals (w : World) (k : Method) (f : RTensor → RTensor → Except Err (Option ℝ × List RTensor)) : World × Option FErr :=
  match getIntegrals w with
  | (w, .error e) => (w, some e)
  | (w, .ok (r, s)) => match f (w.mem r) (w.mem s) with
    | .error e => (w, some (.py e))
    | .ok x => (giveNew w k x.1 x.2, none)

/-- molecular_data.py:1069-1079 and interaction_operator.py:218-278: the results of `get_active_space_integrals`; indexing with `numpy.ix_` makes new arrays. -/
noncomputable def activeArrays (F : Fixed) (occupied active : Option (List ℕ)) (h g : RTensor) : Except Err (Option ℝ × List RTensor) := do
  let r ← getActiveSpaceIntegrals F.orbitals h g occupied active
  return (some r.1, [r.2.1, r.2.2])

/-- molecular_data.py:1115-1121: constant and arrays of the operator for `k` orbitals. -/
noncomputable def operatorArrays (k : ℕ) (c : ℝ) (h g : RTensor) : Option ℝ × List RTensor :=
  (some c, [(spinorbFromSpatial k h g).1, fun i => 1 / 2 * (spinorbFromSpatial k h g).2 i])

/-- molecular_data.py:1100-1121: `get_molecular_hamiltonian` from the integrals. -/
noncomputable def hamiltonianArrays (F : Fixed) (occupied active : Option (List ℕ)) (h g : RTensor) : Except Err (Option ℝ × List RTensor) :=
  match occupied, active with
  | none, none => .ok (operatorArrays F.orbitals F.nuclearRepulsion h g)
  | _, _ => do
    let r ← getActiveSpaceIntegrals F.orbitals h g occupied active
    return operatorArrays (active.getD []).length (F.nuclearRepulsion + r.1) r.2.1 r.2.2

/-- molecular_data.py:1068-1070: the checks made before the integrals are read. -/
def checkActive : Option (List ℕ) → Option Err
  | none => some .typeError
  | some act => if act.length < 1 then some .valueError else none

/-- `array[numpy.absolute(array) < EQ_TOLERANCE] = 0.0` (molecular_data.py:1158-1159), in place. -/
noncomputable def truncAt (w : World) (r : ℕ) : World := { w with mem := Function.update w.mem r (truncate (w.mem r)) }

/-- molecular_data.py:1123-1163 `get_molecular_rdm`; the object holds the molecule's arrays. `numpy.absolute(None)` is a `TypeError`. -/
noncomputable def getRdm (F : Fixed) (w : World) (useFci : Bool) : World × Option FErr :=
  match (if useFci then F.fciEnergy else F.cisdEnergy) with
  | none => (w, some (.py .runtimeError))
  | some _ =>
    let x := getArr w (if useFci then .fciOne else .cisdOne)
    let y := getArr x.1 (if useFci then .fciTwo else .cisdTwo)
    match x.2 with
    | none => (y.1, some (.py .typeError))
    | some r => match y.2 with
      | none => (truncAt y.1 r, some (.py .typeError))
      | some s => (give (truncAt (truncAt y.1 r) s) .rdm [r, s], none)

/-- molecular_data.py:1165-1199 `get_j`, `get_k`. -/
def fromTwo (w : World) (k : Method) (f : RTensor → RTensor) : World × Option FErr :=
  match getArr w .two with
  | (w, none) => (w, some (.py .runtimeError))
  | (w, some s) => (giveNew w k none [f (w.mem s)], none)

/-- molecular_data.py:1201-1220 `get_antisym`. `None` has no `shape`. -/
noncomputable def getAntisym (F : Fixed) (w : World) : World × Option FErr :=
  match getArr w .two with
  | (w, none) => (w, some (.py .runtimeError))
  | (w, some s) => match getArr w .one with
    | (w, none) => (w, some .attributeError)
    | (w, some r) => (giveNew w .antisym none [antisymtei (spinorbFromSpatial F.orbitals (w.mem r) (w.mem s)).2], none)

/-- Steps of a program: calls of methods, an update in place of array number `j` of result number `v` to whatever `f` makes of it, saving the molecule, and
opening its file again. -/
inductive Op
  | integrals
  | activeSpace (occupied active : Option (List ℕ))
  | hamiltonian (occupied active : Option (List ℕ))
  | rdm (useFci : Bool)
  | coulomb
  | exchange
  | antisym
  | write (v j : ℕ) (f : RTensor → RTensor)
  | save
  | reopen

/-- All getters (molecular_data.py:784-884). -/
def loadAll (w : World) : World := [Slot.one, .two, .cisdOne, .cisdTwo, .fciOne, .fciTwo].foldl (fun w a => (getArr w a).1) w

/-- One step; the exception, if there is one, is caught. -/
noncomputable def exec (F : Fixed) (w : World) : Op → World × Option FErr
  | .integrals => match getIntegrals w with
    | (w, .error e) => (w, some e)
    | (w, .ok (r, s)) => (give w .integrals [r, s], none)
  | .activeSpace occupied active => match checkActive active with
    | some e => (w, some (.py e))
    | none => withIntegrals w .activeSpace (activeArrays F occupied active)
  | .hamiltonian occupied active => match (if occupied = none ∧ active = none then none else checkActive active) with
    | some e => (w, some (.py e))
    | none => withIntegrals w .hamiltonian (hamiltonianArrays F occupied active)
  | .rdm useFci => getRdm F w useFci
  | .coulomb => fromTwo w .coulomb jMat
  | .exchange => fromTwo w .exchange kMat
  | .antisym => getAntisym F w
  | .write v j f => match (w.results[v]?).bind fun x => x.refs[j]? with
    | none => (w, some (.py .indexError))
    | some r => ({ w with mem := Function.update w.mem r (f (w.mem r)) }, none)
  | .save =>
    let w := loadAll w
    ({ w with file := fun a => (w.slot a).map w.mem }, none)
  | .reopen => ({ w with slot := fun _ => none }, none)

/-- A program. -/
noncomputable def run (F : Fixed) (w : World) (ops : List Op) : World := ops.foldl (fun w op => (exec F w op).1) w

/-- A molecule just opened from its file. -/
def start (file : Slot → Option RTensor) : World := ⟨0, fun _ _ => 0, fun _ => none, file, []⟩

end ZQ.MolHeap
