import Verif.Model.Files

/-!
# Molecules in files

Model of the class `MolecularData` as a store of calculation results (`openfermion/chem/molecular_data.py`): the attributes, those that are loaded on demand,
and the files. Files are named by `filename`, to which the code appends `.hdf5` everywhere. HDF5 is external: a dataset is read back as it was written, an
empty string as one zero byte. Simplifications: strings hold no zero bytes; the numbers of `general_calculations` have one type; sequences (tuples, lists,
arrays) are not told apart; `load` of a file in which datasets are missing changes no attribute (the code sets those before the missing one).
-/

namespace ZQ.MolStore

open ZQ ZQ.Results ZQ.Files

/-- The value of an attribute: a boolean (numpy type number 0) or any other number or array. -/
inductive Val (D : Type)
  | bool (b : Bool)
  | data (d : D)

/-- Attributes that may be `None` and are loaded with the object (molecular_data.py:540-560). -/
inductive Eager
  | nOrbitals | nQubits | nuclearRepulsion | hfEnergy | orbitalEnergies | mp2Energy | cisdEnergy | fciEnergy | ccsdEnergy
  deriving DecidableEq

/-- Attributes that are loaded on demand (molecular_data.py:571-591). -/
inductive Lazy
  | canonicalOrbitals | overlapIntegrals | oneBodyIntegrals | twoBodyIntegrals | cisdOneRdm | cisdTwoRdm | fciOneRdm | fciTwoRdm | ccsdSingleAmps | ccsdDoubleAmps
  deriving DecidableEq

/-- The geometry: a name or a list of atoms with positions. -/
inductive Geometry
  | text (s : Str)
  | atoms (l : List (Str × List ℝ))

/-- The other attributes (molecular_data.py:501-538); `protons` of a molecule whose geometry is a name is the empty list here, 0 in the code. The number of
electrons is `None` for molecules of `get_molecular_data` (repconversions/conversions.py:176). -/
structure Info where
  geometry : Geometry
  basis : Str
  multiplicity : ℤ
  charge : ℤ
  description : Str
  name : Str
  nAtoms : ℕ
  atoms : List Str
  protons : List ℕ
  nElectrons : Option ℤ

/-- A `MolecularData` object. `cache` holds the attributes loaded on demand, `general` is the attribute `general_calculations`: `none` when the object has no
such attribute, `some none` when it is `None`. -/
structure Obj (D : Type) where
  filename : Str
  info : Info
  eager : Eager → Option (Val D)
  cache : Lazy → Option (Val D)
  general : Option (Option (List (Str × D)))

/-- An HDF5 file; `none` for datasets that do not exist. `general` holds the keys and values, or `False` (`some none`). -/
structure File (D : Type) where
  info : Option Info
  eager : Eager → Option (Val D)
  lazyData : Lazy → Option (Val D)
  general : Option (Option (List (Str × D)))

/-- The files, by their name without `.hdf5`. -/
abbrev FS (D : Type) := Str → Option (File D)

variable {D : Type}

/-- `data=(x if x is not None else False)` (e.g. molecular_data.py:765-767). -/
def dset (x : Option (Val D)) : Val D :=
  match x with
  | some v => v
  | none => .bool false

/-- `data if data.dtype.num != 0 else None` (e.g. molecular_data.py:603-605, 954-955). -/
def fromData (v : Val D) : Option (Val D) :=
  match v with
  | .bool _ => none
  | .data d => some (.data d)

/-- A string written with `numpy.string_` and read with `tobytes().decode` (e.g. molecular_data.py:748, 935): HDF5 has no empty strings of fixed length. -/
def storedText (s : Str) : Str := if s = [] then ['\x00'] else s

/-- `.rstrip("\x00")` (molecular_data.py:942). -/
def rstripZero (s : Str) : Str := (s.reverse.dropWhile (· = '\x00')).reverse

/-- molecular_data.py:737-747, 923-933: the geometry as it is read back. -/
def storedGeometry : Geometry → Geometry
  | .text s => .text (storedText s)
  | .atoms l => .atoms l

/-- molecular_data.py:734-766, 925-951: the data of the molecule as they are read back. -/
def storedInfo (i : Info) : Info :=
  { i with geometry := storedGeometry i.geometry, basis := storedText i.basis, description := rstripZero (storedText i.description), name := storedText i.name }

/-- molecular_data.py:992-1010 `get_from_file`. -/
def getFromFile (fs : FS D) (name : Str) (a : Lazy) : Option (Val D) :=
  match fs name with
  | none => none
  | some f => f.lazyData a

/-- molecular_data.py:599-724: the getter of an attribute loaded on demand; the object afterwards. -/
def getLazy (fs : FS D) (o : Obj D) (a : Lazy) : Option (Val D) × Obj D :=
  match o.cache a with
  | some v => (some v, o)
  | none =>
    let v := match getFromFile fs o.filename a with
      | none => none
      | some d => fromData d
    (v, { o with cache := fun b => if b = a then v else o.cache b })

/-- molecular_data.py:608-610 and so on: the setters. -/
def setLazy (o : Obj D) (a : Lazy) (v : Option (Val D)) : Obj D := { o with cache := fun b => if b = a then v else o.cache b }

/-- Assignment to another attribute. -/
def setEager (o : Obj D) (a : Eager) (v : Option (Val D)) : Obj D := { o with eager := fun b => if b = a then v else o.eager b }

/-- The object after all getters have been called (molecular_data.py:784-884). -/
def filled (fs : FS D) (o : Obj D) : Obj D := { o with cache := fun a => (getLazy fs o a).1 }

/-- molecular_data.py:734-898: the temporary file and the object afterwards, with the exception when writing stops. `create_dataset(data=None)` is a
`TypeError`; an object without `general_calculations` or with `None` raises an `AttributeError`. The last component of the file written so far is what
later reading finds missing. -/
def tempFile (fs : FS D) (o : Obj D) : File D × Obj D × Option FErr :=
  match o.info.nElectrons with
  | none => (⟨none, fun _ => none, fun _ => none, none⟩, o, some (.py .typeError))
  | some _ =>
    let o' := filled fs o
    let eager := fun a => some (dset (o.eager a))
    let lazyData := fun a => some (dset (o'.cache a))
    match o.general with
    | none => (⟨some o.info, eager, lazyData, none⟩, o', some .attributeError)
    | some none => (⟨some o.info, eager, lazyData, none⟩, o', some .attributeError)
    | some (some []) => (⟨some o.info, eager, lazyData, some none⟩, o', none)
    | some (some (kv :: l)) => (⟨some o.info, eager, lazyData, some (some (kv :: l))⟩, o', none)

/-- Writing a file. -/
def put (fs : FS D) (p : Str) (f : File D) : FS D := fun q => if q = p then some f else fs q

/-- `os.remove`; a file that does not exist is not an error (molecular_data.py:903-906). -/
def remove (fs : FS D) (p : Str) : FS D := fun q => if q = p then none else fs q

/-- `shutil.move` of a file that exists, within one file system (molecular_data.py:908). -/
def move (fs : FS D) (p q : Str) : FS D := fun r => if r = q then fs p else if r = p then none else fs r

/-- molecular_data.py:729-908 `save`; `tmp` is the name from `uuid.uuid4`. The files and the object afterwards, and the exception. -/
def save (fs : FS D) (tmp : Str) (o : Obj D) : FS D × Obj D × Option FErr :=
  match tempFile fs o with
  | (f, o', some e) => (put fs tmp f, o', some e)
  | (f, o', none) => (move (remove (put fs tmp f) o.filename) tmp o.filename, o', none)

/-- The states of the file system in which a process that calls `save` can be stopped: before, while the temporary file is written (whatever part `g` of it),
and between the system calls that follow. -/
inductive Stopped (fs : FS D) (tmp : Str) (o : Obj D) : FS D → Prop
  | before : Stopped fs tmp o fs
  | writing (g : File D) : Stopped fs tmp o (put fs tmp g)
  | written : Stopped fs tmp o (put fs tmp (tempFile fs o).1)
  | removed : (tempFile fs o).2.2 = none → Stopped fs tmp o (remove (put fs tmp (tempFile fs o).1) o.filename)
  | moved : (tempFile fs o).2.2 = none → Stopped fs tmp o (move (remove (put fs tmp (tempFile fs o).1) o.filename) tmp o.filename)

/-- molecular_data.py:919-990 `load`: the object afterwards and the exception. `OSError` without the file, `KeyError` without a dataset. Keys without
values leave the attribute as it was (lines 979-985). -/
def load (fs : FS D) (o : Obj D) : Obj D × Option FErr :=
  match fs o.filename with
  | none => (o, some .os)
  | some f =>
    match f.info with
    | none => (o, some (.py .keyError))
    | some i =>
      if (f.eager .nOrbitals).isNone || (f.eager .nQubits).isNone || (f.eager .nuclearRepulsion).isNone || (f.eager .hfEnergy).isNone
          || (f.eager .orbitalEnergies).isNone || (f.eager .mp2Energy).isNone || (f.eager .cisdEnergy).isNone || (f.eager .fciEnergy).isNone
          || (f.eager .ccsdEnergy).isNone then (o, some (.py .keyError))
      else
        ({ o with
            info := storedInfo i
            eager := fun a => (f.eager a).bind fromData
            general := match f.general with
              | none => some none
              | some none => o.general
              | some (some l) => some (some l) }, none)

/-- molecular_data.py:488-492, 515-518: the ending `.hdf5` is dropped. -/
def stem (s : Str) : Str := if s.drop (s.length - 5) = ".hdf5".toList then s.take (s.length - 5) else s

/-- An object without attributes; `load` sets all of them except `general_calculations`. -/
def blank (name : Str) : Obj D := ⟨name, ⟨.text [], [], 0, 0, [], [], 0, [], [], none⟩, fun _ => none, fun _ => none, none⟩

/-- molecular_data.py:486-496: `MolecularData(filename=name)`. An empty name is a `ValueError`. -/
def openFile (fs : FS D) (name : Str) : Except FErr (Obj D) :=
  if name = [] then .error (.py .valueError)
  else
    match load fs (blank (stem name)) with
    | (_, some e) => .error e
    | (o, none) => .ok { o with cache := fun _ => none }

/-- A step of a program with several objects. -/
inductive Action (D : Type)
  | create (i : ℕ) (o : Obj D)
  | openFile (i : ℕ) (name : Str)
  | setEager (i : ℕ) (a : Eager) (v : Option (Val D))
  | setLazy (i : ℕ) (a : Lazy) (v : Option (Val D))
  | setGeneral (i : ℕ) (l : List (Str × D))
  | getLazy (i : ℕ) (a : Lazy)
  | save (i : ℕ) (tmp : Str)
  | load (i : ℕ)

/-- The files and the objects. -/
structure World (D : Type) where
  fs : FS D
  objs : ℕ → Option (Obj D)

/-- Assignment to a variable. -/
def World.setObj (w : World D) (i : ℕ) (o : Obj D) : World D := { w with objs := fun j => if j = i then some o else w.objs j }

/-- One step; exceptions are caught. -/
def step (w : World D) : Action D → World D
  | .create i o => w.setObj i o
  | .openFile i name => match openFile w.fs name with
    | .ok o => w.setObj i o
    | .error _ => w
  | .setEager i a v => match w.objs i with
    | some o => w.setObj i (setEager o a v)
    | none => w
  | .setLazy i a v => match w.objs i with
    | some o => w.setObj i (setLazy o a v)
    | none => w
  | .setGeneral i l => match w.objs i with
    | some o => w.setObj i { o with general := some (some l) }
    | none => w
  | .getLazy i a => match w.objs i with
    | some o => w.setObj i (getLazy w.fs o a).2
    | none => w
  | .save i tmp => match w.objs i with
    | some o => { (w.setObj i (save w.fs tmp o).2.1) with fs := (save w.fs tmp o).1 }
    | none => w
  | .load i => match w.objs i with
    | some o => w.setObj i (load w.fs o).1
    | none => w

/-- A program. -/
def run (w : World D) (as : List (Action D)) : World D := as.foldl step w

end ZQ.MolStore
