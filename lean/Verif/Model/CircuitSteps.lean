import Verif.Model.Circuit
import Verif.Model.Serde

/-!
# Circuit steps and random circuits

Model of circuits/_testing.py and of the steps in steps/circuit.py that make and combine circuits. The random number generator is a parameter with explicit state. Lists are Python
objects: they live at addresses in a store, so that two arguments can be the same list.
-/

namespace ZQ.CircSteps

open ZQ ZQ.Gates ZQ.Circuits ZQ.Serde

variable {σ : Type}

/-- What `numpy.random.Generator` offers: `choice n` is the index chosen from a sequence of `n` elements, `pair n` two indices chosen from `n` without replacement. -/
structure Gen (σ : Type) where
  choice : ℕ → σ → ℕ × σ
  pair : ℕ → σ → (ℕ × ℕ) × σ
  uniform : ℝ → ℝ → σ → ℝ × σ

/-- circuits/_testing.py:12-36, in the order of lines 57-64: the names in the four lists of gates, whether they take two qubits and whether they take a parameter. -/
def groups : List (List String × Bool × Bool) :=
  [(["X", "Y", "Z", "H", "S", "T"], false, false), (["CNOT", "CZ", "SWAP"], true, false), (["RX", "RY", "RZ", "PHASE"], false, true), (["CPHASE"], true, true)]

/-- The built-in gate of that name. -/
noncomputable def gateNamed (name : String) : Base := (builtinGates.find? fun b => b.name == name).getD ⟨name, .builtin fun _ => xMatrix, 1, false⟩

/-- circuits/_testing.py:75-80: the qubits. `rng.choice` raises `ValueError` if there are not enough elements. -/
def pickQubits (G : Gen σ) (n : ℕ) (two : Bool) (st : σ) : Except Err (List ℕ × σ) :=
  if two then if n < 2 then .error .valueError else .ok ([(G.pair n st).1.1, (G.pair n st).1.2], (G.pair n st).2)
  else if n = 0 then .error .valueError else .ok ([(G.choice n st).1], (G.choice n st).2)

/-- circuits/_testing.py:82-84: the parameters. -/
noncomputable def pickParams (G : Gen σ) (withParam : Bool) (st : σ) : List Expr × σ :=
  if withParam then ([.num ((G.uniform (-Real.pi) Real.pi st).1 : ℂ)], (G.uniform (-Real.pi) Real.pi st).2) else ([], st)

/-- circuits/_testing.py:69-84: one gate. The four lists have different lengths, so `gates_list in [...]` finds the list that was chosen. -/
noncomputable def pickGate (G : Gen σ) (n : ℕ) (st : σ) : Except Err (GateOp × σ) :=
  let g := groups.getD (G.choice 4 st).1 ([], false, false)
  let name := G.choice g.1.length (G.choice 4 st).2
  (pickQubits G n g.2.1 name.2).map fun q =>
    let p := pickParams G g.2.2 q.2
    (⟨.factory (gateNamed (g.1.getD name.1 "")) p.1, q.1⟩, p.2)

/-- circuits/_testing.py:67-86: the loop. -/
noncomputable def addGates (G : Gen σ) (n : ℕ) : ℕ → Circuit → σ → Except Err Circuit
  | 0, c, _ => .ok c
  | k + 1, c, st =>
    match pickGate G n st with
    | .error e => .error e
    | .ok (op, st) =>
      match append c (.op op) with
      | .error e => .error e
      | .ok c => addGates G n k c st

/-- circuits/_testing.py:39-87 `create_random_circuit`. -/
noncomputable def createRandomCircuit (G : Gen σ) (n k : ℕ) (st : σ) : Except Err Circuit := addGates G n k ⟨[], 0⟩ st

/-! ## Steps -/

/-- What is in a JSON file written by `save_circuit` or `save_circuitset`: circuits/_serde.py:77-124, 297-304 dispatch on the type of the object, not on the function that is called. -/
inductive File
  | circuit (d : CircuitDict)
  | circuitset (d : String × List CircuitDict)

/-- circuits/_serde.py:287-289 `load_circuit`, by the schema in the file. -/
noncomputable def loadCircuit (C : Codec) : File → Except Err Circuit
  | .circuit d => circuitFromDict C d
  | .circuitset d => if d.1 ≠ circuitSchema then .error .valueError else .error .keyError

/-- circuits/_serde.py:292-294 `load_circuitset`, by the schema in the file. -/
noncomputable def loadCircuitset (C : Codec) : File → Except Err (List Circuit)
  | .circuit d => if d.schema ≠ circuitsetSchema then .error .valueError else .error .keyError
  | .circuitset d => circuitsetFromDict C d

/-- steps/circuit.py:110-114 `concatenate_circuits` on a list of circuits: `sum(circuit_set, Circuit())`. -/
def concatenate (cs : List Circuit) : Except Err Circuit := cs.foldlM (fun acc c => append acc (.circuit c)) ⟨[], 0⟩

/-- steps/circuit.py:114: the file; `save_circuitset` is given a circuit. -/
def concatenateFile (C : Codec) (eq : Expr → Expr → Bool) (cs : List Circuit) : Except Err File := do
  let c ← concatenate cs
  let d ← circuitToDict C eq c
  return .circuit d

/-- An element of a list of circuits: a circuit, or the name of a file. -/
inductive Item
  | circuit (c : Circuit)
  | path (p : String)

/-- The lists that exist, by their addresses. -/
abbrev Store := ℕ → List Item

/-- steps/circuit.py:131-134: a file is loaded. -/
def loadItem (load : String → Except Err Circuit) : Item → Except Err Circuit
  | .circuit c => .ok c
  | .path p => load p

/-- steps/circuit.py:130-136: iteration over the list at `a`, appending to the list at `b`. A Python list iterator looks at the list each time it is asked, so elements appended meanwhile are visited. -/
def batchLoop (load : String → Except Err Circuit) (a b : ℕ) : ℕ → ℕ → Store → Option (Except Err Unit × Store)
  | 0, _, _ => none
  | fuel + 1, i, s =>
    match (s a)[i]? with
    | none => some (.ok (), s)
    | some item =>
      match loadItem load item with
      | .error e => some (.error e, s)
      | .ok c => batchLoop load a b fuel (i + 1) (Function.update s b (s b ++ [.circuit c]))

/-- The circuits in a list; an element that is a text cannot be serialized. -/
def circuitsOf : List Item → Except Err (List Circuit)
  | [] => .ok []
  | .circuit c :: l => (circuitsOf l).map (c :: ·)
  | .path _ :: _ => .error .notImplemented

/-- steps/circuit.py:117-138 `batch_circuits`: the circuits that are saved, and the lists afterwards. `b` is the address of `loaded_circuit_set`: that of the argument, or a new one if the
argument is `None` or a file. -/
def batch (load : String → Except Err Circuit) (a b fuel : ℕ) (s : Store) : Option (Except Err (List Circuit) × Store) :=
  match batchLoop load a b fuel 0 s with
  | none => none
  | some (.error e, s) => some (.error e, s)
  | some (.ok _, s) => some (circuitsOf (s b), s)

/-- What `numpy.random` offers: `uniform a b n` is a list of `n` numbers. -/
structure NpUniform (σ : Type) where
  seed : ℤ → σ
  uniform : ℝ → ℝ → ℕ → σ → List ℝ × σ

/-- steps/circuit.py:22-40 `generate_random_ansatz_params`; `ansatz` is the number of parameters of the ansatz, if one is given. -/
def randomParams (N : NpUniform σ) (ansatz number : Option ℕ) (lo hi : ℝ) (seed : Option ℤ) (st : σ) : Except Err (List ℝ) :=
  if ansatz.isNone = number.isNone then .error .assertionError
  else
    let n := match ansatz with
      | some n => n
      | none => number.getD 0
    let st := match seed with
      | some s => N.seed s
      | none => st
    .ok (N.uniform lo hi n st).1

end ZQ.CircSteps
