import Verif.Model.CircuitSteps
import Verif.Model.Ansatz
import Verif.Model.Generators
import Verif.Model.Layouts
import Verif.Model.Workflow

/-!
# Steps that build circuits: steps/circuit.py:22-102

An ansatz made from specifications (`load_from_specs`, C108) is its class and its state. Circuit files are contents as in `CircuitSteps`; the files of layers are in a file system as in `Files`.
-/

namespace ZQ.BuildSteps

open ZQ ZQ.Circuits ZQ.Serde ZQ.CircSteps ZQ.Ansatz ZQ.Layouts ZQ.Files ZQ.Workflow

variable {V σ : Type}

/-- `save_circuit`: the content of the file. -/
def circuitFile (C : Codec) (eq : Expr → Expr → Bool) (c : Circuit) : Except Err File := (circuitToDict C eq c).map .circuit

/-- steps/circuit.py:32-40 `generate_random_ansatz_params` with the specifications of an ansatz and without a number: the parameters that are saved. -/
def ansatzParamsStep (N : NpUniform σ) (K : Class V) (st : St V) (lo hi : ℝ) (seed : Option ℤ) (rng : σ) : Except Err (List ℝ) :=
  match (numberOfParams K st).1 with
  | .error e => .error e
  | .ok n => randomParams N (some n) none lo hi seed rng

/-- steps/circuit.py:51-70 `build_ansatz_circuit`: the content of circuit.json. Parameters in a file are their values; the plain `Exception` of 65-69 is `runtimeError`. -/
def ansatzStep (C : Codec) (eq : Expr → Expr → Bool) (K : Class V) (st : St V) (params : Option (List ℂ)) : Except Err File :=
  match params with
  | some ps => (getExecutableCircuit K (some ps) st).1 >>= circuitFile C eq
  | none => if K.supports then (parametrizedCircuit K st).1 >>= circuitFile C eq else .error .runtimeError

/-- steps/circuit.py:86-91 `create_random_circuit`: the content of circuit.json. `newRng` is `np.random.default_rng`, with the entropy of the system when there is no seed. -/
noncomputable def randomCircuitStep {τ : Type} (C : Codec) (eq : Expr → Expr → Bool) (newRng : ℤ → τ) (entropy : τ) (G : Gen τ) (n k : ℕ) (seed : Option ℤ) : Except Err File :=
  createRandomCircuit G n k (match seed with | some z => newRng z | none => entropy) >>= circuitFile C eq

/-- steps/circuit.py:96-102 `add_ancilla_register_to_circuit`: the content of extended-circuit.json. -/
noncomputable def ancillaStep (C : Codec) (eq : Expr → Expr → Bool) (k : ℕ) (c : Except Err Circuit) : Except Err File :=
  c >>= fun c => addAncillaRegister c k >>= circuitFile C eq

/-- Pairs of qubits as they are stored. -/
def pairData (e : ℕ × ℕ) : List Results.Data := [Results.Data.num e.1, Results.Data.num e.2]

/-- circuits/layouts.py:150-168 with an optional second dimension: `None - 1` is a `TypeError`. -/
def buildOptional (x : ℕ) (y : Option ℕ) (layerType : String) : Except Err (Option Layout) :=
  match y with
  | some y => build x y layerType
  | none => if layerType = "sycamore" then .error .typeError else build x 0 layerType

/-- steps/circuit.py:74-83 `build_circuit_layers_and_connectivity`: the file system afterwards. `None` cannot be unpacked. -/
noncomputable def layersStep (fs : FS) (x : ℕ) (y : Option ℕ) (layerType : String) : Except FErr FS :=
  match buildOptional x y layerType with
  | .error e => .error (.py e)
  | .ok none => .error (.py .typeError)
  | .ok (some L) =>
    match save fs "circuit-layers.json" (.layers (L.layers.map fun l => l.map pairData)) with
    | .error e => .error e
    | .ok fs => save fs "circuit-connectivity.json" (.connectivity (L.connectivity.map pairData))

end ZQ.BuildSteps
