import Verif.Model.Circuit
import Verif.Model.Measurement
import Verif.Model.Wavefunction
import Verif.Model.Serde
import Mathlib.Algebra.Order.Floor.Semiring

/-!
# Backends: interfaces/backend.py, symbolic_simulator.py, trackers.py

What a device, library or wrapped backend does is a parameter acting on a state `W` of the rest of the world.
-/

namespace ZQ.Backend

open ZQ ZQ.Circuits

variable {W M : Type}

/-- The counters of a backend (interfaces/backend.py:43-45) and the rest of the world. -/
structure St (W : Type) where
  circuits : ℕ
  jobs : ℕ
  world : W

/-- interfaces/backend.py:43-49 `QuantumBackend.__init__`: `batch_size` is `None` or an integer. -/
def init (supportsBatching : Bool) (batchSize : Option ℤ) (w : W) : Except Err (St W) :=
  if supportsBatching then
    match batchSize with
    | none => .error .assertionError
    | some b => if b > 0 then .ok ⟨0, 0, w⟩ else .error .assertionError
  else .ok ⟨0, 0, w⟩

/-- What a concrete backend executes: one circuit, or a batch. -/
structure Device (W M : Type) where
  exec : W → Circuit → ℤ → Except Err M × W
  execBatch : W → List Circuit → List ℤ → Except Err (List M) × W

/-- interfaces/backend.py:51-68 `QuantumBackend.run_circuit_and_measure`. -/
def baseRun (n : ℤ) (st : St W) : Except Err Unit × St W :=
  if n < 1 then (.error .valueError, st) else (.ok (), { st with circuits := st.circuits + 1, jobs := st.jobs + 1 })

/-- A concrete backend's `run_circuit_and_measure`: it calls the base class method and then executes (as interfaces/mock_objects.py:39-44). -/
def run (dev : Device W M) (c : Circuit) (n : ℤ) (st : St W) : Except Err M × St W :=
  match baseRun n st with
  | (.error e, st) => (.error e, st)
  | (.ok _, st) => let r := dev.exec st.world c n; (r.1, { st with world := r.2 })

/-- interfaces/backend.py:87-97: the loop over `zip(circuits, n_samples)`. -/
def runLoop (dev : Device W M) : List (Circuit × ℤ) → St W → Except Err (List M) × St W
  | [], st => (.ok [], st)
  | (c, n) :: rest, st =>
    match run dev c n st with
    | (.error e, st) => (.error e, st)
    | (.ok m, st) =>
      match runLoop dev rest st with
      | (.error e, st) => (.error e, st)
      | (.ok ms, st) => (.ok (m :: ms), st)

/-- interfaces/backend.py:70-107 `run_circuitset_and_measure`; a batching backend (`batch = some b`, `b > 0` by `init`) calls the base class method, which
counts, and then executes. `int(np.ceil(len(circuits) / batch_size))` is the integer quotient rounded up. -/
def runSet (dev : Device W M) (batch : Option ℕ) (cs : List Circuit) (ns : List ℤ) (st : St W) : Except Err (List M) × St W :=
  match batch with
  | none => runLoop dev (cs.zip ns) st
  | some b =>
    let st := { st with circuits := st.circuits + cs.length, jobs := st.jobs + ⌈(cs.length : ℚ) / b⌉₊ }
    let r := dev.execBatch st.world cs ns
    (r.1, { st with world := r.2 })

/-- Uses of a backend; interfaces/backend.py:109-147: both distribution methods run the circuit once and post-process the measurements. -/
inductive Use
  | run (c : Circuit) (n : ℤ)
  | runSet (cs : List Circuit) (ns : List ℤ)
  | distribution (c : Circuit) (n : ℤ)

/-- The state after a use; exceptions are caught by the user. -/
def step (dev : Device W M) (batch : Option ℕ) (st : St W) : Use → St W
  | .run c n => (run dev c n st).2
  | .runSet cs ns => (runSet dev batch cs ns st).2
  | .distribution c n => (run dev c n st).2

/-! ## Simulators -/

/-- What a simulator wraps: which operations are native, and the wavefunction of a native circuit. -/
structure Simulator (W : Type) where
  isNative : GateOp → Bool
  native : W → Circuit → Vec ℂ → Except Err (Vec ℂ) × W

/-- interfaces/backend.py:225-240: the loop over the pieces of the circuit. -/
noncomputable def wavefunctionLoop (sim : Simulator W) (ρ : String → ℂ) : List (Bool × Circuit) → Vec ℂ → St W → Except Err (Vec ℂ) × St W
  | [], v, st => (.ok v, st)
  | (true, sub) :: rest, v, st =>
    match sim.native st.world sub v with
    | (.error e, w) => (.error e, ⟨st.circuits + 1, st.jobs + 1, w⟩)
    | (.ok v', w) => wavefunctionLoop sim ρ rest v' ⟨st.circuits + 1, st.jobs + 1, w⟩
  | (false, sub) :: rest, v, st =>
    match applyAll ρ sub.ops v with
    | .error e => (.error e, st)
    | .ok v' => wavefunctionLoop sim ρ rest v' st

/-- interfaces/backend.py:218-221: `np.zeros(2**n)` with `state[0] = 1`. -/
def zeroVec (n : ℕ) : Vec ℂ := ⟨2 ^ n, fun i => if i = 0 then 1 else 0⟩

/-- The entries of a vector as a list. -/
def Vec.toList {K : Type} (v : Vec K) : List K := (List.range v.dim).map v.e

/-- interfaces/backend.py:206-242 `QuantumSimulator.get_wavefunction`, for amplitudes that are numbers (symbols evaluated by `ρ`); the `Wavefunction`
constructor checks length and normalisation. -/
noncomputable def getWavefunction (sim : Simulator W) (ρ : String → ℂ) (c : Circuit) (initial : Option (Vec ℂ)) (st : St W) :
    Except Err (Wavefunction.Wf Empty) × St W :=
  match splitCircuit c sim.isNative with
  | .error e => (.error e, st)
  | .ok pieces =>
    match wavefunctionLoop sim ρ pieces (initial.getD (zeroVec c.n)) st with
    | (.error e, st) => (.error e, st)
    | (.ok v, st) =>
      match Wavefunction.mk? ((Vec.toList v).map .num) with
      | .error _ => (.error .valueError, st)
      | .ok w => (.ok w, st)

/-- symbolic_simulator.py:52-64 `SymbolicSimulator`: every operation is native and is applied one by one. -/
noncomputable def symbolic (ρ : String → ℂ) : Simulator W := ⟨fun _ => true, fun w c v => (applyAll ρ c.ops v, w)⟩

/-- numpy's `rng.choice(a, size=n, p=probabilities)`: the chosen positions. External: a parameter. -/
abbrev Chooser := List ℝ → ℕ → List ℕ

/-- measurement.py:182-206 `sample_from_wavefunction`. `choose` yields positions in the outcome list. -/
noncomputable def sampleFromWavefunction (choose : Chooser) (w : Wavefunction.Wf Empty) (n : ℤ) : Except Err (List (List ℕ)) :=
  if n < 1 then .error .valueError
  else
    match Wavefunction.getOutcomeProbs w with
    | none => .error .typeError
    | some outcomes =>
      let chosen := choose (outcomes.map Prod.snd) n.toNat
      .ok (chosen.map fun i => ((outcomes.map Prod.fst).getD i []).reverse)

/-- symbolic_simulator.py:29-50 `SymbolicSimulator.run_circuit_and_measure`. Whether the wavefunction has free symbols is the parameter `hasSymbols`
(amplitudes are numbers in this model). -/
noncomputable def symbolicRun (choose : Chooser) (hasSymbols : Circuit → Bool) (ρ : String → ℂ) (c : Circuit) (n : ℤ) (symbolMap : Option Expr.SymMap)
    (st : St W) : Except Err (List (List ℕ)) × St W :=
  let bound := match symbolMap with
    | none => Except.ok c
    | some m => c.bind m
  match bound with
  | .error e => (.error e, st)
  | .ok c =>
    match getWavefunction (symbolic ρ) ρ c none st with
    | (.error e, st) => (.error e, st)
    | (.ok w, st) =>
      if hasSymbols c then (.error .valueError, st)
      else (sampleFromWavefunction choose w n, st)

/-! ## Measurement tracking -/

/-- trackers.py:83-97, 117-126, 147-156: one element of `raw_data`. -/
inductive Record
  | measurement (device : String) (circuit : Serde.CircuitDict) (counts : PyDict (List Char) ℕ) (gates shots : ℕ) (bitstrings : Option (List (List ℕ)))
  | distribution (dataType device : String) (circuit : Serde.CircuitDict) (distribution : String) (gates : ℕ) (shots : ℤ)

/-- The wrapped backend. Distributions are their `repr`. -/
structure Inner (W : Type) where
  name : String
  run : W → Circuit → ℤ → Except Err (List (List ℕ)) × W
  runSet : W → List Circuit → List ℤ → Except Err (List (List (List ℕ))) × W
  bitstringDistribution : W → Circuit → ℤ → Except Err String × W
  outcomeDistribution : W → Circuit → ℤ → Except Err String × W

/-- Constant arguments of a tracker: the wrapped backend, `record_bitstrings`, and `to_dict` of circuits. -/
structure Config (W : Type) where
  inner : Inner W
  recordBitstrings : Bool
  toDict : Circuit → Except Err Serde.CircuitDict

/-- The state of a tracker: `raw_data`, the content of its file, its own counters, the rest of the world. -/
structure Tracker (W : Type) where
  rawData : List Record
  file : Option (List Record)
  circuits : ℕ
  jobs : ℕ
  world : W

/-- trackers.py:22-43 `__init__`. -/
def Tracker.init (file : Option (List Record)) (w : W) : Tracker W := ⟨[], file, 0, 0, w⟩

/-- trackers.py:75-97 `record_raw_measurement_data`. -/
def record (cfg : Config W) (c : Circuit) (m : List (List ℕ)) (st : Tracker W) : Except Err (Tracker W) := do
  let d ← cfg.toDict c
  return { st with rawData := st.rawData ++ [.measurement cfg.inner.name d (Meas.getCounts m) c.ops.length m.length
    (if cfg.recordBitstrings then some m else none)] }

/-- trackers.py:160-167 `save_raw_data`: the file is opened with mode "w+", which truncates it; `raw_data` is emptied. -/
def save (st : Tracker W) : Tracker W := { st with file := some st.rawData, rawData := [] }

/-- trackers.py:45-56 `run_circuit_and_measure`. -/
def trackRun (cfg : Config W) (c : Circuit) (n : ℤ) (st : Tracker W) : Except Err (List (List ℕ)) × Tracker W :=
  match cfg.inner.run st.world c n with
  | (.error e, w) => (.error e, { st with world := w })
  | (.ok m, w) =>
    match record cfg c m { st with world := w } with
    | .error e => (.error e, { st with world := w })
    | .ok st => (.ok m, save st)

/-- trackers.py:70-71: the loop over `zip(circuits, measurements)`. -/
def recordAll (cfg : Config W) : List (Circuit × List (List ℕ)) → Tracker W → Option Err × Tracker W
  | [], st => (none, st)
  | (c, m) :: rest, st =>
    match record cfg c m st with
    | .error e => (some e, st)
    | .ok st => recordAll cfg rest st

/-- trackers.py:58-73 `run_circuitset_and_measure`. -/
def trackRunSet (cfg : Config W) (cs : List Circuit) (ns : List ℤ) (st : Tracker W) : Except Err (List (List (List ℕ))) × Tracker W :=
  match cfg.inner.runSet st.world cs ns with
  | (.error e, w) => (.error e, { st with world := w })
  | (.ok ms, w) =>
    match recordAll cfg (cs.zip ms) { st with world := w } with
    | (some e, st) => (.error e, st)
    | (none, st) => (.ok ms, save st)

/-- trackers.py:99-128 `get_bitstring_distribution` and 130-158 `get_measurement_outcome_distribution`, which differ in the inner method and the data type. -/
def trackDistribution (dataType : String) (inner : W → Circuit → ℤ → Except Err String × W) (cfg : Config W) (c : Circuit) (n : ℤ) (st : Tracker W) :
    Except Err String × Tracker W :=
  match inner st.world c n with
  | (.error e, w) => (.error e, { st with world := w })
  | (.ok d, w) =>
    match cfg.toDict c with
    | .error e => (.error e, { st with world := w })
    | .ok cd => (.ok d, save { st with rawData := st.rawData ++ [.distribution dataType cfg.inner.name cd d c.ops.length n], world := w })

/-- Uses of a tracker. -/
inductive TrackerUse
  | run (c : Circuit) (n : ℤ)
  | runSet (cs : List Circuit) (ns : List ℤ)
  | bitstringDistribution (c : Circuit) (n : ℤ)
  | outcomeDistribution (c : Circuit) (n : ℤ)

/-- The state after a use, and whether it returned normally. -/
def trackerStep (cfg : Config W) (st : Tracker W) : TrackerUse → Bool × Tracker W
  | .run c n => let r := trackRun cfg c n st; (r.1.toBool, r.2)
  | .runSet cs ns => let r := trackRunSet cfg cs ns st; (r.1.toBool, r.2)
  | .bitstringDistribution c n =>
    let r := trackDistribution "bitstring distribution" cfg.inner.bitstringDistribution cfg c n st; (r.1.toBool, r.2)
  | .outcomeDistribution c n =>
    let r := trackDistribution "measurement outcome distribution" cfg.inner.outcomeDistribution cfg c n st; (r.1.toBool, r.2)

end ZQ.Backend
