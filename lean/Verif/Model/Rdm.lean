import Verif.Model.PolyTensor
import Verif.Model.FermionTools
import Verif.Model.Fermion
import Verif.Model.Grouping

/-!
# Model: reduced density matrices

`openfermion/ops/representations/interaction_rdm.py`, `openfermion/measurements/get_interaction_rdm.py`, `hf_rdm` in
`openfermion/zapata_utils/_utils.py` and the two functions that use reduced density matrices in `zquantum/core/hamiltonian.py`.
-/

namespace ZQ.Rdm

open ZQ ZQ.Op ZQ.PolyT ZQ.FTools

/-- interaction_rdm.py:39-49 `InteractionRDM`. -/
def make (n : ℕ) (one two : Tensor) : PolyTensor := ⟨n, [([true, false], one), ([true, true, false, false], two)]⟩

/-- interaction_rdm.py:130-151, one turn of the inner loop. -/
noncomputable def fermionStep (R : PolyTensor) (e : ℂ) (kv : Term Bool × ℂ) : Except Err ℂ :=
  if isTwoBodyNumberConserving (ofTerm fermion kv.1 1) false then
    if kv.1 = [] then .ok (e + kv.2)
    else if kv.1.length = 2 then do .ok (e + (← getItem R ((kv.1.map Prod.fst).zip [true, false])) * kv.2)
    else do .ok (e + (← getItem R ((kv.1.map Prod.fst).zip [true, true, false, false])) * kv.2)
  else if 4 < kv.1.length then .error .runtimeError
  else .ok e

/-- interaction_rdm.py:120-152, one Pauli string; `InteractionRDMError` is `runtimeError`. -/
noncomputable def termExpectation (R : PolyTensor) (t : Term Letter) : Except Err ℂ := do
  let f ← reverseJordanWigner (ofTerm qubit t 1) none
  (normalOrdered f).foldlM (fermionStep R) 0

/-- interaction_rdm.py:98-153 `get_qubit_expectations`. -/
noncomputable def qubitExpectations (R : PolyTensor) (o : Terms Letter) : Except Err (Terms Letter) :=
  o.mapM fun kv => do .ok (kv.1, ← termExpectation R kv.1)

/-- interaction_rdm.py:84-90 `expectation` of a qubit operator. -/
noncomputable def expectationQubit (R : PolyTensor) (o : Terms Letter) : Except Err ℂ := do
  let E ← qubitExpectations R o
  o.foldlM (fun e kv => match PyDict.get? E kv.1 with
    | some v => .ok (e + kv.2 * v)
    | none => .error .keyError) 0

/-- Numpy broadcasting of an index to an array of dimension `k`. -/
def broadcast (k : ℕ) (idx : List ℕ) : List ℕ := if k = 1 then idx.map fun _ => 0 else idx

/-- interaction_rdm.py:91-94 `expectation` of an interaction operator with dimension `n`; numpy multiplies arrays of different dimensions only if one
dimension is one. -/
noncomputable def expectationInteraction (m : ℕ) (D1 D2 : Tensor) (n : ℕ) (c : ℂ) (one two : Tensor) : Except Err ℂ :=
  if m ≠ n ∧ m ≠ 1 ∧ n ≠ 1 then .error .valueError
  else
    let k := if m = 1 then n else m
    .ok (c + ((allIndices k 2).map fun i => D1 (broadcast m i) * one (broadcast n i)).sum + ((allIndices k 4).map fun i => D2 (broadcast m i) * two (broadcast n i)).sum)

/-- get_interaction_rdm.py:43-47 and 50-57: one entry. -/
noncomputable def rdmEntry (qo : Terms Letter) (t : Term Bool) : ℂ :=
  (jordanWigner (ofTerm fermion t 1)).foldl (fun x kv => match PyDict.get? qo kv.1 with
    | some v => x + kv.2 * v
    | none => x) 0

/-- get_interaction_rdm.py:27-59 `get_interaction_rdm` (coefficients are numbers). -/
noncomputable def getInteractionRdm (qo : Terms Letter) (nQubits : Option ℕ) : PolyTensor :=
  make (nQubits.getD (countQubit qo)) (fun i => rdmEntry qo (i.zip [true, false])) (fun i => rdmEntry qo (i.zip [true, true, false, false]))

/-- zapata_utils/_utils.py:668-670: `occ[: 2 * n_alpha : 2] = 1`, then `occ[1 : 2 * n_beta + 1 : 2] = 1`, on zeros of length `2 * n_orbitals`. -/
def occ (nAlpha nBeta : ℕ) (i : ℕ) : Bool :=
  if 1 ≤ i ∧ i < 2 * nBeta + 1 ∧ (i - 1) % 2 = 0 then true else if i < 2 * nAlpha ∧ i % 2 = 0 then true else false

/-- zapata_utils/_utils.py:675-679, one turn of the loop. -/
def hfStep (nAlpha nBeta : ℕ) (two : Tensor) (x : List ℕ) : Tensor :=
  match x with
  | [i, j] => if i ≠ j ∧ occ nAlpha nBeta i ∧ occ nAlpha nBeta j then assign (assign two [i, j, j, i] 1) [i, j, i, j] (-1) else two
  | _ => two

/-- zapata_utils/_utils.py:656-681 `hf_rdm`. -/
def hfRdm (nAlpha nBeta nOrbitals : ℕ) : PolyTensor :=
  make (2 * nOrbitals) (fun x => match x with
      | [i, j] => if i = j ∧ occ nAlpha nBeta i then 1 else 0
      | _ => 0)
    ((allIndices (2 * nOrbitals) 2).foldl (hfStep nAlpha nBeta) fun _ => 0)

/-- `np.clip(x, -1, 1)`. -/
noncomputable def clip (x : ℝ) : ℝ := min (max x (-1)) 1

open Classical in
/-- hamiltonian.py:222-259 `get_expectation_values_from_rdms`: the values, in the order of the terms.  `RuntimeWarning` is raised as an exception
(`runtimeError`). -/
noncomputable def expectationValues (R : PolyTensor) (o : Terms Letter) (sortTerms : Bool) : Except Err (List ℝ) := do
  let o' := (greedyOrder o sortTerms).foldl (fun acc kv => add acc (ofTerm qubit kv.1 kv.2)) []
  let E ← qubitExpectations R o'
  if (E.map Prod.snd).any (fun z => decide (1 / 10 ^ 3 < |z.im|)) then .error .runtimeError
  else .ok (E.map fun kv => clip kv.2.re)

/-- hamiltonian.py:191-219 `get_expectation_values_from_rdms_for_qubitoperator_list`. -/
noncomputable def expectationValuesList (R : PolyTensor) (os : List (Terms Letter)) (sortTerms : Bool) : Except Err (List ℝ) :=
  os.foldlM (fun acc o => do .ok (acc ++ (← expectationValues R o sortTerms))) []

end ZQ.Rdm
