import Verif.Model.PolyTensor

/-!
# Molecular Hamiltonians

Model of `spinorb_from_spatial`, `antisymtei`, `j_mat`, `k_mat` and `MolecularData.get_active_space_integrals`, `get_molecular_hamiltonian`
(`openfermion/chem/molecular_data.py`), `get_tensors_from_integrals` and `get_active_space_integrals`
(`openfermion/ops/representations/interaction_operator.py`) and `make_reduced_hamiltonian` (`openfermion/chem/reduced_hamiltonian.py`).

Integrals over `m` spatial orbitals are real arrays, modelled as functions of index lists of which only those with entries below `m` are meaningful.
Simplifications: numbers are exact; indices are natural numbers (a negative index, which numpy counts from the end, is not modelled).
-/

namespace ZQ.Mol

open ZQ ZQ.Op ZQ.PolyT

/-- A real array. -/
abbrev RTensor := List ℕ → ℝ

/-- `array[index] = value`. -/
def put (t : RTensor) (i : List ℕ) (x : ℝ) : RTensor := fun j => if j = i then x else t j

/-- molecular_data.py:380-383: the assignments of one pair of orbitals; also interaction_operator.py:188-190. -/
def spinOneStep (h : RTensor) (t : RTensor) : List ℕ → RTensor
  | [p, q] => put (put t [2 * p, 2 * q] (h [p, q])) [2 * p + 1, 2 * q + 1] (h [p, q])
  | _ => t

/-- molecular_data.py:388-402: the assignments of four orbitals; with `scale = 1 / 2` interaction_operator.py:196-209. -/
noncomputable def spinTwoStep (scale : ℝ) (g : RTensor) (t : RTensor) : List ℕ → RTensor
  | [p, q, r, s] =>
    put (put (put (put t [2 * p, 2 * q + 1, 2 * r + 1, 2 * s] (scale * g [p, q, r, s])) [2 * p + 1, 2 * q, 2 * r, 2 * s + 1] (scale * g [p, q, r, s]))
      [2 * p, 2 * q, 2 * r, 2 * s] (scale * g [p, q, r, s])) [2 * p + 1, 2 * q + 1, 2 * r + 1, 2 * s + 1] (scale * g [p, q, r, s])
  | _ => t

/-- `array[numpy.absolute(array) < EQ_TOLERANCE] = 0.0` (molecular_data.py:405-406, interaction_operator.py:212-213). -/
noncomputable def truncate (t : RTensor) : RTensor := fun i => if |t i| < eqTol then 0 else t i

/-- molecular_data.py:371-408 `spinorb_from_spatial`.  The two arrays are filled in one nest of loops; they do not depend on each other. -/
noncomputable def spinorbFromSpatial (m : ℕ) (h g : RTensor) : RTensor × RTensor :=
  (truncate ((allIndices m 2).foldl (spinOneStep h) fun _ => 0), truncate ((allIndices m 4).foldl (spinTwoStep 1 g) fun _ => 0))

/-- interaction_operator.py:169-215 `get_tensors_from_integrals`. -/
noncomputable def getTensorsFromIntegrals (m : ℕ) (h g : RTensor) : RTensor × RTensor :=
  (truncate ((allIndices m 2).foldl (spinOneStep h) fun _ => 0), truncate ((allIndices m 4).foldl (spinTwoStep (1 / 2) g) fun _ => 0))

/-- interaction_operator.py:252-258: the energy of the core. -/
noncomputable def coreConstant (h g : RTensor) (occupied : List ℕ) : ℝ :=
  occupied.foldl (fun c i => occupied.foldl (fun c j => c + (2 * g [i, j, j, i] - g [i, j, i, j])) (c + 2 * h [i, i])) 0

/-- interaction_operator.py:261-267: the modified one-electron integrals. -/
def modifiedOne (h g : RTensor) (occupied active : List ℕ) : RTensor :=
  active.foldl (fun t u => active.foldl (fun t v => occupied.foldl (fun t i => put t [u, v] (t [u, v] + (2 * g [i, u, v, i] - g [i, u, i, v]))) t) t) h

/-- interaction_operator.py:218-278 `get_active_space_integrals`; `active_indices = None` raises a `TypeError`.  The result holds the core constant and
the arrays over the active orbitals, in the order given. -/
noncomputable def getActiveSpaceIntegrals (m : ℕ) (h g : RTensor) (occupied active : Option (List ℕ)) : Except Err (ℝ × RTensor × RTensor) :=
  match active with
  | none => .error .typeError
  | some act =>
    let occ := occupied.getD []
    if act.length < 1 then .error .valueError
    else if occ.any (fun i => decide (m ≤ i)) || act.any (fun i => decide (m ≤ i)) then .error .indexError
    else .ok (coreConstant h g occ, fun i => modifiedOne h g occ act (i.map fun a => act.getD a 0), fun i => g (i.map fun a => act.getD a 0))

/-- molecular_data.py:1020-1038 `get_integrals`, 1040-1079 `get_active_space_integrals` and 1081-1121 `get_molecular_hamiltonian`, for a molecule with nuclear
repulsion `c` whose integrals are `ints`; `MissingCalculationError` is `runtimeError`. -/
noncomputable def getMolecularHamiltonian (m : ℕ) (c : ℝ) (ints : Option (RTensor × RTensor)) (occupied active : Option (List ℕ)) : Except Err PolyTensor :=
  let build (k : ℕ) (c : ℝ) (h g : RTensor) : PolyTensor :=
    interaction (2 * k) c (fun i => ((spinorbFromSpatial k h g).1 i : ℂ)) (fun i => ((1 / 2 * (spinorbFromSpatial k h g).2 i : ℝ) : ℂ))
  match occupied, active with
  | none, none => match ints with
    | none => .error .runtimeError
    | some (h, g) => .ok (build m c h g)
  | _, none => .error .typeError
  | _, some act =>
    if act.length < 1 then .error .valueError
    else match ints with
      | none => .error .runtimeError
      | some (h, g) => do
        let r ← getActiveSpaceIntegrals m h g occupied (some act)
        .ok (build act.length (c + r.1) r.2.1 r.2.2)

/-- molecular_data.py:328-340 `antisymtei`. -/
def antisymtei (g : RTensor) : RTensor
  | [a, b, c, d] => g [a, b, d, c] - g [a, b, c, d]
  | _ => 0

/-- `two_body_integrals.transpose(0, 3, 1, 2)` (molecular_data.py:353, 367). -/
def chemOrdering (g : RTensor) : RTensor
  | [a, b, c, d] => g [a, c, d, b]
  | _ => 0

/-- molecular_data.py:343-354 `j_mat`. -/
def jMat (g : RTensor) : RTensor
  | [i, j] => chemOrdering g [i, i, j, j]
  | _ => 0

/-- molecular_data.py:357-368 `k_mat`. -/
def kMat (g : RTensor) : RTensor
  | [i, j] => chemOrdering g [i, j, j, i]
  | _ => 0

/-- reduced_hamiltonian.py:57-67, one entry. -/
noncomputable def reducedEntry (norm : ℂ) (h1 h2 : Tensor) : Tensor
  | [i, j, k, l] =>
    let delta (a b : ℕ) : ℂ := if a = b then 1 else 0
    norm * (h1 [i, l] * delta j k + h1 [j, k] * delta i l - h1 [i, k] * delta j l - h1 [j, l] * delta i k) + h2 [i, j, k, l]
  | _ => 0

/-- reduced_hamiltonian.py:22-70 `make_reduced_hamiltonian`.  Simplification: the two arrays have the same type of entries (numpy would otherwise convert
the result to the type of the two-body array). -/
noncomputable def makeReduced (n : ℕ) (c : ℂ) (h1 h2 : Tensor) (electrons : ℤ) : Except Err PolyTensor :=
  if 4 * (electrons - 1) = 0 then .error .zeroDivision
  else .ok (interaction n c (fun _ => 0) (reducedEntry (1 / (4 * ((electrons : ℂ) - 1))) h1 h2))

end ZQ.Mol
