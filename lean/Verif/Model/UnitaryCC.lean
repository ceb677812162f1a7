import Verif.Model.Fermion
import Verif.Model.Reorder

/-!
# Unitary coupled cluster generators: openfermion/circuits/unitary_cc.py

Amplitudes are complex numbers, floats exact.  Indices, numbers of qubits and of electrons are natural numbers (negative ones are not modelled).
-/

namespace ZQ.UCC

open ZQ ZQ.Op

/-- unitary_cc.py:61-65: one single excitation. -/
noncomputable def addSingle (anti : Bool) (g : Terms Bool) (e : (ℕ × ℕ) × ℂ) : Terms Bool :=
  let g := add g (ofTerm fermion [(e.1.1, true), (e.1.2, false)] e.2)
  if anti then add g (ofTerm fermion [(e.1.2, true), (e.1.1, false)] (-e.2)) else g

/-- unitary_cc.py:68-72: one double excitation `(i, j, k, l)`. -/
noncomputable def addDouble (anti : Bool) (g : Terms Bool) (e : (ℕ × ℕ × ℕ × ℕ) × ℂ) : Terms Bool :=
  let g := add g (ofTerm fermion [(e.1.1, true), (e.1.2.1, false), (e.1.2.2.1, true), (e.1.2.2.2, false)] e.2)
  if anti then add g (ofTerm fermion [(e.1.2.2.2, true), (e.1.2.2.1, false), (e.1.2.1, true), (e.1.1, false)] (-e.2)) else g

/-- unitary_cc.py:24-77 `uccsd_generator` of lists of amplitudes. -/
noncomputable def uccsdGenerator (singles : List ((ℕ × ℕ) × ℂ)) (doubles : List ((ℕ × ℕ × ℕ × ℕ) × ℂ)) (anti : Bool := true) : Terms Bool :=
  doubles.foldl (addDouble anti) (singles.foldl (addSingle anti) [])

/-- The indices of an `n` by `n` array, row by row. -/
def indices2 (n : ℕ) : List (ℕ × ℕ) := (List.range n).flatMap fun i => (List.range n).map fun j => (i, j)

/-- The indices of an `n` by `n` by `n` by `n` array, last index fastest. -/
def indices4 (n : ℕ) : List (ℕ × ℕ × ℕ × ℕ) := (indices2 n).flatMap fun a => (indices2 n).map fun b => (a.1, a.2, b.1, b.2)

open Classical in
/-- unitary_cc.py:80-106 `uccsd_convert_amplitude_format` of arrays with `n` entries along each axis; `nonzero` lists the indices of the nonzero
entries, last index fastest. -/
noncomputable def convertFormat (n : ℕ) (S : ℕ → ℕ → ℂ) (D : ℕ → ℕ → ℕ → ℕ → ℂ) : List ((ℕ × ℕ) × ℂ) × List ((ℕ × ℕ × ℕ × ℕ) × ℂ) :=
  (((indices2 n).filter fun a => S a.1 a.2 ≠ 0).map fun a => (a, S a.1 a.2),
   ((indices4 n).filter fun a => D a.1 a.2.1 a.2.2.1 a.2.2.2 ≠ 0).map fun a => (a, D a.1 a.2.1 a.2.2.1 a.2.2.2))

/-- unitary_cc.py:24-77 `uccsd_generator` of two arrays. -/
noncomputable def uccsdGeneratorArrays (n : ℕ) (S : ℕ → ℕ → ℂ) (D : ℕ → ℕ → ℕ → ℕ → ℂ) (anti : Bool := true) : Terms Bool :=
  uccsdGenerator (convertFormat n S D).1 (convertFormat n S D).2 anti

/-! ### Singlet generators -/

/-- unitary_cc.py:125, 167, 243: `int(numpy.ceil(n_electrons / 2))`. -/
def nOccupied (ne : ℕ) : ℕ := (ne + 1) / 2

/-- unitary_cc.py:109-134 `uccsd_singlet_paramsize`. -/
def paramsize (nq ne : ℕ) : Except Err ℤ :=
  if nq % 2 ≠ 0 then .error .valueError
  else
    let nVirtual : ℤ := (nq / 2 : ℕ) - (nOccupied ne : ℤ)
    let nSingle : ℤ := nOccupied ne * nVirtual
    .ok (nSingle + nSingle * (nSingle + 1) / 2)

/-- `itertools.product(range(n_virtual), range(n_occupied))`; the range of a negative number is empty. -/
def spatialPairs (nq ne : ℕ) : List (ℕ × ℕ) :=
  (List.range (nq / 2 - nOccupied ne)).flatMap fun p => (List.range (nOccupied ne)).map fun q => (p, q)

/-- `itertools.combinations(l, 2)`. -/
def combinations2 {α : Type} : List α → List (α × α)
  | [] => []
  | a :: l => l.map (fun b => (a, b)) ++ combinations2 l

/-- unitary_cc.py:137-213 `uccsd_singlet_get_packed_amplitudes` (arrays large enough). -/
noncomputable def packedAmplitudes (S : ℕ → ℕ → ℂ) (D : ℕ → ℕ → ℕ → ℕ → ℂ) (nq ne : ℕ) : List ℂ :=
  ((spatialPairs nq ne).map fun x => S (upIndex (nOccupied ne + x.1)) (upIndex x.2)) ++
  ((spatialPairs nq ne).map fun x => D (upIndex (nOccupied ne + x.1)) (upIndex x.2) (downIndex (nOccupied ne + x.1)) (downIndex x.2)) ++
  ((combinations2 (spatialPairs nq ne)).map fun x =>
    D (upIndex (nOccupied ne + x.1.1)) (upIndex x.1.2) (upIndex (nOccupied ne + x.2.1)) (upIndex x.2.2))

/-- Python `l[i]` for a natural number `i`. -/
def getItem (l : List ℂ) (i : ℕ) : Except Err ℂ :=
  match l[i]? with
  | some c => .ok c
  | none => .error .indexError

/-- unitary_cc.py:260: `[up_index, down_index]`. -/
def spinIndex (spin : ℕ) : ℕ → ℕ := if spin = 0 then upIndex else downIndex

/-- unitary_cc.py:269-313: one spatial pair `(p, q)` with index `i` and one spin. -/
noncomputable def pairStep (t1 t21 : List ℂ) (nocc : ℕ) (anti : Bool) (i p q : ℕ) (g : Terms Bool) (spin : ℕ) : Except Err (Terms Bool) := do
  let v := spinIndex spin (nocc + p)
  let v' := spinIndex (1 - spin) (nocc + p)
  let o := spinIndex spin q
  let o' := spinIndex (1 - spin) q
  let c ← getItem t1 i
  let g := add g (ofTerm fermion [(v, true), (o, false)] c)
  let g := if anti then add g (ofTerm fermion [(o, true), (v, false)] (-c)) else g
  let c ← getItem t21 i
  let g := add g (ofTerm fermion [(v, true), (o, false), (v', true), (o', false)] c)
  return if anti then add g (ofTerm fermion [(o', true), (v', false), (o, true), (v, false)] (-c)) else g

/-- unitary_cc.py:333-364: two spatial pairs with amplitude `c`, one pair of spins. -/
noncomputable def comboSpin (nocc : ℕ) (anti : Bool) (c : ℂ) (x : (ℕ × ℕ) × (ℕ × ℕ)) (g : Terms Bool) (spins : ℕ × ℕ) : Terms Bool :=
  let v1 := spinIndex spins.1 (nocc + x.1.1)
  let o1 := spinIndex spins.1 x.1.2
  let v2 := spinIndex spins.2 (nocc + x.2.1)
  let o2 := spinIndex spins.2 x.2.2
  if v1 = v2 then g
  else if o1 = o2 then g
  else
    let g := add g (ofTerm fermion [(v1, true), (o1, false), (v2, true), (o2, false)] c)
    if anti then add g (ofTerm fermion [(o2, true), (v2, false), (o1, true), (v1, false)] (-c)) else g

/-- unitary_cc.py:216-366 `uccsd_singlet_generator`.  If there are more occupied orbitals than orbitals, the slices have negative bounds in Python,
but nothing is read from them. -/
noncomputable def singletGenerator (packed : List ℂ) (nq ne : ℕ) (anti : Bool := true) : Except Err (Terms Bool) := do
  if nq % 2 ≠ 0 then .error .valueError
  else
    let nocc := nOccupied ne
    let n := nocc * (nq / 2 - nocc)
    let t1 := packed.take n
    let t21 := (packed.drop n).take n
    let t22 := packed.drop (2 * n)
    let g ← (spatialPairs nq ne).zipIdx.foldlM (fun g x => [0, 1].foldlM (pairStep t1 t21 nocc anti x.2 x.1.1 x.1.2) g) []
    (combinations2 (spatialPairs nq ne)).zipIdx.foldlM (fun g x => do
      let c ← getItem t22 x.2
      return [(0, 0), (0, 1), (1, 0), (1, 1)].foldl (comboSpin nocc anti c x.1) g) g

end ZQ.UCC
