import Verif.Model.PauliDecomp
import Verif.Model.Wavefunction

/-!
# Random operators and wavefunctions

Model of `testing/_initialize.py` and of `generate_random_qubitop` in `openfermion/zapata_utils/_utils.py`.  The module `random` and `numpy.random` are external: their numbers are
parameters.  Loops without a bound have a budget; `none` means that the budget was used up.
-/

namespace ZQ.RandomOps

open ZQ ZQ.Op

/-- What the module `random` offers; `σ` is the state of the global generator. `below n` is the position `random.choice` takes in a sequence of length `n > 0`,
`sample n k` is `random.sample(range(n), k)`. -/
structure Rand (σ : Type) where
  seed : ℤ → σ
  below : ℕ → σ → ℕ × σ
  uniform : ℝ → ℝ → σ → ℝ × σ
  sample : ℕ → ℕ → σ → List ℕ × σ

variable {σ : Type}

/-- _initialize.py:33-34, 93-94. -/
def start (R : Rand σ) (seed : Option ℤ) (st : σ) : σ :=
  match seed with
  | some s => R.seed s
  | none => st

/-- _initialize.py:53-57, 112-116: draw until the qubit is not used. -/
def fresh (R : Rand σ) (n : ℕ) (used : List ℕ) : ℕ → σ → Option (ℕ × σ)
  | 0, _ => none
  | fuel + 1, st => if (R.below n st).1 ∈ used then fresh R n used fuel (R.below n st).2 else some (R.below n st)

/-- _initialize.py:60 `random.choice(["X", "Y", "Z"])`. -/
def pauli (R : Rand σ) (st : σ) : Letter × σ :=
  (if (R.below 3 st).1 = 0 then .X else if (R.below 3 st).1 = 1 then .Y else .Z, (R.below 3 st).2)

/-- _initialize.py:51-62, 110-121: the factors of one term; `qubits` are the indices of the factors. The text `full_term` is kept as the list of its factors. -/
def factors (R : Rand σ) (letter : σ → Letter × σ) (n fuel : ℕ) : ℕ → Term Letter → σ → Option (Term Letter × σ)
  | 0, acc, st => some (acc, st)
  | k + 1, acc, st =>
    match fresh R n (acc.map Prod.fst) fuel st with
    | none => none
    | some (q, st) => factors R letter n fuel k (acc ++ [(q, (letter st).1)]) (letter st).2

/-- _initialize.py:40-64, 100-123: the loop over the terms. -/
noncomputable def terms (R : Rand σ) (S : OpClass Letter) (letter : σ → Letter × σ) (n fuel : ℕ) : ℕ → Terms Letter → σ → Option (Terms Letter × σ)
  | 0, o, st => some (o, st)
  | k + 1, o, st =>
    match factors R letter n fuel (R.below (n + 1) st).1 [] (R.below (n + 1) st).2 with
    | none => none
    | some (t, st) => terms R S letter n fuel k (add o (ofTerm S t 1)) st

/-- _initialize.py:11-66 `create_random_qubitop`. -/
noncomputable def createRandomQubitop (R : Rand σ) (n k : ℕ) (seed : Option ℤ) (fuel : ℕ) (st : σ) : Option (Terms Letter × σ) :=
  terms R qubit (pauli R) n fuel k [] (start R seed st)

/-- _initialize.py:69-125 `create_random_isingop`: every letter is `Z`. -/
noncomputable def createRandomIsingop (R : Rand σ) (n k : ℕ) (seed : Option ℤ) (fuel : ℕ) (st : σ) : Option (Terms Letter × σ) :=
  terms R ising (fun st => (.Z, st)) n fuel k [] (start R seed st)

/-- What `numpy.random` offers: `rand n` is a list of `n` numbers. -/
structure NpRand (σ : Type) where
  seed : ℤ → σ
  rand : ℕ → σ → List ℝ × σ

/-- _initialize.py:128-139 `create_random_wavefunction`. A zero vector divided by zero is `nan` in numpy and zero here; both are refused by the constructor. -/
noncomputable def createRandomWavefunction (N : NpRand σ) (n : ℕ) (seed : Option ℤ) (st : σ) : Except Wavefunction.Err (Wavefunction.Wf Unit) :=
  let st := match seed with
    | some s => if s ≠ 0 then N.seed s else st
    | none => st
  let a := N.rand (2 ^ n) st
  let b := N.rand (2 ^ n) a.2
  let v : List ℂ := (a.1.zip b.1).map fun p => ⟨p.1, p.2⟩
  let f := Real.sqrt ((v.map fun z => ‖z‖ ^ 2).sum)
  Wavefunction.mk? (v.map fun z => .num (z / f))

/-- _utils.py:181-186: the coefficients. -/
def coefficients (R : Rand σ) (maxCoeff : ℝ) (fixed : Bool) : ℕ → σ → List ℝ × σ
  | 0, st => ([], st)
  | k + 1, st =>
    if fixed then (maxCoeff :: (coefficients R maxCoeff fixed k st).1, (coefficients R maxCoeff fixed k st).2)
    else
      let x := R.uniform (-maxCoeff) maxCoeff st
      (x.1 :: (coefficients R maxCoeff fixed k x.2).1, (coefficients R maxCoeff fixed k x.2).2)

/-- _utils.py:195-197: `random.randint(1, 3)` at each chosen index. -/
def labelOf (R : Rand σ) : List ℕ → List ℕ → σ → List ℕ × σ
  | [], label, st => (label, st)
  | i :: inds, label, st => labelOf R inds (label.set i (1 + (R.below 3 st).1)) (R.below 3 st).2

/-- _utils.py:193-201: the loop that draws labels until `missing` more are found; labels are compared instead of their texts. -/
def labels (R : Rand σ) (n locality : ℕ) : ℕ → ℕ → List (List ℕ) → σ → Option (List (List ℕ) × σ)
  | _, 0, found, st => some (found, st)
  | 0, _ + 1, _, _ => none
  | fuel + 1, missing + 1, found, st =>
    let s := R.sample n locality st
    let l := labelOf R (s.1.insertionSort (· ≤ ·)) (List.replicate n 0) s.2
    if l.1 ∈ found then labels R n locality fuel (missing + 1) found l.2
    else labels R n locality fuel missing (found ++ [l.1]) l.2

/-- _utils.py:160-202 `generate_random_qubitop`. `random.sample` raises `ValueError` if more elements are asked for than there are. -/
noncomputable def generateRandomQubitop (R : Rand σ) (n k locality : ℕ) (maxCoeff : ℝ) (fixed : Bool) (fuel : ℕ) (st : σ) : Option (Except Err (Terms Letter)) :=
  let c := coefficients R maxCoeff fixed k st
  if 0 < k ∧ n < locality then some (.error .valueError)
  else match labels R n locality fuel k [] c.2 with
    | none => none
    | some (ls, _) => some (PauliDecomp.fromCoeffsAndLabels (c.1.map fun x : ℝ => (x : ℂ)) ls)

end ZQ.RandomOps
