import Verif.Model.Expr
import Verif.Model.Matrices
import Mathlib.Analysis.SpecialFunctions.Complex.Circle
import Mathlib.Analysis.SpecialFunctions.Sqrt

/-!
# Gates

Model of `circuits/_matrices.py`, `circuits/_builtin_gates.py` and `circuits/_gates.py`.  Numbers are exact complex numbers (floating point
rounding is not modelled).
-/

namespace ZQ.Gates

open Complex

/-! ## circuits/_matrices.py -/

noncomputable section

/-- circuits/_matrices.py:11-12 -/
def xMatrix : Mat ℂ := Mat.ofRows [[0, 1], [1, 0]]
/-- circuits/_matrices.py:15-16 -/
def yMatrix : Mat ℂ := Mat.ofRows [[0, -I], [I, 0]]
/-- circuits/_matrices.py:19-20 -/
def zMatrix : Mat ℂ := Mat.ofRows [[1, 0], [0, -1]]
/-- circuits/_matrices.py:23-29 -/
def hMatrix : Mat ℂ :=
  Mat.ofRows [[1 / (√2 : ℝ), 1 / (√2 : ℝ)], [1 / (√2 : ℝ), -1 / (√2 : ℝ)]]
/-- circuits/_matrices.py:32-33 -/
def iMatrix : Mat ℂ := Mat.ofRows [[1, 0], [0, 1]]
/-- circuits/_matrices.py:36-42 -/
def sMatrix : Mat ℂ := Mat.ofRows [[1, 0], [0, I]]
/-- circuits/_matrices.py:45-51 -/
def tMatrix : Mat ℂ := Mat.ofRows [[1, 0], [0, exp (I * (Real.pi : ℂ) / 4)]]
/-- circuits/_matrices.py:57-63 -/
def rxMatrix (a : ℂ) : Mat ℂ := Mat.ofRows [[cos (a / 2), -I * sin (a / 2)], [-I * sin (a / 2), cos (a / 2)]]
/-- circuits/_matrices.py:66-78 -/
def ryMatrix (a : ℂ) : Mat ℂ := Mat.ofRows [[cos (a / 2), -1 * sin (a / 2)], [sin (a / 2), cos (a / 2)]]
/-- circuits/_matrices.py:81-93 -/
def rzMatrix (a : ℂ) : Mat ℂ := Mat.ofRows [[exp (-1 * I * a / 2), 0], [0, exp (I * a / 2)]]
/-- circuits/_matrices.py:96-109 -/
def rhMatrix (a : ℂ) : Mat ℂ :=
  let phaseFactor := cos (a / 2) + I * sin (a / 2)
  Mat.smul phaseFactor (Mat.ofRows
    [[cos (a / 2) - I / (√2 : ℝ) * sin (a / 2), -I / (√2 : ℝ) * sin (a / 2)],
     [-I / (√2 : ℝ) * sin (a / 2), cos (a / 2) + I / (√2 : ℝ) * sin (a / 2)]])
/-- circuits/_matrices.py:112-118 -/
def phaseMatrix (a : ℂ) : Mat ℂ := Mat.ofRows [[1, 0], [0, exp (I * a)]]
/-- circuits/_matrices.py:121-130; `sympy.simplify` does not change the value. -/
def u3Matrix (theta phi lambda : ℂ) : Mat ℂ :=
  Mat.smul (1 / exp (-0.5 * I * (phi + lambda)))
    (Mat.mul (Mat.mul (rzMatrix phi) (ryMatrix theta)) (rzMatrix lambda))
/-- circuits/_matrices.py:136-144 -/
def cnotMatrix : Mat ℂ := Mat.ofRows [[1, 0, 0, 0], [0, 1, 0, 0], [0, 0, 0, 1], [0, 0, 1, 0]]
/-- circuits/_matrices.py:147-155 -/
def czMatrix : Mat ℂ := Mat.ofRows [[1, 0, 0, 0], [0, 1, 0, 0], [0, 0, 1, 0], [0, 0, 0, -1]]
/-- circuits/_matrices.py:158-159 -/
def swapMatrix : Mat ℂ := Mat.ofRows [[1, 0, 0, 0], [0, 0, 1, 0], [0, 1, 0, 0], [0, 0, 0, 1]]
/-- circuits/_matrices.py:162-163 -/
def iswapMatrix : Mat ℂ := Mat.ofRows [[1, 0, 0, 0], [0, 0, I, 0], [0, I, 0, 0], [0, 0, 0, 1]]
/-- circuits/_matrices.py:169-177 -/
def cphaseMatrix (a : ℂ) : Mat ℂ :=
  Mat.ofRows [[1, 0, 0, 0], [0, 1, 0, 0], [0, 0, 1, 0], [0, 0, 0, exp (I * a)]]
/-- circuits/_matrices.py:180-188 -/
def xxMatrix (a : ℂ) : Mat ℂ :=
  Mat.ofRows [[cos (a / 2), 0, 0, -I * sin (a / 2)], [0, cos (a / 2), -I * sin (a / 2), 0],
    [0, -I * sin (a / 2), cos (a / 2), 0], [-I * sin (a / 2), 0, 0, cos (a / 2)]]
/-- circuits/_matrices.py:191-199 -/
def yyMatrix (a : ℂ) : Mat ℂ :=
  Mat.ofRows [[cos (a / 2), 0, 0, I * sin (a / 2)], [0, cos (a / 2), -I * sin (a / 2), 0],
    [0, -I * sin (a / 2), cos (a / 2), 0], [I * sin (a / 2), 0, 0, cos (a / 2)]]
/-- circuits/_matrices.py:202-210 -/
def zzMatrix (a : ℂ) : Mat ℂ :=
  Mat.ofRows [[cos (a / 2) - I * sin (a / 2), 0, 0, 0], [0, cos (a / 2) + I * sin (a / 2), 0, 0],
    [0, 0, cos (a / 2) + I * sin (a / 2), 0], [0, 0, 0, cos (a / 2) - I * sin (a / 2)]]
/-- circuits/_matrices.py:213-221 -/
def xyMatrix (a : ℂ) : Mat ℂ :=
  Mat.ofRows [[1, 0, 0, 0], [0, cos (a / 2), I * sin (a / 2), 0], [0, I * sin (a / 2), cos (a / 2), 0],
    [0, 0, 0, 1]]

end

/-! ## Gate objects -/

/-- circuits/_gates.py:376-425 `CustomGateDefinition`: name, symbolic matrix of dimension `2^n`, ordering of the parameters.
`nQubits` is the `_n_qubits` computed in `__post_init__`. -/
structure CustomDef where
  gateName : String
  nQubits : ℕ
  matrix : Mat Expr
  paramsOrdering : List String

/-- The `matrix_factory` of a gate: a built-in function of the parameter values, or `CustomGateMatrixFactory`. -/
inductive Factory
  | builtin (f : List ℂ → Mat ℂ)
  | custom (d : CustomDef)

/-- circuits/_gates.py:358-361 `CustomGateMatrixFactory.__call__`: substitute the arguments in the definition's matrix.  (A dict built from
`zip` keeps the last value of a repeated key; orderings are assumed duplicate free where it matters.) -/
def CustomDef.call (d : CustomDef) (params : List Expr) : Mat Expr :=
  ⟨d.matrix.rows, d.matrix.cols, fun i j => Expr.subs (d.paramsOrdering.zip params) (d.matrix.e i j)⟩

/-- Value of the matrix made by a factory for parameters `params` when symbols have the values `ρ`. -/
noncomputable def Factory.matrix (F : Factory) (params : List Expr) (ρ : String → ℂ) : Mat ℂ :=
  match F with
  | .builtin f => f (params.map (Expr.eval ρ))
  | .custom d => ⟨d.matrix.rows, d.matrix.cols, fun i j => ((d.call params).e i j).eval ρ⟩

/-- circuits/_gates.py:152-242 `MatrixFactoryGate` without its parameters. -/
structure Base where
  name : String
  factory : Factory
  numQubits : ℕ
  isHermitian : Bool := false

/-- Gates: `MatrixFactoryGate`, `ControlledGate` (circuits/_gates.py:248-297) and `Dagger` (circuits/_gates.py:303-334). -/
inductive Gate
  | factory (b : Base) (params : List Expr)
  | ctrl (wrapped : Gate) (numControl : ℕ)
  | dag (wrapped : Gate)

namespace Gate

/-- `name` properties, circuits/_gates.py:180, 259-261, 319-321. -/
def name : Gate → String
  | factory b _ => b.name
  | ctrl _ _ => "Control"
  | dag _ => "Dagger"

/-- `num_qubits`, circuits/_gates.py:183, 263-265, 315-317. -/
def numQubits : Gate → ℕ
  | factory b _ => b.numQubits
  | ctrl g k => g.numQubits + k
  | dag g => g.numQubits

/-- `params`, circuits/_gates.py:182, 274-276, 311-313. -/
def params : Gate → List Expr
  | factory _ ps => ps
  | ctrl g _ => g.params
  | dag g => g.params

/-- `matrix`, circuits/_gates.py:186-193, 267-272 (`Matrix.diag(eye(2**N - 2**w), wrapped.matrix)`), 307-309 (`adjoint()`). -/
noncomputable def matrix (ρ : String → ℂ) : Gate → Mat ℂ
  | factory b ps => b.factory.matrix ps ρ
  | ctrl g k => Mat.diag (Mat.eye (2 ^ (g.numQubits + k) - 2 ^ g.numQubits)) (g.matrix ρ)
  | dag g => (g.matrix ρ).adjoint

/-- `dagger`, circuits/_gates.py:206-208, 284-289, 332-334.  The re-check of the control count in `ControlledGate.__post_init__` cannot
fail here since the count was checked when the gate was made. -/
def dagger : Gate → Gate
  | factory b ps => if b.isHermitian then factory b ps else dag (factory b ps)
  | ctrl g k => ctrl g.dagger k
  | dag g => g

/-- `ControlledGate(g, k)` with its `__post_init__` check, circuits/_gates.py:253-257. -/
def mkCtrl (g : Gate) (k : ℤ) : Except Err Gate :=
  if k < 1 then .error .valueError else .ok (ctrl g k.toNat)

/-- `controlled`, circuits/_gates.py:203-204, 278-282, 323-324. -/
def controlled : Gate → ℤ → Except Err Gate
  | factory b ps, k => mkCtrl (factory b ps) k
  | ctrl g c, k => mkCtrl g (c + k)
  | dag g, k => (g.controlled k).map dagger

/-- `replace_params`, circuits/_gates.py:200-201, 294-297, 329-330. -/
def replaceParams : Gate → List Expr → Except Err Gate
  | factory b _, new => .ok (factory b new)
  | ctrl g k, new => (g.replaceParams new).bind fun g' => g'.controlled k
  | dag g, new => (g.replaceParams new).map dagger

/-- `bind`, circuits/_gates.py:195-198, 291-292, 326-327. -/
def bind : Gate → Expr.SymMap → Except Err Gate
  | factory b ps, m => replaceParams (factory b ps) (ps.map (Expr.subSymbols m))
  | ctrl g k, m => (g.bind m).bind fun g' => g'.controlled k
  | dag g, m => (g.bind m).map dagger

/-- `free_symbols`, circuits/_gates.py:51-66, 237-240. -/
def freeSymbols (g : Gate) : List String := Expr.getFreeSymbols g.params

end Gate

/-! ## circuits/_builtin_gates.py -/

/-- circuits/_builtin_gates.py:14-21 `make_parametric_gate_prototype` for a one-parameter matrix function (calling it with a wrong number of
arguments is a `TypeError` in Python; the junk case is never used). -/
noncomputable def param1 (f : ℂ → Mat ℂ) : Factory := .builtin fun l => f (l.getD 0 0)

/-- The non-parametric built-in gates, circuits/_builtin_gates.py:35-62: name, matrix, number of qubits, hermitian flag. -/
noncomputable def fixedGates : List Base :=
  [⟨"X", .builtin fun _ => xMatrix, 1, true⟩,
   ⟨"Y", .builtin fun _ => yMatrix, 1, true⟩,
   ⟨"Z", .builtin fun _ => zMatrix, 1, true⟩,
   ⟨"H", .builtin fun _ => hMatrix, 1, true⟩,
   ⟨"I", .builtin fun _ => iMatrix, 1, true⟩,
   ⟨"S", .builtin fun _ => sMatrix, 1, false⟩,
   ⟨"T", .builtin fun _ => tMatrix, 1, false⟩,
   ⟨"CNOT", .builtin fun _ => cnotMatrix, 2, true⟩,
   ⟨"CZ", .builtin fun _ => czMatrix, 2, true⟩,
   ⟨"SWAP", .builtin fun _ => swapMatrix, 2, true⟩,
   ⟨"ISWAP", .builtin fun _ => iswapMatrix, 2, false⟩]

/-- The parametric built-in gates, circuits/_builtin_gates.py:49-71. -/
noncomputable def parametricGates : List Base :=
  [⟨"RX", param1 rxMatrix, 1, false⟩,
   ⟨"RY", param1 ryMatrix, 1, false⟩,
   ⟨"RZ", param1 rzMatrix, 1, false⟩,
   ⟨"RH", param1 rhMatrix, 1, false⟩,
   ⟨"PHASE", param1 phaseMatrix, 1, false⟩,
   ⟨"U3", .builtin fun l => u3Matrix (l.getD 0 0) (l.getD 1 0) (l.getD 2 0), 1, false⟩,
   ⟨"CPHASE", param1 cphaseMatrix, 2, false⟩,
   ⟨"XX", param1 xxMatrix, 2, false⟩,
   ⟨"YY", param1 yyMatrix, 2, false⟩,
   ⟨"ZZ", param1 zzMatrix, 2, false⟩,
   ⟨"XY", param1 xyMatrix, 2, false⟩]

/-- All built-in gates. -/
noncomputable def builtinGates : List Base := fixedGates ++ parametricGates

end ZQ.Gates
