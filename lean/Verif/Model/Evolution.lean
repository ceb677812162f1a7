import Verif.Model.SymOp
import Verif.Model.Generators
import Verif.Model.Estimation

/-!
# Time evolution circuits

Model of `evolution.py`.  Times are numbers or sympy expressions (`Expr`); coefficients are numbers.
-/

namespace ZQ.Evol

open ZQ ZQ.Op ZQ.Circuits ZQ.Gates

/-- Python arithmetic on parameters: numbers give a number, anything else a sympy expression.  External (sympy); only the value matters. -/
noncomputable def binE (f : ℂ → ℂ → ℂ) : Expr → Expr → Expr
  | .num a, .num b => .num (f a b)
  | a, b => .bin f a b

/-- `H`, circuits/_builtin_gates.py:38. -/
noncomputable def hGate : Gate := .factory ⟨"H", .builtin fun _ => hMatrix, 1, true⟩ []
/-- `CNOT`, circuits/_builtin_gates.py:59. -/
noncomputable def cnotGate : Gate := .factory ⟨"CNOT", .builtin fun _ => cnotMatrix, 2, true⟩ []

/-- evolution.py:80-85: gate before the ladder for one factor. -/
noncomputable def baseChange (f : ℕ × Letter) : List GateOp :=
  match f.2 with
  | .X => [⟨hGate, [f.1]⟩]
  | .Y => [⟨Est.rxGate (.num ((Real.pi / 2 : ℝ) : ℂ)), [f.1]⟩]
  | _ => []

/-- evolution.py:80-85: gate after the ladder for one factor. -/
noncomputable def baseReversal (f : ℕ × Letter) : List GateOp :=
  match f.2 with
  | .X => [⟨hGate, [f.1]⟩]
  | .Y => [⟨Est.rxGate (.num ((-Real.pi / 2 : ℝ) : ℂ)), [f.1]⟩]
  | _ => []

/-- evolution.py:86-89: the CNOTs of neighbouring factors. -/
noncomputable def cnots : Term Letter → List GateOp
  | f :: g :: t => ⟨cnotGate, [f.1, g.1]⟩ :: cnots (g :: t)
  | _ => []

/-- evolution.py:86-87: the rotation on the qubit of the last factor. -/
noncomputable def central (angle : Expr) (t : Term Letter) : List GateOp :=
  match t.getLast? with
  | some f => [⟨rzGate angle, [f.1]⟩]
  | none => []

/-- evolution.py:51-107 `time_evolution_for_term`. -/
noncomputable def evolveTerm (o : Terms Letter) (time : Expr) : Except Err Circuit :=
  match o with
  | [(t, c)] => do
    let empty ← Circuit.make [] none
    if t = [] then return empty
    let angle := binE (· * ·) (binE (· * ·) (.num 2) time) (.num c)
    let c1 ← appendOps empty (t.flatMap baseChange)
    let c2 ← appendOps c1 (cnots t)
    let c3 ← appendOps c2 (central angle t)
    let c4 ← appendOps c3 (cnots t).reverse
    appendOps c4 (t.flatMap baseReversal)
  | _ => .error .valueError

/-- `functools.reduce(operator.add, ...)` on circuits: `TypeError` for an empty sequence. -/
def reduceAdd : List Circuit → Except Err Circuit
  | [] => .error .typeError
  | c :: cs => cs.foldlM (fun acc d => append acc (.circuit d)) c

/-- evolution.py:18-48 `time_evolution`; `range(order)` is empty for an order below 1. -/
noncomputable def timeEvolution (o : Terms Letter) (time : Expr) (method : String) (order : ℤ) : Except Err Circuit :=
  if method ≠ "Trotter" then .error .valueError
  else do
    let step := binE (· / ·) time (.num order)
    let cs ← ((List.range order.toNat).flatMap fun _ => getOperators qubit o).mapM fun term => evolveTerm term step
    reduceAdd cs

/-- evolution.py:169-199 `_generate_circuit_sequence` (`length` and `position` as naturals). -/
def circuitSequence (repeated different : Circuit) (length position : ℕ) : Except Err Circuit :=
  if position ≥ length then .error .valueError
  else Circuit.make ((List.range length).flatMap fun i => if i ≠ position then repeated.ops else different.ops) none

/-- evolution.py:142-147: the evolution with the time of the term at index `i` changed to `shifted`. -/
noncomputable def shiftedEvolution (terms : List (Terms Letter)) (i : ℕ) (shifted step : Expr) : Except Err Circuit := do
  let empty ← Circuit.make [] none
  (terms.zipIdx).foldlM (fun acc tj => do
    let d ← evolveTerm tj.1 (if i = tj.2 then shifted else step)
    append acc (.circuit d)) empty

/-- evolution.py:124-149: one derivative circuit and its factor, for the term at index `i` with coefficient `c`. Python raises `ZeroDivisionError`
for order 0 and for coefficient 0. -/
noncomputable def shiftedPair (terms : List (Terms Letter)) (time : Expr) (order : ℤ) (i : ℕ) (c factor : ℂ) : Except Err (Circuit × ℂ) :=
  open Classical in
  if order = 0 then .error .zeroDivision
  else
    let r := c / order
    if r = 0 then .error .zeroDivision
    else do
      let shift : ℂ := factor * ((Real.pi : ℂ) / (4 * r))
      let out ← shiftedEvolution terms i (binE (· / ·) (binE (· + ·) time (.num shift)) (.num order)) (binE (· / ·) time (.num order))
      return (out, r * factor)

/-- The coefficient of a one-term operator: `list(term_1.terms.values())[0]`. -/
def firstCoefficient : Terms Letter → ℂ
  | (_, c) :: _ => c
  | [] => 0

/-- evolution.py:110-166 `time_evolution_derivatives`. -/
noncomputable def evolutionDerivatives (o : Terms Letter) (time : Expr) (method : String) (order : ℤ) : Except Err (List Circuit × List ℂ) :=
  if method ≠ "Trotter" then .error .valueError
  else do
    let terms := getOperators qubit o
    let single ← (terms.zipIdx.flatMap fun ti => [(ti, (1 : ℂ)), (ti, -1)]).mapM fun tif =>
      shiftedPair terms time order tif.1.2 (firstCoefficient tif.1.1) tif.2
    if order > 1 then do
      let repeated ← timeEvolution o time "Trotter" 1
      let out ← ((List.range order.toNat).flatMap fun position => single.map fun cf => (position, cf)).mapM fun pcf => do
        let s ← circuitSequence repeated pcf.2.1 order.toNat pcf.1
        return (s, pcf.2.2)
      return (out.map Prod.fst, out.map Prod.snd)
    else return (single.map Prod.fst, single.map Prod.snd)

end ZQ.Evol
