import Verif.Model.Gates
import Verif.Spec.Qubits

/-!
# Specification vocabulary for gates
-/

namespace ZQ

/-- Two matrices have the same shape and the same entries inside that shape. -/
def Mat.Same {K : Type} (A B : Mat K) : Prop :=
  A.rows = B.rows ∧ A.cols = B.cols ∧ ∀ i < A.rows, ∀ j < A.cols, A.e i j = B.e i j

/-- `A` controlled on `k` leading qubits: acts as `A` on the last `w` qubits if all `k` controls are 1, and as the identity otherwise. -/
def controlledOp (k : ℕ) {w : ℕ} (A : Matrix (Fin w → Bool) (Fin w → Bool) ℂ) :
    Matrix (Fin (k + w) → Bool) (Fin (k + w) → Bool) ℂ := fun x y =>
  if (∀ c : Fin k, x (Fin.castAdd w c) = true) ∧ (∀ c : Fin k, y (Fin.castAdd w c) = true) then
    A (fun q => x (Fin.natAdd k q)) (fun q => y (Fin.natAdd k q))
  else if x = y then 1 else 0

/-- The valuation in which the symbols of the map have the values of the expressions they are mapped to. -/
noncomputable def updateEnv (ρ : String → ℂ) (m : Expr.SymMap) : String → ℂ := fun s =>
  match m.lookup s with
  | some v => v.eval ρ
  | none => ρ s

/-- A substitution map whose values do not mention its keys (in particular: a map to numbers). -/
def ClosedMap (m : Expr.SymMap) : Prop :=
  (m.map Prod.fst).Nodup ∧ ∀ kv ∈ m, ∀ s ∈ kv.2.free, s ∉ m.map Prod.fst

namespace Gates

/-- A factory makes `2^n × 2^n` matrices. -/
def Base.GoodShape (b : Base) : Prop :=
  ∀ ps ρ, (b.factory.matrix ps ρ).rows = 2 ^ b.numQubits ∧ (b.factory.matrix ps ρ).cols = 2 ^ b.numQubits

/-- The hermitian flag is only set for gates with a self-adjoint matrix. -/
def Base.TruthfulFlag (b : Base) : Prop :=
  b.isHermitian = true → ∀ ps ρ, ∀ i < 2 ^ b.numQubits, ∀ j < 2 ^ b.numQubits,
    (b.factory.matrix ps ρ).e i j = star ((b.factory.matrix ps ρ).e j i)

/-- Well-formed gates: any nesting over factories with the right shape and truthful flags; control counts as checked by the constructor. -/
def Gate.WF : Gate → Prop
  | .factory b _ => b.GoodShape ∧ b.TruthfulFlag
  | .ctrl g k => 1 ≤ k ∧ g.WF
  | .dag g => g.WF

/-- The factory gates a gate is built from satisfy `P`. -/
def Gate.AllBase (P : Base → List Expr → Prop) : Gate → Prop
  | .factory b ps => P b ps
  | .ctrl g _ => g.AllBase P
  | .dag g => g.AllBase P

/-- The factory's matrix depends on the parameters only through their values.  Always true for built-in factories; for a custom definition it
is what `custom_by_value` proves under a naming condition. -/
def Base.ByValue (b : Base) (ps : List Expr) : Prop :=
  match b.factory with
  | .builtin _ => True
  | .custom d => d.paramsOrdering.Nodup ∧ ps.length = d.paramsOrdering.length ∧
      (∀ i j, ∀ s ∈ (d.matrix.e i j).free, s ∈ d.paramsOrdering) ∧
      ∀ sp ∈ d.paramsOrdering.zip ps, ∀ s ∈ sp.2.free, s ∈ d.paramsOrdering → s = sp.1

/-- Gates obtainable through the API: a factory gate, then any sequence of `.controlled(k)`, `.dagger`, `.bind(m)`, `.replace_params(ps)`. -/
inductive Gate.Reachable : Gate → Prop
  | factory (b : Base) (ps : List Expr) : Reachable (.factory b ps)
  | controlled {g g' : Gate} (k : ℤ) : Reachable g → g.controlled k = .ok g' → Reachable g'
  | dagger {g : Gate} : Reachable g → Reachable g.dagger
  | bind {g g' : Gate} (m : Expr.SymMap) : Reachable g → g.bind m = .ok g' → Reachable g'
  | replaceParams {g g' : Gate} (ps : List Expr) : Reachable g → g.replaceParams ps = .ok g' → Reachable g'

end Gates

end ZQ
