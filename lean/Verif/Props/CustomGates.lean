import Verif.Model.Serde
import Verif.Props.Gates

/-!
# C02: gates made from custom definitions
-/

namespace ZQ.Serde

open Gates

/-- C02. A gate made by calling a custom definition with any parameters is well formed: the theorems about daggers, controls and nestings apply to it. -/
theorem customGate_wf (d : CustomDef) (hr : d.matrix.rows = 2 ^ d.nQubits) (hc : d.matrix.cols = 2 ^ d.nQubits) (ps : List Expr) : (Gate.factory (baseOf d) ps).WF :=
  ⟨fun _ _ => ⟨hr, hc⟩, fun h => absurd h (by simp [baseOf])⟩

/-- C02. The dagger of a custom gate, whatever its matrix: its entries are the conjugates of the transposed entries of the definition, with the arguments in place of the parameters. -/
theorem customGate_dagger (d : CustomDef) (hr : d.matrix.rows = 2 ^ d.nQubits) (hc : d.matrix.cols = 2 ^ d.nQubits) (ps : List Expr) (ρ : String → ℂ) {i j : ℕ} (hi : i < 2 ^ d.nQubits)
    (hj : j < 2 ^ d.nQubits) :
    ((Gate.factory (baseOf d) ps).dagger.matrix ρ).e i j = star ((Expr.subs (d.paramsOrdering.zip ps) (d.matrix.e j i)).eval ρ) := by
  obtain ⟨h1, h2, h3⟩ := dagger_is_adjoint _ (customGate_wf d hr hc ps) ρ
  refine (h3 i ?_ j ?_).trans rfl
  · rw [h1]; exact lt_of_lt_of_eq hi hc.symm
  · rw [h2]; exact lt_of_lt_of_eq hj hr.symm

/-- Non-vacuity: a one-qubit gate `diag(1, a)` called with the number `i`; its dagger has the entry `-i`. -/
example (ρ : String → ℂ) : ((Gate.factory (baseOf ⟨"phase", 1, ⟨2, 2, fun i j => if i = j then if i = 0 then .num 1 else .sym "a" else .num 0⟩, ["a"]⟩) [.num Complex.I]).dagger.matrix ρ).e 1 1 =
    -Complex.I := by
  rw [customGate_dagger _ rfl rfl _ ρ (by norm_num) (by norm_num)]
  simp [Expr.subs, Expr.subst1, Expr.eval]

end ZQ.Serde
