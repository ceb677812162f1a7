import Verif.Model.ReverseJW

/-!
# Relabelling qubits and modes

Models `openfermion/utils/indexing.py`, `reorder` (`transforms/opconversions/term_reordering.py`) and `reverse_qubit_order`
(`zapata_utils/_utils.py`).
-/

namespace ZQ.Op

open PyDict

/-- indexing.py:20-30 (`up_index`). -/
def upIndex (i : ℕ) : ℕ := 2 * i

/-- indexing.py:33-42 (`down_index`). -/
def downIndex (i : ℕ) : ℕ := 2 * i + 1

/-- indexing.py:45-68 (`up_then_down`).  Simplification: `int(ceil(n / 2.0))` is computed in integers (the floats are exact below `2^53`). -/
def upThenDown (mode n : ℕ) : ℕ := if mode % 2 = 0 then mode / 2 else mode / 2 + (n + 1) / 2

/-- term_reordering.py:255-260: the dictionary `mode_map`, inverted when `reverse` is set. -/
def modeMap (order : ℕ → ℕ → ℕ) (n : ℕ) (reverse : Bool) : PyDict ℕ ℕ :=
  let m := ofItems ((List.range n).map fun i => (i, order i n))
  if reverse then ofItems (m.map fun kv => (kv.2, kv.1)) else m

/-- term_reordering.py:252-253: `num_modes`; `max` of an empty sequence raises `ValueError`. -/
def reorderModes {A : Type} (o : Terms A) : Option ℕ → Except Err ℕ
  | some n => .ok n
  | none => match (o.flatMap fun kv => kv.1.map Prod.fst).max? with
    | some m => .ok (m + 1)
    | none => .error .valueError

/-- term_reordering.py:264: the relabelled factors of one term. -/
def relabel {A : Type} (mm : PyDict ℕ ℕ) (t : Term A) : Except Err (Term A) :=
  t.mapM fun f => match get? mm f.1 with
    | some j => .ok (j, f.2)
    | none => .error .keyError

/-- term_reordering.py:229-266 (`reorder`). -/
noncomputable def reorder {A : Type} [DecidableEq A] (S : OpClass A) (o : Terms A) (order : ℕ → ℕ → ℕ) (numModes : Option ℕ) (reverse : Bool) :
    Except Err (Terms A) := do
  let n ← reorderModes o numModes
  let mm := modeMap order n reverse
  o.foldlM (fun acc kv => do
    let t ← relabel mm kv.1
    .ok (add acc (ofTerm S t kv.2))) []

/-- _utils.py:268-295 (`reverse_qubit_order`).  Simplification: `n_qubits - 1 - index` is truncated subtraction; the register check keeps it from
being negative for canonical operators. -/
noncomputable def reverseQubitOrder (o : Terms Letter) (nQubits : Option ℕ) : Except Err (Terms Letter) :=
  let n := nQubits.getD (countQubit o)
  if n < countQubit o then .error .valueError
  else .ok (o.foldl (fun acc kv => add acc (ofTerm qubit (kv.1.map fun f => (n - 1 - f.1, f.2)) kv.2)) [])

end ZQ.Op
