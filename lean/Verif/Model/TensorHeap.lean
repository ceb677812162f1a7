import Verif.Model.PolyTensor

/-!
# Polynomial tensors with shared arrays

Second model of the arithmetic in `openfermion/ops/representations/polynomial_tensor.py`, in which arrays live in a store and dictionaries hold their
addresses, so that updates in place are seen by every holder of the array.  The constant is a number, not an array.  Simplification: the order of
dictionary keys is kept for arrays only.
-/

namespace ZQ.TensorHeap

open ZQ ZQ.Op ZQ.PolyT

/-- The store of numpy arrays; addresses from `next` on are unused. -/
structure Heap where
  next : ℕ
  mem : ℕ → Tensor

/-- polynomial_tensor.py:99-126: an object; `refs` are the addresses of the arrays in `n_body_tensors`. -/
structure Obj where
  n : ℕ
  const : Option ℂ
  refs : PyDict Key ℕ

/-- A new array. -/
def alloc (h : Heap) (t : Tensor) : Heap × ℕ := (⟨h.next + 1, Function.update h.mem h.next t⟩, h.next)

/-- One array of `copy.deepcopy`. -/
def copyStep (s : Heap × PyDict Key ℕ) (kv : Key × ℕ) : Heap × PyDict Key ℕ :=
  ((alloc s.1 (s.1.mem kv.2)).1, s.2 ++ [(kv.1, (alloc s.1 (s.1.mem kv.2)).2)])

/-- `copy.deepcopy`.  External library; every array is copied once per key (an array held under two keys would be copied once only). -/
def deepcopy (h : Heap) (o : Obj) : Heap × Obj :=
  let s := o.refs.foldl copyStep (h, [])
  (s.1, ⟨o.n, o.const, s.2⟩)

/-- polynomial_tensor.py:241-247, one turn of the loop: `numpy.add` makes a new array, the other branch stores the addend's array itself. -/
def iaddStep (s : Heap × PyDict Key ℕ) (kv : Key × ℕ) : Heap × PyDict Key ℕ :=
  match PyDict.get? s.2 kv.1 with
  | some r => ((alloc s.1 fun i => s.1.mem r i + s.1.mem kv.2 i).1, PyDict.set s.2 kv.1 (alloc s.1 fun i => s.1.mem r i + s.1.mem kv.2 i).2)
  | none => (s.1, PyDict.set s.2 kv.1 kv.2)

/-- polynomial_tensor.py:241-247 for the key `()`. -/
def addConst : Option ℂ → Option ℂ → Option ℂ
  | some x, some y => some (x + y)
  | some x, none => some x
  | none, y => y

/-- polynomial_tensor.py:228-249 `__iadd__` for a tensor. -/
def iadd (h : Heap) (o a : Obj) : Except Err (Heap × Obj) :=
  if o.n ≠ a.n then .error .typeError
  else
    let s := a.refs.foldl iaddStep (h, o.refs)
    .ok (s.1, ⟨o.n, addConst o.const a.const, s.2⟩)

/-- polynomial_tensor.py:251-254 `__add__`. -/
def add (h : Heap) (o a : Obj) : Except Err (Heap × Obj) :=
  let c := deepcopy h o
  iadd c.1 c.2 a

/-- In-place updates of one object: `*= c`, `/= c`, `[args] = c` and `+= c`. -/
inductive Update
  | scale (c : ℂ)
  | divide (c : ℂ)
  | setItem (args : Term Bool) (c : ℂ)
  | addScalar (c : ℂ)

/-- `array op= c` for each array in turn (polynomial_tensor.py:298-300 and 329-331). -/
def mapArrays (h : Heap) (refs : PyDict Key ℕ) (f : ℂ → ℂ) : Heap :=
  refs.foldl (fun h kv => ⟨h.next, Function.update h.mem kv.2 fun i => f (h.mem kv.2 i)⟩) h

/-- polynomial_tensor.py:187-198, 228-232, 296-300 and 328-331; failing updates (missing key, index out of range) leave the object as it is. -/
noncomputable def update (s : Heap × Obj) : Update → Heap × Obj
  | .scale c => (mapArrays s.1 s.2.refs fun x => x * c, ⟨s.2.n, s.2.const.map fun x => x * c, s.2.refs⟩)
  | .divide c => (mapArrays s.1 s.2.refs fun x => x / c, ⟨s.2.n, s.2.const.map fun x => x / c, s.2.refs⟩)
  | .setItem args c =>
    if args = [] then (s.1, ⟨s.2.n, some c, s.2.refs⟩)
    else match PyDict.get? s.2.refs (args.map Prod.snd) with
      | none => s
      | some r =>
        if (args.map Prod.fst).all (fun i => decide (i < s.2.n)) then
          (⟨s.1.next, Function.update s.1.mem r (assign (s.1.mem r) (args.map Prod.fst) c)⟩, s.2)
        else s
  | .addScalar c => (s.1, ⟨s.2.n, some (s.2.const.getD 0 + c), s.2.refs⟩)

end ZQ.TensorHeap
