import Mathlib.Data.List.Basic

/-!
# Python dictionaries and counters

A `dict` is its list of items in insertion order (CPython >= 3.7), keys distinct.
-/

namespace ZQ

/-- A Python `dict` as its item list. -/
abbrev PyDict (α β : Type) := List (α × β)

namespace PyDict

variable {α β : Type} [DecidableEq α]

/-- Python `d.get(k)`. External builtin. -/
def get? : PyDict α β → α → Option β
  | [], _ => none
  | (k', v) :: d, k => if k' = k then some v else get? d k

/-- Python `d[k] = v`: overwrite in place, or append a new item. External builtin. -/
def set : PyDict α β → α → β → PyDict α β
  | [], k, v => [(k, v)]
  | (k', v') :: d, k, v => if k' = k then (k', v) :: d else (k', v') :: set d k v

/-- Python `del d[k]` for a present key. External builtin. -/
def del : PyDict α β → α → PyDict α β
  | [], _ => []
  | (k', v') :: d, k => if k' = k then d else (k', v') :: del d k

/-- The keys, in insertion order. -/
def keys (d : PyDict α β) : List α := d.map Prod.fst

/-- The values, in insertion order. -/
def values (d : PyDict α β) : List β := d.map Prod.snd

/-- Python `{k: v for k, v in items}` / `dict(items)`. -/
def ofItems (l : List (α × β)) : PyDict α β := l.foldl (fun d kv => set d kv.1 kv.2) []

/-- One step of `collections.Counter`. -/
def incr (d : PyDict α ℕ) (x : α) : PyDict α ℕ := set d x ((get? d x).getD 0 + 1)

/-- Python `collections.Counter(iterable)`. External library. -/
def counter (l : List α) : PyDict α ℕ := l.foldl incr []

end PyDict

end ZQ
