import Verif.Model.Optimizer
import Mathlib.Data.Rat.Floor

/-!
# Nested optimizers: interfaces/mock_objects.py:47-127, interfaces/optimizer.py:140-215, interfaces/optimizer_test.py:178-275

The array of initial parameters is the caller's object and may be written to, so it is part of the state.  Numbers are exact.  The state after an
exception is not modelled, and neither are cost functions that write into their argument or take `store_artifact`.
-/

namespace ZQ.Nested

open ZQ ZQ.History ZQ.Optimizer

variable {V G W E : Type}

/-- An array of parameters; `integer` says that its entries are of an integer type, so that what is written into it is truncated. -/
structure Arr where
  integer : Bool
  vals : List ℚ
deriving DecidableEq, Repr

/-- The parameters a cost function is called with. -/
abbrev Params := List ℚ

/-- What is stored if `x` is written into the array: conversion to an integer type truncates towards 0. -/
def Arr.stored (a : Arr) (x : ℚ) : ℚ := if a.integer then (if 0 ≤ x then (⌊x⌋ : ℚ) else (⌈x⌉ : ℚ)) else x

/-- mock_objects.py:51-53: `new_parameters[i] += random.random()` for the indices from `i`; `draws k` is the `k`-th number drawn, `s` the number drawn
so far. -/
def Arr.shift (a : Arr) (draws : ℕ → ℚ) (s : ℕ) : Arr :=
  { a with vals := a.vals.zipIdx.map fun x => a.stored (x.1 + draws (s + x.2)) }

/-- What a nested optimizer reads from the result of its inner optimizer. -/
structure Found (V : Type) where
  optValue : V
  optParams : Params
  nfev : ℕ
deriving DecidableEq, Repr

/-- An inner optimizer: given the array and the number of random numbers drawn so far it asks for values and gradients and ends with its result, the
array as it leaves it and the new number of random numbers drawn. -/
abbrev Inner (V G : Type) := Arr → ℕ → Program Params V G (Found V × Arr × ℕ)

/-- mock_objects.py:47-61 `MockOptimizer._minimize`: `new_parameters` is the caller's array, and `np.array` copies it after the shift. -/
def mockInner (draws : ℕ → ℚ) : Inner V G := fun a s =>
  let a' := a.shift draws s
  .value a'.vals fun v => .done (⟨v, a'.vals, 1⟩, a', s + a.vals.length)

/-- A cost function, with or without gradient. -/
structure Cost (W E V G : Type) where
  target : Target W E Params V
  gradient : Option (Target W E Params G)

/-- `cost_function_factory`: it may have effects and raise. -/
abbrev Factory (W E V G : Type) := ℕ → W → Except E (Cost W E V G) × W

/-- The exceptions of the interpreter as exceptions. -/
structure Raises (E : Type) where
  noGradient : E
  unbound : E
  ofErr : Err → E

/-- The local variables of the loop, and the state it runs in. -/
structure St (W V G : Type) where
  arr : Arr
  drawn : ℕ
  world : W
  histories : Histories (Entry Params V) (Entry Params G)
  nfev : ℕ
  current : Params
  last : Option V

/-- The recorded or plain run of the inner optimizer in one round (mock_objects.py:109-113; `inner_optimizer.minimize` without `keep_history` is
`_minimize`, optimizer.py:49-52). -/
def runInner (raises : Raises E) (inner : Inner V G) (cost : Cost W E V G) (keep : Bool) (arr : Arr) (drawn : ℕ) (w : W) :
    Except E (Found V × Arr × ℕ) × (List (Entry Params V) × List (Entry Params G)) × W :=
  if keep then
    let r := runRecorded raises.noGradient cost.target cost.gradient always always (inner arr drawn) (fresh, fresh) w
    (r.1, (r.2.1.1.history, r.2.1.2.history), r.2.2)
  else
    let r := run raises.noGradient cost.target cost.gradient (inner arr drawn) w
    (r.1, ([], []), r.2)

/-- mock_objects.py:116-119: the histories are extended if they are kept. -/
def extended (raises : Raises E) (cost : Cost W E V G) (keep : Bool) (recorded : List (Entry Params V) × List (Entry Params G))
    (old : Histories (Entry Params V) (Entry Params G)) : Except E (Histories (Entry Params V) (Entry Params G)) :=
  if keep then
    match extendHistories (chooseClass false cost.gradient.isSome) recorded.1 recorded.2 old with
    | .error e => .error (raises.ofErr e)
    | .ok h => .ok h
  else .ok old

/-- mock_objects.py:101-119: one round.  The inner optimizer gets `initial_params`, not `current_params`; the array
`np.append(current_params, 1)` of lines 102-105 is replaced before anything reads it and is left out. -/
def round (raises : Raises E) (inner : Inner V G) (factory : Factory W E V G) (keep : Bool) (i : ℕ) (st : St W V G) : Except E (St W V G) :=
  match factory i st.world with
  | (.error e, _) => .error e
  | (.ok cost, w) =>
    match runInner raises inner cost keep st.arr st.drawn w with
    | (.error e, _) => .error e
    | (.ok (found, arr, drawn), recorded, w) =>
      match extended raises cost keep recorded st.histories with
      | .error e => .error e
      | .ok histories => .ok ⟨arr, drawn, w, histories, st.nfev + found.nfev, found.optParams, some found.optValue⟩

/-- mock_objects.py:101-119: the loop, rounds `i` to `i + n - 1`. -/
def rounds (raises : Raises E) (inner : Inner V G) (factory : Factory W E V G) (keep : Bool) : ℕ → ℕ → St W V G → Except E (St W V G)
  | _, 0, st => .ok st
  | i, n + 1, st =>
    match round raises inner factory keep i st with
    | .error e => .error e
    | .ok st => rounds raises inner factory keep (i + 1) n st

/-- The `OptimizeResult` of a nested optimizer. -/
structure Result (V G : Type) where
  optValue : V
  optParams : Params
  nit : ℕ
  nfev : ℕ
  history : Option (List (Entry Params V))
  gradientHistory : Option (List (Entry Params G))

/-- What the caller is left with: the result, the array that was passed, the random numbers drawn, and the rest of the world. -/
structure Outcome (W V G : Type) where
  result : Result V G
  arr : Arr
  drawn : ℕ
  world : W

/-- mock_objects.py:88-127 `MockNestedOptimizer._minimize`, optimizer.py:184-199 `minimize`; without rounds `opt_result` is not bound. -/
def nested (raises : Raises E) (inner : Inner V G) (nIters : ℕ) (factory : Factory W E V G) (arr : Arr) (keep : Bool) (drawn : ℕ) (w : W) :
    Except E (Outcome W V G) :=
  match rounds raises inner factory keep 0 nIters ⟨arr, drawn, w, ⟨some [], none, true⟩, 0, arr.vals, none⟩ with
  | .error e => .error e
  | .ok st =>
    match st.last with
    | none => .error raises.unbound
    | some v => .ok ⟨⟨v, st.current, nIters, st.nfev, st.histories.history, st.histories.gradientHistory⟩, st.arr, st.drawn, st.world⟩

/-- A nested optimizer as its contracts see it: factory, array, `keep_history` (`none`: left out), random numbers drawn so far, world. -/
abbrev Minimize (W E V G : Type) := Factory W E V G → Arr → Option Bool → ℕ → W → Except E (Outcome W V G)

/-- optimizer.py:184-189: `keep_history` is `False` if left out. -/
def mockNested (raises : Raises E) (draws : ℕ → ℚ) (nIters : ℕ) : Minimize W E V G := fun factory arr keep =>
  nested raises (mockInner draws) nIters factory arr (keep.getD false)

/-- optimizer_test.py:213-217: the factory of the second contract; each cost function gets the gradient `fd` makes of it
(`finite_differences_gradient`). -/
def withGradient (fd : Target W E Params V → Target W E Params G) (factory : Factory W E V G) : Factory W E V G := fun i w =>
  match factory i w with
  | (.error e, w) => (.error e, w)
  | (.ok c, w) => (.ok ⟨c.target, some (fd c.target)⟩, w)

/-- `len(result.history)` and `result.history == []`: a result without history has no such attribute. -/
def historyLength (raises : Raises E) (r : Result V G) : Except E ℕ :=
  match r.history with
  | none => .error (raises.ofErr .keyError)
  | some h => .ok h.length

/-- optimizer_test.py:197-205 `_validate_nested_optimizer_records_history_if_keep_history_is_true`. -/
def recordsHistory (raises : Raises E) (m : Minimize W E V G) (factory : Factory W E V G) (arr : Arr) (s : ℕ) (w : W) : Except E Bool := do
  let o ← m factory arr (some true) s w
  let n ← historyLength raises o.result
  .ok (n != 0)

/-- optimizer_test.py:208-222 `_validate_nested_optimizer_records_gradient_history_if_keep_history_is_true`. -/
def recordsGradient (fd : Target W E Params V → Target W E Params G) (m : Minimize W E V G) (factory : Factory W E V G) (arr : Arr) (s : ℕ) (w : W) :
    Except E Bool := do
  let o ← m (withGradient fd factory) arr (some true) s w
  .ok o.result.gradientHistory.isSome

/-- optimizer_test.py:225-233 `_validate_nested_optimizer_does_not_record_history_if_keep_history_is_false`. -/
def emptyIfFalse (raises : Raises E) (m : Minimize W E V G) (factory : Factory W E V G) (arr : Arr) (s : ℕ) (w : W) : Except E Bool := do
  let o ← m factory arr (some false) s w
  let n ← historyLength raises o.result
  .ok (n == 0)

/-- optimizer_test.py:236-243 `_validate_nested_optimizer_does_not_record_history_by_default`. -/
def emptyByDefault (raises : Raises E) (m : Minimize W E V G) (factory : Factory W E V G) (arr : Arr) (s : ℕ) (w : W) : Except E Bool := do
  let o ← m factory arr none s w
  let n ← historyLength raises o.result
  .ok (n == 0)

/-- optimizer_test.py:246-252 `_validate_nested_optimizer_returns_all_the_mandatory_fields_in_results`; every result of the model has the four fields. -/
def mandatoryFields (m : Minimize W E V G) (factory : Factory W E V G) (arr : Arr) (s : ℕ) (w : W) : Except E Bool := do
  let _ ← m factory arr none s w
  .ok true

/-- optimizer_test.py:255-261 `NESTED_OPTIMIZER_CONTRACTS`. -/
def contracts (raises : Raises E) (fd : Target W E Params V → Target W E Params G) :
    List (Minimize W E V G → Factory W E V G → Arr → ℕ → W → Except E Bool) :=
  [recordsHistory raises, recordsGradient fd, emptyIfFalse raises, emptyByDefault raises, mandatoryFields]

end ZQ.Nested
