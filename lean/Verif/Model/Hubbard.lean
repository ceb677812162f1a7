import Verif.Model.ReverseJW
import Verif.Model.Reorder

/-!
# Hubbard models: openfermion/hamiltonians/hubbard.py

Coefficients are complex numbers, floats exact. The dimensions are natural numbers (negative ones are not modelled).
-/

namespace ZQ.Hubbard

open ZQ ZQ.Op

/-- hubbard.py:277-285 `_right_neighbor`. -/
def rightNeighbor (site x _y : ℕ) (periodic : Bool) : Option ℕ :=
  if x = 1 then none
  else if (site + 1) % x = 0 then (if periodic then some (site + 1 - x) else none)
  else some (site + 1)

/-- hubbard.py:288-296 `_bottom_neighbor`. -/
def bottomNeighbor (site x y : ℕ) (periodic : Bool) : Option ℕ :=
  if y = 1 then none
  else if site + x + 1 > x * y then (if periodic then some (site + x - x * y) else none)
  else some (site + x)

/-- hubbard.py:161, 166-167 and 226, 231-232: the right neighbour, unless the edge is counted elsewhere. -/
def rightEdge (site x y : ℕ) (periodic : Bool) : Option ℕ :=
  if x = 2 ∧ periodic = true ∧ site % 2 = 1 then none else rightNeighbor site x y periodic

/-- hubbard.py:162, 168-169 and 227, 233-234. -/
def bottomEdge (site x y : ℕ) (periodic : Bool) : Option ℕ :=
  if y = 2 ∧ periodic = true ∧ site ≥ x then none else bottomNeighbor site x y periodic

/-- hubbard.py:258-262 `_hopping_term`. -/
noncomputable def hoppingTerm (i j : ℕ) (c : ℂ) : Terms Bool :=
  add (ofTerm fermion [(i, true), (j, false)] c) (ofTerm fermion [(j, true), (i, false)] ((starRingEnd ℂ) c))

/-- hubbard.py:269-273: the number operator of a mode, minus 1/2 if particle-hole symmetry is asked for. -/
noncomputable def shiftedNumber (i : ℕ) (phs : Bool) : Terms Bool :=
  if phs then sub (numberMode i 1) (ofTerm fermion [] (1 / 2)) else numberMode i 1

/-- hubbard.py:265-274 `_coulomb_interaction_term`. -/
noncomputable def coulombTerm (i j : ℕ) (c : ℂ) (phs : Bool) : Terms Bool :=
  mul fermion (smul (shiftedNumber i phs) c) (shiftedNumber j phs)

/-- hubbard.py:172-202: the operators added for one site, in order. -/
noncomputable def spinfulSite (x y : ℕ) (tunneling coulomb mu field : ℂ) (periodic phs : Bool) (site : ℕ) : List (Terms Bool) :=
  (match rightEdge site x y periodic with
    | some r => [hoppingTerm (upIndex site) (upIndex r) (-tunneling), hoppingTerm (downIndex site) (downIndex r) (-tunneling)]
    | none => []) ++
  (match bottomEdge site x y periodic with
    | some b => [hoppingTerm (upIndex site) (upIndex b) (-tunneling), hoppingTerm (downIndex site) (downIndex b) (-tunneling)]
    | none => []) ++
  [coulombTerm (upIndex site) (downIndex site) coulomb phs, numberMode (upIndex site) (-mu - field), numberMode (downIndex site) (-mu + field)]

/-- hubbard.py:237-253: the operators added for one site, in order. -/
noncomputable def spinlessSite (x y : ℕ) (tunneling coulomb mu : ℂ) (periodic phs : Bool) (site : ℕ) : List (Terms Bool) :=
  (match rightEdge site x y periodic with
    | some r => [hoppingTerm site r (-tunneling), coulombTerm site r coulomb phs]
    | none => []) ++
  (match bottomEdge site x y periodic with
    | some b => [hoppingTerm site b (-tunneling), coulombTerm site b coulomb phs]
    | none => []) ++
  [numberMode site (-mu)]

/-- hubbard.py:23-138 `fermi_hubbard`, with 141-204 and 207-255. -/
noncomputable def fermiHubbard (x y : ℕ) (tunneling coulomb : ℂ) (mu : ℂ := 0) (field : ℂ := 0) (periodic : Bool := true) (spinless : Bool := false) (phs : Bool := false) :
    Terms Bool :=
  (List.range (x * y)).foldl (fun acc site =>
    (if spinless then spinlessSite x y tunneling coulomb mu periodic phs site else spinfulSite x y tunneling coulomb mu field periodic phs site).foldl add acc) []

end ZQ.Hubbard
