import Verif.Model.SymOp

/-!
# Grouping of co-measurable terms

Model of the grouping part of `hamiltonian.py`.
-/

namespace ZQ.Op

/-- hamiltonian.py:17-44 `is_comeasureable`. -/
def isComeasureable (t1 t2 : Term Letter) : Bool := t1.all fun f => t2.all fun g => !(decide (f.1 = g.1) && decide (f.2 ≠ g.2))

/-- hamiltonian.py:72-88, the loop over the existing groups for one term: the first group all of whose terms are co-measurable with it gets it
(`group += ...` changes the group in the list); otherwise it starts a new group. -/
noncomputable def placeTerm (full : Terms Letter) (t : Term Letter) (c : ℂ) : List (Terms Letter) → List (Terms Letter)
  | [] => [ofTerm qubit t (coeff full t)]
  | g :: gs =>
    if (PyDict.keys g).all (isComeasureable t) then add g (ofTerm qubit t c) :: gs
    else g :: placeTerm full t c gs

/-- hamiltonian.py:72-91, one pass of the loop over the terms: groups and constant group so far. -/
noncomputable def greedyStep (full : Terms Letter) (acc : List (Terms Letter) × Option (Terms Letter)) (kv : Term Letter × ℂ) :
    List (Terms Letter) × Option (Terms Letter) :=
  if kv.1 = [] then (acc.1, some (ofTerm qubit kv.1 kv.2))
  else (placeTerm full kv.1 kv.2 acc.1, acc.2)

/-- hamiltonian.py:65-70: the order in which the terms are visited; `sorted(.., reverse=True)` is stable. -/
noncomputable def greedyOrder (o : Terms Letter) (sortTerms : Bool) : Terms Letter :=
  if sortTerms then o.insertionSort (fun a b => ‖b.2‖ ≤ ‖a.2‖) else o

/-- hamiltonian.py:47-98 `group_comeasureable_terms_greedy`. -/
noncomputable def groupGreedy (o : Terms Letter) (sortTerms : Bool) : List (Terms Letter) :=
  let r := (greedyOrder o sortTerms).foldl (greedyStep o) ([], none)
  match r.2 with
  | some g => r.1 ++ [g]
  | none => r.1

end ZQ.Op
