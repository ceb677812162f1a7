import Verif.Model.ResultSerde
import Verif.Props.ArraySerde
import Verif.Props.Distribution

/-!
# Specification vocabulary for saved results
-/

namespace ZQ.Results

open ArraySerde Dist

/-- The value is a Python number: a number, a boolean or a value estimate. -/
def IsNumber : Data → Prop
  | .num _ => True
  | .bool _ => True
  | .estimate _ => True
  | _ => False

mutual
/-- The same value with tuples turned into lists (JSON has no tuples). -/
def lists : Data → Data
  | .list l => .list (listsList l)
  | .tup l => .list (listsList l)
  | .dict items => .dict (listsItems items)
  | .opt items => .opt (listsItems items)
  | .entry c p v => .entry (lists c) (lists p) (lists v)
  | .entryArt c p v a => .entryArt (lists c) (lists p) (lists v) (lists a)
  | x => x
/-- The items of a list. -/
def listsList : List Data → List Data
  | [] => []
  | x :: l => lists x :: listsList l
/-- The items of a dictionary. -/
def listsItems : List (Str × Data) → List (Str × Data)
  | [] => []
  | (k, v) :: l => (k, lists v) :: listsItems l
end

/-- The keys of a dictionary do not look like those of another kind of object: distinct, no `real`, and not both `call_number` and `value`. -/
def PlainKeys (items : List (Str × Data)) : Prop :=
  (items.map Prod.fst).Nodup ∧ kReal ∉ items.map Prod.fst ∧ ¬ (kCall ∈ items.map Prod.fst ∧ kValue ∈ items.map Prod.fst)

mutual
/-- Values that can be told apart after saving.  Plain dictionaries must be empty or have a value that is not a number, and must not carry one of the
two known schemas; results must not carry a schema; arrays must be rebuildable from nested lists; outcomes of distributions have at least two
subsystems or one digit. -/
def Safe : Data → Prop
  | .list l => SafeList l
  | .tup l => SafeList l
  | .dict items => SafeItems items ∧ PlainKeys items ∧ (items = [] ∨ ∃ kv ∈ items, ¬ IsNumber kv.2) ∧
      ∀ v, (kSchema, v) ∈ items → ∃ s, v = .str s ∧ s ≠ valueSchema ∧ s ≠ optSchema
  | .opt items => SafeItems items ∧ PlainKeys items ∧ kSchema ∉ items.map Prod.fst
  | .entry c p v => Safe c ∧ Safe p ∧ Safe v
  | .entryArt c p v a => Safe c ∧ Safe p ∧ Safe v ∧ Safe a
  | .array a => a.Valid ∧ ListShape a.shape
  | .dist d => Valid d ∧ ∀ kv ∈ d, 2 ≤ kv.1.length ∨ ∀ z ∈ kv.1, z < 10
  | _ => True
/-- The items of a list. -/
def SafeList : List Data → Prop
  | [] => True
  | x :: l => Safe x ∧ SafeList l
/-- The items of a dictionary. -/
def SafeItems : List (Str × Data) → Prop
  | [] => True
  | (_, v) :: l => Safe v ∧ SafeItems l
end

end ZQ.Results
