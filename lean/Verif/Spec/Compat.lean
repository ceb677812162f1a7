import Verif.Model.Compat

/-! # Specification: what translating an argument means -/

namespace ZQ.Compat

variable {α : Type}

/-- `Finds S o x`: looking for old objects in `o`, through the considered sequences only and not inside old objects, finds `x`. -/
inductive Finds (S : Setup α) : Obj α → Obj α → Prop
  | here {o : Obj α} : S.isOld o = true → Finds S o o
  | inside {t : String} {items : List (Obj α)} {i x : Obj α} : S.isOld (.seq t items) = false → t ∈ S.considered → i ∈ items → Finds S i x → Finds S (.seq t items) x

/-- `Becomes S o o'`: `o'` is `o` with every old object that is found replaced by its translation. -/
inductive Becomes (S : Setup α) : Obj α → Obj α → Prop
  | old {o o' : Obj α} : S.isOld o = true → S.translate o = some o' → Becomes S o o'
  | considered {t : String} {items items' : List (Obj α)} : S.isOld (.seq t items) = false → t ∈ S.considered → items.length = items'.length →
      (∀ i (h : i < items.length) (h' : i < items'.length), Becomes S items[i] items'[i]) → Becomes S (.seq t items) (.seq t items')
  | other {t : String} {items : List (Obj α)} : S.isOld (.seq t items) = false → t ∉ S.considered → Becomes S (.seq t items) (.seq t items)
  | atom {a : α} : S.isOld (.atom a) = false → Becomes S (.atom a) (.atom a)

end ZQ.Compat
