import Verif.Lemmas.SymOp
import Mathlib.Tactic.Ring
import Mathlib.Data.Fintype.Basic
import Mathlib.LinearAlgebra.Matrix.Notation

/-! Lemmas about Pauli strings. -/

namespace ZQ.Op

open PyDict

theorem atQubit_apply (M : Matrix Bool Bool ℂ) (q : ℕ) (ψ : State) (s : ℕ → Bool) :
    atQubit M q ψ s = M (s q) false * ψ (Function.update s q false) + M (s q) true * ψ (Function.update s q true) := rfl

theorem atQubit_mul (M N : Matrix Bool Bool ℂ) (q : ℕ) : atQubit (M * N) q = atQubit M q * atQubit N q := by
  apply LinearMap.ext; intro ψ; funext s
  rw [Module.End.mul_apply, atQubit_apply, atQubit_apply, atQubit_apply, atQubit_apply]
  simp only [Function.update_self, Function.update_idem, Matrix.mul_apply, Fintype.sum_bool]
  ring

theorem atQubit_one (q : ℕ) : atQubit 1 q = 1 := by
  apply LinearMap.ext; intro ψ; funext s
  rw [atQubit_apply, Module.End.one_apply]
  cases h : s q
  · rw [Matrix.one_apply_eq, Matrix.one_apply_ne (by simp), ← h, Function.update_eq_self]; ring
  · rw [Matrix.one_apply_eq, Matrix.one_apply_ne (by simp), ← h, Function.update_eq_self]; ring

theorem atQubit_smul (c : ℂ) (M : Matrix Bool Bool ℂ) (q : ℕ) : atQubit (c • M) q = c • atQubit M q := by
  apply LinearMap.ext; intro ψ; funext s
  rw [LinearMap.smul_apply, Pi.smul_apply, atQubit_apply, atQubit_apply]
  simp only [Matrix.smul_apply, smul_eq_mul]; ring

theorem atQubit_add (M N : Matrix Bool Bool ℂ) (q : ℕ) : atQubit (M + N) q = atQubit M q + atQubit N q := by
  apply LinearMap.ext; intro ψ; funext s
  rw [LinearMap.add_apply, Pi.add_apply, atQubit_apply, atQubit_apply, atQubit_apply]
  simp only [Matrix.add_apply]; ring

theorem atQubit_comm (M N : Matrix Bool Bool ℂ) {p q : ℕ} (h : p ≠ q) : atQubit M p * atQubit N q = atQubit N q * atQubit M p := by
  apply LinearMap.ext; intro ψ; funext s
  rw [Module.End.mul_apply, Module.End.mul_apply]
  simp only [atQubit_apply, Function.update_of_ne h, Function.update_of_ne h.symm, Function.update_comm h]
  ring

theorem letter_product (a b : Letter) :
    letterMatrix a * letterMatrix b = (pauliProduct a b).1 • letterMatrix (pauliProduct a b).2 := by
  ext i j
  rw [Matrix.mul_apply, Fintype.sum_bool]
  cases a <;> cases b <;> cases i <;> cases j <;>
    simp [letterMatrix, pauliProduct, pauliX, pauliY, pauliZ, Matrix.one_apply]

theorem pauliAction_same (q : ℕ) (a b : Letter) :
    pauliAction (q, a) * pauliAction (q, b) = (pauliProduct a b).1 • pauliAction (q, (pauliProduct a b).2) := by
  rw [pauliAction, pauliAction, pauliAction, ← atQubit_mul, letter_product, atQubit_smul]

theorem pauliAction_comm {f g : ℕ × Letter} (h : f.1 ≠ g.1) : pauliAction f * pauliAction g = pauliAction g * pauliAction f :=
  atQubit_comm _ _ h

theorem pauliAction_I (q : ℕ) : pauliAction (q, .I) = 1 := atQubit_one q

theorem pauliAction_sq (f : ℕ × Letter) : pauliAction f * pauliAction f = 1 := by
  obtain ⟨q, a⟩ := f
  rw [pauliAction_same]
  cases a <;> simp [pauliProduct, pauliAction_I]

/-! ### sorting -/

theorem termAction_orderedInsert {A : Type} (ev : ℕ × A → Module.End ℂ State)
    (hc : ∀ f g : ℕ × A, f.1 ≠ g.1 → ev f * ev g = ev g * ev f) (f : ℕ × A) (t : Term A) :
    termAction ev (t.orderedInsert (fun a b => a.1 ≤ b.1) f) = ev f * termAction ev t := by
  induction t with
  | nil => rfl
  | cons g t ih =>
    rw [List.orderedInsert_cons]
    by_cases h : f.1 ≤ g.1
    · rw [if_pos h, termAction_cons]
    · rw [if_neg h, termAction_cons, ih, termAction_cons, ← mul_assoc, ← mul_assoc, hc g f (fun e => h (le_of_eq e.symm))]

theorem termAction_sortByIndex {A : Type} (ev : ℕ × A → Module.End ℂ State)
    (hc : ∀ f g : ℕ × A, f.1 ≠ g.1 → ev f * ev g = ev g * ev f) (t : Term A) :
    termAction ev (sortByIndex t) = termAction ev t := by
  induction t with
  | nil => rfl
  | cons f t ih =>
    show termAction ev ((sortByIndex t).orderedInsert (fun a b => a.1 ≤ b.1) f) = _
    rw [termAction_orderedInsert ev hc, ih, termAction_cons]

theorem sorted_sortByIndex {A : Type} (t : Term A) : (sortByIndex t).Pairwise (fun a b => a.1 ≤ b.1) := by
  haveI : Std.Total (fun a b : ℕ × A => a.1 ≤ b.1) := ⟨fun a b => le_total a.1 b.1⟩
  haveI : IsTrans (ℕ × A) (fun a b => a.1 ≤ b.1) := ⟨fun a b c h1 h2 => le_trans h1 h2⟩
  exact List.pairwise_insertionSort _ t

theorem perm_sortByIndex {A : Type} (t : Term A) : (sortByIndex t).Perm t := List.perm_insertionSort _ t

/-! ### the simplification loop -/

theorem simplifyLoop_sound (left : ℕ × Letter) (rest : Term Letter) (c : ℂ) (acc : Term Letter) :
    (simplifyLoop left rest c acc).1 • termAction pauliAction (simplifyLoop left rest c acc).2
      = c • (termAction pauliAction acc * (pauliAction left * termAction pauliAction rest)) := by
  have push : ∀ (acc : Term Letter) (f : ℕ × Letter),
      termAction pauliAction (if f.2 ≠ .I then acc ++ [f] else acc) = termAction pauliAction acc * pauliAction f := by
    intro acc f
    by_cases h : f.2 ≠ .I
    · rw [if_pos h, termAction_append, termAction_cons, termAction_nil, mul_one]
    · rw [if_neg h]
      push Not at h
      obtain ⟨q, a⟩ := f
      subst h
      rw [pauliAction_I, mul_one]
  induction rest generalizing left c acc with
  | nil => rw [simplifyLoop, termAction_nil, mul_one]; dsimp only; rw [push]
  | cons right rest ih =>
    rw [simplifyLoop]
    by_cases h : left.1 = right.1
    · rw [if_pos h, ih, termAction_cons, ← mul_assoc (pauliAction left)]
      obtain ⟨q, a⟩ := left
      obtain ⟨q', b⟩ := right
      dsimp only at h ⊢
      subst h
      rw [pauliAction_same, smul_mul_assoc, mul_smul_comm, smul_smul]
    · rw [if_neg h, ih, push, termAction_cons, mul_assoc]

theorem qubit_sound : Sound pauliAction qubit (fun _ => True) := by
  intro t c _
  show (qubitSimplify t c).1 • termAction pauliAction (qubitSimplify t c).2 = _
  rw [← termAction_sortByIndex pauliAction (fun f g h => pauliAction_comm h) t, qubitSimplify]
  cases sortByIndex t with
  | nil => rfl
  | cons f rest => dsimp only; rw [simplifyLoop_sound, termAction_nil, one_mul, termAction_cons]

theorem simplifyLoop_canonical (left : ℕ × Letter) (rest : Term Letter) (c : ℂ) (acc : Term Letter)
    (hs : (left :: rest).Pairwise (fun a b => a.1 ≤ b.1)) (hacc : Canonical acc) (hlt : ∀ f ∈ acc, f.1 < left.1) :
    Canonical (simplifyLoop left rest c acc).2 := by
  have push : ∀ (acc : Term Letter) (f : ℕ × Letter), Canonical acc → (∀ g ∈ acc, g.1 < f.1) →
      Canonical (if f.2 ≠ .I then acc ++ [f] else acc) := by
    intro acc f h1 h2
    by_cases h : f.2 ≠ .I
    · rw [if_pos h]
      refine ⟨?_, ?_⟩
      · rw [List.map_append, List.pairwise_append]
        refine ⟨h1.1, by simp, ?_⟩
        intro x hx y hy
        obtain ⟨g, hg, rfl⟩ := List.mem_map.1 hx
        simp at hy; subst hy
        exact h2 g hg
      · intro g hg
        rcases List.mem_append.1 hg with hg | hg
        · exact h1.2 g hg
        · rw [List.mem_singleton.1 hg]; exact h
    · rw [if_neg h]; exact h1
  induction rest generalizing left c acc with
  | nil => rw [simplifyLoop]; exact push acc left hacc hlt
  | cons right rest ih =>
    rw [simplifyLoop]
    have hp := List.pairwise_cons.1 hs
    by_cases h : left.1 = right.1
    · rw [if_pos h]
      refine ih _ _ _ ?_ hacc hlt
      rw [List.pairwise_cons]
      exact ⟨fun a ha => hp.1 a (List.mem_cons_of_mem _ ha), (List.pairwise_cons.1 hp.2).2⟩
    · rw [if_neg h]
      have hlr : left.1 < right.1 := lt_of_le_of_ne (hp.1 right (List.mem_cons_self ..)) h
      refine ih _ _ _ hp.2 (push acc left hacc hlt) ?_
      intro f hf
      by_cases hl : left.2 ≠ .I
      · rw [if_pos hl] at hf
        rcases List.mem_append.1 hf with hf | hf
        · exact lt_trans (hlt f hf) hlr
        · rw [List.mem_singleton.1 hf]; exact hlr
      · rw [if_neg hl] at hf
        exact lt_trans (hlt f hf) hlr

theorem canonical_nil : Canonical [] := ⟨List.Pairwise.nil, fun _ h => by simp at h⟩

theorem qubitSimplify_canonical (t : Term Letter) (c : ℂ) : Canonical (qubitSimplify t c).2 := by
  rw [qubitSimplify]
  have hs := sorted_sortByIndex t
  cases h : sortByIndex t with
  | nil => exact canonical_nil
  | cons f rest =>
    rw [h] at hs
    exact simplifyLoop_canonical f rest c [] hs canonical_nil (fun _ h => by simp at h)

theorem sortByIndex_eq_self {A : Type} {t : Term A} (h : (t.map Prod.fst).Pairwise (· < ·)) : sortByIndex t = t := by
  haveI : Std.Total (fun a b : ℕ × A => a.1 ≤ b.1) := ⟨fun a b => le_total a.1 b.1⟩
  haveI : IsTrans (ℕ × A) (fun a b => a.1 ≤ b.1) := ⟨fun a b c h1 h2 => le_trans h1 h2⟩
  rw [List.pairwise_map] at h
  exact List.Pairwise.insertionSort_eq (h.imp (fun h => le_of_lt h))

/-- Canonical strings are left unchanged. -/
theorem qubitSimplify_of_canonical {t : Term Letter} (h : Canonical t) (c : ℂ) : qubitSimplify t c = (c, t) := by
  have loop : ∀ (rest : Term Letter) (left : ℕ × Letter) (acc : Term Letter), Canonical (left :: rest) →
      simplifyLoop left rest c acc = (c, acc ++ left :: rest) := by
    intro rest
    induction rest with
    | nil =>
      intro left acc h
      rw [simplifyLoop, if_pos (h.2 left (List.mem_cons_self ..))]
    | cons right rest ih =>
      intro left acc h
      have hp := List.pairwise_cons.1 h.1
      have hne : left.1 ≠ right.1 := ne_of_lt (hp.1 _ (by simp))
      rw [simplifyLoop, if_neg hne, if_pos (h.2 left (List.mem_cons_self ..)),
        ih right _ ⟨hp.2, fun f hf => h.2 f (List.mem_cons_of_mem _ hf)⟩, List.append_assoc]
      rfl
  rw [qubitSimplify, sortByIndex_eq_self h.1]
  cases t with
  | nil => rfl
  | cons f rest => dsimp only; rw [loop rest f [] h]; rfl

end ZQ.Op
