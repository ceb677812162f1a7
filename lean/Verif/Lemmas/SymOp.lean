import Verif.Spec.Operators
import Verif.Lemmas.PyDict
import Mathlib.Tactic.Abel
import Mathlib.Tactic.Ring
import Mathlib.Tactic.FieldSimp
import Mathlib.Tactic.NoncommRing
import Mathlib.Algebra.Algebra.Bilinear

/-! Lemmas about symbolic operators: dictionaries, coefficients, actions. -/

namespace ZQ

namespace PyDict
variable {α β : Type} [DecidableEq α]

theorem keys_del (d : PyDict α β) (k : α) : keys (del d k) = (keys d).erase k := by
  induction d with
  | nil => rfl
  | cons p d ih =>
    obtain ⟨k', v'⟩ := p
    rw [del]
    by_cases h : k' = k
    · rw [if_pos h]; simp [keys, h]
    · rw [if_neg h]
      show k' :: keys (del d k) = (k' :: keys d).erase k
      rw [ih, List.erase_cons_tail (by simpa using h)]

theorem nodup_del {d : PyDict α β} (hd : (keys d).Nodup) (k : α) : (keys (del d k)).Nodup := by
  rw [keys_del]; exact hd.erase k

theorem get?_del {d : PyDict α β} (hd : (keys d).Nodup) (k k' : α) :
    get? (del d k) k' = if k = k' then none else get? d k' := by
  induction d with
  | nil => simp [del, get?]
  | cons p d ih =>
    obtain ⟨a, v⟩ := p
    have hd' : (keys d).Nodup := (List.nodup_cons.1 hd).2
    have hna : a ∉ keys d := (List.nodup_cons.1 hd).1
    rw [del]
    by_cases h : a = k
    · rw [if_pos h]
      by_cases hk : k = k'
      · rw [if_pos hk, get?_eq_none_iff, ← hk, ← h]; exact hna
      · rw [if_neg hk, get?, if_neg (by rw [h]; exact hk)]
    · rw [if_neg h, get?, get?, ih hd']
      by_cases h2 : a = k'
      · rw [if_pos h2, if_pos h2, if_neg (by rw [← h2]; exact fun e => h e.symm)]
      · rw [if_neg h2, if_neg h2]

theorem mem_keys_del' {d : PyDict α β} (hd : (keys d).Nodup) (k k' : α) : k' ∈ keys (del d k) ↔ k' ≠ k ∧ k' ∈ keys d := by
  rw [keys_del, List.Nodup.mem_erase_iff hd]

theorem del_set_of_not_mem {d : PyDict α β} {k : α} (h : k ∉ keys d) (v : β) : del (set d k v) k = d := by
  induction d with
  | nil => rw [set]; simp [del]
  | cons p d ih =>
    obtain ⟨a, w⟩ := p
    have h1 : a ≠ k := fun e => h (by simp [keys, e])
    have h2 : k ∉ keys d := fun e => h (by simp [keys] at e ⊢; exact Or.inr e)
    rw [set, if_neg h1, del, if_neg h1, ih h2]

end PyDict

namespace Op

open PyDict

variable {A : Type} [DecidableEq A]

theorem wf_nil : WF ([] : Terms A) := List.nodup_nil

theorem WF.set {o : Terms A} (h : WF o) (t : Term A) (c : ℂ) : WF (PyDict.set o t c) := nodup_set h t c

theorem WF.del {o : Terms A} (h : WF o) (t : Term A) : WF (PyDict.del o t) := nodup_del h t

theorem coeff_set (o : Terms A) (t t' : Term A) (c : ℂ) : coeff (PyDict.set o t c) t' = if t = t' then c else coeff o t' := by
  rw [coeff, get?_set]; split <;> rfl

theorem coeff_del {o : Terms A} (h : WF o) (t t' : Term A) : coeff (PyDict.del o t) t' = if t = t' then 0 else coeff o t' := by
  rw [coeff, get?_del h]; split <;> rfl

theorem coeff_of_not_mem {o : Terms A} {t : Term A} (h : t ∉ keys o) : coeff o t = 0 := by
  rw [coeff, (get?_eq_none_iff o t).2 h]; rfl

theorem coeff_of_mem {o : Terms A} (ho : WF o) {t : Term A} {c : ℂ} (h : (t, c) ∈ o) : coeff o t = c := by
  rw [coeff, get?_of_mem ho h]; rfl

theorem coeff_cons (t t' : Term A) (c : ℂ) (o : Terms A) : coeff ((t, c) :: o) t' = if t = t' then c else coeff o t' := by
  rw [coeff, get?]; split <;> rfl

theorem mem_keys_set (o : Terms A) (t t' : Term A) (c : ℂ) : t' ∈ keys (PyDict.set o t c) ↔ t' = t ∨ t' ∈ keys o := by
  rw [keys_set]; split
  · constructor
    · exact Or.inr
    · rintro (rfl | h)
      · assumption
      · exact h
  · rw [List.mem_append, List.mem_singleton, or_comm]

theorem mem_keys_del {o : Terms A} (h : WF o) (t t' : Term A) : t' ∈ keys (PyDict.del o t) ↔ t' ≠ t ∧ t' ∈ keys o := by
  exact PyDict.mem_keys_del' h t t'

theorem accum_eq (res : Terms A) (t : Term A) (c : ℂ) : accum res t c = PyDict.set res t (coeff res t + c) := by
  rw [accum, coeff]
  cases get? res t <;> simp

theorem wf_accum {res : Terms A} (h : WF res) (t : Term A) (c : ℂ) : WF (accum res t c) := h.set _ _

theorem coeff_accum (res : Terms A) (t t' : Term A) (c : ℂ) :
    coeff (accum res t c) t' = coeff res t' + if t = t' then c else 0 := by
  rw [accum_eq, coeff_set]; split
  · next h => rw [h]
  · rw [add_zero]

/-- Sum of a function linear in the coefficients, over the items. -/
theorem sum_set {M : Type} [AddCommGroup M] [Module ℂ M] (f : Term A → M) (o : Terms A) (t : Term A) (c : ℂ) :
    ((PyDict.set o t c).map fun kv => kv.2 • f kv.1).sum = (o.map fun kv => kv.2 • f kv.1).sum + (c - coeff o t) • f t := by
  induction o with
  | nil => simp [PyDict.set, coeff, get?]
  | cons p o ih =>
    obtain ⟨k, v⟩ := p
    rw [PyDict.set, coeff_cons]
    by_cases h : k = t
    · rw [if_pos h, if_pos h]
      simp only [List.map_cons, List.sum_cons, h, sub_smul]
      abel
    · rw [if_neg h, if_neg h]
      simp only [List.map_cons, List.sum_cons, ih]
      abel

theorem sum_accum {M : Type} [AddCommGroup M] [Module ℂ M] (f : Term A → M) (o : Terms A) (t : Term A) (c : ℂ) :
    ((accum o t c).map fun kv => kv.2 • f kv.1).sum = (o.map fun kv => kv.2 • f kv.1).sum + c • f t := by
  rw [accum_eq, sum_set]; congr 2; ring

/-- A finitely supported sum: two dictionaries with the same coefficients have the same linear combinations. -/
theorem sum_eq_of_coeff {M : Type} [AddCommGroup M] [Module ℂ M] (f : Term A → M) {o o' : Terms A} (h : WF o) (h' : WF o')
    (hc : ∀ t, coeff o t = coeff o' t) :
    (o.map fun kv => kv.2 • f kv.1).sum = (o'.map fun kv => kv.2 • f kv.1).sum := by
  have key : ∀ (o : Terms A), WF o → ∀ S : Finset (Term A), (∀ t ∈ keys o, t ∈ S) →
      (o.map fun kv => kv.2 • f kv.1).sum = ∑ t ∈ S, coeff o t • f t := by
    intro o ho S hS
    have h1 : ∑ t ∈ S, coeff o t • f t = ∑ t ∈ (keys o).toFinset, coeff o t • f t := by
      symm
      apply Finset.sum_subset
      · intro t ht; exact hS t (List.mem_toFinset.1 ht)
      · intro t _ ht
        rw [coeff_of_not_mem (fun h => ht (List.mem_toFinset.2 h)), zero_smul]
    rw [h1, List.sum_toFinset _ ho, keys, List.map_map]
    congr 1
    apply List.map_congr_left
    intro kv hkv
    show kv.2 • f kv.1 = coeff o kv.1 • f kv.1
    rw [coeff_of_mem ho (show (kv.1, kv.2) ∈ o from hkv)]
  classical
  rw [key o h ((keys o).toFinset ∪ (keys o').toFinset) (fun t ht => Finset.mem_union_left _ (List.mem_toFinset.2 ht)),
    key o' h' ((keys o).toFinset ∪ (keys o').toFinset) (fun t ht => Finset.mem_union_right _ (List.mem_toFinset.2 ht))]
  exact Finset.sum_congr rfl fun t _ => by rw [hc]

/-! ### add and sub -/

theorem addStep_spec {a : Terms A} (h : WF a) (kv : Term A × ℂ) (hsmall : Prop) [Decidable hsmall] (hs : hsmall ↔ IsSmall (coeff a kv.1 + kv.2) eqTol) :
    WF (addStep a kv) ∧
    (∀ t, coeff (addStep a kv) t = if t = kv.1 then (if hsmall then 0 else coeff a kv.1 + kv.2) else coeff a t) ∧
    (∀ t, t ∈ keys (addStep a kv) ↔ (t = kv.1 ∧ ¬ hsmall) ∨ (t ≠ kv.1 ∧ t ∈ keys a)) := by
  rw [addStep]
  by_cases hsm : IsSmall (coeff a kv.1 + kv.2) eqTol
  · rw [if_pos hsm, if_pos (hs.2 hsm)]
    refine ⟨(h.set _ _).del _, fun t => ?_, fun t => ?_⟩
    · rw [coeff_del (h.set _ _), coeff_set]
      by_cases ht : t = kv.1
      · rw [if_pos ht, if_pos ht.symm]
      · rw [if_neg ht, if_neg (Ne.symm ht), if_neg (Ne.symm ht)]
    · rw [mem_keys_del (h.set _ _), mem_keys_set]
      have := hs.2 hsm
      tauto
  · rw [if_neg hsm, if_neg (fun e => hsm (hs.1 e))]
    refine ⟨h.set _ _, fun t => ?_, fun t => ?_⟩
    · rw [coeff_set]
      by_cases ht : t = kv.1
      · rw [if_pos ht, if_pos ht.symm]
      · rw [if_neg ht, if_neg (Ne.symm ht)]
    · rw [mem_keys_set]
      have : ¬ hsmall := fun e => hsm (hs.1 e)
      tauto

theorem subStep_eq (a : Terms A) (kv : Term A × ℂ) : subStep a kv = addStep a (kv.1, -kv.2) := by
  rw [subStep, addStep, sub_eq_add_neg]

theorem neg_eq (b : Terms A) : neg b = b.map fun kv => (kv.1, -kv.2) := by
  rw [neg, smul]; apply List.map_congr_left; intro kv _; rw [mul_neg, mul_one]

theorem sub_eq (a b : Terms A) : sub a b = add a (neg b) := by
  rw [sub, add, neg_eq, List.foldl_map]
  have : (subStep : Terms A → _ → _) = fun a kv => addStep a (kv.1, -kv.2) := by funext x y; exact subStep_eq x y
  rw [this]

theorem keys_smul (o : Terms A) (c : ℂ) : keys (smul o c) = keys o := by
  rw [keys, keys, smul, List.map_map]; rfl

theorem coeff_smul (o : Terms A) (c : ℂ) (t : Term A) : coeff (smul o c) t = coeff o t * c := by
  induction o with
  | nil => simp [smul, coeff, get?]
  | cons p o ih =>
    obtain ⟨k, v⟩ := p
    show coeff ((k, v * c) :: smul o c) t = _
    rw [coeff_cons, coeff_cons, ih]; split <;> rfl

theorem add_coeff {a b : Terms A} (ha : WF a) (hb : WF b) :
    WF (add a b) ∧
    (∀ t, coeff (add a b) t = if t ∈ keys b then (if IsSmall (coeff a t + coeff b t) eqTol then 0 else coeff a t + coeff b t) else coeff a t) ∧
    (∀ t, t ∈ keys (add a b) ↔ (t ∈ keys b ∧ ¬ IsSmall (coeff a t + coeff b t) eqTol) ∨ (t ∉ keys b ∧ t ∈ keys a)) := by
  induction b generalizing a with
  | nil =>
    refine ⟨ha, fun t => ?_, fun t => ?_⟩
    · rw [if_neg (by simp [keys])]; rfl
    · simp [keys, add]
  | cons p b ih =>
    obtain ⟨k, v⟩ := p
    have hb' : WF b := (List.nodup_cons.1 hb).2
    have hk : k ∉ keys b := (List.nodup_cons.1 hb).1
    obtain ⟨s1, s2, s3⟩ := addStep_spec ha (k, v) _ Iff.rfl
    obtain ⟨r1, r2, r3⟩ := ih s1 hb'
    have hmem : ∀ t, t ∈ keys ((k, v) :: b) ↔ t = k ∨ t ∈ keys b := fun t => by simp [keys]
    show WF (add (addStep a (k, v)) b) ∧ (∀ t, coeff (add (addStep a (k, v)) b) t = _) ∧
      (∀ t, t ∈ keys (add (addStep a (k, v)) b) ↔ _)
    refine ⟨r1, fun t => ?_, fun t => ?_⟩
    · rw [r2, s2, coeff_cons]
      by_cases ht : t = k
      · subst ht
        rw [if_neg hk, if_pos rfl, if_pos ((hmem t).2 (Or.inl rfl)), if_pos rfl]
      · rw [if_neg ht, if_neg (Ne.symm ht)]
        by_cases htb : t ∈ keys b
        · rw [if_pos htb, if_pos ((hmem t).2 (Or.inr htb))]
        · rw [if_neg htb, if_neg (fun e => ((hmem t).1 e).elim ht htb)]
    · rw [r3, s3, s2, coeff_cons, hmem]
      by_cases ht : t = k
      · subst ht
        rw [if_pos rfl, if_pos rfl]
        tauto
      · rw [if_neg ht, if_neg (Ne.symm ht)]
        tauto

/-! ### actions -/

section
variable (ev : ℕ × A → Module.End ℂ State)

theorem termAction_append {A : Type} (ev : ℕ × A → Module.End ℂ State) (s t : Term A) :
    termAction ev (s ++ t) = termAction ev s * termAction ev t := by
  rw [termAction, List.map_append, List.prod_append]; rfl

theorem termAction_cons {A : Type} (ev : ℕ × A → Module.End ℂ State) (f : ℕ × A) (t : Term A) :
    termAction ev (f :: t) = ev f * termAction ev t := by rw [termAction, List.map_cons, List.prod_cons]; rfl

@[simp] theorem termAction_nil {A : Type} (ev : ℕ × A → Module.End ℂ State) : termAction ev [] = 1 := rfl

theorem action_nil : action ev [] = 0 := rfl

theorem action_cons (t : Term A) (c : ℂ) (o : Terms A) : action ev ((t, c) :: o) = c • termAction ev t + action ev o := by
  rw [action, List.map_cons, List.sum_cons]; rfl

theorem action_accum (o : Terms A) (t : Term A) (c : ℂ) : action ev (accum o t c) = action ev o + c • termAction ev t :=
  sum_accum (termAction ev) o t c

theorem action_smul (o : Terms A) (c : ℂ) : action ev (smul o c) = c • action ev o := by
  induction o with
  | nil => rw [show smul ([] : Terms A) c = [] from rfl, action_nil, smul_zero]
  | cons p o ih =>
    obtain ⟨k, v⟩ := p
    show action ev ((k, v * c) :: smul o c) = _
    rw [action_cons, ih, action_cons, smul_add, smul_smul, mul_comm c v]

/-- Class `S` is sound for the action `ev` on terms satisfying `P`. -/
def Sound (S : OpClass A) (P : Term A → Prop) : Prop :=
  ∀ t c, P t → (S.simplify t c).1 • termAction ev (S.simplify t c).2 = c • termAction ev t

theorem action_mulRow {S : OpClass A} {P : Term A → Prop} (hS : Sound ev S P) (l : Term A × ℂ) (b res : Terms A)
    (hP : ∀ r ∈ b, P (l.1 ++ r.1)) :
    action ev (mulRow S l b res) = action ev res + (l.2 • termAction ev l.1) * action ev b := by
  induction b generalizing res with
  | nil => rw [action_nil, mul_zero, add_zero]; rfl
  | cons r b ih =>
    show action ev (mulRow S l b (accum res _ _)) = _
    rw [ih _ (fun r' h => hP r' (List.mem_cons_of_mem _ h)), action_accum, hS _ _ (hP r (List.mem_cons_self ..)), termAction_append,
      show (r :: b) = ((r.1, r.2) :: b) from rfl, action_cons, mul_add, smul_mul_assoc, mul_smul_comm, smul_mul_assoc, smul_smul, add_assoc,
      mul_comm r.2]

theorem action_mul {S : OpClass A} {P : Term A → Prop} (hS : Sound ev S P) (a b : Terms A)
    (hP : ∀ l ∈ a, ∀ r ∈ b, P (l.1 ++ r.1)) : action ev (mul S a b) = action ev a * action ev b := by
  have key : ∀ (a res : Terms A), (∀ l ∈ a, ∀ r ∈ b, P (l.1 ++ r.1)) →
      action ev (a.foldl (fun res l => mulRow S l b res) res) = action ev res + action ev a * action ev b := by
    intro a
    induction a with
    | nil => intro res _; rw [action_nil, zero_mul, add_zero]; rfl
    | cons l a ih =>
      intro res h
      rw [List.foldl_cons, ih _ (fun l' h' => h l' (List.mem_cons_of_mem _ h')),
        action_mulRow ev hS l b res (h l (List.mem_cons_self ..)),
        show (l :: a) = ((l.1, l.2) :: a) from rfl, action_cons, add_mul, add_assoc]
  rw [mul, key a [] hP, action_nil, zero_add]

theorem action_eq_of_coeff {o o' : Terms A} (h : WF o) (h' : WF o') (hc : ∀ t, coeff o t = coeff o' t) :
    action ev o = action ev o' := sum_eq_of_coeff (termAction ev) h h' hc

end

theorem wf_mulRow (S : OpClass A) (l : Term A × ℂ) (b res : Terms A) (h : WF res) : WF (mulRow S l b res) := by
  induction b generalizing res with
  | nil => exact h
  | cons r b ih => exact ih _ (wf_accum h _ _)

theorem wf_mul (S : OpClass A) (a b : Terms A) : WF (mul S a b) := by
  have key : ∀ (a res : Terms A), WF res → WF (a.foldl (fun res l => mulRow S l b res) res) := by
    intro a
    induction a with
    | nil => intro res h; exact h
    | cons l a ih => intro res h; exact ih _ (wf_mulRow S l b res h)
  exact key a [] wf_nil

theorem mem_keys_accum (res : Terms A) (t t' : Term A) (c : ℂ) : t' ∈ keys (accum res t c) ↔ t' = t ∨ t' ∈ keys res := by
  rw [accum_eq, mem_keys_set]

theorem mem_keys_mulRow (S : OpClass A) (l : Term A × ℂ) (b res : Terms A) (t : Term A) :
    t ∈ keys (mulRow S l b res) ↔ t ∈ keys res ∨ ∃ r ∈ b, (S.simplify (l.1 ++ r.1) (l.2 * r.2)).2 = t := by
  induction b generalizing res with
  | nil => simp [mulRow]
  | cons r b ih =>
    show t ∈ keys (mulRow S l b (accum res _ _)) ↔ _
    rw [ih, mem_keys_accum]
    simp only [List.mem_cons, exists_eq_or_imp]
    constructor
    · rintro ((h | h) | h)
      · exact Or.inr (Or.inl h.symm)
      · exact Or.inl h
      · exact Or.inr (Or.inr h)
    · rintro (h | h | h)
      · exact Or.inl (Or.inr h)
      · exact Or.inl (Or.inl h.symm)
      · exact Or.inr h

theorem mem_keys_mul (S : OpClass A) (a b : Terms A) (t : Term A) :
    t ∈ keys (mul S a b) ↔ ∃ l ∈ a, ∃ r ∈ b, (S.simplify (l.1 ++ r.1) (l.2 * r.2)).2 = t := by
  have key : ∀ (a res : Terms A), t ∈ keys (a.foldl (fun res l => mulRow S l b res) res) ↔
      t ∈ keys res ∨ ∃ l ∈ a, ∃ r ∈ b, (S.simplify (l.1 ++ r.1) (l.2 * r.2)).2 = t := by
    intro a
    induction a with
    | nil => intro res; simp
    | cons l a ih =>
      intro res
      rw [List.foldl_cons, ih, mem_keys_mulRow, or_assoc]
      simp only [List.mem_cons, exists_eq_or_imp]
  rw [mul, key]; simp [keys]

end Op

end ZQ
