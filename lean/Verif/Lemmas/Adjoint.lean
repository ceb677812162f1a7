import Verif.Spec.Adjoint
import Verif.Lemmas.Fermion
import Verif.Model.Fermion

namespace ZQ.Op

open PyDict

theorem basisState_self (s : ℕ → Bool) : basisState s s = 1 := if_pos rfl
theorem basisState_ne {s s' : ℕ → Bool} (h : s' ≠ s) : basisState s s' = 0 := if_neg h

theorem RowFinite.zero : RowFinite 0 := fun s => ⟨∅, 0, fun ψ => by simp⟩
theorem RowFinite.one : RowFinite 1 := fun s => ⟨{s}, 1, fun ψ => by simp⟩

theorem RowFinite.add {A B} (ha : RowFinite A) (hb : RowFinite B) : RowFinite (A + B) := by
  classical
  intro s
  obtain ⟨S, w, hw⟩ := ha s
  obtain ⟨T, v, hv⟩ := hb s
  refine ⟨S ∪ T, fun x => (if x ∈ S then w x else 0) + (if x ∈ T then v x else 0), fun ψ => ?_⟩
  rw [LinearMap.add_apply, Pi.add_apply, hw, hv]
  simp only [add_mul, Finset.sum_add_distrib, ite_mul, zero_mul, Finset.sum_ite_mem]
  rw [Finset.inter_eq_right.2 Finset.subset_union_left, Finset.inter_eq_right.2 Finset.subset_union_right]

theorem RowFinite.smul {A} (c : ℂ) (ha : RowFinite A) : RowFinite (c • A) := by
  intro s
  obtain ⟨S, w, hw⟩ := ha s
  refine ⟨S, fun x => c * w x, fun ψ => ?_⟩
  rw [LinearMap.smul_apply, Pi.smul_apply, hw, smul_eq_mul, Finset.mul_sum]
  exact Finset.sum_congr rfl fun x _ => by ring

theorem RowFinite.mul {A B} (ha : RowFinite A) (hb : RowFinite B) : RowFinite (A * B) := by
  classical
  intro s
  obtain ⟨S, w, hw⟩ := ha s
  choose T v hv using hb
  refine ⟨S.biUnion T, fun x => ∑ r ∈ S, if x ∈ T r then w r * v r x else 0, fun ψ => ?_⟩
  rw [Module.End.mul_apply, hw]
  simp only [hv, Finset.mul_sum, Finset.sum_mul, ite_mul, zero_mul]
  rw [Finset.sum_comm]
  refine Finset.sum_congr rfl fun r hr => ?_
  rw [Finset.sum_ite_mem, Finset.inter_eq_right.2 (Finset.subset_biUnion_of_mem T hr)]
  exact Finset.sum_congr rfl fun x _ => by ring

/-- A row-finite operator is determined by its matrix. -/
theorem RowFinite.row {A} (ha : RowFinite A) (s : ℕ → Bool) :
    ∃ S : Finset (ℕ → Bool), (∀ x ∉ S, A (basisState x) s = 0) ∧ ∀ T, S ⊆ T → ∀ ψ : State, A ψ s = ∑ x ∈ T, A (basisState x) s * ψ x := by
  classical
  obtain ⟨S, w, hw⟩ := ha s
  have h1 : ∀ x, A (basisState x) s = if x ∈ S then w x else 0 := by
    intro x
    rw [hw]
    have : ∀ y ∈ S, w y * basisState x y = if y = x then w x else 0 := by
      intro y _
      by_cases e : y = x
      · subst e; rw [basisState_self, if_pos rfl, mul_one]
      · rw [basisState_ne e, if_neg e, mul_zero]
    rw [Finset.sum_congr rfl this, Finset.sum_ite_eq']
  refine ⟨S, fun x hx => by rw [h1, if_neg hx], fun T hT ψ => ?_⟩
  rw [hw]
  simp only [h1, ite_mul, zero_mul, Finset.sum_ite_mem]
  rw [Finset.inter_eq_right.2 hT]

theorem RowFinite.ext {A B} (ha : RowFinite A) (hb : RowFinite B) (h : ∀ s s', A (basisState s) s' = B (basisState s) s') : A = B := by
  classical
  apply LinearMap.ext; intro ψ; funext s
  obtain ⟨S, _, hS⟩ := ha.row s
  obtain ⟨T, _, hT⟩ := hb.row s
  rw [hS (S ∪ T) Finset.subset_union_left ψ, hT (S ∪ T) Finset.subset_union_right ψ]
  exact Finset.sum_congr rfl fun x _ => by rw [h]

theorem IsAdjoint.unique {A B C} (hb : RowFinite B) (hc : RowFinite C) (h1 : IsAdjoint A B) (h2 : IsAdjoint A C) : B = C :=
  hb.ext hc fun s s' => by rw [h1, h2]

theorem IsAdjoint.symm {A B} (h : IsAdjoint A B) : IsAdjoint B A := fun s s' => by rw [h s' s, Complex.conj_conj]

theorem IsAdjoint.zero : IsAdjoint 0 0 := fun s s' => by simp
theorem IsAdjoint.one : IsAdjoint 1 1 := by
  intro s s'
  rw [Module.End.one_apply, Module.End.one_apply]
  by_cases h : s = s'
  · subst h; rw [basisState_self, map_one]
  · rw [basisState_ne h, basisState_ne (fun e => h e.symm), map_zero]

theorem IsAdjoint.add {A B A' B'} (h : IsAdjoint A B) (h' : IsAdjoint A' B') : IsAdjoint (A + A') (B + B') := fun s s' => by
  rw [LinearMap.add_apply, LinearMap.add_apply, Pi.add_apply, Pi.add_apply, map_add, h s s', h' s s']

theorem IsAdjoint.smul {A B} (c : ℂ) (h : IsAdjoint A B) : IsAdjoint (c • A) ((starRingEnd ℂ) c • B) := fun s s' => by
  rw [LinearMap.smul_apply, LinearMap.smul_apply, Pi.smul_apply, Pi.smul_apply, smul_eq_mul, smul_eq_mul, map_mul, h s s']

theorem IsAdjoint.mul {A B A' B'} (ha : RowFinite A) (hb' : RowFinite B') (h : IsAdjoint A B) (h' : IsAdjoint A' B') :
    IsAdjoint (A * A') (B' * B) := by
  classical
  intro s s'
  rw [Module.End.mul_apply, Module.End.mul_apply]
  obtain ⟨S, _, hS⟩ := ha.row s'
  obtain ⟨T, _, hT⟩ := hb'.row s
  rw [hS (S ∪ T) Finset.subset_union_left, hT (S ∪ T) Finset.subset_union_right, map_sum]
  refine Finset.sum_congr rfl fun x _ => ?_
  rw [map_mul, h' s x, h x s', mul_comm]

theorem rowFinite_atQubit (M : Matrix Bool Bool ℂ) (q : ℕ) : RowFinite (atQubit M q) := by
  classical
  intro s
  refine ⟨{Function.update s q false, Function.update s q true}, fun x => M (s q) (x q), fun ψ => ?_⟩
  rw [Finset.sum_pair, atQubit_apply]
  · simp only [Function.update_self]
  intro h
  have := congrFun h q
  rw [Function.update_self, Function.update_self] at this
  cases this

theorem rowFinite_ladder (f : ℕ × Bool) : RowFinite (ladderAction f) := by
  intro s
  refine ⟨{Function.update s f.1 (!f.2)}, fun _ => if s f.1 = f.2 then sgn s f.1 else 0, fun ψ => ?_⟩
  rw [Finset.sum_singleton, ladder_apply]
  split <;> simp

theorem rowFinite_term {A : Type} [DecidableEq A] (ev : ℕ × A → Module.End ℂ State) (h : ∀ f, RowFinite (ev f)) (t : Term A) : RowFinite (termAction ev t) := by
  induction t with
  | nil => rw [termAction_nil]; exact RowFinite.one
  | cons f t ih => rw [termAction_cons]; exact (h f).mul ih

theorem rowFinite_action {A : Type} [DecidableEq A] (ev : ℕ × A → Module.End ℂ State) (h : ∀ f, RowFinite (ev f)) (o : Terms A) : RowFinite (action ev o) := by
  induction o with
  | nil => rw [action_nil]; exact RowFinite.zero
  | cons kv o ih => obtain ⟨t, c⟩ := kv; rw [action_cons]; exact ((rowFinite_term ev h t).smul c).add ih

theorem isAdjoint_atQubit (M N : Matrix Bool Bool ℂ) (q : ℕ) (h : ∀ a b, N a b = (starRingEnd ℂ) (M b a)) : IsAdjoint (atQubit M q) (atQubit N q) := by
  intro s s'
  rw [atQubit_apply, atQubit_apply]
  by_cases hs : ∀ i, i ≠ q → s i = s' i
  · have e : ∀ v, (Function.update s q v = s' ↔ v = s' q) ∧ (Function.update s' q v = s ↔ v = s q) := by
      intro v
      constructor
      · constructor
        · intro h; rw [← h, Function.update_self]
        · rintro rfl; funext i; by_cases hi : i = q
          · subst hi; rw [Function.update_self]
          · rw [Function.update_of_ne hi, hs i hi]
      · constructor
        · intro h; rw [← h, Function.update_self]
        · rintro rfl; funext i; by_cases hi : i = q
          · subst hi; rw [Function.update_self]
          · rw [Function.update_of_ne hi, hs i hi]
    simp only [basisState, (e _).1, (e _).2, h]
    cases s q <;> cases s' q <;> simp
  · push Not at hs
    obtain ⟨i, hi, hne⟩ := hs
    have e1 : ∀ v, Function.update s q v ≠ s' := fun v h => hne (by rw [← h, Function.update_of_ne hi])
    have e2 : ∀ v, Function.update s' q v ≠ s := fun v h => hne (by rw [← h, Function.update_of_ne hi])
    simp only [basisState, if_neg (e1 _), if_neg (e2 _)]
    simp

theorem isAdjoint_pauli (f : ℕ × Letter) : IsAdjoint (pauliAction f) (pauliAction f) := by
  apply isAdjoint_atQubit
  intro a b
  obtain ⟨q, l⟩ := f
  cases l <;> cases a <;> cases b <;> simp [letterMatrix, pauliX, pauliY, pauliZ]

theorem isAdjoint_ladder (f : ℕ × Bool) : IsAdjoint (ladderAction f) (ladderAction (f.1, !f.2)) := by
  obtain ⟨p, b⟩ := f
  intro s s'
  rw [ladder_apply, ladder_apply]
  dsimp only
  have key : (s p = !b ∧ Function.update s p b = s') ↔ (s' p = b ∧ Function.update s' p (!b) = s) := by
    constructor
    · rintro ⟨h1, rfl⟩
      exact ⟨Function.update_self .., by rw [Function.update_idem, ← h1, Function.update_eq_self]⟩
    · rintro ⟨h1, rfl⟩
      exact ⟨Function.update_self .., by rw [Function.update_idem, ← h1, Function.update_eq_self]⟩
  by_cases h : s p = !b ∧ Function.update s p b = s'
  · have h' := key.1 h
    rw [if_pos h.1, if_pos h'.1, Bool.not_not, h.2, h'.2, basisState_self, basisState_self, mul_one, mul_one]
    have hs : sgn s' p = sgn s p := by
      rw [← h.2, sgn_update, if_neg (fun h => by omega)]
    rw [hs]
    have : (starRingEnd ℂ) (sgn s p) = sgn s p := by rw [sgn, map_pow, map_neg, map_one]
    exact this.symm
  · have h' : ¬ (s' p = b ∧ Function.update s' p (!b) = s) := fun x => h (key.2 x)
    have l0 : (if s p = !b then sgn s p * basisState s' (Function.update s p (! !b)) else 0) = 0 := by
      split
      · rename_i h1
        rw [Bool.not_not, basisState_ne (fun e => h ⟨h1, e⟩), mul_zero]
      · rfl
    have r0 : (if s' p = b then sgn s' p * basisState s (Function.update s' p (!b)) else 0) = 0 := by
      split
      · rename_i h1
        rw [basisState_ne (fun e => h' ⟨h1, e⟩), mul_zero]
      · rfl
    rw [l0, r0, map_zero]

end ZQ.Op
