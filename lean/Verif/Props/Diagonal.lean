import Verif.Props.PolyTensor
import Verif.Spec.Diagonal
import Verif.Model.Evaluate
import Verif.Lemmas.Fermion

/-! C62: the diagonal component of a tensor, and the value of an operator computed from expectation values. -/

namespace ZQ.PolyT

open ZQ ZQ.Op ZQ.PyDict
open scoped BigOperators

/-! ### Products of ladder operators change occupations by the balance of the product -/

theorem term_transition (t : Term Bool) : ∀ s s' : ℕ → Bool, termAction ladderAction t (basisState s) s' ≠ 0 →
    ∀ p, ((s' p).toNat : ℤ) - (s p).toNat = t.count (p, true) - t.count (p, false) := by
  induction t with
  | nil =>
    intro s s' h p
    have : basisState s s' ≠ 0 := h
    have hs : s' = s := by
      by_contra hc
      exact this (if_neg hc)
    rw [hs]; simp
  | cons f t ih =>
    intro s s' h p
    obtain ⟨q, b⟩ := f
    have e : termAction ladderAction ((q, b) :: t) (basisState s) s' = ladderAction (q, b) (termAction ladderAction t (basisState s)) s' := by
      rw [termAction, List.map_cons, List.prod_cons]; rfl
    rw [e, ladder_apply] at h
    by_cases hb : s' q = b
    · rw [if_pos hb] at h
      have hi := ih s _ (right_ne_zero_of_mul h) p
      by_cases hpq : p = q
      · subst hpq
        rw [Function.update_self] at hi
        rw [List.count_cons, List.count_cons, hb]
        cases b
        · have h1 : ((p, false) == (p, true)) = false := by simp
          have h2 : ((p, false) == (p, false)) = true := by simp
          rw [h1, h2]
          simp only [Bool.not_false, Bool.toNat_true, Bool.toNat_false] at hi ⊢
          push_cast at hi ⊢
          simp only [Bool.false_eq_true, if_false, if_true, add_zero]
          linarith
        · have h1 : ((p, true) == (p, true)) = true := by simp
          have h2 : ((p, true) == (p, false)) = false := by simp
          rw [h1, h2]
          simp only [Bool.not_true, Bool.toNat_true, Bool.toNat_false] at hi ⊢
          push_cast at hi ⊢
          simp only [Bool.false_eq_true, if_false, if_true, add_zero]
          linarith
      · rw [Function.update_of_ne hpq] at hi
        have h1 : ∀ c, ((q, b) == (p, c)) = false := fun c => by
          rw [beq_eq_false_iff_ne]
          intro hc
          exact hpq (Prod.mk.inj hc).1.symm
        rw [List.count_cons, List.count_cons, h1, h1]
        simpa using hi
    · exact absurd (if_neg hb) h

theorem balanced_diagonal {t : Term Bool} (h : Balanced t) : IsDiagonal (termAction ladderAction t) := by
  intro s s' hne
  by_contra hc
  refine hne (funext fun p => ?_)
  have := term_transition t s s' hc p
  rw [h p, sub_self] at this
  cases h1 : s p <;> cases h2 : s' p <;> simp [h1, h2] at this ⊢

theorem unbalanced_zero {t : Term Bool} (h : ¬ Balanced t) : ZeroDiagonal (termAction ladderAction t) := by
  intro s
  by_contra hc
  refine h fun p => ?_
  have := term_transition t s s hc p
  rw [sub_self] at this
  exact_mod_cast (sub_eq_zero.1 this.symm)

/-! ### The test of the code -/

theorem mem_filter_zip {b : Bool} {l : List (ℕ × Bool)} {p : ℕ} : ((l.filter fun f => f.2 == b).map Prod.fst).count p = l.count (p, b) := by
  induction l with
  | nil => rfl
  | cons f l ih =>
    obtain ⟨q, c⟩ := f
    rw [List.count_cons]
    by_cases hc : c = b
    · subst hc
      rw [List.filter_cons_of_pos (by simp), List.map_cons, List.count_cons, ih]
      by_cases hq : q = p
      · simp [hq]
      · simp [hq]
    · rw [List.filter_cons_of_neg (by simpa using hc), ih]
      simp [hc]

theorem all_counts {l m : List ℕ} : ((counter l).all fun kv => decide (get? (counter m) kv.1 = some kv.2)) = true ↔ ∀ p ∈ l, m.count p = l.count p := by
  rw [List.all_eq_true]
  constructor
  · intro h p hp
    have hg : get? (counter l) p = some (l.count p) := by rw [get?_counter, if_pos hp]
    have := of_decide_eq_true (h _ (mem_of_get? hg))
    rw [get?_counter] at this
    split at this
    · exact Option.some.inj this
    · cases this
  · rintro h ⟨p, c⟩ hk
    refine decide_eq_true ?_
    have hg := get?_of_mem (counter_nodup l) hk
    rw [get?_counter] at hg
    split at hg
    · next hp =>
      have hc := h p hp
      show get? (counter m) p = some c
      rw [get?_counter, if_pos, hc, Option.some.inj hg]
      rw [← List.count_pos_iff, hc]
      exact List.count_pos_iff.2 hp
    · cases hg

/-- The code's test by counting decides whether every mode is created as often as it is annihilated. -/
theorem termIsDiagonal_iff (key : Key) (idx : List ℕ) : termIsDiagonal key idx = true ↔ Balanced (idx.zip key) := by
  rw [termIsDiagonal, Bool.and_eq_true]
  show (((counter _).all fun kv => decide (get? (counter _) kv.1 = some kv.2)) = true ∧ ((counter _).all fun kv => decide (get? (counter _) kv.1 = some kv.2)) = true) ↔ _
  rw [all_counts, all_counts]
  constructor
  · rintro ⟨h1, h2⟩ p
    rw [← mem_filter_zip, ← mem_filter_zip]
    by_cases hp : p ∈ (((idx.zip key).filter fun f => f.2 == true).map Prod.fst)
    · exact (h1 p hp).symm
    · by_cases hq : p ∈ (((idx.zip key).filter fun f => f.2 == false).map Prod.fst)
      · exact h2 p hq
      · rw [List.count_eq_zero_of_not_mem hp, List.count_eq_zero_of_not_mem hq]
  · intro h
    constructor
    · intro p _
      rw [mem_filter_zip, mem_filter_zip, h p]
    · intro p _
      rw [mem_filter_zip, mem_filter_zip, h p]

/-! ### The split -/

theorem isDiagonal_sum {ι : Type} (l : List ι) (f : ι → Module.End ℂ State) (h : ∀ i ∈ l, IsDiagonal (f i)) : IsDiagonal (l.map f).sum := by
  induction l with
  | nil => intro s s' _; rfl
  | cons a l ih =>
    intro s s' hne
    rw [List.map_cons, List.sum_cons, LinearMap.add_apply, Pi.add_apply, h a (List.mem_cons_self ..) s s' hne,
      ih (fun i hi => h i (List.mem_cons_of_mem _ hi)) s s' hne, add_zero]

theorem zeroDiagonal_sum {ι : Type} (l : List ι) (f : ι → Module.End ℂ State) (h : ∀ i ∈ l, ZeroDiagonal (f i)) : ZeroDiagonal (l.map f).sum := by
  induction l with
  | nil => intro s; rfl
  | cons a l ih =>
    intro s
    rw [List.map_cons, List.sum_cons, LinearMap.add_apply, Pi.add_apply, h a (List.mem_cons_self ..) s,
      ih (fun i hi => h i (List.mem_cons_of_mem _ hi)) s, add_zero]

theorem isDiagonal_smul {A : Module.End ℂ State} (h : IsDiagonal A) (c : ℂ) : IsDiagonal (c • A) := by
  intro s s' hne
  rw [LinearMap.smul_apply, Pi.smul_apply, h s s' hne, smul_zero]

theorem zeroDiagonal_smul {A : Module.End ℂ State} (h : ZeroDiagonal A) (c : ℂ) : ZeroDiagonal (c • A) := by
  intro s
  rw [LinearMap.smul_apply, Pi.smul_apply, h s, smul_zero]

theorem isDiagonal_one : IsDiagonal 1 := fun s s' h => if_neg (Ne.symm h)

/-- An array whose entries vanish unless balanced. -/
theorem tensor_diagonal {n : ℕ} {key : Key} {t : Tensor} (h : ∀ i, InRange n key.length i → ¬ Balanced (i.zip key) → t i = 0) : IsDiagonal (tensorAction n key t) := by
  rw [tensorAction_eq]
  refine isDiagonal_sum _ _ fun i hi => ?_
  by_cases hb : Balanced (i.zip key)
  · exact isDiagonal_smul (balanced_diagonal hb) _
  · rw [h i (mem_allIndices.1 hi) hb]
    intro s s' _
    rw [LinearMap.smul_apply, Pi.smul_apply, zero_smul]

/-- An array whose entries vanish if balanced. -/
theorem tensor_zeroDiagonal {n : ℕ} {key : Key} {t : Tensor} (h : ∀ i, InRange n key.length i → Balanced (i.zip key) → t i = 0) : ZeroDiagonal (tensorAction n key t) := by
  rw [tensorAction_eq]
  refine zeroDiagonal_sum _ _ fun i hi => ?_
  by_cases hb : Balanced (i.zip key)
  · rw [h i (mem_allIndices.1 hi) hb]
    intro s
    rw [LinearMap.smul_apply, Pi.smul_apply, zero_smul]
  · exact zeroDiagonal_smul (unbalanced_zero hb) _

theorem sum_map_add {ι M : Type} [AddCommMonoid M] (l : List ι) (f g h : ι → M) (e : ∀ i ∈ l, f i + g i = h i) : (l.map f).sum + (l.map g).sum = (l.map h).sum := by
  induction l with
  | nil => simp
  | cons a l ih =>
    rw [List.map_cons, List.map_cons, List.map_cons, List.sum_cons, List.sum_cons, List.sum_cons, ← e a (List.mem_cons_self ..),
      ← ih fun i hi => e i (List.mem_cons_of_mem _ hi), add_add_add_comm]

/-- The constant and the other arrays. -/
theorem polyAction_constant {T : PolyTensor} (h : Valid T) :
    polyAction T = constant T • 1 + ((T.tensors.filter fun kv => decide (kv.1 ≠ [])).map fun kv => tensorAction T.n kv.1 kv.2).sum := by
  obtain ⟨n, d⟩ := T
  induction d with
  | nil =>
    show (0 : Module.End ℂ State) = constant _ • 1 + 0
    rw [show constant ⟨n, []⟩ = 0 from rfl, add_zero]
    exact (zero_smul ℂ _).symm
  | cons kv d ih =>
    have h2 : kv.1 ∉ keys d ∧ (keys d).Nodup := List.nodup_cons.1 h
    have ih := ih h2.2
    show tensorAction n kv.1 kv.2 + polyAction ⟨n, d⟩ = _
    by_cases hk : kv.1 = []
    · have hd : d.filter (fun kv => decide (kv.1 ≠ [])) = d := by
        rw [List.filter_eq_self]
        intro x hx
        refine decide_eq_true fun hx0 => h2.1 ?_
        rw [hk, ← hx0]
        exact List.mem_map_of_mem hx
      have hc : constant ⟨n, kv :: d⟩ = kv.2 [] := by
        rw [constant, show (PolyTensor.mk n (kv :: d)).tensors = kv :: d from rfl, get?, if_pos hk]; rfl
      rw [List.filter_cons_of_neg (by simpa using hk), hd, hc, hk, tensorAction_const]; rfl
    · have hc : constant ⟨n, kv :: d⟩ = constant ⟨n, d⟩ := by
        rw [constant, constant, show (PolyTensor.mk n (kv :: d)).tensors = kv :: d from rfl, get?, if_neg hk]
      rw [ih, hc, List.filter_cons_of_pos (by simpa using hk), List.map_cons, List.sum_cons]
      show _ = _ + (tensorAction n kv.1 kv.2 + _)
      abel

/-- C62: the diagonal component and the remainder of a polynomial tensor add up to it; the component is a diagonal operator and the remainder has
zero diagonal; their coefficients are those of the tensor, distributed by whether each mode is created as often as it is annihilated. -/
theorem diagonalPoly_spec {T : PolyTensor} (h : Valid T) (hk : ∃ k ∈ keys T.tensors, k ≠ []) :
    ∃ D R, diagonalPoly T = .ok (D, R) ∧ D.n = T.n ∧ R.n = T.n ∧ Valid D ∧ Valid R ∧
      polyAction D + polyAction R = polyAction T ∧ IsDiagonal (polyAction D) ∧ ZeroDiagonal (polyAction R) := by
  obtain ⟨k, hk, hne⟩ := hk
  obtain ⟨kv, hkv, rfl⟩ := List.mem_map.1 hk
  have hm : kv ∈ T.tensors.filter fun kv => decide (kv.1 ≠ []) := List.mem_filter.2 ⟨hkv, decide_eq_true hne⟩
  have hnil : ∀ x ∈ T.tensors.filter fun kv => decide (kv.1 ≠ []), x.1 ≠ [] := fun x hx => of_decide_eq_true (List.mem_filter.1 hx).2
  have hnod : (keys (T.tensors.filter fun kv => decide (kv.1 ≠ []))).Nodup := List.Nodup.sublist (List.filter_sublist.map _) h
  generalize hks : (T.tensors.filter fun kv => decide (kv.1 ≠ [])) = ks at hm hnil hnod
  refine ⟨⟨T.n, ([], fun _ => constant T) :: ks.map fun kv => (kv.1, fun i => if termIsDiagonal kv.1 i then kv.2 i else 0)⟩,
    ⟨T.n, ks.map fun kv => (kv.1, fun i => if termIsDiagonal kv.1 i then 0 else kv.2 i)⟩, ?_, rfl, rfl, ?_, ?_, ?_, ?_, ?_⟩
  · have a1 : ¬ ((([] : Key), (fun _ => constant T : Tensor)) :: ks.map fun kv => (kv.1, fun i => if termIsDiagonal kv.1 i then kv.2 i else 0)).all
        (fun kv => decide (kv.1 = [])) = true := by
      rw [List.all_eq_true]
      intro hall
      exact hne (of_decide_eq_true (hall (kv.1, fun i => if termIsDiagonal kv.1 i then kv.2 i else 0) (List.mem_cons_of_mem _ (List.mem_map.2 ⟨kv, hm, rfl⟩))))
    have a2 : ¬ (ks.map fun kv => (kv.1, (fun i => if termIsDiagonal kv.1 i then 0 else kv.2 i : Tensor))).all (fun kv => decide (kv.1 = [])) = true := by
      rw [List.all_eq_true]
      intro hall
      exact hne (of_decide_eq_true (hall (kv.1, fun i => if termIsDiagonal kv.1 i then 0 else kv.2 i) (List.mem_map.2 ⟨kv, hm, rfl⟩)))
    rw [diagonalPoly, hks]
    simp only [make]
    rw [if_neg a1, if_neg a2]
    rfl
  · show ([] :: (ks.map fun kv => (kv.1, (fun i => if termIsDiagonal kv.1 i then kv.2 i else 0 : Tensor))).map Prod.fst).Nodup
    rw [List.map_map]
    refine List.nodup_cons.2 ⟨fun hc => ?_, hnod⟩
    obtain ⟨x, hx, hx0⟩ := List.mem_map.1 hc
    exact hnil x hx hx0
  · show ((ks.map fun kv => (kv.1, (fun i => if termIsDiagonal kv.1 i then 0 else kv.2 i : Tensor))).map Prod.fst).Nodup
    rw [List.map_map]
    exact hnod
  · rw [polyAction_constant h, hks, polyAction, polyAction, List.map_cons, List.sum_cons, List.map_map, List.map_map, add_assoc, tensorAction_const]
    congr 1
    refine sum_map_add _ _ _ _ fun x hx => ?_
    show tensorAction T.n x.1 (fun i => if termIsDiagonal x.1 i then x.2 i else 0) + tensorAction T.n x.1 (fun i => if termIsDiagonal x.1 i then 0 else x.2 i) = _
    rw [← tensorAction_add]
    refine tensorAction_congr fun i _ => ?_
    split <;> simp
  · rw [polyAction, List.map_cons, List.sum_cons, List.map_map]
    have h1 : IsDiagonal (tensorAction T.n [] fun _ => constant T) := by rw [tensorAction_const]; exact isDiagonal_smul isDiagonal_one _
    have h2 := isDiagonal_sum ks (fun kv => tensorAction T.n kv.1 fun i => if termIsDiagonal kv.1 i then kv.2 i else 0) fun x _ =>
      tensor_diagonal fun i _ hb => if_neg fun hc => hb ((termIsDiagonal_iff _ _).1 hc)
    intro s s' hss
    rw [LinearMap.add_apply, Pi.add_apply]
    have e1 := h1 s s' hss
    have e2 := h2 s s' hss
    exact (congrArg₂ (· + ·) e1 e2).trans (add_zero 0)
  · rw [polyAction, List.map_map]
    exact zeroDiagonal_sum ks (fun kv => tensorAction T.n kv.1 fun i => if termIsDiagonal kv.1 i then 0 else kv.2 i) fun x _ =>
      tensor_zeroDiagonal fun i _ hb => if_pos ((termIsDiagonal_iff _ _).2 hb)

/-! ### Interaction operators -/

theorem diagOneLoop_eq (n : ℕ) (one : Tensor) (i : List ℕ) :
    (diagOneLoop n one).1 i = (if ∃ p < n, i = [p, p] then one i else 0) ∧ (diagOneLoop n one).2 i = (if ∃ p < n, i = [p, p] then 0 else one i) := by
  rw [diagOneLoop]
  induction n with
  | zero => simp
  | succ n ih =>
    rw [List.range_succ, List.foldl_append]
    obtain ⟨ih1, ih2⟩ := ih
    generalize hs : (List.range n).foldl (fun (s : Tensor × Tensor) p => (assign s.1 [p, p] (one [p, p]), assign s.2 [p, p] 0)) (fun _ => 0, one) = s at ih1 ih2
    show assign s.1 [n, n] (one [n, n]) i = _ ∧ assign s.2 [n, n] 0 i = _
    rw [assign, assign, ih1, ih2]
    by_cases hi : i = [n, n]
    · rw [if_pos hi, if_pos hi, if_pos ⟨n, by omega, hi⟩, if_pos ⟨n, by omega, hi⟩, hi]; exact ⟨rfl, rfl⟩
    · have : (∃ p < n + 1, i = [p, p]) ↔ ∃ p < n, i = [p, p] := by
        constructor
        · rintro ⟨p, hp, h⟩
          refine ⟨p, ?_, h⟩
          rcases Nat.lt_succ_iff_lt_or_eq.1 hp with hp | hp
          · exact hp
          · exact absurd (hp ▸ h) hi
        · rintro ⟨p, hp, h⟩; exact ⟨p, by omega, h⟩
      rw [if_neg hi, if_neg hi]
      simp only [this, and_self]

theorem foldl_hit {σ β γ : Type} (st : σ → β → σ) (obs : σ → γ) (P : β → Prop) (g : γ) (h1 : ∀ s j, P j → obs (st s j) = g)
    (h2 : ∀ s j, ¬ P j → obs (st s j) = obs s) : ∀ (l : List β) (s : σ),
    ((∃ j ∈ l, P j) → obs (l.foldl st s) = g) ∧ ((¬ ∃ j ∈ l, P j) → obs (l.foldl st s) = obs s) := by
  intro l
  induction l with
  | nil => intro s; exact ⟨fun ⟨j, hj, _⟩ => by simp at hj, fun _ => rfl⟩
  | cons a l ih =>
    intro s
    rw [List.foldl_cons]
    obtain ⟨i1, i2⟩ := ih (st s a)
    constructor
    · rintro ⟨j, hj, hp⟩
      by_cases hl : ∃ j ∈ l, P j
      · exact i1 hl
      · rw [i2 hl]
        rcases List.mem_cons.1 hj with rfl | hj
        · exact h1 s _ hp
        · exact absurd ⟨j, hj, hp⟩ hl
    · intro hn
      rw [i2 fun ⟨j, hj, hp⟩ => hn ⟨j, List.mem_cons_of_mem _ hj, hp⟩]
      exact h2 s a fun hp => hn ⟨a, List.mem_cons_self .., hp⟩

theorem diagTwoLoop_eq (n : ℕ) (two : Tensor) (i : List ℕ) :
    (diagTwoLoop n two).1 i = (if ∃ p < n, ∃ q < n, i = [p, q, p, q] ∨ i = [p, q, q, p] then two i else 0) ∧
    (diagTwoLoop n two).2 i = (if ∃ p < n, ∃ q < n, i = [p, q, p, q] ∨ i = [p, q, q, p] then 0 else two i) := by
  obtain ⟨k1, k2⟩ := foldl_hit (diagTwoStep two) (fun s => (s.1 i, s.2 i))
    (fun j => i = [j.getD 0 0, j.getD 1 0, j.getD 0 0, j.getD 1 0] ∨ i = [j.getD 0 0, j.getD 1 0, j.getD 1 0, j.getD 0 0]) (two i, 0)
    (fun s j hp => by
      refine Prod.ext ?_ ?_
      · show assign (assign s.1 _ (two _)) _ (two _) i = two i
        by_cases h2 : i = [j.getD 0 0, j.getD 1 0, j.getD 1 0, j.getD 0 0]
        · rw [assign, if_pos h2, ← h2]
        · rw [assign, if_neg h2, assign, if_pos (hp.resolve_right h2), ← hp.resolve_right h2]
      · show assign (assign s.2 _ 0) _ 0 i = 0
        by_cases h2 : i = [j.getD 0 0, j.getD 1 0, j.getD 1 0, j.getD 0 0]
        · rw [assign, if_pos h2]
        · rw [assign, if_neg h2, assign, if_pos (hp.resolve_right h2)])
    (fun s j hp => by
      simp only [not_or] at hp
      refine Prod.ext ?_ ?_
      · show assign (assign s.1 _ (two _)) _ (two _) i = s.1 i
        rw [assign, if_neg hp.2, assign, if_neg hp.1]
      · show assign (assign s.2 _ 0) _ 0 i = s.2 i
        rw [assign, if_neg hp.2, assign, if_neg hp.1])
    (allIndices n 2) (fun _ => 0, two)
  have hex : (∃ j ∈ allIndices n 2, i = [j.getD 0 0, j.getD 1 0, j.getD 0 0, j.getD 1 0] ∨ i = [j.getD 0 0, j.getD 1 0, j.getD 1 0, j.getD 0 0]) ↔
      ∃ p < n, ∃ q < n, i = [p, q, p, q] ∨ i = [p, q, q, p] := by
    constructor
    · rintro ⟨j, hj, h⟩
      obtain ⟨hl, hr⟩ := mem_allIndices.1 hj
      obtain ⟨p, q, rfl⟩ := List.length_eq_two.1 hl
      exact ⟨p, hr p (by simp), q, hr q (by simp), h⟩
    · rintro ⟨p, hp, q, hq, h⟩
      exact ⟨[p, q], mem_allIndices.2 ⟨rfl, by simp [hp, hq]⟩, h⟩
  rw [hex] at k1 k2
  by_cases h : ∃ p < n, ∃ q < n, i = [p, q, p, q] ∨ i = [p, q, q, p]
  · rw [if_pos h, if_pos h]; exact Prod.ext_iff.1 (k1 h)
  · rw [if_neg h, if_neg h]; exact Prod.ext_iff.1 (k2 h)

theorem balanced_one {p q : ℕ} : Balanced ([p, q].zip [true, false]) ↔ p = q := by
  constructor
  · intro h
    have := h p
    by_contra hne
    simp [hne, List.count_cons, Ne.symm hne] at this
  · rintro rfl r
    simp [List.count_cons]

theorem balanced_two {p q r s : ℕ} : Balanced ([p, q, r, s].zip [true, true, false, false]) ↔ (p = r ∧ q = s) ∨ (p = s ∧ q = r) := by
  have hc : ∀ x, (List.count (x, true) ([p, q, r, s].zip [true, true, false, false]) = (if p = x then 1 else 0) + (if q = x then 1 else 0)) ∧
      (List.count (x, false) ([p, q, r, s].zip [true, true, false, false]) = (if r = x then 1 else 0) + (if s = x then 1 else 0)) := by
    intro x
    constructor <;> simp [List.count_cons] <;> omega
  constructor
  · intro h
    have h1 := h p
    have h2 := h q
    rw [(hc _).1, (hc _).2] at h1 h2
    rw [if_pos rfl] at h1 h2
    by_cases e1 : p = r
    · rw [← e1] at h2
      have : (if s = q then 1 else 0) = 1 := by omega
      left
      refine ⟨e1, ?_⟩
      by_contra hne
      rw [if_neg (Ne.symm hne)] at this
      cases this
    · rw [if_neg (Ne.symm e1)] at h1
      have e2 : s = p := by
        by_contra hne
        rw [if_neg hne] at h1
        omega
      rw [e2] at h2
      have : (if r = q then 1 else 0) = 1 := by omega
      right
      refine ⟨e2.symm, ?_⟩
      by_contra hne
      rw [if_neg (Ne.symm hne)] at this
      cases this
  · rintro (⟨rfl, rfl⟩ | ⟨rfl, rfl⟩) x
    · rw [(hc x).1, (hc x).2]
    · rw [(hc x).1, (hc x).2, add_comm]

/-- C62: the same for interaction operators, whose split is computed by loops over the diagonals of the arrays. -/
theorem diagonalInteraction_spec (n : ℕ) (c : ℂ) (one two : Tensor) :
    polyAction (diagonalInteraction n c one two).1 + polyAction (diagonalInteraction n c one two).2 = polyAction (interaction n c one two) ∧
    IsDiagonal (polyAction (diagonalInteraction n c one two).1) ∧ ZeroDiagonal (polyAction (diagonalInteraction n c one two).2) := by
  have e : ∀ c one two, polyAction (interaction n c one two) =
      tensorAction n [] (fun _ => c) + (tensorAction n [true, false] one + tensorAction n [true, true, false, false] two) := by
    intro c one two
    rw [polyAction, interaction, List.map_cons, List.map_cons, List.map_cons, List.map_nil, List.sum_cons, List.sum_cons, List.sum_cons, List.sum_nil, add_zero]
  have hd1 : ∀ i, InRange n 2 i → ((∃ p < n, i = [p, p]) ↔ Balanced (i.zip [true, false])) := by
    rintro i ⟨hl, hr⟩
    obtain ⟨p, q, rfl⟩ := List.length_eq_two.1 hl
    rw [balanced_one]
    constructor
    · rintro ⟨r, _, h⟩
      simp only [List.cons.injEq, and_true] at h
      rw [h.1, h.2]
    · rintro rfl; exact ⟨p, hr p (by simp), rfl⟩
  have hd2 : ∀ i, InRange n 4 i → ((∃ p < n, ∃ q < n, i = [p, q, p, q] ∨ i = [p, q, q, p]) ↔ Balanced (i.zip [true, true, false, false])) := by
    rintro i ⟨hl, hr⟩
    match i, hl with
    | [p, q, r, s], _ =>
      rw [balanced_two]
      constructor
      · rintro ⟨a, _, b, _, h | h⟩
        · simp only [List.cons.injEq, and_true] at h
          obtain ⟨rfl, rfl, rfl, rfl⟩ := h
          exact Or.inl ⟨rfl, rfl⟩
        · simp only [List.cons.injEq, and_true] at h
          obtain ⟨rfl, rfl, rfl, rfl⟩ := h
          exact Or.inr ⟨rfl, rfl⟩
      · rintro (⟨rfl, rfl⟩ | ⟨rfl, rfl⟩)
        · exact ⟨p, hr p (by simp), q, hr q (by simp), Or.inl rfl⟩
        · exact ⟨p, hr p (by simp), q, hr q (by simp), Or.inr rfl⟩
  rw [diagonalInteraction]
  refine ⟨?_, ?_, ?_⟩
  · rw [e, e, e, tensorAction_const, tensorAction_const, add_add_add_comm,
      add_add_add_comm (tensorAction n [true, false] _), ← tensorAction_add, ← tensorAction_add]
    congr 1
    · have : (0 : ℂ) • (1 : Module.End ℂ State) = 0 := zero_smul ℂ _
      rw [this, add_zero]
    · congr 1
      · refine tensorAction_congr fun i _ => ?_
        rw [(diagOneLoop_eq n one i).1, (diagOneLoop_eq n one i).2]
        split <;> simp
      · refine tensorAction_congr fun i _ => ?_
        rw [(diagTwoLoop_eq n two i).1, (diagTwoLoop_eq n two i).2]
        split <;> simp
  · rw [e]
    have h0 : IsDiagonal (tensorAction n [] fun _ => c) := by rw [tensorAction_const]; exact isDiagonal_smul isDiagonal_one _
    have h1 : IsDiagonal (tensorAction n [true, false] (diagOneLoop n one).1) := tensor_diagonal fun i hi hb => by
      rw [(diagOneLoop_eq n one i).1, if_neg fun h => hb ((hd1 i hi).1 h)]
    have h2 : IsDiagonal (tensorAction n [true, true, false, false] (diagTwoLoop n two).1) := tensor_diagonal fun i hi hb => by
      rw [(diagTwoLoop_eq n two i).1, if_neg fun h => hb ((hd2 i hi).1 h)]
    intro s s' hne
    rw [LinearMap.add_apply, LinearMap.add_apply, Pi.add_apply, Pi.add_apply, h0 s s' hne, h1 s s' hne, h2 s s' hne, add_zero, add_zero]
  · rw [e]
    have h0 : ZeroDiagonal (tensorAction n [] fun _ => 0) := by
      rw [tensorAction_zero]; intro s; rfl
    have h1 : ZeroDiagonal (tensorAction n [true, false] (diagOneLoop n one).2) := tensor_zeroDiagonal fun i hi hb => by
      rw [(diagOneLoop_eq n one i).2, if_pos ((hd1 i hi).2 hb)]
    have h2 : ZeroDiagonal (tensorAction n [true, true, false, false] (diagTwoLoop n two).2) := tensor_zeroDiagonal fun i hi hb => by
      rw [(diagTwoLoop_eq n two i).2, if_pos ((hd2 i hi).2 hb)]
    intro s
    rw [LinearMap.add_apply, LinearMap.add_apply, Pi.add_apply, Pi.add_apply, h0 s, h1 s, h2 s, add_zero, add_zero]

/-- A tensor with a diagonal and an off-diagonal part. -/
example : ∃ T : PolyTensor, Valid T ∧ (∃ k ∈ keys T.tensors, k ≠ []) ∧ termIsDiagonal [true, false] [0, 0] = true ∧ termIsDiagonal [true, false] [0, 1] = false ∧
    value T [true, false] [0, 0] = 1 ∧ value T [true, false] [0, 1] = 1 :=
  ⟨⟨2, [([true, false], fun _ => 1)]⟩, by show ([[true, false]] : List Key).Nodup; decide, ⟨_, List.mem_singleton.2 rfl, by decide⟩, by decide, by decide, rfl, rfl⟩

end ZQ.PolyT

namespace ZQ.Evaluate

open ZQ ZQ.Op ZQ.PyDict

theorem foldlM_evaluate (vals : List ℂ) : ∀ (o : Terms Letter) (x : ℝ) (k : ℕ),
    (k + o.length ≤ vals.length → o.foldlM (evaluateStep vals) (x, k) =
      .ok (x + (o.zipWith (fun kv v => (kv.2 * v).re) (vals.drop k)).sum, k + o.length)) ∧
    (k ≤ vals.length → vals.length < k + o.length → o.foldlM (evaluateStep vals) (x, k) = .error .indexError) := by
  intro o
  induction o with
  | nil => intro x k; refine ⟨fun _ => by simp; rfl, fun h1 h2 => ?_⟩; rw [List.length_nil] at h2; omega
  | cons kv o ih =>
    intro x k
    rw [List.length_cons]
    constructor
    · intro h
      have hk : k < vals.length := by omega
      have hs : evaluateStep vals (x, k) kv = .ok (x + (kv.2 * vals[k]).re, k + 1) := by
        rw [evaluateStep]
        show (match vals[k]? with | none => _ | some v => _) = _
        rw [List.getElem?_eq_getElem hk]
      rw [List.foldlM_cons, hs]
      refine ((ih (x + (kv.2 * vals[k]).re) (k + 1)).1 (by omega)).trans ?_
      rw [List.drop_eq_getElem_cons hk, List.zipWith_cons_cons, List.sum_cons, add_assoc, show k + 1 + o.length = k + (o.length + 1) by omega]
    · intro hk h
      by_cases hk' : k < vals.length
      · have hs : evaluateStep vals (x, k) kv = .ok (x + (kv.2 * vals[k]).re, k + 1) := by
          rw [evaluateStep]
          show (match vals[k]? with | none => _ | some v => _) = _
          rw [List.getElem?_eq_getElem hk']
        rw [List.foldlM_cons, hs]
        exact (ih _ (k + 1)).2 (by omega) (by omega)
      · have hs : evaluateStep vals (x, k) kv = .error .indexError := by
          rw [evaluateStep]
          show (match vals[k]? with | none => _ | some v => _) = _
          rw [List.getElem?_eq_none (by omega)]
        rw [List.foldlM_cons, hs]; rfl

/-- C62: the value of an operator is the sum of the real parts of coefficient times expectation value, in the order of the terms; too few values
raise. -/
theorem evaluateQubitOperator_spec (o : Terms Letter) (vals : List ℂ) :
    (o.length ≤ vals.length → evaluateQubitOperator o vals = .ok (o.zipWith (fun kv v => (kv.2 * v).re) vals).sum) ∧
    (vals.length < o.length → evaluateQubitOperator o vals = .error .indexError) := by
  obtain ⟨h1, h2⟩ := foldlM_evaluate vals o 0 0
  constructor
  · intro h
    rw [evaluateQubitOperator, h1 (by omega), List.drop_zero, zero_add]; rfl
  · intro h
    rw [evaluateQubitOperator, h2 (by omega) (by omega)]; rfl

theorem foldlM_append {α σ : Type} (f : σ → α → Except Err σ) (l m : List α) (s : σ) :
    (l ++ m).foldlM f s = (l.foldlM f s).bind fun s' => m.foldlM f s' := by
  induction l generalizing s with
  | nil => rfl
  | cons a l ih =>
    rw [List.cons_append, List.foldlM_cons, List.foldlM_cons]
    cases f s a with
    | error e => rfl
    | ok s' => exact ih s'

theorem foldlM_flatten {α σ : Type} (f : σ → α → Except Err σ) (ls : List (List α)) (s : σ) :
    ls.foldlM (fun s l => l.foldlM f s) s = ls.flatten.foldlM f s := by
  induction ls generalizing s with
  | nil => rfl
  | cons l ls ih =>
    rw [List.foldlM_cons, List.flatten_cons, foldlM_append]
    cases l.foldlM f s with
    | error e => rfl
    | ok s' => exact ih s'

/-- C62: evaluating a list of operators is evaluating all terms in order with one list of expectation values. -/
theorem evaluateQubitOperatorList_spec (os : List (Terms Letter)) (vals : List ℂ) :
    (os.flatten.length ≤ vals.length →
      evaluateQubitOperatorList os vals = .ok (os.flatten.zipWith (fun kv v => (kv.2 * v).re) vals).sum) ∧
    (vals.length < os.flatten.length → evaluateQubitOperatorList os vals = .error .indexError) := by
  have e : evaluateQubitOperatorList os vals = evaluateQubitOperator os.flatten vals := by
    rw [evaluateQubitOperatorList, evaluateQubitOperator, foldlM_flatten]
  rw [e]
  exact evaluateQubitOperator_spec _ _

/-- C62: if the values are the expectation values of the terms, for any linear expectation functional, the result is the real part of the
expectation value of the operator. -/
theorem evaluateQubitOperator_expectation (o : Terms Letter) (E : Module.End ℂ State →ₗ[ℂ] ℂ) :
    evaluateQubitOperator o (o.map fun kv => E (termAction pauliAction kv.1)) = .ok (E (action pauliAction o)).re := by
  rw [(evaluateQubitOperator_spec _ _).1 (by simp)]
  congr 1
  rw [action, map_list_sum, List.map_map]
  induction o with
  | nil => rfl
  | cons kv o ih =>
    rw [List.map_cons, List.zipWith_cons_cons, List.sum_cons, ih, List.map_cons, List.sum_cons, Complex.add_re]
    congr 1
    show _ = (E (kv.2 • _)).re
    rw [map_smul]; rfl

/-- Two terms and two values. -/
example : evaluateQubitOperator [([(0, .Z)], 2), ([], 3)] [1 / 2, 1] = .ok 4 := by
  rw [(evaluateQubitOperator_spec _ _).1 (by simp)]
  norm_num

end ZQ.Evaluate
