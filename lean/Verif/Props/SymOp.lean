import Verif.Lemmas.Pauli
import Mathlib.Tactic.Linarith
import Mathlib.Tactic.NormNum

/-! # C42, C43, C54: sums, scalar multiples, equality and groups of symbolic operators -/

namespace ZQ.Op

open PyDict

variable {A : Type} [DecidableEq A]

theorem eqTol_pos : 0 < eqTol := by rw [eqTol]; norm_num

/-! ## C42 -/

/-- C42: the sum, coefficient by coefficient: only terms of the addend whose resulting coefficient is below `1e-8` are dropped. -/
theorem add_spec {a b : Terms A} (ha : WF a) (hb : WF b) :
    WF (add a b) ∧
    (∀ t, t ∈ keys (add a b) ↔ (t ∈ keys b ∧ ¬ ‖coeff a t + coeff b t‖ < 1 / 10 ^ 8) ∨ (t ∉ keys b ∧ t ∈ keys a)) ∧
    (∀ t ∈ keys (add a b), coeff (add a b) t = coeff a t + coeff b t) ∧
    (∀ t ∉ keys (add a b), coeff (add a b) t = 0 ∧ ‖coeff a t + coeff b t‖ < 1 / 10 ^ 8) := by
  obtain ⟨h1, h2, h3⟩ := add_coeff ha hb
  refine ⟨h1, h3, fun t ht => ?_, fun t ht => ?_⟩
  · rw [h2]
    rcases (h3 t).1 ht with ⟨h, h'⟩ | ⟨h, h'⟩
    · rw [if_pos h, if_neg h']
    · rw [if_neg h, coeff_of_not_mem h, add_zero]
  · refine ⟨coeff_of_not_mem ht, ?_⟩
    by_cases hb' : t ∈ keys b
    · by_contra hcon
      exact ht ((h3 t).2 (Or.inl ⟨hb', hcon⟩))
    · rw [coeff_of_not_mem hb', coeff_of_not_mem (fun h => ht ((h3 t).2 (Or.inr ⟨hb', h⟩))), add_zero, norm_zero]; exact eqTol_pos

/-- C42: the coefficients of a sum are the sums of the coefficients up to less than `1e-8`. -/
theorem add_error {a b : Terms A} (ha : WF a) (hb : WF b) (t : Term A) :
    ‖coeff (add a b) t - (coeff a t + coeff b t)‖ < 1 / 10 ^ 8 := by
  obtain ⟨_, _, h3, h4⟩ := add_spec ha hb
  by_cases ht : t ∈ keys (add a b)
  · rw [h3 t ht, sub_self, norm_zero]; exact eqTol_pos
  · rw [(h4 t ht).1, zero_sub, norm_neg]; exact (h4 t ht).2

/-- C42: without cancellation below the tolerance the sum is exact. -/
theorem add_exact {a b : Terms A} (ha : WF a) (hb : WF b) (t : Term A)
    (hc : ¬ ‖coeff a t + coeff b t‖ < 1 / 10 ^ 8 ∨ coeff a t + coeff b t = 0) : coeff (add a b) t = coeff a t + coeff b t := by
  obtain ⟨_, _, h3, h4⟩ := add_spec ha hb
  by_cases ht : t ∈ keys (add a b)
  · exact h3 t ht
  · rcases hc with hc | hc
    · exact absurd (h4 t ht).2 hc
    · rw [(h4 t ht).1, hc]

/-- C42: difference is addition of the negative. -/
theorem sub_spec (a b : Terms A) : sub a b = add a (neg b) := sub_eq a b

/-- C42: scalar multiples multiply every coefficient and keep the terms. -/
theorem smul_spec (a : Terms A) (c : ℂ) : keys (smul a c) = keys a ∧ ∀ t, coeff (smul a c) t = c * coeff a t :=
  ⟨keys_smul a c, fun t => by rw [coeff_smul, mul_comm]⟩

/-- C42: negation. -/
theorem neg_spec (a : Terms A) : keys (neg a) = keys a ∧ ∀ t, coeff (neg a) t = -coeff a t :=
  ⟨keys_smul a _, fun t => by rw [neg, coeff_smul, mul_neg, mul_one]⟩

/-- C42: division by a scalar; zero raises `ZeroDivisionError`. -/
theorem div_spec (a : Terms A) (c : ℂ) :
    (c = 0 → div a c = .error .zeroDivision) ∧
    (c ≠ 0 → ∃ r, div a c = .ok r ∧ keys r = keys a ∧ ∀ t, coeff r t = coeff a t / c) := by
  refine ⟨fun h => by rw [div, if_pos h], fun h => ⟨smul a (1 / c), by rw [div, if_neg h], keys_smul _ _, fun t => ?_⟩⟩
  rw [coeff_smul]; ring

/-- C42: adding a scalar changes the constant term only (and never drops it). -/
theorem addScalar_spec {a : Terms A} (ha : WF a) (c : ℂ) :
    WF (addScalar a c) ∧ ∀ t, coeff (addScalar a c) t = coeff a t + if t = [] then c else 0 := by
  refine ⟨ha.set _ _, fun t => ?_⟩
  rw [addScalar, coeff_set]
  by_cases h : t = []
  · rw [if_pos h, if_pos h.symm, h]
  · rw [if_neg h, if_neg (Ne.symm h), add_zero]

/-- C42: every operator minus itself is the operator with no terms. -/
theorem sub_self_zero {a : Terms A} (ha : WF a) : sub a a = [] := by
  rw [sub_eq]
  have hn : WF (neg a) := by rw [WF, (neg_spec a).1]; exact ha
  obtain ⟨_, h2, _, _⟩ := add_spec ha hn
  have : keys (add a (neg a)) = [] := by
    rw [List.eq_nil_iff_forall_not_mem]
    intro t ht
    rcases (h2 t).1 ht with ⟨_, h⟩ | ⟨h, h'⟩
    · apply h
      rw [(neg_spec a).2, add_neg_cancel, norm_zero]; exact eqTol_pos
    · rw [(neg_spec a).1] at h; exact h h'
  exact List.map_eq_nil_iff.1 this

/-- C42: in place, with the same object on both sides, a non-empty operator raises `RuntimeError` instead. -/
theorem isub_same_object (a : Terms A) (h : a ≠ []) : isubSelf a = .error .runtimeError := by
  cases a with
  | nil => exact absurd rfl h
  | cons p a =>
    rw [isubSelf, keys, List.map_cons, inplaceSelfLoop, if_pos]
    rw [IsSmall, neg_one_mul, add_neg_cancel, norm_zero]; exact eqTol_pos

/-- C42: in place doubling with the same object works as long as no doubled coefficient is below the tolerance. -/
theorem iadd_same_object {a : Terms A} (ha : WF a) (hbig : ∀ t ∈ keys a, ¬ ‖coeff a t + coeff a t‖ < 1 / 10 ^ 8) :
    ∃ r, iaddSelf a = .ok r ∧ ∀ t, coeff r t = coeff a t + coeff a t := by
  have key : ∀ (ts : List (Term A)) (d : Terms A), ts.Nodup → (∀ t ∈ ts, coeff d t = coeff a t) → (∀ t ∈ ts, t ∈ keys a) →
      ∃ r, inplaceSelfLoop 1 ts d = .ok r ∧ ∀ t, coeff r t = if t ∈ ts then coeff a t + coeff a t else coeff d t := by
    intro ts
    induction ts with
    | nil => intro d _ _ _; exact ⟨d, rfl, fun t => by rw [if_neg (by simp)]⟩
    | cons u ts ih =>
      intro d hn h1 h2
      have hu := h1 u (List.mem_cons_self ..)
      have hnn := List.nodup_cons.1 hn
      obtain ⟨r, hr, hc⟩ := ih (PyDict.set d u (coeff d u + 1 * coeff d u)) hnn.2
        (fun t ht => by
          rw [coeff_set, if_neg (fun e : u = t => hnn.1 (e ▸ ht))]; exact h1 t (List.mem_cons_of_mem _ ht))
        (fun t ht => h2 t (List.mem_cons_of_mem _ ht))
      refine ⟨r, ?_, fun t => ?_⟩
      · rw [inplaceSelfLoop, if_neg, hr]
        rw [one_mul, hu]; exact hbig u (h2 u (List.mem_cons_self ..))
      · rw [hc, coeff_set]
        by_cases e : u = t
        · subst e
          rw [if_neg hnn.1, if_pos rfl, if_pos (List.mem_cons_self ..), one_mul, hu]
        · by_cases ht : t ∈ ts
          · rw [if_pos ht, if_pos (List.mem_cons_of_mem _ ht)]
          · rw [if_neg ht, if_neg e, if_neg (fun h => (List.mem_cons.1 h).elim (fun h => e h.symm) ht)]
  obtain ⟨r, hr, hc⟩ := key (keys a) a ha (fun _ _ => rfl) (fun _ h => h)
  refine ⟨r, hr, fun t => ?_⟩
  rw [hc]
  split
  · rfl
  · next h => rw [coeff_of_not_mem h, add_zero]

/-! ## C43 -/

/-- `common` lists the terms that occur in both operators, in some order. -/
def IsCommon (a b : Terms A) (common : List (Term A)) : Prop := common.Nodup ∧ ∀ t, t ∈ common ↔ t ∈ keys a ∧ t ∈ keys b

theorem iscloseLoop_of {a b : Terms A} (ts : List (Term A)) (tol : ℝ) (htol : eqTol ≤ tol)
    (h : ∀ t ∈ ts, ‖coeff a t - coeff b t‖ < eqTol * max 1 (max ‖coeff a t‖ ‖coeff b t‖)) :
    ∃ tol', iscloseLoop a b ts tol = some tol' ∧ eqTol ≤ tol' := by
  induction ts generalizing tol with
  | nil => exact ⟨tol, rfl, htol⟩
  | cons t ts ih =>
    have hm : (1 : ℝ) ≤ max 1 (max ‖coeff a t‖ ‖coeff b t‖) := le_max_left _ _
    have h1 : eqTol * max 1 (max ‖coeff a t‖ ‖coeff b t‖) ≤ tol * max 1 (max ‖coeff a t‖ ‖coeff b t‖) :=
      mul_le_mul_of_nonneg_right htol (by linarith)
    have h2 : eqTol ≤ tol * max 1 (max ‖coeff a t‖ ‖coeff b t‖) := by
      have := eqTol_pos
      nlinarith
    rw [iscloseLoop, if_pos (show IsSmall _ _ from lt_of_lt_of_le (h t (List.mem_cons_self ..)) h1)]
    exact ih _ h2 (fun t' ht' => h t' (List.mem_cons_of_mem _ ht'))

/-- C43 (one direction): operators whose coefficients are all within the tolerance are reported equal, whatever the iteration order.
Missing for the full property: the converse, which is false (`isclose_counterexample`). -/
theorem isclose_of_close_partial {a b : Terms A} (ha : WF a) (hb : WF b) (common : List (Term A)) (hcom : IsCommon a b common)
    (hboth : ∀ t, t ∈ keys a → t ∈ keys b → ‖coeff a t - coeff b t‖ < 1 / 10 ^ 8 * max 1 (max ‖coeff a t‖ ‖coeff b t‖))
    (hone : ∀ t, ¬ (t ∈ keys a ∧ t ∈ keys b) → ‖coeff a t - coeff b t‖ < 1 / 10 ^ 8) :
    isclose a b common = true := by
  obtain ⟨tol, h1, h2⟩ := iscloseLoop_of (a := a) (b := b) common eqTol le_rfl
    (fun t ht => hboth t ((hcom.2 t).1 ht).1 ((hcom.2 t).1 ht).2)
  rw [isclose, h1]
  dsimp only
  rw [Bool.and_eq_true, List.all_eq_true, List.all_eq_true]
  constructor
  · intro kv hkv
    apply decide_eq_true
    by_cases h : kv.1 ∈ keys b
    · exact Or.inl h
    · right
      have := hone kv.1 (fun e => h e.2)
      rw [coeff_of_not_mem h, sub_zero, coeff_of_mem ha (show (kv.1, kv.2) ∈ a from hkv)] at this
      exact lt_of_lt_of_le this h2
  · intro kv hkv
    apply decide_eq_true
    by_cases h : kv.1 ∈ keys a
    · exact Or.inl h
    · right
      have := hone kv.1 (fun e => h e.1)
      rw [coeff_of_not_mem h, zero_sub, norm_neg, coeff_of_mem hb (show (kv.1, kv.2) ∈ b from hkv)] at this
      exact lt_of_lt_of_le this h2

theorem iscloseLoop_some {a b : Terms A} (ts : List (Term A)) (tol tol' : ℝ) (h : iscloseLoop a b ts tol = some tol')
    (hu : ∀ t ∈ ts, ‖coeff a t‖ ≤ 1 ∧ ‖coeff b t‖ ≤ 1) : tol' = tol ∧ ∀ t ∈ ts, ‖coeff a t - coeff b t‖ < tol := by
  induction ts generalizing tol with
  | nil => rw [iscloseLoop] at h; injection h with h; exact ⟨h.symm, fun t ht => by simp at ht⟩
  | cons t ts ih =>
    have hm : tol * max 1 (max ‖coeff a t‖ ‖coeff b t‖) = tol := by
      have := hu t (List.mem_cons_self ..)
      rw [max_eq_left (max_le this.1 this.2), mul_one]
    rw [iscloseLoop] at h
    by_cases hs : IsSmall (coeff a t - coeff b t) tol
    · rw [if_pos (by rw [hm]; exact hs), hm] at h
      obtain ⟨h1, h2⟩ := ih tol h (fun t' ht' => hu t' (List.mem_cons_of_mem _ ht'))
      exact ⟨h1, fun t' ht' => (List.mem_cons.1 ht').elim (fun e => e ▸ hs) (h2 t')⟩
    · rw [if_neg (by rw [hm]; exact hs)] at h; cases h

/-- C43, exact for coefficients of modulus at most one: equality holds iff every coefficient differs by less than `1e-8`. -/
theorem isclose_iff_of_unit {a b : Terms A} (ha : WF a) (hb : WF b) (common : List (Term A)) (hcom : IsCommon a b common)
    (hu : ∀ t, ‖coeff a t‖ ≤ 1 ∧ ‖coeff b t‖ ≤ 1) :
    isclose a b common = true ↔ ∀ t, ‖coeff a t - coeff b t‖ < 1 / 10 ^ 8 := by
  constructor
  · intro h t
    rw [isclose] at h
    cases hl : iscloseLoop a b common eqTol with
    | none => rw [hl] at h; simp at h
    | some tol =>
      rw [hl] at h
      dsimp only at h
      obtain ⟨rfl, h2⟩ := iscloseLoop_some common eqTol tol hl (fun t _ => hu t)
      rw [Bool.and_eq_true, List.all_eq_true, List.all_eq_true] at h
      by_cases hta : t ∈ keys a
      · by_cases htb : t ∈ keys b
        · exact h2 t ((hcom.2 t).2 ⟨hta, htb⟩)
        · obtain ⟨v, hv⟩ := (mem_keys_iff a t).1 hta
          have hm := mem_of_get? hv
          have := h.1 (t, v) hm
          have := of_decide_eq_true this
          rw [coeff_of_not_mem htb, sub_zero, coeff_of_mem ha hm]
          exact this.resolve_left htb
      · by_cases htb : t ∈ keys b
        · obtain ⟨v, hv⟩ := (mem_keys_iff b t).1 htb
          have hm := mem_of_get? hv
          have := h.2 (t, v) hm
          have := of_decide_eq_true this
          rw [coeff_of_not_mem hta, zero_sub, norm_neg, coeff_of_mem hb hm]
          exact this.resolve_left hta
        · rw [coeff_of_not_mem hta, coeff_of_not_mem htb, sub_zero, norm_zero]; exact eqTol_pos
  · intro h
    refine isclose_of_close_partial ha hb common hcom (fun t _ _ => ?_) (fun t _ => h t)
    refine lt_of_lt_of_le (h t) ?_
    have hm : (1 : ℝ) ≤ max 1 (max ‖coeff a t‖ ‖coeff b t‖) := le_max_left _ _
    have := eqTol_pos
    rw [eqTol] at this
    nlinarith

/-- C43: `==` is reflexive. -/
theorem isclose_refl {a : Terms A} (ha : WF a) (common : List (Term A)) (hcom : IsCommon a a common) : isclose a a common = true := by
  refine isclose_of_close_partial ha ha common hcom (fun t _ _ => ?_) (fun t _ => ?_)
  · rw [sub_self, norm_zero]
    exact mul_pos eqTol_pos (lt_of_lt_of_le one_pos (le_max_left _ _))
  · rw [sub_self, norm_zero]; exact eqTol_pos

/-- C43: `==` is symmetric (for the same iteration order). -/
theorem isclose_symm (a b : Terms A) (common : List (Term A)) : isclose a b common = isclose b a common := by
  have hloop : ∀ ts tol, iscloseLoop a b ts tol = iscloseLoop b a ts tol := by
    intro ts
    induction ts with
    | nil => intro tol; rfl
    | cons t ts ih =>
      intro tol
      have h1 : max ‖coeff a t‖ ‖coeff b t‖ = max ‖coeff b t‖ ‖coeff a t‖ := max_comm _ _
      rw [iscloseLoop, iscloseLoop, ← h1, ih]
      by_cases h : IsSmall (coeff a t - coeff b t) (tol * max 1 (max ‖coeff a t‖ ‖coeff b t‖))
      · rw [if_pos h, if_pos (by rw [IsSmall, norm_sub_rev]; exact h)]
      · rw [if_neg h, if_neg (by rw [IsSmall, norm_sub_rev]; exact h)]
  rw [isclose, isclose, hloop]
  cases iscloseLoop b a common eqTol with
  | none => rfl
  | some tol => dsimp only; rw [Bool.and_comm]

/-- C43 fails: operators differing by `X0 / 2` are reported equal as soon as they share a large coefficient. -/
theorem isclose_counterexample :
    ∃ a b : Terms Letter, CanonicalOp a ∧ CanonicalOp b ∧ coeff a [(0, .X)] = 1 / 2 ∧ coeff b [(0, .X)] = 0 ∧
      ∀ common, IsCommon a b common → isclose a b common = true := by
  refine ⟨[([(0, .Z)], 10 ^ 8), ([(0, .X)], 1 / 2)], [([(0, .Z)], 10 ^ 8)], ?_, ?_, ?_, ?_, ?_⟩
  · refine ⟨by simp [WF, keys], fun t ht => ?_⟩
    simp [keys] at ht
    rcases ht with rfl | rfl <;> exact ⟨by simp, by simp⟩
  · refine ⟨by simp [WF, keys], fun t ht => ?_⟩
    simp [keys] at ht
    subst ht; exact ⟨by simp, by simp⟩
  · simp [coeff, get?]
  · simp [coeff, get?]
  · intro common hc
    have h1 : common = [[(0, .Z)]] := by
      have hmem : ∀ t, t ∈ common ↔ t = [(0, .Z)] := by
        intro t; rw [hc.2]; simp [keys]
        rintro rfl; exact Or.inl rfl
      have hp : common.Perm [[(0, .Z)]] := (List.perm_ext_iff_of_nodup hc.1 (by simp)).2 (fun t => by rw [hmem]; simp)
      exact List.perm_singleton.1 hp
    subst h1
    have hn : ‖(10 ^ 8 : ℂ)‖ = 10 ^ 8 := by simp
    have hca : coeff ([([(0, .Z)], 10 ^ 8), ([(0, .X)], 1 / 2)] : Terms Letter) [(0, .Z)] = 10 ^ 8 := by simp [coeff, get?]
    have hcb : coeff ([([(0, .Z)], 10 ^ 8)] : Terms Letter) [(0, .Z)] = 10 ^ 8 := by simp [coeff, get?]
    have htol : eqTol * max 1 (max ‖(10 ^ 8 : ℂ)‖ ‖(10 ^ 8 : ℂ)‖) = 1 := by
      rw [hn, max_self, max_eq_right (by norm_num), eqTol]; norm_num
    rw [isclose, iscloseLoop, hca, hcb, htol, if_pos (by rw [IsSmall, sub_self, norm_zero]; exact one_pos), iscloseLoop]
    dsimp only
    rw [Bool.and_eq_true, List.all_eq_true, List.all_eq_true]
    constructor
    · intro kv hkv
      apply decide_eq_true
      simp at hkv
      rcases hkv with rfl | rfl
      · left; simp [keys]
      · right; rw [IsSmall]; norm_num
    · intro kv hkv
      apply decide_eq_true
      simp at hkv
      subst hkv
      left; simp [keys]

/-- C42: addition commutes up to `==`. -/
theorem add_comm_isclose {a b : Terms A} (ha : WF a) (hb : WF b) (common : List (Term A)) (hcom : IsCommon (add a b) (add b a) common) :
    isclose (add a b) (add b a) common = true := by
  obtain ⟨w1, k1, c1, d1⟩ := add_spec ha hb
  obtain ⟨w2, k2, c2, d2⟩ := add_spec hb ha
  refine isclose_of_close_partial w1 w2 common hcom (fun t h1 h2 => ?_) (fun t h => ?_)
  · rw [c1 t h1, c2 t h2, add_comm (coeff b t), sub_self, norm_zero]
    exact mul_pos eqTol_pos (lt_of_lt_of_le one_pos (le_max_left _ _))
  · by_cases h1 : t ∈ keys (add a b)
    · have h2 : t ∉ keys (add b a) := fun e => h ⟨h1, e⟩
      rw [(d2 t h2).1, sub_zero, c1 t h1, add_comm]; exact (d2 t h2).2
    · by_cases h2 : t ∈ keys (add b a)
      · rw [(d1 t h1).1, zero_sub, norm_neg, c2 t h2, add_comm]; exact (d1 t h1).2
      · rw [(d1 t h1).1, (d2 t h2).1, sub_self, norm_zero]; exact eqTol_pos

/-- C42: addition commutes exactly when no coefficient is tiny. -/
theorem add_comm_exact {a b : Terms A} (ha : WF a) (hb : WF b) (t : Term A)
    (hc : ¬ ‖coeff a t + coeff b t‖ < 1 / 10 ^ 8 ∨ coeff a t + coeff b t = 0) : coeff (add a b) t = coeff (add b a) t := by
  rw [add_exact ha hb t hc, add_exact hb ha t (by rwa [add_comm (coeff b t)]), add_comm]

/-- C42: addition is associative when no partial sum cancels below the tolerance. -/
theorem add_assoc_exact {a b c : Terms A} (ha : WF a) (hb : WF b) (hc : WF c) (t : Term A)
    (h1 : ¬ ‖coeff a t + coeff b t‖ < 1 / 10 ^ 8 ∨ coeff a t + coeff b t = 0)
    (h2 : ¬ ‖coeff b t + coeff c t‖ < 1 / 10 ^ 8 ∨ coeff b t + coeff c t = 0)
    (h3 : ¬ ‖coeff a t + coeff b t + coeff c t‖ < 1 / 10 ^ 8 ∨ coeff a t + coeff b t + coeff c t = 0) :
    coeff (add (add a b) c) t = coeff (add a (add b c)) t := by
  have w1 := (add_spec ha hb).1
  have w2 := (add_spec hb hc).1
  rw [add_exact w1 hc t (by rwa [add_exact ha hb t h1]), add_exact ha hb t h1,
    add_exact ha w2 t (by rwa [add_exact hb hc t h2, ← add_assoc]), add_exact hb hc t h2, add_assoc]

/-- C42: the action of a sum is the sum of the actions when nothing is dropped. -/
theorem action_add (ev : ℕ × A → Module.End ℂ State) {a b : Terms A} (ha : WF a) (hb : WF b)
    (hc : ∀ t, ¬ ‖coeff a t + coeff b t‖ < 1 / 10 ^ 8 ∨ coeff a t + coeff b t = 0) :
    action ev (add a b) = action ev a + action ev b := by
  have key : ∀ (b acc : Terms A), WF acc → WF b → WF (b.foldl (fun acc kv => accum acc kv.1 kv.2) acc) ∧
      action ev (b.foldl (fun acc kv => accum acc kv.1 kv.2) acc) = action ev acc + action ev b ∧
      ∀ t, coeff (b.foldl (fun acc kv => accum acc kv.1 kv.2) acc) t = coeff acc t + coeff b t := by
    intro b
    induction b with
    | nil => intro acc h _; exact ⟨h, by rw [action_nil, add_zero]; rfl, fun t => by rw [coeff_of_not_mem (o := []) (by simp [keys]), add_zero]; rfl⟩
    | cons p b ih =>
      obtain ⟨u, c⟩ := p
      intro acc h1 hw
      have hn := List.nodup_cons.1 (show (u :: keys b).Nodup from hw)
      obtain ⟨i1, i2, i3⟩ := ih (accum acc u c) (wf_accum h1 _ _) hn.2
      refine ⟨i1, ?_, fun t => ?_⟩
      · rw [List.foldl_cons, i2, action_accum, action_cons, add_assoc]
      · rw [List.foldl_cons, i3 t, coeff_accum, coeff_cons]
        by_cases e : u = t
        · subst e; rw [if_pos rfl, if_pos rfl, coeff_of_not_mem hn.1]; ring
        · rw [if_neg e, if_neg e]; ring
  obtain ⟨h1, h2, h3⟩ := key b a ha hb
  rw [← h2]
  exact action_eq_of_coeff ev (add_spec ha hb).1 h1 (fun t => by rw [add_exact ha hb t (hc t), h3])

/-- C42: `compress` keeps a term only if it is above the tolerance, drops parts at most the tolerance, and changes coefficients by at most twice
the tolerance. -/
theorem compress_spec {a : Terms A} (ha : WF a) (tol : ℝ) (htol : 0 ≤ tol) :
    WF (compress a tol) ∧ (∀ kv ∈ compress a tol, tol < ‖kv.2‖ ∧ ∃ c, (kv.1, c) ∈ a ∧
      kv.2.re = (if |c.re| ≤ tol then 0 else c.re) ∧ kv.2.im = (if |c.im| ≤ tol then 0 else c.im)) ∧
    (∀ t c, (t, c) ∈ a → t ∉ keys (compress a tol) → |c.re| ≤ tol ∧ |c.im| ≤ tol) := by
  have hclean : ∀ c : ℂ, (cleanCoeff tol c).re = (if |c.re| ≤ tol then 0 else c.re) ∧ (cleanCoeff tol c).im = (if |c.im| ≤ tol then 0 else c.im) := by
    intro c
    rw [cleanCoeff]
    by_cases h1 : |c.im| ≤ tol
    · simp only [if_pos h1]
      by_cases h2 : |c.re| ≤ tol
      · simp [h2]
      · simp [h2]
    · simp only [if_neg h1]
      by_cases h2 : |c.re| ≤ tol
      · simp [h2]
      · simp [h2]
  refine ⟨?_, ?_, ?_⟩
  · rw [WF, compress, keys]
    refine List.Nodup.sublist (List.filter_sublist.map _) ?_
    rw [List.map_map]; exact ha
  · intro kv hkv
    rw [compress] at hkv
    obtain ⟨h1, h2⟩ := List.mem_filter.1 hkv
    obtain ⟨kv', h3, rfl⟩ := List.mem_map.1 h1
    exact ⟨by simpa using h2, kv'.2, h3, (hclean kv'.2).1, (hclean kv'.2).2⟩
  · intro t c hm hn
    by_contra hcon
    apply hn
    rw [compress]
    refine List.mem_map.2 ⟨(t, cleanCoeff tol c), List.mem_filter.2 ⟨List.mem_map.2 ⟨(t, c), hm, rfl⟩, ?_⟩, rfl⟩
    rw [decide_eq_true_eq]
    show tol < ‖cleanCoeff tol c‖
    rcases not_and_or.1 hcon with h | h
    · have := Complex.abs_re_le_norm (cleanCoeff tol c)
      rw [(hclean c).1, if_neg h] at this
      push Not at h
      linarith
    · have := Complex.abs_im_le_norm (cleanCoeff tol c)
      rw [(hclean c).2, if_neg h] at this
      push Not at h
      linarith

/-! ## C54 -/

theorem accumulate_singletons (S : OpClass A) (acc items : Terms A) (hw : WF (acc ++ items))
    (hfix : ∀ kv ∈ items, S.simplify kv.1 kv.2 = (kv.2, kv.1)) :
    (getOperators S items).foldl add acc = acc ++ items.filter (fun kv => decide (¬ IsSmall kv.2 eqTol)) := by
  induction items generalizing acc with
  | nil => simp [getOperators]
  | cons p items ih =>
    obtain ⟨t, c⟩ := p
    have hnot : t ∉ keys acc := by
      intro h
      rw [WF, keys, List.map_append, List.nodup_append] at hw
      exact hw.2.2 t h t (by simp) rfl
    have hs := hfix (t, c) (List.mem_cons_self ..)
    have hstep : add acc (ofTerm S t c) = if IsSmall c eqTol then acc else acc ++ [(t, c)] := by
      rw [ofTerm, hs]
      show addStep acc (t, c) = _
      rw [addStep, coeff_of_not_mem hnot]
      simp only [zero_add]
      split
      · rw [del_set_of_not_mem hnot]
      · rw [set_of_not_mem hnot]
    show (getOperators S items).foldl add (add acc (ofTerm S t c)) = _
    rw [hstep]
    by_cases hc : IsSmall c eqTol
    · rw [if_pos hc, ih acc _ (fun kv h => hfix kv (List.mem_cons_of_mem _ h))]
      · congr 1
        rw [List.filter_cons_of_neg (by simpa using hc)]
      · refine List.Nodup.sublist (List.Sublist.map _ ?_) hw
        exact List.Sublist.append_left (List.sublist_cons_self _ _) _
    · rw [if_neg hc, ih (acc ++ [(t, c)]) _ (fun kv h => hfix kv (List.mem_cons_of_mem _ h))]
      · rw [List.append_assoc]
        congr 1
        rw [List.filter_cons_of_pos (by simpa using hc)]
        rfl
      · rw [List.append_assoc]; exact hw

/-- Sizes of the groups. -/
theorem group_size (n k i : ℕ) (hk : i < k) (hkn : k ≤ n) :
    (n - i + k - 1) / k = n / k + if i < n % k then 1 else 0 := by
  have hk0 : 0 < k := lt_of_le_of_lt (Nat.zero_le _) hk
  have hn := Nat.div_add_mod n k
  have hr := Nat.mod_lt n hk0
  by_cases h : i < n % k
  · rw [if_pos h]
    rw [Nat.div_eq_of_lt_le]
    · rw [Nat.add_mul, Nat.one_mul, Nat.mul_comm]; omega
    · rw [Nat.add_mul, Nat.add_mul, Nat.one_mul, Nat.mul_comm]; omega
  · rw [if_neg h, Nat.add_zero]
    rw [Nat.div_eq_of_lt_le]
    · rw [Nat.mul_comm]; omega
    · rw [Nat.add_mul, Nat.one_mul, Nat.mul_comm]; omega

/-- C54: the groups are, in order, consecutive chunks of the terms; there are `k` clamped to `[1, number of terms]` of them; sizes differ by
at most one; a term is missing from its group only if its coefficient is below `1e-8`. -/
theorem getOperatorGroups_spec (S : OpClass A) (a : Terms A) (numGroups : ℤ) (ha : WF a)
    (hfix : ∀ kv ∈ a, S.simplify kv.1 kv.2 = (kv.2, kv.1)) :
    ∃ chunks : List (Terms A), chunks.flatten = a ∧ (chunks.length : ℤ) = min (max 1 numGroups) a.length ∧
      (∀ c ∈ chunks, a.length / chunks.length ≤ c.length ∧ c.length ≤ a.length / chunks.length + 1) ∧
      getOperatorGroups S a numGroups = chunks.map fun c => c.filter fun kv => decide (¬ ‖kv.2‖ < 1 / 10 ^ 8) := by
  have hloop : ∀ (n k : ℕ) (is : List ℕ) (items : Terms A), WF items → (∀ kv ∈ items, S.simplify kv.1 kv.2 = (kv.2, kv.1)) →
      (∀ i ∈ is, i < k) → k ≤ n → (is.map fun i => (n - i + k - 1) / k).sum = items.length →
      ∃ chunks : List (Terms A), chunks.flatten = items ∧ chunks.length = is.length ∧
        (∀ c ∈ chunks, n / k ≤ c.length ∧ c.length ≤ n / k + 1) ∧
        groupsLoop n k is (getOperators S items) = chunks.map fun c => c.filter fun kv => decide (¬ ‖kv.2‖ < 1 / 10 ^ 8) := by
    intro n k is
    induction is with
    | nil =>
      intro items _ _ _ _ hsum
      have : items = [] := List.length_eq_zero_iff.1 (by simpa using hsum.symm)
      subst this
      exact ⟨[], rfl, rfl, fun c hc => by simp at hc, rfl⟩
    | cons i is ih =>
      intro items hw hf his hkn hsum
      rw [List.map_cons, List.sum_cons] at hsum
      set m := (n - i + k - 1) / k with hm
      have hsplit : items.take m ++ items.drop m = items := List.take_append_drop m items
      have hwt : WF (items.take m) := List.Nodup.sublist (List.Sublist.map _ (List.take_sublist m items)) hw
      have hwd : WF (items.drop m) := List.Nodup.sublist (List.Sublist.map _ (List.drop_sublist m items)) hw
      obtain ⟨chunks, h1, h2, h3, h4⟩ := ih (items.drop m) hwd (fun kv h => hf kv (List.mem_of_mem_drop h))
        (fun j hj => his j (List.mem_cons_of_mem _ hj)) hkn (by rw [List.length_drop]; omega)
      refine ⟨items.take m :: chunks, by rw [List.flatten_cons, h1, hsplit], by rw [List.length_cons, List.length_cons, h2], ?_, ?_⟩
      · intro c hc
        rcases List.mem_cons.1 hc with rfl | hc
        · have hlen : (items.take m).length = m := by rw [List.length_take]; omega
          rw [hlen, hm, group_size n k i (his i (List.mem_cons_self ..)) hkn]
          split <;> omega
        · exact h3 c hc
      · rw [groupsLoop, ← hm, List.map_cons]
        have e1 : (getOperators S items).take m = getOperators S (items.take m) := by rw [getOperators, getOperators, List.map_take]
        have e2 : (getOperators S items).drop m = getOperators S (items.drop m) := by rw [getOperators, getOperators, List.map_drop]
        rw [e1, e2, h4, accumulate, accumulate_singletons S [] (items.take m) (by simpa using hwt)
          (fun kv h => hf kv (List.mem_of_mem_take h)), List.nil_append]
        rfl
  set k := min (if numGroups < 1 then 1 else numGroups.toNat) a.length with hk
  have hkcast : (k : ℤ) = min (max 1 numGroups) a.length := by
    rw [hk]
    split
    · next h => rw [max_eq_left (by omega)]; omega
    · next h => rw [max_eq_right (by omega)]; omega
  have hkn : k ≤ a.length := min_le_right _ _
  have hsum : ((List.range k).map fun i => (a.length - i + k - 1) / k).sum = a.length := by
    rcases Nat.eq_zero_or_pos k with h0 | h0
    · have hlen : a.length = 0 := by
        rw [h0] at hk
        split at hk <;> omega
      rw [h0, hlen]; rfl
    · have e : (List.range k).map (fun i => (a.length - i + k - 1) / k) = (List.range k).map (fun i => a.length / k + if i < a.length % k then 1 else 0) := by
        apply List.map_congr_left
        intro i hi
        exact group_size _ _ _ (List.mem_range.1 hi) hkn
      rw [e, List.sum_map_add, List.map_const', List.sum_replicate, List.length_range]
      have hcount : ∀ (r k : ℕ), r ≤ k → ((List.range k).map fun i => if i < r then 1 else 0).sum = r := by
        intro r k
        induction k with
        | zero => intro h; simp; omega
        | succ k ih =>
          intro h
          rw [List.range_succ, List.map_append, List.sum_append]
          rcases Nat.lt_or_ge r (k + 1) with h' | h'
          · rw [ih (by omega)]; simp; omega
          · have : r = k + 1 := by omega
            subst this
            have e : (List.range k).map (fun i => if i < k + 1 then 1 else 0) = (List.range k).map (fun _ => 1) := by
              apply List.map_congr_left
              intro i hi
              rw [if_pos (by have := List.mem_range.1 hi; omega)]
            rw [e]; simp
      rw [hcount _ _ (le_of_lt (Nat.mod_lt _ h0)), smul_eq_mul]
      exact Nat.div_add_mod _ _
  obtain ⟨chunks, h1, h2, h3, h4⟩ := hloop a.length k (List.range k) a ha hfix (fun i hi => List.mem_range.1 hi) hkn hsum
  rw [List.length_range] at h2
  refine ⟨chunks, h1, by rw [h2, hkcast], by rw [h2]; exact h3, ?_⟩
  rw [getOperatorGroups, ← h4]

/-- C54: without tiny coefficients the groups partition the terms in order, and their sum is the operator. -/
theorem getOperatorGroups_sum (S : OpClass A) (a : Terms A) (numGroups : ℤ) (ha : WF a)
    (hfix : ∀ kv ∈ a, S.simplify kv.1 kv.2 = (kv.2, kv.1)) (hbig : ∀ kv ∈ a, ¬ ‖kv.2‖ < 1 / 10 ^ 8) :
    (getOperatorGroups S a numGroups).flatten = a ∧ accumulate (getOperatorGroups S a numGroups) = a := by
  obtain ⟨chunks, h1, _, _, h4⟩ := getOperatorGroups_spec S a numGroups ha hfix
  have hg : getOperatorGroups S a numGroups = chunks := by
    rw [h4]
    conv_rhs => rw [← List.map_id chunks]
    apply List.map_congr_left
    intro c hc
    show c.filter _ = c
    rw [List.filter_eq_self]
    intro kv hkv
    rw [decide_eq_true_eq]
    exact hbig kv (by rw [← h1]; exact List.mem_flatten.2 ⟨c, hc, hkv⟩)
  refine ⟨by rw [hg, h1], ?_⟩
  rw [hg, accumulate]
  have hadd : ∀ (b acc : Terms A), WF (acc ++ b) → (∀ kv ∈ b, ¬ ‖kv.2‖ < 1 / 10 ^ 8) → add acc b = acc ++ b := by
    intro b
    induction b with
    | nil => intro acc _ _; rw [List.append_nil]; rfl
    | cons p b ih =>
      obtain ⟨t, c⟩ := p
      intro acc hw hb
      have hnot : t ∉ keys acc := by
        intro h
        rw [WF, keys, List.map_append, List.nodup_append] at hw
        exact hw.2.2 t h t (by simp) rfl
      have hstep : addStep acc (t, c) = acc ++ [(t, c)] := by
        rw [addStep, coeff_of_not_mem hnot]
        simp only [zero_add]
        rw [if_neg (show ¬ IsSmall c eqTol from hb (t, c) (List.mem_cons_self ..)), set_of_not_mem hnot]
      show add (addStep acc (t, c)) b = _
      rw [hstep, ih _ (by rw [List.append_assoc]; exact hw) (fun kv h => hb kv (List.mem_cons_of_mem _ h)), List.append_assoc]
      rfl
  have key : ∀ (cs : List (Terms A)) (acc : Terms A), WF (acc ++ cs.flatten) → (∀ c ∈ cs, ∀ kv ∈ c, ¬ ‖kv.2‖ < 1 / 10 ^ 8) →
      cs.foldl add acc = acc ++ cs.flatten := by
    intro cs
    induction cs with
    | nil => intro acc _ _; simp
    | cons c cs ih =>
      intro acc hw hb
      rw [List.flatten_cons, ← List.append_assoc] at hw
      have hw' : WF (acc ++ c) := List.Nodup.sublist (List.Sublist.map _ (List.sublist_append_left _ _)) hw
      rw [List.foldl_cons, hadd c acc hw' (hb c (List.mem_cons_self ..)), ih _ hw (fun c' h => hb c' (List.mem_cons_of_mem _ h)),
        List.flatten_cons, List.append_assoc]
  rw [key chunks [] (by rw [List.nil_append, h1]; exact ha)
    (fun c hc kv hkv => hbig kv (by rw [← h1]; exact List.mem_flatten.2 ⟨c, hc, hkv⟩)), List.nil_append, h1]

/-- Canonical qubit operators meet the hypothesis of `getOperatorGroups_spec`. -/
theorem canonical_fixed {a : Terms Letter} (ha : CanonicalOp a) : ∀ kv ∈ a, qubit.simplify kv.1 kv.2 = (kv.2, kv.1) :=
  fun kv hkv => qubitSimplify_of_canonical (ha.2 kv.1 (List.mem_map_of_mem hkv)) kv.2

example : WF ([([(0, .X)], 1), ([(1, .Z)], 2)] : Terms Letter) ∧ WF ([([(0, .X)], -1), ([], 5)] : Terms Letter) := by
  constructor <;> simp [WF, keys]

/-- The tolerance really drops: `X0 + 1e-9 Z0` loses the small term, in one order only. -/
example : add [([(0, .X)], 1)] [([(0, .Z)], 1 / 10 ^ 9)] = ([([(0, .X)], 1)] : Terms Letter) ∧
    add [([(0, .Z)], 1 / 10 ^ 9)] [([(0, .X)], 1)] = ([([(0, .Z)], 1 / 10 ^ 9), ([(0, .X)], 1)] : Terms Letter) := by
  have h1 : IsSmall (1 / 10 ^ 9) eqTol := by rw [IsSmall, eqTol]; norm_num
  have h2 : ¬ IsSmall 1 eqTol := by rw [IsSmall, eqTol]; norm_num
  have c1 : coeff ([([(0, .X)], 1)] : Terms Letter) [(0, .Z)] = 0 := by simp [coeff, get?]
  have c2 : coeff ([([(0, .Z)], 1 / 10 ^ 9)] : Terms Letter) [(0, .X)] = 0 := by simp [coeff, get?]
  constructor
  · show addStep _ _ = _
    rw [addStep, c1, zero_add, if_pos h1]; simp [PyDict.set, PyDict.del]
  · show addStep _ _ = _
    rw [addStep, c2, zero_add, if_neg h2]; simp [PyDict.set]

end ZQ.Op
