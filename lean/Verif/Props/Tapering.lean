import Verif.Spec.Tapering
import Verif.Lemmas.Adjoint
import Verif.Lemmas.ExactSum

/-!
# Freezing and pruning orbitals (C61)
-/

namespace ZQ.Op

open ZQ PyDict

/-! ## Ladder operators on basis states -/

theorem ladder_basisState (f : ℕ × Bool) (s : ℕ → Bool) :
    ladderAction f (basisState s) = if s f.1 = f.2 then 0 else sgn s f.1 • basisState (Function.update s f.1 f.2) := by
  obtain ⟨p, a⟩ := f
  funext s'
  rw [ladder_apply]
  dsimp only
  by_cases h : s p = a
  · rw [if_pos h]
    split
    · rw [basisState_ne, mul_zero]; rfl
      intro e
      have := congrFun e p
      rw [Function.update_self, h] at this
      cases a <;> simp at this
    · rfl
  · rw [if_neg h, Pi.smul_apply, smul_eq_mul]
    by_cases e : s' = Function.update s p a
    · subst e
      have h' : (!a) = s p := by cases a <;> cases hs : s p <;> simp_all
      rw [Function.update_self, if_pos rfl, basisState_self, Function.update_idem, h', Function.update_eq_self, basisState_self, sgn_update,
        if_neg (fun e : p < p ∧ _ => absurd e.1 (lt_irrefl _))]
    · rw [basisState_ne e, mul_zero]
      split
      · rename_i hs
        rw [basisState_ne, mul_zero]
        intro e'
        apply e
        rw [← e', Function.update_idem, ← hs, Function.update_eq_self]
      · rfl

/-- A term maps a basis state to a basis state up to a sign, or to zero; modes it does not touch keep their occupation. -/
theorem term_basis (t : Term Bool) (s : ℕ → Bool) : termAction ladderAction t (basisState s) = 0 ∨
    ∃ (c : ℂ) (u : ℕ → Bool), ‖c‖ = 1 ∧ termAction ladderAction t (basisState s) = c • basisState u ∧ ∀ k, (∀ f ∈ t, f.1 ≠ k) → u k = s k := by
  induction t with
  | nil => exact Or.inr ⟨1, s, by simp, by rw [termAction_nil, one_smul]; rfl, fun k _ => rfl⟩
  | cons f t ih =>
    rw [termAction_cons, Module.End.mul_apply]
    rcases ih with h | ⟨c, u, hc, h, hu⟩
    · left; rw [h, map_zero]
    · rw [h, map_smul, ladder_basisState]
      by_cases e : u f.1 = f.2
      · left; rw [if_pos e, smul_zero]
      · right
        rw [if_neg e]
        refine ⟨c * sgn u f.1, Function.update u f.1 f.2, ?_, by rw [smul_smul], fun k hk => ?_⟩
        · rw [norm_mul, hc, sgn, norm_pow, norm_neg, norm_one, one_pow, one_mul]
        · rw [Function.update_of_ne (hk f (List.mem_cons_self ..)).symm]
          exact hu k fun g hg => hk g (List.mem_cons_of_mem _ hg)

theorem term_norm_le (t : Term Bool) (s s' : ℕ → Bool) : ‖termAction ladderAction t (basisState s) s'‖ ≤ 1 := by
  rcases term_basis t s with h | ⟨c, u, hc, h, _⟩
  · rw [h]; simp
  · rw [h, Pi.smul_apply, smul_eq_mul, norm_mul, hc, one_mul, basisState]
    split <;> simp

/-- A term that does not touch mode `k` has no matrix elements between different occupations of it. -/
theorem term_untouched {t : Term Bool} {k : ℕ} (ht : ∀ f ∈ t, f.1 ≠ k) {s s' : ℕ → Bool} (h : s' k ≠ s k) : termAction ladderAction t (basisState s) s' = 0 := by
  rcases term_basis t s with h0 | ⟨c, u, _, h0, hu⟩
  · rw [h0]; rfl
  · rw [h0, Pi.smul_apply, smul_eq_mul, basisState_ne, mul_zero]
    rintro rfl
    exact h (hu k ht)

/-- Moving a ladder operator through a term that does not touch its mode. -/
theorem ladder_through {f : ℕ × Bool} {t : Term Bool} (ht : ∀ g ∈ t, g.1 ≠ f.1) (ψ : State) :
    ladderAction f (termAction ladderAction t ψ) = ((-1 : ℂ) ^ t.length) • termAction ladderAction t (ladderAction f ψ) := by
  induction t with
  | nil => rw [termAction_nil, List.length_nil, pow_zero, one_smul]; rfl
  | cons g t ih =>
    have h := LinearMap.congr_fun (ladder_anticomm (ht g (List.mem_cons_self ..)).symm) (termAction ladderAction t ψ)
    rw [LinearMap.neg_apply, Module.End.mul_apply, Module.End.mul_apply] at h
    rw [termAction_cons, Module.End.mul_apply, Module.End.mul_apply, h, ih (fun x hx => ht x (List.mem_cons_of_mem _ hx)), map_smul, List.length_cons, pow_succ,
      mul_neg_one, neg_smul]

/-! ## Scanning one term -/

/-- What has been computed after the factors `w` (the last ones of the term). -/
structure ScanInv (i : ℕ) (v : Bool) (c : ℂ) (s : ℕ → Bool) (w : Term Bool) (st : Scan) : Prop where
  rest : st.rest = w.filter (fun f => decide (f.1 ≠ i))
  pos : st.pos = st.rest.length + st.nOps
  occupancy : st.occupancy = if st.nOps % 2 = 0 then v else !v
  value : (st.coef = c ∧ termAction ladderAction w (basisState s) =
      ((-1 : ℂ) ^ (st.nSwaps + st.nOps) * sgn s i ^ st.nOps) • termAction ladderAction st.rest (basisState (Function.update s i st.occupancy))) ∨
    (st.coef = 0 ∧ termAction ladderAction w (basisState s) = 0)

theorem rest_untouched {i : ℕ} {w : Term Bool} : ∀ g ∈ w.filter (fun f => decide (f.1 ≠ i)), g.1 ≠ i := by
  intro g hg
  exact of_decide_eq_true (List.mem_filter.1 hg).2

theorem sgn_update_self (s : ℕ → Bool) (i : ℕ) (v : Bool) : sgn (Function.update s i v) i = sgn s i := by
  rw [sgn_update, if_neg (fun e : i < i ∧ _ => absurd e.1 (lt_irrefl _))]

theorem scanStep_inv {same : ℕ → ℕ → Bool} {i : ℕ} {v : Bool} {c : ℂ} {s : ℕ → Bool} {w : Term Bool} {st : Scan} (h : ScanInv i v c s w st) (op : ℕ × Bool)
    (hsame : same op.1 i = true ↔ op.1 = i) : ScanInv i v c s (op :: w) (scanStep same i st op) := by
  obtain ⟨h1, h2, h3, h4⟩ := h
  unfold scanStep
  by_cases hop : op.1 = i
  · rw [if_pos (hsame.2 hop)]
    have hrest : (op :: w).filter (fun f => decide (f.1 ≠ i)) = st.rest := by
      rw [List.filter_cons_of_neg (by simp [hop]), h1]
    refine ⟨hrest.symm, by dsimp only; omega, ?_, ?_⟩
    · dsimp only
      rw [h3]
      rcases Nat.mod_two_eq_zero_or_one st.nOps with e | e
      · rw [if_pos e, if_neg (by omega)]
      · rw [if_neg (by omega), if_pos (by omega), Bool.not_not]
    · dsimp only
      rw [termAction_cons, Module.End.mul_apply]
      rcases h4 with ⟨e1, e2⟩ | ⟨e1, e2⟩
      · have hr : ∀ g ∈ st.rest, g.1 ≠ op.1 := by rw [h1, hop]; exact rest_untouched
        rw [e2, map_smul, ladder_through hr, ladder_basisState, hop, Function.update_self]
        by_cases ho : st.occupancy = op.2
        · right
          rw [if_pos ho, if_pos ho, map_zero, smul_zero, smul_zero]
          exact ⟨rfl, rfl⟩
        · left
          rw [if_neg ho, if_neg ho]
          refine ⟨e1, ?_⟩
          have hno : op.2 = !st.occupancy := by cases hh : op.2 <;> cases hh' : st.occupancy <;> simp_all
          rw [map_smul, Function.update_idem, hno, smul_smul, smul_smul, sgn_update_self]
          congr 1
          have hexp : st.nSwaps + ((st.pos : ℤ) - ((st.nOps + 1 : ℕ) : ℤ)) + ((st.nOps + 1 : ℕ) : ℤ) = (st.nSwaps + st.nOps) + (st.rest.length : ℤ) := by
            rw [h2]; push_cast; ring
          have hz : (-1 : ℂ) ^ ((st.nSwaps + st.nOps) + (st.rest.length : ℤ)) = (-1 : ℂ) ^ (st.nSwaps + (st.nOps : ℤ)) * (-1 : ℂ) ^ st.rest.length := by
            rw [zpow_add₀ (by norm_num : (-1 : ℂ) ≠ 0) (st.nSwaps + st.nOps), zpow_natCast]
          rw [hexp, hz, pow_succ]
          generalize (-1 : ℂ) ^ (st.nSwaps + (st.nOps : ℤ)) = x
          ring
      · right
        rw [e2, map_zero, e1]
        exact ⟨by split <;> rfl, rfl⟩
  · rw [if_neg (fun e => hop (hsame.1 e))]
    have hrest : (op :: w).filter (fun f => decide (f.1 ≠ i)) = op :: st.rest := by
      rw [List.filter_cons_of_pos (by simp [hop]), h1]
    refine ⟨hrest.symm, by dsimp only; rw [List.length_cons]; omega, h3, ?_⟩
    dsimp only
    rw [termAction_cons, Module.End.mul_apply]
    rcases h4 with ⟨e1, e2⟩ | ⟨e1, e2⟩
    · left
      refine ⟨e1, ?_⟩
      rw [e2, map_smul, termAction_cons, Module.End.mul_apply]
    · right
      exact ⟨e1, by rw [e2, map_zero]⟩

theorem scan_inv {same : ℕ → ℕ → Bool} {i : ℕ} {v : Bool} (c : ℂ) {s : ℕ → Bool} (hs : s i = v) (t : Term Bool)
    (hsame : ∀ f ∈ t, (same f.1 i = true ↔ f.1 = i)) : ScanInv i v c s t (t.reverse.foldl (scanStep same i) ⟨0, 0, 0, c, v, []⟩) := by
  induction t with
  | nil =>
    refine ⟨rfl, rfl, rfl, Or.inl ⟨rfl, ?_⟩⟩
    simp only [List.reverse_nil, List.foldl_nil, termAction_nil, pow_zero, mul_one, Nat.cast_zero, add_zero, zpow_zero, one_smul]
    rw [← hs, Function.update_eq_self]
  | cons f t ih =>
    rw [List.reverse_cons, List.foldl_append]
    exact scanStep_inv (ih fun g hg => hsame g (List.mem_cons_of_mem _ hg)) f (hsame f (List.mem_cons_self ..))

theorem neg_one_zpow_mod (z : ℤ) : (-1 : ℂ) ^ z = if z % 2 ≠ 0 then -1 else 1 := by
  by_cases h : z % 2 = 0
  · rw [if_neg (not_not.2 h), (Int.even_iff.2 h).neg_one_zpow]
  · rw [if_pos h, (Int.odd_iff.2 (by omega)).neg_one_zpow]

/-- One term: between states with the frozen occupation, the term and what is kept of it have the same matrix elements. -/
theorem freezeTerm_spec {same : ℕ → ℕ → Bool} (item : ℕ × Bool) (t : Term Bool) (c : ℂ) (hsame : ∀ f ∈ t, (same f.1 item.1 = true ↔ f.1 = item.1)) :
    match freezeTerm same item t c with
    | some (t', c') => (t' = t.filter fun f => decide (f.1 ≠ item.1)) ∧ (c' = c ∨ c' = -c) ∧ ∀ s s' : ℕ → Bool, s item.1 = item.2 → s' item.1 = item.2 →
        c * termAction ladderAction t (basisState s) s' = c' * termAction ladderAction t' (basisState s) s'
    | none => ∀ s s' : ℕ → Bool, s item.1 = item.2 → s' item.1 = item.2 → c * termAction ladderAction t (basisState s) s' = 0 := by
  obtain ⟨i, v⟩ := item
  dsimp only at hsame ⊢
  unfold freezeTerm
  dsimp only
  have hinv := fun (s : ℕ → Bool) (hs : s i = v) => scan_inv (same := same) c hs t hsame
  generalize t.reverse.foldl (scanStep same i) ⟨0, 0, 0, c, v, []⟩ = st at hinv
  obtain ⟨hr, _, _, hv0⟩ := hinv (fun _ => v) rfl
  by_cases hk : (if st.nSwaps % 2 ≠ 0 then st.coef * -1 else st.coef) ≠ 0 ∧ st.occupancy = v
  · rw [if_pos hk]
    dsimp only
    obtain ⟨hk1, hk2⟩ := hk
    refine ⟨hr, ?_, fun s s' hs hs' => ?_⟩
    · rcases hv0 with ⟨e, _⟩ | ⟨e, _⟩
      · rw [e]; split
        · right; ring
        · left; rfl
      · rw [e] at hk1; simp at hk1
    · obtain ⟨_, _, ho, hv⟩ := hinv s hs
      have hz : st.coef ≠ 0 := by
        intro e; rw [e] at hk1; simp at hk1
      rcases hv with ⟨e1, e2⟩ | ⟨e1, _⟩
      · have heven : st.nOps % 2 = 0 := by
          by_contra hne
          rw [if_neg hne, hk2] at ho
          cases v <;> simp at ho
        rw [e2, hk2, ← hs, Function.update_eq_self, Pi.smul_apply, smul_eq_mul, zpow_add₀ (by norm_num : (-1 : ℂ) ≠ 0), neg_one_zpow_mod st.nSwaps, neg_one_zpow_mod,
          if_neg (by omega : ¬ ((st.nOps : ℤ) % 2 ≠ 0)), e1]
        obtain ⟨k, hk⟩ := Nat.even_iff.2 heven
        rw [hk, pow_add, ← mul_pow, sgn_sq, one_pow]
        split <;> ring
      · exact absurd e1 hz
  · rw [if_neg hk]
    intro s s' hs hs'
    obtain ⟨_, _, ho, hv⟩ := hinv s hs
    rcases hv with ⟨e1, e2⟩ | ⟨_, e2⟩
    · by_cases hc : c = 0
      · rw [hc, zero_mul]
      · have hne : st.occupancy ≠ v := by
          intro e
          apply hk
          refine ⟨?_, e⟩
          rw [e1]
          split
          · simpa using hc
          · exact hc
        rw [e2, Pi.smul_apply, smul_eq_mul, term_untouched (k := i) (by rw [hr]; exact rest_untouched), mul_zero, mul_zero]
        rw [Function.update_self, hs']
        exact hne.symm
    · rw [e2]; simp

/-! ## Adding terms -/

/-- The elements of a sum of terms. -/
theorem element_nil (s' s : ℕ → Bool) : element [] s' s = 0 := by
  rw [element, action_nil]; rfl

theorem element_eq (o : Terms Bool) (s' s : ℕ → Bool) : element o s' s = (o.map fun kv => kv.2 * termAction ladderAction kv.1 (basisState s) s').sum := by
  induction o with
  | nil => exact element_nil s' s
  | cons p o ih =>
    obtain ⟨t, c⟩ := p
    rw [element, action_cons, List.map_cons, List.sum_cons, ← ih]
    rfl

/-- Adding one term is right up to the tolerance, and exact on a grid. -/
theorem add_single_element {a : Terms Bool} (ha : WF a) (t : Term Bool) (c : ℂ) (s' s : ℕ → Bool) :
    ‖element (add a [(t, c)]) s' s - (element a s' s + c * termAction ladderAction t (basisState s) s')‖ ≤ 1 / 10 ^ 8 ∧
    ∀ δ : ℝ, 1 / 10 ^ 8 ≤ δ → OnGrid δ a → c ∈ Grid δ → element (add a [(t, c)]) s' s = element a s' s + c * termAction ladderAction t (basisState s) s' := by
  constructor
  · have e : coeff a t + c = coeff (accum a t c) t := by rw [coeff_accum, if_pos rfl]
    have hacc : element (accum a t c) s' s = element a s' s + c * termAction ladderAction t (basisState s) s' := by
      rw [element, action_accum]; rfl
    rw [← hacc]
    by_cases hsm : IsSmall (coeff a t + c) eqTol
    · have hadd : add a [(t, c)] = PyDict.del (accum a t c) t := by
        show addStep a (t, c) = _
        rw [addStep, accum_eq]
        exact if_pos hsm
      have hsum : element (accum a t c) s' s = element (accum (add a [(t, c)]) t (coeff a t + c)) s' s := by
        have : action ladderAction (accum a t c) = action ladderAction (accum (add a [(t, c)]) t (coeff a t + c)) := ?_
        · rw [element, element, this]
        refine action_eq_of_coeff _ (wf_accum ha _ _) (wf_accum (add_spec ha (wf_single t c)).1 _ _) fun u => ?_
        rw [coeff_accum, coeff_accum, hadd, coeff_del (wf_accum ha _ _), coeff_accum]
        by_cases hu : t = u
        · subst hu; rw [if_pos rfl, if_pos rfl, if_pos rfl, zero_add]
        · rw [if_neg hu, if_neg hu, if_neg hu, add_zero, add_zero]
      have h2 : element (accum (add a [(t, c)]) t (coeff a t + c)) s' s
          = element (add a [(t, c)]) s' s + (coeff a t + c) * termAction ladderAction t (basisState s) s' := by
        rw [element, action_accum]; rfl
      rw [hsum, h2, sub_add_cancel_left, norm_neg, norm_mul]
      have hn : ‖coeff a t + c‖ ≤ 1 / 10 ^ 8 := le_of_lt hsm
      calc _ ≤ 1 / 10 ^ 8 * 1 := mul_le_mul hn (term_norm_le t s s') (norm_nonneg _) (by norm_num)
        _ = _ := mul_one _
    · have hadd : add a [(t, c)] = accum a t c := by
        show addStep a (t, c) = _
        rw [addStep, accum_eq]
        exact if_neg hsm
      rw [hadd, sub_self, norm_zero]
      norm_num
  · intro δ hδ ga hc
    obtain ⟨_, _, _, h4⟩ := add_onGrid hδ ha (wf_single t c) ga (onGrid_single hc)
    rw [element, h4, action_cons, action_nil, add_zero]
    rfl

theorem length_set_le (d : Terms Bool) (k : Term Bool) (v : ℂ) : (PyDict.set d k v).length ≤ d.length + 1 := by
  induction d with
  | nil => simp [PyDict.set]
  | cons p d ih =>
    rw [PyDict.set]
    split
    · simp
    · simp only [List.length_cons]; omega

theorem length_del_le (d : Terms Bool) (k : Term Bool) : (PyDict.del d k).length ≤ d.length := by
  induction d with
  | nil => simp [PyDict.del]
  | cons p d ih =>
    rw [PyDict.del]
    split
    · simp
    · simp only [List.length_cons]; omega

theorem length_add_single (a : Terms Bool) (t : Term Bool) (c : ℂ) : (add a [(t, c)]).length ≤ a.length + 1 := by
  show (addStep a (t, c)).length ≤ _
  unfold addStep
  dsimp only
  split
  · exact (length_del_le _ _).trans (length_set_le _ _ _)
  · exact length_set_le _ _ _

/-- The factors of an operator. -/
def factors {A : Type} (o : Terms A) : List (ℕ × A) := o.flatMap Prod.fst

theorem mem_factors {A : Type} {o : Terms A} {f : ℕ × A} : f ∈ factors o ↔ ∃ t ∈ keys o, f ∈ t := by
  rw [factors, List.mem_flatMap]
  constructor
  · rintro ⟨kv, h1, h2⟩; exact ⟨kv.1, List.mem_map_of_mem h1, h2⟩
  · rintro ⟨t, h1, h2⟩
    obtain ⟨kv, hkv, rfl⟩ := List.mem_map.1 h1
    exact ⟨kv, hkv, h2⟩

/-- Stage of the freezing: between states with occupation `item`, the operator and the result have nearly the same matrix elements. -/
structure Stage (o r : Terms Bool) (item : ℕ × Bool) : Prop where
  wf : WF r
  length : r.length ≤ o.length
  factors : ∀ f ∈ factors r, f ∈ factors o ∧ f.1 ≠ item.1
  near : ∀ s s' : ℕ → Bool, s item.1 = item.2 → s' item.1 = item.2 → ‖element o s' s - element r s' s‖ ≤ o.length * (1 / 10 ^ 8)
  exact : ∀ δ : ℝ, 1 / 10 ^ 8 ≤ δ → (∀ kv ∈ o, kv.2 ∈ Grid δ) → (∀ kv ∈ r, kv.2 ∈ Grid δ) ∧
    ∀ s s' : ℕ → Bool, s item.1 = item.2 → s' item.1 = item.2 → element o s' s = element r s' s

theorem onGrid_of_mem {δ : ℝ} {o : Terms Bool} (h : ∀ kv ∈ o, kv.2 ∈ Grid δ) : OnGrid δ o := by
  intro t
  rw [coeff]
  cases hg : get? o t with
  | none => exact (Grid δ).zero_mem
  | some v => exact h _ (mem_of_get? hg)

theorem OnGrid.mem {δ : ℝ} {o : Terms Bool} (hw : WF o) (h : OnGrid δ o) : ∀ kv ∈ o, kv.2 ∈ Grid δ := by
  intro kv hkv
  rw [← coeff_of_mem hw (show (kv.1, kv.2) ∈ o from hkv)]
  exact h kv.1

theorem freezeAdd_fold {same : ℕ → ℕ → Bool} (item : ℕ × Bool) (l acc : Terms Bool) (hacc : WF acc)
    (hsame : ∀ f ∈ factors l, (same f.1 item.1 = true ↔ f.1 = item.1)) :
    WF (l.foldl (freezeAdd same item) acc) ∧ (l.foldl (freezeAdd same item) acc).length ≤ acc.length + l.length ∧
    (∀ f ∈ factors (l.foldl (freezeAdd same item) acc), f ∈ factors acc ∨ (f ∈ factors l ∧ f.1 ≠ item.1)) ∧
    (∀ s s' : ℕ → Bool, s item.1 = item.2 → s' item.1 = item.2 →
      ‖element acc s' s + element l s' s - element (l.foldl (freezeAdd same item) acc) s' s‖ ≤ l.length * (1 / 10 ^ 8)) ∧
    (∀ δ : ℝ, 1 / 10 ^ 8 ≤ δ → (∀ kv ∈ l, kv.2 ∈ Grid δ) → OnGrid δ acc → OnGrid δ (l.foldl (freezeAdd same item) acc) ∧
      ∀ s s' : ℕ → Bool, s item.1 = item.2 → s' item.1 = item.2 → element acc s' s + element l s' s = element (l.foldl (freezeAdd same item) acc) s' s) := by
  induction l generalizing acc with
  | nil => exact ⟨hacc, by simp, fun f hf => Or.inl hf, fun s s' _ _ => by simp [element_nil], fun δ _ _ h => ⟨h, fun s s' _ _ => by simp [element_nil]⟩⟩
  | cons kv l ih =>
    obtain ⟨t, c⟩ := kv
    have hft : ∀ f ∈ t, f ∈ factors ((t, c) :: l) := fun f hf => by simp [factors, hf]
    have hfl : ∀ f ∈ factors l, f ∈ factors ((t, c) :: l) := fun f hf => by
      rw [factors, List.flatMap_cons]; exact List.mem_append_right _ hf
    have hsp := freezeTerm_spec (same := same) item t c (fun f hf => hsame f (hft f hf))
    have hcons : ∀ s' s, element ((t, c) :: l) s' s = c * termAction ladderAction t (basisState s) s' + element l s' s := by
      intro s' s
      rw [element_eq, List.map_cons, List.sum_cons, ← element_eq]
    rw [List.foldl_cons]
    cases hcase : freezeTerm same item t c with
    | none =>
      rw [hcase] at hsp
      have hadd : freezeAdd same item acc (t, c) = acc := by
        unfold freezeAdd; rw [hcase]
      rw [hadd]
      obtain ⟨h1, h2, h3, h4, h5⟩ := ih acc hacc (fun f hf => hsame f (hfl f hf))
      refine ⟨h1, by simp only [List.length_cons]; omega, fun f hf => ?_, fun s s' hs hs' => ?_, fun δ hδ hg ga => ?_⟩
      · rcases h3 f hf with h | h
        · exact Or.inl h
        · exact Or.inr ⟨hfl f h.1, h.2⟩
      · rw [hcons, hsp s s' hs hs', zero_add]
        refine (h4 s s' hs hs').trans ?_
        rw [List.length_cons]; push_cast; linarith
      · obtain ⟨g1, g2⟩ := h5 δ hδ (fun kv hkv => hg kv (List.mem_cons_of_mem _ hkv)) ga
        exact ⟨g1, fun s s' hs hs' => by rw [hcons, hsp s s' hs hs', zero_add]; exact g2 s s' hs hs'⟩
    | some tc =>
      obtain ⟨t', c'⟩ := tc
      rw [hcase] at hsp
      obtain ⟨ht', hc', hval⟩ := hsp
      have hadd : freezeAdd same item acc (t, c) = add acc [(t', c')] := by
        unfold freezeAdd; rw [hcase]; rfl
      rw [hadd]
      have hw := (add_spec hacc (wf_single t' c')).1
      obtain ⟨h1, h2, h3, h4, h5⟩ := ih (add acc [(t', c')]) hw (fun f hf => hsame f (hfl f hf))
      have hlen := length_add_single acc t' c'
      refine ⟨h1, by simp only [List.length_cons]; omega, fun f hf => ?_, fun s s' hs hs' => ?_, fun δ hδ hg ga => ?_⟩
      · rcases h3 f hf with h | h
        · obtain ⟨u, hu, hfu⟩ := mem_factors.1 h
          rcases mem_keys_add hacc (wf_single t' c') hu with hu | hu
          · exact Or.inl (mem_factors.2 ⟨u, hu, hfu⟩)
          · have : u = t' := by simpa [keys] using hu
            subst this
            rw [ht'] at hfu
            exact Or.inr ⟨hft f (List.mem_filter.1 hfu).1, rest_untouched f hfu⟩
        · exact Or.inr ⟨hfl f h.1, h.2⟩
      · have e1 := (add_single_element hacc t' c' s' s).1
        have e2 := h4 s s' hs hs'
        rw [hcons, hval s s' hs hs']
        have split : element acc s' s + (c' * termAction ladderAction t' (basisState s) s' + element l s' s) -
              element (l.foldl (freezeAdd same item) (add acc [(t', c')])) s' s
            = (element (add acc [(t', c')]) s' s + element l s' s - element (l.foldl (freezeAdd same item) (add acc [(t', c')])) s' s) -
              (element (add acc [(t', c')]) s' s - (element acc s' s + c' * termAction ladderAction t' (basisState s) s')) := by ring
        rw [split]
        refine (norm_sub_le _ _).trans ?_
        rw [List.length_cons]; push_cast; linarith
      · have hcg : c' ∈ Grid δ := by
          have := hg (t, c) (List.mem_cons_self ..)
          rcases hc' with rfl | rfl
          · exact this
          · exact (Grid δ).neg_mem this
        obtain ⟨_, ga', _, _⟩ := add_onGrid hδ hacc (wf_single t' c') ga (onGrid_single hcg)
        obtain ⟨g1, g2⟩ := h5 δ hδ (fun kv hkv => hg kv (List.mem_cons_of_mem _ hkv)) ga'
        refine ⟨g1, fun s s' hs hs' => ?_⟩
        rw [← g2 s s' hs hs', (add_single_element hacc t' c' s' s).2 δ hδ ga hcg, hcons, hval s s' hs hs']
        ring

theorem freezeOne_stage {same : ℕ → ℕ → Bool} (o : Terms Bool) (item : ℕ × Bool) (hsame : ∀ f ∈ factors o, (same f.1 item.1 = true ↔ f.1 = item.1)) :
    Stage o (freezeOne same o item) item := by
  obtain ⟨h1, h2, h3, h4, h5⟩ := freezeAdd_fold item o [] wf_nil hsame
  refine ⟨h1, h2.trans (by simp), fun f hf => ?_, fun s s' hs hs' => ?_, fun δ hδ hg => ?_⟩
  · rcases h3 f hf with h | h
    · simp [ZQ.Op.factors] at h
    · exact h
  · have := h4 s s' hs hs'
    rwa [element_nil, zero_add] at this
  · obtain ⟨g1, g2⟩ := h5 δ hδ hg (OnGrid.nil δ)
    refine ⟨g1.mem h1, fun s s' hs hs' => ?_⟩
    have := g2 s s' hs hs'
    rwa [element_nil, zero_add] at this

/-- All frozen orbitals, before signs and labels are adapted. -/
theorem freezeAll_spec {same : ℕ → ℕ → Bool} (items : List (ℕ × Bool)) (o : Terms Bool) (hw : WF o)
    (hsame : ∀ f ∈ factors o, ∀ i ∈ items, (same f.1 i.1 = true ↔ f.1 = i.1)) :
    let r := items.foldl (freezeOne same) o
    WF r ∧ r.length ≤ o.length ∧ (∀ f ∈ factors r, f ∈ factors o ∧ ∀ i ∈ items, f.1 ≠ i.1) ∧
    (∀ s s' : ℕ → Bool, (∀ i ∈ items, s i.1 = i.2 ∧ s' i.1 = i.2) → ‖element o s' s - element r s' s‖ ≤ items.length * o.length * (1 / 10 ^ 8)) ∧
    ∀ δ : ℝ, 1 / 10 ^ 8 ≤ δ → (∀ kv ∈ o, kv.2 ∈ Grid δ) →
      ∀ s s' : ℕ → Bool, (∀ i ∈ items, s i.1 = i.2 ∧ s' i.1 = i.2) → element o s' s = element r s' s := by
  induction items generalizing o with
  | nil => exact ⟨hw, le_refl _, fun f hf => ⟨hf, by simp⟩, fun s s' _ => by simp, fun δ _ _ s s' _ => rfl⟩
  | cons item items ih =>
    have st := freezeOne_stage (same := same) o item (fun f hf => hsame f hf item (List.mem_cons_self ..))
    obtain ⟨h1, h2, h3, h4, h5⟩ := ih (freezeOne same o item) st.wf (fun f hf i hi => hsame f (st.factors f hf).1 i (List.mem_cons_of_mem _ hi))
    intro r
    refine ⟨h1, h2.trans st.length, fun f hf => ?_, fun s s' hs => ?_, fun δ hδ hg s s' hs => ?_⟩
    · obtain ⟨a1, a2⟩ := h3 f hf
      obtain ⟨b1, b2⟩ := st.factors f a1
      refine ⟨b1, fun i hi => ?_⟩
      rcases List.mem_cons.1 hi with rfl | hi
      · exact b2
      · exact a2 i hi
    · have e1 := st.near s s' (hs item (List.mem_cons_self ..)).1 (hs item (List.mem_cons_self ..)).2
      have e2 := h4 s s' (fun i hi => hs i (List.mem_cons_of_mem _ hi))
      have e3 : (items.length : ℝ) * (freezeOne same o item).length ≤ items.length * o.length := by
        have : ((freezeOne same o item).length : ℝ) ≤ o.length := by exact_mod_cast st.length
        exact mul_le_mul_of_nonneg_left this (by positivity)
      have split : element o s' s - element r s' s = (element o s' s - element (freezeOne same o item) s' s) + (element (freezeOne same o item) s' s - element r s' s) := by ring
      rw [split]
      refine (norm_add_le _ _).trans ?_
      rw [List.length_cons]; push_cast
      have : (items.length : ℝ) * (freezeOne same o item).length * (1 / 10 ^ 8) ≤ items.length * o.length * (1 / 10 ^ 8) :=
        mul_le_mul_of_nonneg_right e3 (by norm_num)
      refine (add_le_add e1 (e2.trans this)).trans ?_
      rw [add_mul, add_mul, one_mul, add_comm]
    · obtain ⟨g1, g2⟩ := st.exact δ hδ hg
      rw [g2 s s' (hs item (List.mem_cons_self ..)).1 (hs item (List.mem_cons_self ..)).2]
      exact h5 δ hδ g1 s s' (fun i hi => hs i (List.mem_cons_of_mem _ hi))

/-! ## Pruning -/

theorem collectIndices_spec (l acc : List ℕ) (hacc : acc.Nodup) :
    (l.foldl (fun l i => if i ∈ l then l else l ++ [i]) acc).Nodup ∧ ∀ k, k ∈ l.foldl (fun l i => if i ∈ l then l else l ++ [i]) acc ↔ k ∈ acc ∨ k ∈ l := by
  induction l generalizing acc with
  | nil => exact ⟨hacc, by simp⟩
  | cons i l ih =>
    rw [List.foldl_cons]
    split
    · rename_i h
      obtain ⟨h1, h2⟩ := ih acc hacc
      refine ⟨h1, fun k => ?_⟩
      rw [h2, List.mem_cons]
      constructor
      · rintro (h | h)
        · exact Or.inl h
        · exact Or.inr (Or.inr h)
      · rintro (h' | rfl | h')
        · exact Or.inl h'
        · exact Or.inl h
        · exact Or.inr h'
    · rename_i h
      obtain ⟨h1, h2⟩ := ih (acc ++ [i]) (by
        rw [List.nodup_append]
        refine ⟨hacc, by simp, fun a ha b hb => ?_⟩
        rw [List.mem_singleton] at hb
        rintro rfl
        exact h (hb ▸ ha))
      refine ⟨h1, fun k => ?_⟩
      simp only [h2, List.mem_append, List.mem_cons, List.not_mem_nil, or_false]
      tauto

theorem usedIndices_spec {A : Type} (o : Terms A) : (usedIndices o).Pairwise (· < ·) ∧ ∀ k, k ∈ usedIndices o ↔ ∃ f ∈ factors o, f.1 = k := by
  obtain ⟨h1, h2⟩ := collectIndices_spec (o.flatMap fun kv => kv.1.map Prod.fst) [] List.nodup_nil
  have hperm := List.mergeSort_perm ((o.flatMap fun kv => kv.1.map Prod.fst).foldl (fun l i => if i ∈ l then l else l ++ [i]) []) (· ≤ ·)
  constructor
  · have hs := List.pairwise_mergeSort (le := fun a b : ℕ => decide (a ≤ b)) (fun a b c h1 h2 => by simp at *; omega) (fun a b => by simp; omega)
      ((o.flatMap fun kv => kv.1.map Prod.fst).foldl (fun l i => if i ∈ l then l else l ++ [i]) [])
    have hn : (usedIndices o).Nodup := hperm.symm.nodup h1
    have : (usedIndices o).Pairwise fun a b => a ≤ b ∧ a ≠ b := by
      rw [List.pairwise_and_iff]
      exact ⟨hs.imp (by simp), hn⟩
    exact this.imp fun h => lt_of_le_of_ne h.1 h.2
  · intro k
    rw [usedIndices, hperm.mem_iff, h2]
    simp only [List.not_mem_nil, false_or, List.mem_flatMap, List.mem_map, factors]
    constructor
    · rintro ⟨kv, hkv, f, hf, rfl⟩; exact ⟨f, ⟨kv, hkv, hf⟩, rfl⟩
    · rintro ⟨f, ⟨kv, hkv, hf⟩, rfl⟩; exact ⟨kv, hkv, f, hf, rfl⟩

/-- Writing items with new and different keys one after the other appends them. -/
theorem foldl_set_fresh {α β γ : Type} [DecidableEq β] (l : List α) (key : α → β) (val : α → γ) (acc : PyDict β γ) (hn : (l.map key).Nodup)
    (hd : ∀ a ∈ l, key a ∉ keys acc) : l.foldl (fun acc a => PyDict.set acc (key a) (val a)) acc = acc ++ l.map fun a => (key a, val a) := by
  induction l generalizing acc with
  | nil => simp
  | cons a l ih =>
    have hset : PyDict.set acc (key a) (val a) = acc ++ [(key a, val a)] := by
      have hk := hd a (List.mem_cons_self ..)
      clear ih hd
      induction acc with
      | nil => rfl
      | cons p acc ih =>
        rw [PyDict.set, if_neg (fun e => hk (by simp [keys, e])), ih (fun e => hk (by rw [keys, List.map_cons]; exact List.mem_cons_of_mem _ e))]
        rfl
    rw [List.foldl_cons, hset, ih _ (List.nodup_cons.1 hn).2, List.append_assoc]
    · rfl
    · intro b hb
      rw [keys, List.map_append, List.mem_append]
      rintro (h | h)
      · exact hd b (List.mem_cons_of_mem _ hb) h
      · have : key b = key a := by simpa using h
        exact (List.nodup_cons.1 hn).1 (this ▸ List.mem_map_of_mem hb)

/-- The relabelled operator. -/
def relabelModes {A : Type} (ρ : ℕ → ℕ) (o : Terms A) : Terms A := o.map fun kv => (kv.1.map fun f => (ρ f.1, f.2), kv.2)

theorem prune_eq {A : Type} [DecidableEq A] (o : Terms A) (hw : WF o) : prune o = relabelModes (usedIndices o).idxOf o := by
  rw [prune, foldl_set_fresh o (fun kv => kv.1.map fun f => ((usedIndices o).idxOf f.1, f.2)) (fun kv => kv.2) []]
  · rfl
  · have : (o.map fun kv => kv.1.map fun f => ((usedIndices o).idxOf f.1, f.2)) = (keys o).map fun t => t.map fun f => ((usedIndices o).idxOf f.1, f.2) := by
      rw [keys, List.map_map]; rfl
    rw [this]
    refine List.Nodup.map_on (fun t ht t' ht' h => ?_) hw
    have inj : ∀ f f' : ℕ × A, f ∈ factors o → f' ∈ factors o → ((usedIndices o).idxOf f.1, f.2) = ((usedIndices o).idxOf f'.1, f'.2) → f = f' := by
      intro f f' hf hf' e
      have e1 := congrArg Prod.fst e
      have e2 := congrArg Prod.snd e
      dsimp only at e1 e2
      exact Prod.ext ((List.idxOf_inj (((usedIndices_spec o).2 _).2 ⟨f, hf, rfl⟩)).1 e1) e2
    have key : ∀ (t t' : Term A), (∀ f ∈ t, f ∈ factors o) → (∀ f ∈ t', f ∈ factors o) →
        (t.map fun f => ((usedIndices o).idxOf f.1, f.2)) = (t'.map fun f => ((usedIndices o).idxOf f.1, f.2)) → t = t' := by
      intro t
      induction t with
      | nil => intro t' _ _ h; cases t' with
        | nil => rfl
        | cons f' t' => simp at h
      | cons f t ih =>
        intro t' h1 h2 h
        cases t' with
        | nil => simp at h
        | cons f' t' =>
          rw [List.map_cons, List.map_cons] at h
          injection h with e1 e2
          rw [inj f f' (h1 f (List.mem_cons_self ..)) (h2 f' (List.mem_cons_self ..)) e1,
            ih t' (fun g hg => h1 g (List.mem_cons_of_mem _ hg)) (fun g hg => h2 g (List.mem_cons_of_mem _ hg)) e2]
    exact key t t' (fun f hf => mem_factors.2 ⟨t, ht, hf⟩) (fun f hf => mem_factors.2 ⟨t', ht', hf⟩) h
  · intro a _; simp [keys]

theorem nodup_of_increasing {l : List ℕ} (h : l.Pairwise (· < ·)) : l.Nodup := h.imp fun h => ne_of_lt h

theorem idxOf_lt_idxOf {l : List ℕ} (hl : l.Pairwise (· < ·)) {a b : ℕ} (ha : a ∈ l) (hb : b ∈ l) (h : a < b) : l.idxOf a < l.idxOf b := by
  by_contra hn
  have h1 := List.idxOf_lt_length_of_mem ha
  have h2 := List.idxOf_lt_length_of_mem hb
  have ea : l[l.idxOf a] = a := List.getElem_idxOf h1
  have eb : l[l.idxOf b] = b := List.getElem_idxOf h2
  rcases lt_or_eq_of_le (not_lt.1 hn) with e | e
  · have := List.pairwise_iff_getElem.1 hl _ _ h2 h1 e
    rw [ea, eb] at this
    omega
  · have : a = b := by rw [← ea, ← eb]; simp only [e]
    omega

theorem factors_relabelModes {A : Type} (ρ : ℕ → ℕ) (o : Terms A) : factors (relabelModes ρ o) = (factors o).map fun f => (ρ f.1, f.2) := by
  rw [factors, factors, relabelModes, List.flatMap_map, List.map_flatMap]

theorem keys_relabelModes {A : Type} (ρ : ℕ → ℕ) (o : Terms A) : keys (relabelModes ρ o) = (keys o).map fun t => t.map fun f => (ρ f.1, f.2) := by
  rw [keys, keys, relabelModes, List.map_map, List.map_map]; rfl

/-- `prune_unused_indices` relabels the modes that occur, keeping their order, with `0`, ..., `m - 1`; terms, their order, and coefficients are kept. -/
theorem prune_spec {A : Type} [DecidableEq A] (o : Terms A) (hw : WF o) :
    ∃ (ρ : ℕ → ℕ) (m : ℕ), prune o = (o.map fun kv => (kv.1.map fun f => (ρ f.1, f.2), kv.2)) ∧ WF (prune o) ∧
      (∀ i j, (∃ f ∈ factors o, f.1 = i) → (∃ f ∈ factors o, f.1 = j) → i < j → ρ i < ρ j) ∧ ∀ k, (∃ f ∈ factors (prune o), f.1 = k) ↔ k < m := by
  obtain ⟨h1, h2⟩ := usedIndices_spec o
  refine ⟨(usedIndices o).idxOf, (usedIndices o).length, prune_eq o hw, ?_, fun i j hi hj h => idxOf_lt_idxOf h1 ((h2 i).2 hi) ((h2 j).2 hj) h, fun k => ?_⟩
  · have : ∀ (l : Terms A) (key : Term A × ℂ → Term A) (acc : Terms A), WF acc → WF (l.foldl (fun acc a => PyDict.set acc (key a) a.2) acc) := by
      intro l key
      induction l with
      | nil => intro acc h; exact h
      | cons a l ih => intro acc h; exact ih _ (h.set _ _)
    exact this o (fun kv => kv.1.map fun f => ((usedIndices o).idxOf f.1, f.2)) [] wf_nil
  · rw [prune_eq o hw, factors_relabelModes]
    constructor
    · rintro ⟨f, hf, rfl⟩
      obtain ⟨g, hg, rfl⟩ := List.mem_map.1 hf
      exact List.idxOf_lt_length_of_mem ((h2 g.1).2 ⟨g, hg, rfl⟩)
    · intro hk
      obtain ⟨f, hf, e⟩ := (h2 (usedIndices o)[k]).1 (List.getElem_mem hk)
      refine ⟨_, List.mem_map_of_mem hf, ?_⟩
      dsimp only
      rw [e]
      exact (nodup_of_increasing h1).idxOf_getElem k hk

/-- Sparse modes 3 and 7 become 0 and 1. -/
example : prune ([([(3, true), (7, false)], 2), ([(7, true)], 5)] : Terms Bool) = [([(0, true), (1, false)], 2), ([(1, true)], 5)] := by
  have : usedIndices ([([(3, true), (7, false)], 2), ([(7, true)], 5)] : Terms Bool) = [3, 7] := by
    simp [usedIndices, List.mergeSort, List.merge, List.MergeSort.Internal.splitInTwo]
  rw [prune_eq _ (by simp [WF, keys]), this]
  simp [relabelModes, List.idxOf_cons]

/-- Pruning twice is pruning once. -/
theorem prune_idempotent {A : Type} [DecidableEq A] (o : Terms A) (hw : WF o) : prune (prune o) = prune o := by
  obtain ⟨ρ, m, _, hwp, _, hm⟩ := prune_spec o hw
  obtain ⟨h1, h2⟩ := usedIndices_spec (prune o)
  have hu : usedIndices (prune o) = List.range m := by
    refine List.Perm.eq_of_pairwise (le := (· < ·)) (fun a b _ _ h h' => absurd h (by omega)) h1 List.pairwise_lt_range ?_
    refine (List.perm_ext_iff_of_nodup (h1.imp fun h => ne_of_lt h) List.nodup_range).2 fun k => ?_
    rw [h2, hm, List.mem_range]
  rw [prune_eq _ hwp, hu, relabelModes]
  conv_rhs => rw [← List.map_id (prune o)]
  refine List.map_congr_left fun kv hkv => ?_
  have : (kv.1.map fun f => ((List.range m).idxOf f.1, f.2)) = kv.1 := by
    conv_rhs => rw [← List.map_id kv.1]
    refine List.map_congr_left fun f hf => ?_
    have hlt : f.1 < m := (hm f.1).1 ⟨f, mem_factors.2 ⟨kv.1, List.mem_map_of_mem hkv, hf⟩, rfl⟩
    have := List.nodup_range.idxOf_getElem f.1 (by simpa using hlt)
    rw [List.getElem_range] at this
    rw [this]; rfl
  rw [this]; rfl

/-! ## Signs and labels -/

theorem flipSign_prod (occupied : List ℕ) (t : Term Bool) (c : ℂ) :
    flipSign occupied t c = c * (t.map fun f => (-1 : ℂ) ^ (occupied.filter fun i => decide (i < f.1)).length).prod := by
  have inner : ∀ (i : ℕ) (t : Term Bool) (c : ℂ), t.foldl (fun c op => if i < op.1 then c * -1 else c) c = c * (t.map fun f => if i < f.1 then (-1 : ℂ) else 1).prod := by
    intro i t
    induction t with
    | nil => intro c; simp
    | cons f t ih =>
      intro c
      rw [List.foldl_cons, ih, List.map_cons, List.prod_cons]
      split <;> ring
  unfold flipSign
  induction occupied generalizing c with
  | nil => simp
  | cons i occ ih =>
    rw [List.foldl_cons, ih, inner, mul_assoc]
    congr 1
    clear ih
    induction t with
    | nil => simp
    | cons f t iht =>
      simp only [List.map_cons, List.prod_cons]
      have : (-1 : ℂ) ^ ((i :: occ).filter fun i => decide (i < f.1)).length = (if i < f.1 then -1 else 1) * (-1 : ℂ) ^ (occ.filter fun i => decide (i < f.1)).length := by
        by_cases h : i < f.1
        · rw [List.filter_cons_of_pos (by simpa using h), List.length_cons, pow_succ, if_pos h]; ring
        · rw [List.filter_cons_of_neg (by simpa using h), if_neg h, one_mul]
      rw [this, ← iht]
      ring

theorem occupiedBefore_card (s : ℕ → Bool) (p : ℕ) : occupiedBefore s p = ((Finset.range p).filter fun q => s q = true).card := by
  rw [occupiedBefore]
  have : (Finset.range p).filter (fun q => s q = true) = ((List.range p).filter fun q => s q).toFinset := by
    ext q; simp
  rw [this, List.toFinset_card_of_nodup (List.nodup_range.filter _)]

theorem sgn_place {occupied kept : List ℕ} (ho : occupied.Nodup) (hk : kept.Pairwise (· < ·)) (hd : ∀ k ∈ kept, k ∉ occupied) (t : ℕ → Bool) {p : ℕ} (hp : p ∈ kept) :
    sgn (place occupied kept t) p = (-1 : ℂ) ^ (occupied.filter fun i => decide (i < p)).length * sgn t (kept.idxOf p) := by
  rw [sgn, sgn, ← pow_add]
  congr 1
  rw [occupiedBefore_card, occupiedBefore_card, ← List.toFinset_card_of_nodup (ho.filter _)]
  have hinj : Set.InjOn (fun q => kept.idxOf q) (kept.toFinset.filter fun q => q < p ∧ t (kept.idxOf q) = true) := by
    intro a ha b hb e
    have ha' : a ∈ kept := by simp at ha; exact ha.1
    exact (List.idxOf_inj ha').1 e
  have himg : ((kept.toFinset.filter fun q => q < p ∧ t (kept.idxOf q) = true).image fun q => kept.idxOf q) = (Finset.range (kept.idxOf p)).filter fun j => t j = true := by
    ext j
    simp only [Finset.mem_image, Finset.mem_filter, List.mem_toFinset, Finset.mem_range]
    constructor
    · rintro ⟨q, ⟨h1, h2, h3⟩, rfl⟩
      exact ⟨idxOf_lt_idxOf hk h1 hp h2, h3⟩
    · rintro ⟨h1, h2⟩
      have hlen : j < kept.length := lt_trans h1 (List.idxOf_lt_length_of_mem hp)
      have hidx : kept.idxOf kept[j] = j := (nodup_of_increasing hk).idxOf_getElem j hlen
      refine ⟨kept[j], ⟨List.getElem_mem hlen, ?_, by rw [hidx]; exact h2⟩, hidx⟩
      have := List.pairwise_iff_getElem.1 hk j (kept.idxOf p) hlen (List.idxOf_lt_length_of_mem hp) h1
      rwa [List.getElem_idxOf] at this
  rw [← himg, Finset.card_image_of_injOn hinj, ← Finset.card_union_of_disjoint]
  · congr 1
    ext q
    simp only [Finset.mem_filter, Finset.mem_range, Finset.mem_union, List.mem_toFinset, List.mem_filter, decide_eq_true_eq, place]
    by_cases h1 : q ∈ occupied
    · have : q ∉ kept := fun h => hd q h h1
      simp [h1, this]
    · by_cases h2 : q ∈ kept
      · simp [h1, h2]
      · simp [h1, h2]
  · rw [Finset.disjoint_left]
    intro q h1 h2
    simp at h1 h2
    exact hd q h2.1 h1.1

theorem update_place {occupied kept : List ℕ} (hd : ∀ k ∈ kept, k ∉ occupied) (t : ℕ → Bool) {p : ℕ} (hp : p ∈ kept) (a : Bool) :
    Function.update (place occupied kept t) p a = place occupied kept (Function.update t (kept.idxOf p) a) := by
  funext k
  by_cases h : k = p
  · subst h
    rw [Function.update_self, place, if_neg (hd k hp), if_pos hp, Function.update_self]
  · rw [Function.update_of_ne h, place, place]
    by_cases h1 : k ∈ occupied
    · rw [if_pos h1, if_pos h1]
    · rw [if_neg h1, if_neg h1]
      by_cases h2 : k ∈ kept
      · rw [if_pos h2, if_pos h2, Function.update_of_ne]
        intro e
        exact h ((List.idxOf_inj h2).1 e)
      · rw [if_neg h2, if_neg h2]

/-- A term on the kept modes, acting on the whole and on the relabelled modes. -/
theorem term_place {occupied kept : List ℕ} (ho : occupied.Nodup) (hk : kept.Pairwise (· < ·)) (hd : ∀ k ∈ kept, k ∉ occupied) (τ : Term Bool)
    (hτ : ∀ f ∈ τ, f.1 ∈ kept) (t : ℕ → Bool) :
    (termAction ladderAction (τ.map fun f => (kept.idxOf f.1, f.2)) (basisState t) = 0 ∧ termAction ladderAction τ (basisState (place occupied kept t)) = 0) ∨
    ∃ (c : ℂ) (u : ℕ → Bool), termAction ladderAction (τ.map fun f => (kept.idxOf f.1, f.2)) (basisState t) = c • basisState u ∧
      termAction ladderAction τ (basisState (place occupied kept t)) =
        (c * (τ.map fun f => (-1 : ℂ) ^ (occupied.filter fun i => decide (i < f.1)).length).prod) • basisState (place occupied kept u) ∧
      ∀ k, kept.length ≤ k → u k = t k := by
  induction τ with
  | nil => exact Or.inr ⟨1, t, by simp, by simp, fun _ _ => rfl⟩
  | cons f τ ih =>
    have hf := hτ f (List.mem_cons_self ..)
    rw [List.map_cons, termAction_cons, termAction_cons, Module.End.mul_apply, Module.End.mul_apply]
    rcases ih (fun g hg => hτ g (List.mem_cons_of_mem _ hg)) with ⟨h1, h2⟩ | ⟨c, u, h1, h2, h3⟩
    · left; rw [h1, h2, map_zero, map_zero]; exact ⟨rfl, rfl⟩
    · rw [h1, h2, map_smul, map_smul, ladder_basisState, ladder_basisState]
      have hpl : place occupied kept u f.1 = u (kept.idxOf f.1) := by rw [place, if_neg (hd _ hf), if_pos hf]
      dsimp only
      rw [hpl]
      by_cases e : u (kept.idxOf f.1) = f.2
      · left; rw [if_pos e, if_pos e, smul_zero, smul_zero]; exact ⟨rfl, rfl⟩
      · right
        rw [if_neg e, if_neg e, smul_smul, smul_smul, update_place hd u hf, sgn_place ho hk hd u hf]
        refine ⟨c * sgn u (kept.idxOf f.1), Function.update u (kept.idxOf f.1) f.2, rfl, ?_, fun k hk' => ?_⟩
        · rw [List.map_cons, List.prod_cons]
          congr 1
          ring
        · have := List.idxOf_lt_length_of_mem hf
          rw [Function.update_of_ne (by omega)]
          exact h3 k hk'

theorem place_inj {occupied kept : List ℕ} (hk : kept.Pairwise (· < ·)) (hd : ∀ k ∈ kept, k ∉ occupied) {t t' : ℕ → Bool} (ht : ∀ k, kept.length ≤ k → t k = false)
    (ht' : ∀ k, kept.length ≤ k → t' k = false) (h : place occupied kept t = place occupied kept t') : t = t' := by
  funext j
  by_cases hj : j < kept.length
  · have := congrFun h kept[j]
    rw [place, place, if_neg (hd _ (List.getElem_mem hj)), if_neg (hd _ (List.getElem_mem hj)), if_pos (List.getElem_mem hj), if_pos (List.getElem_mem hj),
      (nodup_of_increasing hk).idxOf_getElem j hj] at this
    exact this
  · rw [ht j (by omega), ht' j (by omega)]

theorem keys_flipSigns (occupied : List ℕ) (o : Terms Bool) : keys (flipSigns occupied o) = keys o := by
  rw [keys, keys, flipSigns, List.map_map]; rfl

theorem factors_flipSigns (occupied : List ℕ) (o : Terms Bool) : factors (flipSigns occupied o) = factors o := by
  rw [factors, factors, flipSigns, List.flatMap_map]

/-- Signs and labels: exact. -/
theorem flip_prune_element {occupied : List ℕ} (ho : occupied.Nodup) (r : Terms Bool) (hw : WF r) (hd : ∀ f ∈ factors r, f.1 ∉ occupied) (t : ℕ → Bool)
    (ht : ∀ k, (usedIndices r).length ≤ k → t k = false) :
    (∀ t', (∀ k, (usedIndices r).length ≤ k → t' k = false) →
      element r (place occupied (usedIndices r) t') (place occupied (usedIndices r) t) = element (prune (flipSigns occupied r)) t' t) ∧
    ∀ s', (∀ t', (∀ k, (usedIndices r).length ≤ k → t' k = false) → s' ≠ place occupied (usedIndices r) t') → element r s' (place occupied (usedIndices r) t) = 0 := by
  obtain ⟨hk, hmem⟩ := usedIndices_spec r
  have hdk : ∀ k ∈ usedIndices r, k ∉ occupied := fun k hkk => by
    obtain ⟨f, hf, rfl⟩ := (hmem k).1 hkk
    exact hd f hf
  have hτ : ∀ kv ∈ r, ∀ f ∈ kv.1, f.1 ∈ usedIndices r := fun kv hkv f hf => (hmem _).2 ⟨f, mem_factors.2 ⟨kv.1, List.mem_map_of_mem hkv, hf⟩, rfl⟩
  have hused : usedIndices (flipSigns occupied r) = usedIndices r := by
    rw [usedIndices, usedIndices, flipSigns, List.flatMap_map]
  have hwf : WF (flipSigns occupied r) := by rw [WF, keys_flipSigns]; exact hw
  constructor
  · intro t' ht'
    rw [prune_eq _ hwf, hused, element_eq, element_eq, relabelModes, flipSigns, List.map_map, List.map_map]
    congr 1
    refine List.map_congr_left fun kv hkv => ?_
    show _ = flipSign occupied kv.1 kv.2 * termAction ladderAction (kv.1.map fun f => ((usedIndices r).idxOf f.1, f.2)) (basisState t) t'
    rw [flipSign_prod, mul_assoc]
    congr 1
    rcases term_place ho hk hdk kv.1 (hτ kv hkv) t with ⟨h1, h2⟩ | ⟨c, u, h1, h2, h3⟩
    · rw [h1, h2]; simp
    · rw [h1, h2]
      simp only [Pi.smul_apply, smul_eq_mul]
      have hu : ∀ k, (usedIndices r).length ≤ k → u k = false := fun k hk' => by rw [h3 k hk', ht k hk']
      by_cases e : t' = u
      · subst e; rw [basisState_self, basisState_self]; ring
      · rw [basisState_ne e, basisState_ne (fun e' => e (place_inj hk hdk ht' hu e'))]; ring
  · intro s' hs'
    rw [element_eq]
    apply List.sum_eq_zero
    intro x hx
    obtain ⟨kv, hkv, rfl⟩ := List.mem_map.1 hx
    rcases term_place ho hk hdk kv.1 (hτ kv hkv) t with ⟨_, h2⟩ | ⟨c, u, _, h2, h3⟩
    · rw [h2]; simp
    · rw [h2, Pi.smul_apply, basisState_ne (hs' u fun k hk' => by rw [h3 k hk', ht k hk'])]; simp

/-! ## Freezing -/

theorem freezeOrbitals_eq (same : ℕ → ℕ → Bool) (o : Terms Bool) (occupied : List ℕ) (unoccupied : Option (List ℕ)) (pr : Bool) : freezeOrbitals same o occupied unoccupied pr
    = prune (flipSigns occupied ((occupied.map (fun i => (i, true)) ++ (unoccupied.getD []).map (fun i => (i, false))).foldl (freezeOne same) o)) := by
  cases unoccupied <;> rfl

/-- `freeze_orbitals`: there are kept modes, none of them frozen and all of them occurring in the operator, which the result numbers `0`, ..., `m - 1`. On states in which the
occupied frozen modes are filled, and all modes that are not kept empty, the operator, restricted to results with the frozen occupations, acts as the result does on
the kept modes. Every addition may lose `1e-8`; with coefficients that are multiples of some `δ ≥ 1e-8` the equality is exact.
What is missing: frozen modes above 256 (`freezeOrbitals_identity_counterexample`). -/
theorem freezeOrbitals_spec_partial (same : ℕ → ℕ → Bool) (hsame : IntIdentity same) (o : Terms Bool) (hw : WF o) (occupied : List ℕ) (unoccupied : Option (List ℕ)) (pr : Bool)
    (hn : occupied.Nodup) (hdis : ∀ i ∈ occupied, i ∉ unoccupied.getD []) (hsmall : ∀ i, i ∈ occupied ∨ i ∈ unoccupied.getD [] → i ≤ 256) :
    ∃ kept : List ℕ, kept.Pairwise (· < ·) ∧ (∀ k ∈ kept, k ∉ occupied ∧ k ∉ unoccupied.getD [] ∧ ∃ f ∈ factors o, f.1 = k) ∧
      WF (freezeOrbitals same o occupied unoccupied pr) ∧
      (∀ k, (∃ f ∈ factors (freezeOrbitals same o occupied unoccupied pr), f.1 = k) ↔ k < kept.length) ∧
      ∀ (t : ℕ → Bool), (∀ k, kept.length ≤ k → t k = false) →
        (∀ t', (∀ k, kept.length ≤ k → t' k = false) →
          ‖element o (place occupied kept t') (place occupied kept t) - element (freezeOrbitals same o occupied unoccupied pr) t' t‖
            ≤ (occupied.length + (unoccupied.getD []).length) * o.length * (1 / 10 ^ 8) ∧
          ∀ δ : ℝ, 1 / 10 ^ 8 ≤ δ → (∀ kv ∈ o, kv.2 ∈ Grid δ) →
            element o (place occupied kept t') (place occupied kept t) = element (freezeOrbitals same o occupied unoccupied pr) t' t) ∧
        (∀ s', (∀ i ∈ occupied, s' i = true) → (∀ i ∈ unoccupied.getD [], s' i = false) → (∀ t', (∀ k, kept.length ≤ k → t' k = false) → s' ≠ place occupied kept t') →
          ‖element o s' (place occupied kept t)‖ ≤ (occupied.length + (unoccupied.getD []).length) * o.length * (1 / 10 ^ 8) ∧
          ∀ δ : ℝ, 1 / 10 ^ 8 ≤ δ → (∀ kv ∈ o, kv.2 ∈ Grid δ) → element o s' (place occupied kept t) = 0) := by
  have hdef := freezeOrbitals_eq same o occupied unoccupied pr
  rw [hdef]
  generalize hun : unoccupied.getD [] = un at *
  generalize hitems : (occupied.map (fun i => (i, true)) ++ un.map (fun i => (i, false)) : List (ℕ × Bool)) = items
  have hmem : ∀ i : ℕ × Bool, i ∈ items ↔ (i.1 ∈ occupied ∧ i.2 = true) ∨ (i.1 ∈ un ∧ i.2 = false) := by
    intro i
    rw [← hitems, List.mem_append, List.mem_map, List.mem_map]
    constructor
    · rintro (⟨a, ha, rfl⟩ | ⟨a, ha, rfl⟩)
      · exact Or.inl ⟨ha, rfl⟩
      · exact Or.inr ⟨ha, rfl⟩
    · rintro (⟨h1, h2⟩ | ⟨h1, h2⟩)
      · exact Or.inl ⟨i.1, h1, by rw [← h2]⟩
      · exact Or.inr ⟨i.1, h1, by rw [← h2]⟩
  have hlen : (items.length : ℝ) = occupied.length + un.length := by
    rw [← hitems, List.length_append, List.length_map, List.length_map]; push_cast; rfl
  obtain ⟨r1, _, r3, r4, r5⟩ := freezeAll_spec (same := same) items o hw (fun f _ i hi => by
    refine ⟨hsame.1 _ _, fun e => ?_⟩
    rw [e]
    refine hsame.2 _ (hsmall _ ?_)
    rcases (hmem i).1 hi with h | h
    · exact Or.inl h.1
    · exact Or.inr h.1)
  generalize items.foldl (freezeOne same) o = r at *
  have hnot : ∀ f ∈ factors r, f.1 ∉ occupied ∧ f.1 ∉ un := fun f hf =>
    ⟨fun h => (r3 f hf).2 (f.1, true) ((hmem _).2 (Or.inl ⟨h, rfl⟩)) rfl, fun h => (r3 f hf).2 (f.1, false) ((hmem _).2 (Or.inr ⟨h, rfl⟩)) rfl⟩
  obtain ⟨hk, hkm⟩ := usedIndices_spec r
  have hwf : WF (flipSigns occupied r) := by rw [WF, keys_flipSigns]; exact r1
  have hused : usedIndices (flipSigns occupied r) = usedIndices r := by
    rw [usedIndices, usedIndices, flipSigns, List.flatMap_map]
  have hkd : ∀ k ∈ usedIndices r, k ∉ occupied ∧ k ∉ un := fun k hkk => by
    obtain ⟨f, hf, rfl⟩ := (hkm k).1 hkk
    exact hnot f hf
  have hplace : ∀ t : ℕ → Bool, ∀ i ∈ items, place occupied (usedIndices r) t i.1 = i.2 := by
    intro t i hi
    rcases (hmem i).1 hi with ⟨h1, h2⟩ | ⟨h1, h2⟩
    · rw [place, if_pos h1, h2]
    · rw [place, if_neg (fun h => hdis _ h h1), if_neg (fun h => (hkd _ h).2 h1), h2]
  refine ⟨usedIndices r, hk, fun k hkk => ?_, ?_, ?_, fun t ht => ⟨fun t' ht' => ?_, fun s' hs1 hs2 hs3 => ?_⟩⟩
  · obtain ⟨f, hf, rfl⟩ := (hkm k).1 hkk
    exact ⟨(hnot f hf).1, (hnot f hf).2, f, (r3 f hf).1, rfl⟩
  · exact (prune_spec _ hwf).choose_spec.choose_spec.2.1
  · intro k
    rw [prune_eq _ hwf, hused, factors_relabelModes, factors_flipSigns]
    constructor
    · rintro ⟨f, hf, rfl⟩
      obtain ⟨g, hg, rfl⟩ := List.mem_map.1 hf
      exact List.idxOf_lt_length_of_mem ((hkm g.1).2 ⟨g, hg, rfl⟩)
    · intro hkk
      obtain ⟨f, hf, e⟩ := (hkm (usedIndices r)[k]).1 (List.getElem_mem hkk)
      refine ⟨_, List.mem_map_of_mem hf, ?_⟩
      dsimp only
      rw [e]
      exact (nodup_of_increasing hk).idxOf_getElem k hkk
  · have e := (flip_prune_element hn r r1 (fun f hf => (hnot f hf).1) t ht).1 t' ht'
    rw [← e, ← hlen]
    exact ⟨r4 _ _ fun i hi => ⟨hplace t i hi, hplace t' i hi⟩, fun δ hδ hg => r5 δ hδ hg _ _ fun i hi => ⟨hplace t i hi, hplace t' i hi⟩⟩
  · have e := (flip_prune_element hn r r1 (fun f hf => (hnot f hf).1) t ht).2 s' hs3
    have hs' : ∀ i ∈ items, place occupied (usedIndices r) t i.1 = i.2 ∧ s' i.1 = i.2 := by
      intro i hi
      refine ⟨hplace t i hi, ?_⟩
      rcases (hmem i).1 hi with ⟨h1, h2⟩ | ⟨h1, h2⟩
      · rw [h2, hs1 _ h1]
      · rw [h2, hs2 _ h1]
    have b := r4 _ _ hs'
    rw [e, sub_zero, hlen] at b
    exact ⟨b, fun δ hδ hg => by rw [r5 δ hδ hg _ _ hs', e]⟩

/-- The `prune` argument makes no difference. -/
theorem freezeOrbitals_prune_ignored (same : ℕ → ℕ → Bool) (o : Terms Bool) (occupied : List ℕ) (unoccupied : Option (List ℕ)) :
    freezeOrbitals same o occupied unoccupied false = freezeOrbitals same o occupied unoccupied true := rfl

/-- Hopping over an occupied frozen mode changes sign: `3 a†_2 a_0` with mode 1 occupied. -/
example : freezeOrbitals (fun a b => decide (a = b)) [([(2, true), (0, false)], 3)] [1] = [([(1, true), (0, false)], -3)] := by
  have h1 : freezeOne (fun a b => decide (a = b)) [([(2, true), (0, false)], 3)] (1, true) = [([(2, true), (0, false)], 3)] := by
    simp [freezeOne, freezeAdd, freezeTerm, scanStep, ofTerm, fermion, add, addStep, coeff, get?, PyDict.set, IsSmall, eqTol]
    norm_num
  rw [freezeOrbitals_eq]
  have h2 : flipSigns [1] [([(2, true), (0, false)], 3)] = [([(2, true), (0, false)], -3)] := by simp [flipSigns, flipSign]
  have h3 : usedIndices ([([(2, true), (0, false)], -3)] : Terms Bool) = [0, 2] := by
    simp [usedIndices, List.mergeSort, List.merge, List.MergeSort.Internal.splitInTwo]
  simp only [List.map_cons, List.map_nil, Option.getD_none, List.append_nil, List.foldl_cons, List.foldl_nil, h1, h2]
  rw [prune_eq _ (by simp [WF, keys]), h3]
  simp [relabelModes, List.idxOf_cons]

/-- The hypotheses of `freezeOrbitals_spec_partial` are met. -/
example : IntIdentity (fun a b => decide (a = b)) ∧ WF ([([(2, true), (0, false)], 3)] : Terms Bool) ∧ ([1] : List ℕ).Nodup :=
  ⟨⟨fun a b h => of_decide_eq_true h, fun a _ => by simp⟩, by simp [WF, keys], by simp⟩

/-- Orbitals are compared by object identity: for indices above 256, which CPython need not share, an orbital may be left unfrozen. The number operator of mode 300 is not
replaced by 1. -/
theorem freezeOrbitals_identity_counterexample : ∃ same, IntIdentity same ∧
    freezeOrbitals same [([(300, true), (300, false)], 1)] [300] = [([(0, true), (0, false)], 1)] ∧
    freezeOrbitals (fun a b => decide (a = b)) [([(300, true), (300, false)], 1)] [300] = [([], 1)] := by
  refine ⟨fun a b => decide (a = b ∧ a ≤ 256), ⟨fun a b h => (of_decide_eq_true h).1, fun a h => by simp [h]⟩, ?_, ?_⟩
  · have h1 : freezeOne (fun a b => decide (a = b ∧ a ≤ 256)) [([(300, true), (300, false)], 1)] (300, true) = [([(300, true), (300, false)], 1)] := by
      simp [freezeOne, freezeAdd, freezeTerm, scanStep, ofTerm, fermion, add, addStep, coeff, get?, PyDict.set, IsSmall, eqTol]
      norm_num
    rw [freezeOrbitals_eq]
    have h2 : flipSigns [300] [([(300, true), (300, false)], 1)] = [([(300, true), (300, false)], 1)] := by simp [flipSigns, flipSign]
    have h3 : usedIndices ([([(300, true), (300, false)], 1)] : Terms Bool) = [300] := by
      simp [usedIndices]
    simp only [List.map_cons, List.map_nil, Option.getD_none, List.append_nil, List.foldl_cons, List.foldl_nil, h1, h2]
    rw [prune_eq _ (by simp [WF, keys]), h3]
    simp [relabelModes]
  · have h1 : freezeOne (fun a b => decide (a = b)) [([(300, true), (300, false)], 1)] (300, true) = [([], 1)] := by
      simp [freezeOne, freezeAdd, freezeTerm, scanStep, ofTerm, fermion, add, addStep, coeff, get?, PyDict.set, IsSmall, eqTol]
      norm_num
    rw [freezeOrbitals_eq]
    have h2 : flipSigns [300] [([], 1)] = [([], 1)] := by simp [flipSigns, flipSign]
    simp only [List.map_cons, List.map_nil, Option.getD_none, List.append_nil, List.foldl_cons, List.foldl_nil, h1, h2]
    rw [prune_eq _ (by simp [WF, keys])]
    simp [relabelModes]

end ZQ.Op
