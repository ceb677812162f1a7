import Verif.Model.OperatorSteps
import Verif.Spec.OperatorSteps
import Verif.Props.TensorConversion
import Verif.Props.Hermitian
import Verif.Props.Hubbard
import Verif.Props.ReverseJW
import Verif.Props.Sparse
import Verif.Props.Ising
import Verif.Lemmas.NormalIndep
import Verif.Lemmas.StandsFor

/-! C110: what the steps that build operators compute. -/

namespace ZQ.OpSteps

open ZQ ZQ.Op ZQ.PyDict

/-! ### The constant of a normal ordered operator -/

theorem annihilated {t : Term Bool} (hne : t ≠ []) (h : ∀ f ∈ t, f.2 = false) : termAction ladderAction t (basisState fun _ => false) = 0 := by
  induction t with
  | nil => exact absurd rfl hne
  | cons f t ih =>
    rw [termAction_cons, Module.End.mul_apply]
    by_cases ht : t = []
    · subst ht
      obtain ⟨p, b⟩ := f
      have hb : b = false := h (p, b) (List.mem_cons_self ..)
      subst hb
      rw [termAction_nil, Module.End.one_apply, ladder_basis, if_neg (by simp)]
    · rw [ih ht fun g hg => h g (List.mem_cons_of_mem _ hg), map_zero]

theorem normal_vacuum {t : Term Bool} (hn : NormalTerm t) (hne : t ≠ []) : termAction ladderAction t (basisState fun _ => false) (fun _ => false) = 0 := by
  cases t with
  | nil => exact absurd rfl hne
  | cons f t =>
    cases hf : f.2 with
    | true => rw [termAction_cons, Module.End.mul_apply, ladder_apply, hf, if_neg (by simp)]
    | false =>
      rw [annihilated hne]
      · rfl
      · intro g hg
        rcases List.mem_cons.1 hg with rfl | hg
        · exact hf
        · rcases (List.pairwise_cons.1 hn).1 g hg with ⟨h1, _⟩ | ⟨h1, _⟩
          · rw [hf] at h1; cases h1
          · rw [← h1, hf]

/-- The coefficient of the empty product in a normal ordered operator is its vacuum expectation value. -/
theorem coeff_vacuum {o : Terms Bool} (hw : WF o) (hn : ∀ t ∈ keys o, NormalTerm t) : coeff o [] = element o (fun _ => false) fun _ => false := by
  rw [element]
  induction o with
  | nil => rw [action_nil]; rfl
  | cons kv o ih =>
    obtain ⟨t, c⟩ := kv
    have hw' : t ∉ keys o ∧ WF o := by
      have := hw
      rw [WF, keys, List.map_cons, List.nodup_cons] at this
      exact this
    rw [action_cons, LinearMap.add_apply, Pi.add_apply, LinearMap.smul_apply, Pi.smul_apply, smul_eq_mul,
      ← ih hw'.2 fun u hu => hn u (by simp only [keys, List.map_cons, List.mem_cons] at hu ⊢; exact Or.inr hu), coeff_cons]
    by_cases ht : t = []
    · subst ht
      rw [if_pos rfl, coeff_of_not_mem hw'.1, add_zero, termAction_nil, Module.End.one_apply, basisState_self, mul_one]
    · rw [if_neg ht, normal_vacuum (hn t (by simp [keys])) ht, mul_zero, zero_add]

theorem sgn_vacuum (p : ℕ) : sgn (fun _ => false) p = 1 := by
  rw [sgn, occupiedBefore]
  simp

theorem sgn_one {p q : ℕ} (h : p < q) : sgn (Function.update (fun _ => false) p true) q = -1 := by
  rw [sgn_update, if_pos ⟨h, by simp⟩, sgn_vacuum]

theorem pair_eq {p q : ℕ} : Function.update (Function.update (fun _ => false) p true) q true = pair p q := by
  funext k
  by_cases hq : k = q
  · subst hq; simp [pair]
  · by_cases hp : k = p
    · subst hp; simp [pair, hq]
    · simp [pair, hp, hq]

theorem create_pair {p q : ℕ} (h : p < q) : termAction ladderAction [(q, true), (p, true)] (basisState fun _ => false) = -basisState (pair p q) := by
  rw [termAction_cons, termAction_cons, termAction_nil, mul_one, Module.End.mul_apply, ladder_basis, if_pos (by rfl), sgn_vacuum, one_smul, ladder_basis,
    if_pos (by rw [Function.update_of_ne (by omega)]; rfl), sgn_one h, pair_eq, neg_smul, one_smul]

theorem annihilate_pair {p q : ℕ} (h : p < q) (ψ : State) : termAction ladderAction [(p, false), (q, false)] ψ (fun _ => false) = -ψ (pair p q) := by
  rw [termAction_cons, termAction_cons, termAction_nil, mul_one, Module.End.mul_apply, ladder_apply, if_pos rfl, ladder_apply]
  dsimp only
  rw [Bool.not_false, if_pos (by rw [Function.update_of_ne (by omega)]), sgn_vacuum, sgn_one h, pair_eq]
  ring

/-! ### Products with single terms -/

theorem mul_left {l : Term Bool} {h : Terms Bool} (hw : WF h) : mul fermion (ofTerm fermion l 1) h = h.map fun kv => (l ++ kv.1, 1 * kv.2) := by
  have key : ∀ (b acc : Terms Bool), WF b → (∀ u ∈ keys b, l ++ u ∉ keys acc) →
      mulRow fermion (l, 1) b acc = acc ++ b.map fun kv => (l ++ kv.1, 1 * kv.2) := by
    intro b
    induction b with
    | nil => intro acc _ _; simp [mulRow]
    | cons kv b ih =>
      intro acc hb hd
      have hb' : kv.1 ∉ keys b ∧ WF b := by
        have := hb
        rw [WF, keys, List.map_cons, List.nodup_cons] at this
        exact this
      have h0 : l ++ kv.1 ∉ keys acc := hd kv.1 (by simp [keys])
      rw [mulRow, List.foldl_cons]
      show mulRow fermion (l, 1) b (accum acc (l ++ kv.1) (1 * kv.2)) = _
      rw [accum_eq, coeff_of_not_mem h0, zero_add, set_of_not_mem h0, ih _ hb'.2, List.append_assoc]
      · rfl
      · intro u hu
        rw [keys, List.map_append, List.mem_append]
        rintro (h1 | h1)
        · exact hd u (by simp only [keys, List.map_cons, List.mem_cons] at hu ⊢; exact Or.inr hu) h1
        · simp only [List.map_cons, List.map_nil, List.mem_singleton, List.append_cancel_left_eq] at h1
          exact hb'.1 (h1 ▸ hu)
  have := key h [] hw fun u _ => by simp [keys]
  rw [List.nil_append] at this
  rw [mul]
  exact this

theorem mul_right {r : Term Bool} {h : Terms Bool} (hw : WF h) : mul fermion h (ofTerm fermion r 1) = h.map fun kv => (kv.1 ++ r, kv.2 * 1) := by
  have key : ∀ (a acc : Terms Bool), WF a → (∀ u ∈ keys a, u ++ r ∉ keys acc) →
      a.foldl (fun res l => mulRow fermion l (ofTerm fermion r 1) res) acc = acc ++ a.map fun kv => (kv.1 ++ r, kv.2 * 1) := by
    intro a
    induction a with
    | nil => intro acc _ _; simp
    | cons kv a ih =>
      intro acc ha hd
      have ha' : kv.1 ∉ keys a ∧ WF a := by
        have := ha
        rw [WF, keys, List.map_cons, List.nodup_cons] at this
        exact this
      have h0 : kv.1 ++ r ∉ keys acc := hd kv.1 (by simp [keys])
      rw [List.foldl_cons]
      show a.foldl _ (accum acc (kv.1 ++ r) (kv.2 * 1)) = _
      rw [accum_eq, coeff_of_not_mem h0, zero_add, set_of_not_mem h0, ih _ ha'.2, List.append_assoc]
      · rfl
      · intro u hu
        rw [keys, List.map_append, List.mem_append]
        rintro (h1 | h1)
        · exact hd u (by simp only [keys, List.map_cons, List.mem_cons] at hu ⊢; exact Or.inr hu) h1
        · simp only [List.map_cons, List.map_nil, List.mem_singleton, List.append_cancel_right_eq] at h1
          exact ha'.1 (h1 ▸ hu)
  have := key h [] hw fun u _ => by simp [keys]
  rw [List.nil_append] at this
  exact this

theorem sandwich (l r : Term Bool) {h : Terms Bool} (hw : WF h) :
    mul fermion (mul fermion (ofTerm fermion l 1) h) (ofTerm fermion r 1) = h.map fun kv => (l ++ kv.1 ++ r, kv.2) := by
  rw [mul_right (wf_mul _ _ _), mul_left hw, List.map_map]
  apply List.map_congr_left
  intro kv _
  simp

theorem action_sandwich (l r : Term Bool) (h : Terms Bool) : action ladderAction (mul fermion (mul fermion (ofTerm fermion l 1) h) (ofTerm fermion r 1))
    = termAction ladderAction l * action ladderAction h * termAction ladderAction r := by
  have e : ∀ t : Term Bool, action ladderAction (ofTerm fermion t 1) = termAction ladderAction t := by
    intro t
    show action ladderAction [(t, 1)] = _
    rw [action_cons, action_nil, add_zero, one_smul]
  rw [action_mul ladderAction ZQ.Hubbard.fermion_sound _ _ (fun _ _ _ _ => trivial), action_mul ladderAction ZQ.Hubbard.fermion_sound _ _ (fun _ _ _ _ => trivial), e, e]

theorem element_sandwich {p q p' q' : ℕ} (h : p < q) (h' : p' < q') (o : Terms Bool) :
    (termAction ladderAction [(p, false), (q, false)] * action ladderAction o * termAction ladderAction [(q', true), (p', true)]) (basisState fun _ => false) (fun _ => false)
      = element o (pair p q) (pair p' q') := by
  rw [Module.End.mul_apply, Module.End.mul_apply, create_pair h', annihilate_pair h, map_neg, Pi.neg_apply, neg_neg, element]

/-- An upper bound on the additions made while ordering `l * h * r` for products `l`, `r` of two ladder operators. -/
def bound (h : Terms Bool) : ℕ := (h.map fun kv => Op.additions (kv.1.length + 4) + 1).sum

theorem constant_value {h : Terms Bool} (hw : WF h) {p q p' q' : ℕ} (hpq : p < q) (hpq' : p' < q') {c : ℂ}
    (hc : constantOf [(p, false), (q, false)] h [(q', true), (p', true)] = .ok c) :
    ‖c - element h (pair p q) (pair p' q')‖ ≤ bound h * (1 / 10 ^ 8) ∧
    (∀ δ : ℝ, 1 / 10 ^ 8 ≤ δ → (∀ kv ∈ h, kv.2 ∈ Grid δ) → c = element h (pair p q) (pair p' q') ∧ c ∈ Grid δ) := by
  have hg : coeff (normalOrdered (mul fermion (mul fermion (ofTerm fermion [(p, false), (q, false)] 1) h) (ofTerm fermion [(q', true), (p', true)] 1))) [] = c := by
    rw [constantOf] at hc
    split at hc
    · rename_i v hv; injection hc with hc; rw [coeff, hv, ← hc]; rfl
    · cases hc
  refine ⟨?_, fun δ hδ hgr => ?_⟩
  · obtain ⟨E, e1, e2, e3, e4⟩ := normalOrdered_error (mul fermion (mul fermion (ofTerm fermion [(p, false), (q, false)] 1) h) (ofTerm fermion [(q', true), (p', true)] 1))
    have hE : coeff E [] = element h (pair p q) (pair p' q') := by
      rw [coeff_vacuum e1 e2, element, e3, action_sandwich, element_sandwich hpq hpq']
    have := e4 []
    rw [hg, hE] at this
    refine this.trans (le_of_eq ?_)
    rw [sandwich _ _ hw, List.map_map, bound]
    congr 3
    apply List.map_congr_left
    intro kv _
    simp
  · have hgr' : ∀ kv ∈ mul fermion (mul fermion (ofTerm fermion [(p, false), (q, false)] 1) h) (ofTerm fermion [(q', true), (p', true)] 1), kv.2 ∈ Grid δ := by
      rw [sandwich _ _ hw]
      intro kv hkv
      obtain ⟨x, hx, rfl⟩ := List.mem_map.1 hkv
      exact hgr x hx
    obtain ⟨n1, n2, _⟩ := normalOrdered_ordered (mul fermion (mul fermion (ofTerm fermion [(p, false), (q, false)] 1) h) (ofTerm fermion [(q', true), (p', true)] 1))
    have hval : c = element h (pair p q) (pair p' q') := by
      rw [← hg, coeff_vacuum n1 n2, element, normalOrdered_action _ δ hδ hgr', action_sandwich, element_sandwich hpq hpq']
    refine ⟨hval, ?_⟩
    obtain ⟨_, h2, _, _⟩ := foldl_add_onGrid hδ (mul fermion (mul fermion (ofTerm fermion [(p, false), (q, false)] 1) h) (ofTerm fermion [(q', true), (p', true)] 1))
      (fun kv => normalOrderedTerm kv.1 kv.2) [] wf_nil (OnGrid.nil δ)
      (fun kv hkv => ⟨(normalOrderedTerm_spec kv.1 kv.2).1, ((normalOrderedTerm_spec kv.1 kv.2).2.2.1 δ hδ (hgr' kv hkv)).1⟩)
    rw [← hg]
    exact h2 []

theorem constant_defined {h : Terms Bool} (hw : WF h) {p q p' q' : ℕ} (hpq : p < q) (hpq' : p' < q') {δ : ℝ} (hδ : 1 / 10 ^ 8 ≤ δ) (hgr : ∀ kv ∈ h, kv.2 ∈ Grid δ) :
    constantOf [(p, false), (q, false)] h [(q', true), (p', true)] =
      if element h (pair p q) (pair p' q') = 0 then .error .keyError else .ok (element h (pair p q) (pair p' q')) := by
  set P := mul fermion (mul fermion (ofTerm fermion [(p, false), (q, false)] 1) h) (ofTerm fermion [(q', true), (p', true)] 1) with hP
  have hgr' : ∀ kv ∈ P, kv.2 ∈ Grid δ := by
    rw [hP, sandwich _ _ hw]
    intro kv hkv
    obtain ⟨x, hx, rfl⟩ := List.mem_map.1 hkv
    exact hgr x hx
  obtain ⟨n1, n2, _⟩ := normalOrdered_ordered P
  have hval : coeff (normalOrdered P) [] = element h (pair p q) (pair p' q') := by
    rw [coeff_vacuum n1 n2, element, normalOrdered_action _ δ hδ hgr', hP, action_sandwich, element_sandwich hpq hpq']
  rw [constantOf, ← hP]
  cases hget : get? (normalOrdered P) [] with
  | none =>
    have : coeff (normalOrdered P) [] = 0 := by rw [coeff, hget]; rfl
    rw [if_pos (by rw [← hval, this])]
  | some v =>
    have hmem : [] ∈ keys (normalOrdered P) := (mem_keys_iff _ _).2 ⟨v, hget⟩
    have hne := (ZQ.PolyT.coeff_ne_zero n1 (ZQ.PolyT.noTiny_normalOrdered P) hmem).1
    rw [if_neg (by rw [← hval]; exact hne), ← hval, coeff, hget]
    rfl

/-! ### The Pauli expansion of a 2 × 2 matrix -/

/-- A coefficient below the tolerance is dropped by `+`. -/
noncomputable def keep (z : ℂ) : ℂ := if ‖z‖ < 1 / 10 ^ 8 then 0 else z

theorem keep_error (z : ℂ) : ‖keep z - z‖ ≤ 1 / 10 ^ 8 := by
  rw [keep]
  by_cases h : ‖z‖ < 1 / 10 ^ 8
  · rw [if_pos h, zero_sub, norm_neg]; exact h.le
  · rw [if_neg h, sub_self, norm_zero]; norm_num

theorem keep_exact {δ : ℝ} (hδ : 1 / 10 ^ 8 ≤ δ) {z : ℂ} (h : z ∈ Grid δ) : keep z = z := by
  rw [keep]
  by_cases hz : z = 0
  · rw [hz]; simp
  · rw [if_neg (not_lt.2 (hδ.trans (Grid.norm_ge ((by norm_num : (0 : ℝ) ≤ 1 / 10 ^ 8).trans hδ) h hz)))]

theorem add_term {A : Type} [DecidableEq A] {acc : Terms A} {t : Term A} {c : ℂ} (hn : t ∉ keys acc) :
    add acc [(t, c)] = if ‖c‖ < 1 / 10 ^ 8 then acc else acc ++ [(t, c)] := by
  by_cases h : ‖c‖ < 1 / 10 ^ 8
  · rw [if_pos h, add, List.foldl_cons, List.foldl_nil, addStep, coeff_of_not_mem hn, zero_add]
    dsimp only
    rw [if_pos (show IsSmall c eqTol from h), del_set_of_not_mem hn]
  · rw [if_neg h, add_fresh hn h]

theorem opMatrix_append (n : ℕ) (a b : Terms Letter) : opMatrix n (a ++ b) = opMatrix n a + opMatrix n b := by
  rw [opMatrix, opMatrix, opMatrix, List.map_append, List.sum_append]

theorem opMatrix_add_term (n : ℕ) {acc : Terms Letter} {t : Term Letter} {c : ℂ} (hn : t ∉ keys acc) :
    opMatrix n (add acc [(t, c)]) = opMatrix n acc + keep c • pauliString n t := by
  rw [add_term hn, keep]
  by_cases h : ‖c‖ < 1 / 10 ^ 8
  · rw [if_pos h, if_pos h, zero_smul, add_zero]
  · rw [if_neg h, if_neg h, opMatrix_append]
    congr 1
    rw [opMatrix, List.map_cons, List.map_nil, List.sum_cons, List.sum_nil, add_zero]

theorem keys_add_term {A : Type} [DecidableEq A] {acc : Terms A} {t u : Term A} {c : ℂ} (hn : t ∉ keys acc) (h : u ∈ keys (add acc [(t, c)])) : u ∈ keys acc ∨ u = t := by
  rw [add_term hn] at h
  split at h
  · exact Or.inl h
  · rw [keys, List.map_append, List.mem_append] at h
    exact h.imp id fun h => by simpa using h

theorem smul_ofTerm_one (t : Term Letter) (ht : ∀ c, qubitSimplify t c = (c, t)) (c : ℂ) : smul (ofTerm qubit t 1) c = [(t, c)] := by
  show [((qubitSimplify t 1).2, (qubitSimplify t 1).1 * c)] = _
  rw [ht, one_mul]

theorem simplify_one (a : Letter) (ha : a ≠ .I) (c : ℂ) : qubitSimplify [(0, a)] c = (c, [(0, a)]) := by
  show (c, if a ≠ .I then [] ++ [(0, a)] else []) = _
  rw [if_pos ha]; rfl

theorem expand_opMatrix (m : Matrix (Fin 2) (Fin 2) ℂ) :
    opMatrix 1 (expand m) = (1 / 2 * (m 0 0 + m 1 1)) • pauliString 1 [] + keep (1 / 2 * (m 0 1 + m 1 0)) • pauliString 1 [(0, .X)]
      + keep (1 / 2 * (m 0 1 * Complex.I - m 1 0 * Complex.I)) • pauliString 1 [(0, .Y)] + keep (1 / 2 * (m 0 0 - m 1 1)) • pauliString 1 [(0, .Z)] := by
  have t0 : m.trace = m 0 0 + m 1 1 := by rw [Matrix.trace_fin_two]
  have t1 : (m * !![0, 1; 1, 0]).trace = m 0 1 + m 1 0 := by
    rw [Matrix.trace_fin_two, Matrix.mul_apply, Matrix.mul_apply, Fin.sum_univ_two, Fin.sum_univ_two]; simp
  have t2 : (m * !![0, -Complex.I; Complex.I, 0]).trace = m 0 1 * Complex.I - m 1 0 * Complex.I := by
    rw [Matrix.trace_fin_two, Matrix.mul_apply, Matrix.mul_apply, Fin.sum_univ_two, Fin.sum_univ_two]; simp; ring
  have t3 : (m * !![1, 0; 0, -1]).trace = m 0 0 - m 1 1 := by
    rw [Matrix.trace_fin_two, Matrix.mul_apply, Matrix.mul_apply, Fin.sum_univ_two, Fin.sum_univ_two]; simp; ring
  unfold expand
  dsimp only
  rw [t0, t1, t2, t3, smul_ofTerm_one [] (fun c => rfl), smul_ofTerm_one [(0, .X)] (simplify_one .X (by decide)), smul_ofTerm_one [(0, .Y)] (simplify_one .Y (by decide)),
    smul_ofTerm_one [(0, .Z)] (simplify_one .Z (by decide))]
  have k0 : ∀ u ∈ keys ([([], 1 / 2 * (m 0 0 + m 1 1))] : Terms Letter), u = [] := fun u hu => by simpa [keys] using hu
  have n1 : [(0, Letter.X)] ∉ keys ([([], 1 / 2 * (m 0 0 + m 1 1))] : Terms Letter) := fun h => by cases k0 _ h
  have n2 : [(0, Letter.Y)] ∉ keys (add ([([], 1 / 2 * (m 0 0 + m 1 1))] : Terms Letter) [([(0, Letter.X)], 1 / 2 * (m 0 1 + m 1 0))]) := fun h => by
    rcases keys_add_term n1 h with h | h
    · cases k0 _ h
    · simp at h
  have n3 : [(0, Letter.Z)] ∉ keys (add (add ([([], 1 / 2 * (m 0 0 + m 1 1))] : Terms Letter) [([(0, Letter.X)], 1 / 2 * (m 0 1 + m 1 0))])
      [([(0, Letter.Y)], 1 / 2 * (m 0 1 * Complex.I - m 1 0 * Complex.I))]) := fun h => by
    rcases keys_add_term n2 h with h | h
    · rcases keys_add_term n1 h with h | h
      · cases k0 _ h
      · simp at h
    · simp at h
  rw [opMatrix_add_term _ n3, opMatrix_add_term _ n2, opMatrix_add_term _ n1]
  congr 3
  rw [opMatrix, List.map_cons, List.map_nil, List.sum_cons, List.sum_nil, add_zero]

/-- Bit to row. -/
def row (b : Bool) : Fin 2 := if b then 1 else 0

theorem expand_entry (m : Matrix (Fin 2) (Fin 2) ℂ) (x y : Bool) :
    opMatrix 1 (expand m) (fun _ => x) (fun _ => y) - m (row x) (row y)
      = if x = y then (if x then -1 else 1) * (keep (1 / 2 * (m 0 0 - m 1 1)) - 1 / 2 * (m 0 0 - m 1 1))
        else (keep (1 / 2 * (m 0 1 + m 1 0)) - 1 / 2 * (m 0 1 + m 1 0))
          + (if x then Complex.I else -Complex.I) * (keep (1 / 2 * (m 0 1 * Complex.I - m 1 0 * Complex.I)) - 1 / 2 * (m 0 1 * Complex.I - m 1 0 * Complex.I)) := by
  have hI := Complex.I_mul_I
  rw [expand_opMatrix]
  simp only [Matrix.add_apply, Matrix.smul_apply, smul_eq_mul, pauliString, tensor, Finset.univ_unique, Finset.prod_singleton, Fin.default_eq_zero, Fin.val_zero, letterAt,
    if_true, letterMatrix, pauliX, pauliY, pauliZ]
  cases x <;> cases y <;> simp [row]
  · ring
  · linear_combination (1 / 2 * m 1 0 - 1 / 2 * m 0 1) * hI
  · linear_combination (-1 / 2 * m 1 0 + 1 / 2 * m 0 1) * hI
  · ring

/-! ### The one qubit hydrogen Hamiltonian -/

theorem oneQubit_ok {h : Terms Bool} {q : Terms Letter} (hq : oneQubit h = .ok q) : ∃ c00 c11 c10,
    constantOf [(0, false), (1, false)] h [(1, true), (0, true)] = .ok c00 ∧ constantOf [(2, false), (3, false)] h [(3, true), (2, true)] = .ok c11 ∧
    constantOf [(2, false), (3, false)] h [(1, true), (0, true)] = .ok c10 ∧ q = expand !![c00, (starRingEnd ℂ) c10; c10, c11] := by
  rw [oneQubit] at hq
  cases h0 : constantOf [(0, false), (1, false)] h [(1, true), (0, true)] with
  | error e => rw [h0] at hq; cases hq
  | ok c00 =>
    cases h1 : constantOf [(2, false), (3, false)] h [(3, true), (2, true)] with
    | error e => rw [h0, h1] at hq; cases hq
    | ok c11 =>
      cases h2 : constantOf [(2, false), (3, false)] h [(1, true), (0, true)] with
      | error e => rw [h0, h1, h2] at hq; cases hq
      | ok c10 =>
        rw [h0, h1, h2] at hq
        injection hq with hq
        exact ⟨c00, c11, c10, rfl, rfl, rfl, hq.symm⟩

/-- C110: for every Hermitian operator on which the step succeeds, the one-qubit operator it saves has, up to an explicit number of tolerances, the matrix of the operator on the
span of the configurations with modes 0 and 1, or modes 2 and 3, occupied. -/
theorem one_qubit_error {h : Terms Bool} (hw : WF h) (hh : IsAdjoint (action ladderAction h) (action ladderAction h)) {q : Terms Letter} (hq : oneQubit h = .ok q) (x y : Bool) :
    ‖opMatrix 1 q (fun _ => x) (fun _ => y) - element h (config x) (config y)‖ ≤ (bound h + 2) * (1 / 10 ^ 8) := by
  obtain ⟨c00, c11, c10, e0, e1, e2, rfl⟩ := oneQubit_ok hq
  have b0 := (constant_value hw (by omega) (by omega) e0).1
  have b1 := (constant_value hw (by omega) (by omega) e1).1
  have b2 := (constant_value hw (by omega) (by omega) e2).1
  set m : Matrix (Fin 2) (Fin 2) ℂ := !![c00, (starRingEnd ℂ) c10; c10, c11] with hm
  have hentry : ‖m (row x) (row y) - element h (config x) (config y)‖ ≤ bound h * (1 / 10 ^ 8) := by
    cases x <;> cases y
    · exact b0
    · show ‖(starRingEnd ℂ) c10 - element h (pair 0 1) (pair 2 3)‖ ≤ _
      rw [show element h (pair 0 1) (pair 2 3) = (starRingEnd ℂ) (element h (pair 2 3) (pair 0 1)) from hh (pair 0 1) (pair 2 3), ← map_sub, Complex.norm_conj]
      exact b2
    · exact b2
    · exact b1
  have hexp : ‖opMatrix 1 (expand m) (fun _ => x) (fun _ => y) - m (row x) (row y)‖ ≤ 2 * (1 / 10 ^ 8) := by
    rw [expand_entry]
    by_cases hxy : x = y
    · rw [if_pos hxy, norm_mul]
      have : ‖(if x then -1 else 1 : ℂ)‖ = 1 := by split <;> simp
      rw [this, one_mul]
      exact (keep_error _).trans (by norm_num)
    · rw [if_neg hxy]
      refine (norm_add_le _ _).trans ?_
      rw [norm_mul]
      have : ‖(if x then Complex.I else -Complex.I : ℂ)‖ = 1 := by split <;> simp
      rw [this, one_mul, two_mul]
      exact add_le_add (keep_error _) (keep_error _)
  rw [show opMatrix 1 (expand m) (fun _ => x) (fun _ => y) - element h (config x) (config y)
    = (m (row x) (row y) - element h (config x) (config y)) + (opMatrix 1 (expand m) (fun _ => x) (fun _ => y) - m (row x) (row y)) by ring]
  refine (norm_add_le _ _).trans ((add_le_add hentry hexp).trans (le_of_eq (by ring)))

/-- C110: the matrix is exact when the coefficients of the operator are Gaussian integer multiples of some `2δ`, `δ ≥ 1e-8`. -/
theorem one_qubit_matrix {h : Terms Bool} (hw : WF h) (hh : IsAdjoint (action ladderAction h) (action ladderAction h)) {δ : ℝ} (hδ : 1 / 10 ^ 8 ≤ δ)
    (hg : ∀ kv ∈ h, kv.2 ∈ Grid (2 * δ)) {q : Terms Letter} (hq : oneQubit h = .ok q) (x y : Bool) :
    opMatrix 1 q (fun _ => x) (fun _ => y) = element h (config x) (config y) := by
  obtain ⟨c00, c11, c10, e0, e1, e2, rfl⟩ := oneQubit_ok hq
  have hδ2 : 1 / 10 ^ 8 ≤ 2 * δ := by linarith [show (0 : ℝ) ≤ 1 / 10 ^ 8 by norm_num]
  obtain ⟨b0, g0⟩ := (constant_value hw (by omega) (by omega) e0).2 _ hδ2 hg
  obtain ⟨b1, g1⟩ := (constant_value hw (by omega) (by omega) e1).2 _ hδ2 hg
  obtain ⟨b2, g2⟩ := (constant_value hw (by omega) (by omega) e2).2 _ hδ2 hg
  have gx : ∀ z ∈ Grid (2 * δ), 1 / 2 * z ∈ Grid δ := fun z hz => by rw [mul_comm]; exact Grid.half hz
  set m : Matrix (Fin 2) (Fin 2) ℂ := !![c00, (starRingEnd ℂ) c10; c10, c11] with hm
  have hentry : m (row x) (row y) = element h (config x) (config y) := by
    cases x <;> cases y
    · exact b0
    · show (starRingEnd ℂ) c10 = element h (pair 0 1) (pair 2 3)
      rw [show element h (pair 0 1) (pair 2 3) = (starRingEnd ℂ) (element h (pair 2 3) (pair 0 1)) from hh (pair 0 1) (pair 2 3), ← b2]
    · exact b2
    · exact b1
  have k1 : keep (1 / 2 * (m 0 0 - m 1 1)) = 1 / 2 * (m 0 0 - m 1 1) := keep_exact hδ (gx _ ((Grid _).sub_mem g0 g1))
  have k2 : keep (1 / 2 * (m 0 1 + m 1 0)) = 1 / 2 * (m 0 1 + m 1 0) := keep_exact hδ (gx _ ((Grid _).add_mem (Grid.conj g2) g2))
  have k3 : keep (1 / 2 * (m 0 1 * Complex.I - m 1 0 * Complex.I)) = 1 / 2 * (m 0 1 * Complex.I - m 1 0 * Complex.I) :=
    keep_exact hδ (gx _ ((Grid _).sub_mem (Grid.mul_I (Grid.conj g2)) (Grid.mul_I g2)))
  have := expand_entry m x y
  rw [k1, k2, k3] at this
  simp only [sub_self, mul_zero, add_zero, ite_self] at this
  rw [← hentry]
  exact sub_eq_zero.1 this

/-- C110: on such operators the step succeeds exactly when none of the three matrix elements it reads is zero; otherwise `terms[()]` raises `KeyError`. -/
theorem one_qubit_defined {h : Terms Bool} (hw : WF h) {δ : ℝ} (hδ : 1 / 10 ^ 8 ≤ δ) (hg : ∀ kv ∈ h, kv.2 ∈ Grid δ) :
    ((∃ q, oneQubit h = .ok q) ↔
      element h (config false) (config false) ≠ 0 ∧ element h (config true) (config true) ≠ 0 ∧ element h (config true) (config false) ≠ 0) ∧
    ((¬ ∃ q, oneQubit h = .ok q) → oneQubit h = .error .keyError) := by
  rw [oneQubit, constant_defined hw (by omega) (by omega) hδ hg, constant_defined hw (by omega) (by omega) hδ hg, constant_defined hw (by omega) (by omega) hδ hg]
  show (_ ↔ element h (pair 0 1) (pair 0 1) ≠ 0 ∧ element h (pair 2 3) (pair 2 3) ≠ 0 ∧ element h (pair 2 3) (pair 0 1) ≠ 0) ∧ _
  by_cases h0 : element h (pair 0 1) (pair 0 1) = 0
  · rw [if_pos h0]
    exact ⟨⟨fun ⟨q, hq⟩ => (nomatch hq), fun hn => absurd h0 hn.1⟩, fun _ => rfl⟩
  · rw [if_neg h0]
    by_cases h1 : element h (pair 2 3) (pair 2 3) = 0
    · rw [if_pos h1]
      exact ⟨⟨fun ⟨q, hq⟩ => (nomatch hq), fun hn => absurd h1 hn.2.1⟩, fun _ => rfl⟩
    · rw [if_neg h1]
      by_cases h2 : element h (pair 2 3) (pair 0 1) = 0
      · rw [if_pos h2]
        exact ⟨⟨fun ⟨q, hq⟩ => (nomatch hq), fun hn => absurd h2 hn.2.2⟩, fun _ => rfl⟩
      · rw [if_neg h2]
        exact ⟨⟨fun _ => ⟨h0, h1, h2⟩, fun _ => ⟨_, rfl⟩⟩, fun hn => absurd ⟨_, rfl⟩ hn⟩

/-- C110: if the operator maps the two configurations into their span, every eigenvector of the one-qubit operator is an eigenvector of the operator, with the same eigenvalue. -/
theorem one_qubit_eigen {h : Terms Bool} (hw : WF h) (hh : IsAdjoint (action ladderAction h) (action ladderAction h)) {δ : ℝ} (hδ : 1 / 10 ^ 8 ≤ δ)
    (hg : ∀ kv ∈ h, kv.2 ∈ Grid (2 * δ)) (hinv : ∀ b s, (∀ b', s ≠ config b') → element h s (config b) = 0) {q : Terms Letter} (hq : oneQubit h = .ok q)
    {v : Bool → ℂ} {E : ℂ} (hv : ∀ x, opMatrix 1 q (fun _ => x) (fun _ => false) * v false + opMatrix 1 q (fun _ => x) (fun _ => true) * v true = E * v x) :
    action ladderAction h (v false • basisState (config false) + v true • basisState (config true)) = E • (v false • basisState (config false) + v true • basisState (config true)) := by
  have hne : config true ≠ config false := fun h => by have := congrFun h 0; simp [config, pair] at this
  have hv' : ∀ x, element h (config x) (config false) * v false + element h (config x) (config true) * v true = E * v x := by
    intro x
    rw [← one_qubit_matrix hw hh hδ hg hq, ← one_qubit_matrix hw hh hδ hg hq]
    exact hv x
  funext s
  rw [map_add, map_smul, map_smul]
  simp only [Pi.add_apply, Pi.smul_apply, smul_eq_mul]
  show v false * element h s (config false) + v true * element h s (config true) = _
  by_cases hs : ∀ b', s ≠ config b'
  · rw [hinv _ s hs, hinv _ s hs, basisState_ne (hs false), basisState_ne (hs true)]
    ring
  · push Not at hs
    obtain ⟨b, rfl⟩ := hs
    have := hv' b
    cases b
    · rw [basisState_self, basisState_ne hne.symm]
      linear_combination this
    · rw [basisState_self, basisState_ne hne]
      linear_combination this

/-! A Hamiltonian that meets the hypotheses: a constant and the exchange of the two configurations. -/

/-- `1 + a†_3 a†_2 a_1 a_0 + a†_0 a†_1 a_2 a_3`. -/
def exchange : Terms Bool := [([], 1), ([(3, true), (2, true), (1, false), (0, false)], 1), ([(0, true), (1, true), (2, false), (3, false)], 1)]

theorem exchange_selfadjoint : IsAdjoint (action ladderAction exchange) (action ladderAction exchange) := by
  have h := hcFermion_adjoint (o := exchange) (by unfold WF exchange keys; decide)
  rw [hcFermion_eq (by unfold WF exchange keys; decide)] at h
  have : action ladderAction (exchange.map fun kv => (conjTerm kv.1, (starRingEnd ℂ) kv.2)) = action ladderAction exchange := by
    simp only [exchange, List.map_cons, List.map_nil, map_one, action_cons, action_nil, one_smul, add_zero]
    rw [show conjTerm [] = [] from rfl, show conjTerm [(3, true), (2, true), (1, false), (0, false)] = [(0, true), (1, true), (2, false), (3, false)] from rfl,
      show conjTerm [(0, true), (1, true), (2, false), (3, false)] = [(3, true), (2, true), (1, false), (0, false)] from rfl]
    abel
  rwa [this] at h

theorem exchange_grid : ∀ kv ∈ exchange, kv.2 ∈ Grid (2 * (1 / 2)) := by
  intro kv hkv
  have : kv.2 = 1 := by
    rcases List.mem_cons.1 hkv with rfl | hkv
    · rfl
    · rcases List.mem_cons.1 hkv with rfl | hkv
      · rfl
      · rw [List.mem_singleton.1 hkv]
  rw [this]
  exact ⟨1, 0, by norm_num⟩

theorem exchange_basis : action ladderAction exchange (basisState (config false)) = basisState (config false) - basisState (config true) ∧
    action ladderAction exchange (basisState (config true)) = basisState (config true) - basisState (config false) := by
  have key : ∀ (a b c d : ℕ × Bool) (s : ℕ → Bool), termAction ladderAction [a, b, c, d] (basisState s)
      = ladderAction a (ladderAction b (ladderAction c (ladderAction d (basisState s)))) := by
    intro a b c d s
    simp only [termAction_cons, termAction_nil, mul_one, Module.End.mul_apply]
  have pos : ∀ (p : ℕ) (b : Bool) (s : ℕ → Bool), s p = !b → occupiedBefore s p = 0 → ladderAction (p, b) (basisState s) = basisState (Function.update s p b) := by
    intro p b s h1 h2
    rw [ladder_basis, if_pos h1, sgn, h2, pow_zero, one_smul]
  have neg : ∀ (p : ℕ) (b : Bool) (s : ℕ → Bool), s p = !b → occupiedBefore s p = 1 → ladderAction (p, b) (basisState s) = -basisState (Function.update s p b) := by
    intro p b s h1 h2
    rw [ladder_basis, if_pos h1, sgn, h2, pow_one, neg_smul, one_smul]
  have zero : ∀ (p : ℕ) (b : Bool) (s : ℕ → Bool), s p = b → ladderAction (p, b) (basisState s) = 0 := by
    intro p b s h1
    rw [ladder_basis, if_neg (by rw [h1]; cases b <;> decide)]
  have upd : ∀ (s s' : ℕ → Bool) (a b c d : ℕ) (va vb vc vd : Bool), (∀ k, (if k = d then vd else if k = c then vc else if k = b then vb else if k = a then va else s k) = s' k) →
      Function.update (Function.update (Function.update (Function.update s a va) b vb) c vc) d vd = s' := by
    intro s s' a b c d va vb vc vd h
    funext k
    rw [← h k]
    simp only [Function.update_apply]
  constructor
  · simp only [exchange, action_cons, action_nil, LinearMap.add_apply, one_smul, LinearMap.zero_apply, add_zero, key, termAction_nil, Module.End.one_apply]
    rw [pos 0 false (config false) (by decide) (by decide), pos 1 false _ (by decide) (by decide), pos 2 true _ (by decide) (by decide), neg 3 true _ (by decide) (by decide),
      zero 3 false (config false) (by decide), map_zero, map_zero, map_zero, add_zero, upd _ (config true), sub_eq_add_neg]
    intro k
    simp only [config, pair]
    by_cases h3 : k = 3
    · subst h3; rfl
    · by_cases h2 : k = 2
      · subst h2; rfl
      · by_cases h1 : k = 1
        · subst h1; rfl
        · by_cases h0 : k = 0
          · subst h0; rfl
          · simp [pair, h0, h1, h2, h3]
  · simp only [exchange, action_cons, action_nil, LinearMap.add_apply, one_smul, LinearMap.zero_apply, add_zero, key, termAction_nil, Module.End.one_apply]
    rw [zero 0 false (config true) (by decide), map_zero, map_zero, map_zero, zero_add, neg 3 false (config true) (by decide) (by decide), map_neg, map_neg, map_neg,
      pos 2 false _ (by decide) (by decide), pos 1 true _ (by decide) (by decide), pos 0 true _ (by decide) (by decide), upd _ (config false), sub_eq_add_neg]
    intro k
    simp only [config, pair]
    by_cases h3 : k = 3
    · subst h3; rfl
    · by_cases h2 : k = 2
      · subst h2; rfl
      · by_cases h1 : k = 1
        · subst h1; rfl
        · by_cases h0 : k = 0
          · subst h0; rfl
          · simp [pair, h0, h1, h2, h3]

theorem exchange_elements (x y : Bool) : element exchange (config x) (config y) = if x = y then 1 else -1 := by
  have hne : config true ≠ config false := fun h => by have := congrFun h 0; simp [config, pair] at this
  rw [element]
  cases y
  · rw [exchange_basis.1]
    cases x
    · rw [Pi.sub_apply, basisState_self, basisState_ne hne.symm]; simp
    · rw [Pi.sub_apply, basisState_self, basisState_ne hne]; simp
  · rw [exchange_basis.2]
    cases x
    · rw [Pi.sub_apply, basisState_self, basisState_ne hne.symm]; simp
    · rw [Pi.sub_apply, basisState_self, basisState_ne hne]; simp

theorem exchange_ok : ∃ q, oneQubit exchange = .ok q := by
  refine ((one_qubit_defined (by unfold WF exchange keys; decide) (by norm_num) exchange_grid).1).2 ⟨?_, ?_, ?_⟩ <;> rw [exchange_elements] <;> simp

/-- The hypotheses of `one_qubit_matrix`, `one_qubit_error` and `one_qubit_eigen` are met: the one-qubit operator of `exchange` is `1 - X`, and `(1, -1)` is an eigenvector. -/
example : ∃ q, oneQubit exchange = .ok q ∧ (∀ x y, opMatrix 1 q (fun _ => x) (fun _ => y) = if x = y then 1 else -1) ∧
    action ladderAction exchange ((1 : ℂ) • basisState (config false) + (-1 : ℂ) • basisState (config true))
      = (2 : ℂ) • ((1 : ℂ) • basisState (config false) + (-1 : ℂ) • basisState (config true)) := by
  obtain ⟨q, hq⟩ := exchange_ok
  have hm := one_qubit_matrix (by unfold WF exchange keys; decide) exchange_selfadjoint (by norm_num) exchange_grid hq
  refine ⟨q, hq, fun x y => by rw [hm, exchange_elements], ?_⟩
  refine one_qubit_eigen (δ := 1 / 2) (v := fun b => if b then -1 else 1) (by unfold WF exchange keys; decide) exchange_selfadjoint (by norm_num) exchange_grid ?_ hq ?_
  · intro b s hs
    rw [element]
    cases b
    · rw [exchange_basis.1, Pi.sub_apply, basisState_ne (hs false), basisState_ne (hs true), sub_zero]
    · rw [exchange_basis.2, Pi.sub_apply, basisState_ne (hs false), basisState_ne (hs true), sub_zero]
  · intro x
    rw [hm, hm, exchange_elements, exchange_elements]
    cases x <;> norm_num

/-- C110: the step fails on Hermitian operators whose matrix on the two configurations is perfectly well defined, for instance on the identity: an element that is zero is not stored,
so reading it raises `KeyError`. -/
theorem one_qubit_counterexample : IsAdjoint (action ladderAction [([], 1)]) (action ladderAction [([], 1)]) ∧ oneQubit [([], 1)] = .error .keyError := by
  have h1 : action ladderAction [(([] : Term Bool), (1 : ℂ))] = 1 := by rw [action_cons, action_nil, add_zero, one_smul, termAction_nil]
  refine ⟨by rw [h1]; exact IsAdjoint.one, ?_⟩
  have hd := one_qubit_defined (h := [([], 1)]) (δ := 1) (wf_single _ _) (by norm_num) (fun kv hkv => by
    rw [List.mem_singleton.1 hkv]; exact ⟨1, 0, by norm_num⟩)
  refine hd.2 fun hq => (hd.1.1 hq).2.2 ?_
  rw [element, h1, Module.End.one_apply, basisState_ne]
  intro h
  have := congrFun h 0
  simp [config, pair] at this

/-! ### The local zero state operator -/

theorem ising_one (q : ℕ) (c : ℂ) : ofTerm ising [(q, .Z)] c = [([(q, .Z)], c)] := by
  simp [ofTerm, ising, isingSimplify, PyDict.counter, PyDict.incr, PyDict.set, PyDict.get?]

/-- C110: `get_local_zero_state_operator` is diagonal; its value on a basis state is twice the fraction of ones, so it is zero on the zero state only. -/
theorem local_zero {n : ℕ} (h1 : 1 ≤ n) (h2 : n ≤ 10 ^ 8) (ψ : State) (s : ℕ → Bool) :
    action pauliAction (localZero n) ψ s = 2 * (ones n s : ℂ) / n * ψ s := by
  have hn : (n : ℂ) ≠ 0 := by exact_mod_cast (by omega : n ≠ 0)
  have hδ : (1 : ℝ) / 10 ^ 8 ≤ 1 / n := by
    apply one_div_le_one_div_of_le
    · exact_mod_cast h1
    · exact_mod_cast h2
  have hz : ∀ q, StandsFor pauliAction AllZ True (1 / n : ℝ) 0 (ofTerm ising [(q, .Z)] (1 / (n : ℂ))) ((1 / (n : ℂ)) • termAction pauliAction [(q, .Z)]) := by
    intro q
    rw [ising_one]
    refine StandsFor.of_exact (wf_single _ _) (fun t ht => ?_) ?_ fun _ => onGrid_single ⟨1, 0, by push_cast; ring⟩
    · have : t = [(q, .Z)] := by simpa [keys] using ht
      rw [this]
      intro f hf
      rw [List.mem_singleton.1 hf]
    · rw [action_cons, action_nil, add_zero]
  have h0 : StandsFor pauliAction AllZ True (1 / n : ℝ) 0 (ofTerm ising [] 1) 1 := by
    refine StandsFor.of_exact (wf_single _ _) (fun t ht => ?_) ?_ fun _ => onGrid_single ⟨n, 0, ?_⟩
    · have : t = [] := by simpa [keys, ofTerm, ising, isingSimplify, PyDict.counter] using ht
      rw [this]
      intro f hf
      cases hf
    · show action pauliAction [([], 1)] = 1
      rw [action_cons, action_nil, add_zero, one_smul, termAction_nil]
    · show (1 : ℂ) = _
      push_cast
      field_simp
      ring
  have hs := (StandsFor.foldl (k := 1) (fun o q => sub o (ofTerm ising [(q, .Z)] (1 / (n : ℂ)))) (fun q => -((1 / (n : ℂ)) • termAction pauliAction [(q, .Z)])) (List.range n)
    (fun q _ m acc N h => (h.sub hδ (hz q)).congr (sub_eq_add_neg _ _)) _ _ _ h0).exact trivial
  rw [localZero, hs.2, LinearMap.add_apply, Pi.add_apply, Module.End.one_apply]
  have hsum : ∀ l : List ℕ, ((l.map fun q => -((1 / (n : ℂ)) • termAction pauliAction [(q, Letter.Z)])).sum : Module.End ℂ State) ψ s
      = ((l.map fun q => if s q then (1 : ℂ) else -1).sum) / n * ψ s := by
    intro l
    induction l with
    | nil => simp
    | cons q l ih =>
      rw [List.map_cons, List.sum_cons, LinearMap.add_apply, Pi.add_apply, ih, LinearMap.neg_apply, Pi.neg_apply, LinearMap.smul_apply, Pi.smul_apply,
        allZ_action (fun f hf => by rw [List.mem_singleton.1 hf]), zSign, List.map_cons, List.map_nil, List.prod_singleton, List.map_cons, List.sum_cons, smul_eq_mul]
      by_cases hq : s q = true
      · rw [if_pos hq, if_pos hq]; ring
      · rw [if_neg hq, if_neg hq]; ring
  have hcount : ∀ m : ℕ, (((List.range m).map fun q => if s q then (1 : ℂ) else -1).sum) = 2 * (ones m s : ℂ) - m := by
    intro m
    induction m with
    | zero => simp [ones]
    | succ m ih =>
      rw [List.range_succ, List.map_append, List.sum_append, ih, ones, ones, Finset.range_add_one, Finset.filter_insert, List.map_cons, List.map_nil, List.sum_singleton]
      by_cases hq : s m = true
      · rw [if_pos hq, if_pos hq, Finset.card_insert_of_notMem (by simp)]
        push_cast
        ring
      · rw [if_neg hq, if_neg hq]
        push_cast
        ring
  rw [hsum, hcount]
  field_simp
  ring

example : action pauliAction (localZero 2) (basisState (pair 1 1)) (pair 1 1) = 1 := by
  rw [local_zero (by norm_num) (by norm_num), basisState_self, show ones 2 (pair 1 1) = 1 by decide]
  norm_num

/-- C110: beyond `10^8` qubits every coefficient `1/n` is below the tolerance of `-=`, nothing is subtracted, and the operator is the identity. -/
theorem local_zero_counterexample {n : ℕ} (h : 10 ^ 8 < n) : localZero n = [([], 1)] := by
  have hsmall : ‖-(1 / (n : ℂ))‖ < 1 / 10 ^ 8 := by
    rw [norm_neg, norm_div, norm_one, Complex.norm_natCast]
    apply one_div_lt_one_div_of_lt (by norm_num)
    exact_mod_cast h
  have key : ∀ l : List ℕ, l.foldl (fun o q => sub o (ofTerm ising [(q, Letter.Z)] (1 / (n : ℂ)))) [(([] : Term Letter), (1 : ℂ))] = [([], 1)] := by
    intro l
    induction l with
    | nil => rfl
    | cons q l ih =>
      rw [List.foldl_cons, ising_one, sub_eq, show neg [([(q, Letter.Z)], 1 / (n : ℂ))] = [([(q, Letter.Z)], -(1 / (n : ℂ)))] by simp [neg, smul],
        add_term (by simp [keys]), if_pos hsmall, ih]
  exact key (List.range n)

/-! ### Interpolation -/

/-- C110: `interpolate_qubit_operators` refuses an `epsilon` outside [0, 1] and otherwise returns the interpolation, each coefficient exact unless it is below the tolerance. -/
theorem interpolate_spec {reference target : Terms Letter} (hr : WF reference) (ht : WF target) (ε : ℝ) :
    (¬ (0 ≤ ε ∧ ε ≤ 1) → interpolate reference target ε = .error .valueError) ∧
    (0 ≤ ε ∧ ε ≤ 1 → ∃ o, interpolate reference target ε = .ok o ∧ WF o ∧ (∀ t ∈ keys o, t ∈ keys reference ∨ t ∈ keys target) ∧
      ∀ t, ‖coeff o t - (ε * coeff target t + (1 - ε) * coeff reference t)‖ < 1 / 10 ^ 8 ∧
        (1 / 10 ^ 8 ≤ ‖ε * coeff target t + (1 - ε) * coeff reference t‖ → coeff o t = ε * coeff target t + (1 - ε) * coeff reference t)) := by
  have hk : ∀ (o : Terms Letter) (c : ℂ), keys (smul o c) = keys o := fun o c => by simp [keys, smul]
  have hw : ∀ (o : Terms Letter) (c : ℂ), WF o → WF (smul o c) := fun o c h => by rw [WF, hk]; exact h
  refine ⟨fun h => if_pos ?_, fun h => ⟨_, if_neg ?_, (add_spec (hw _ _ ht) (hw _ _ hr)).1, fun t h => ?_, fun t => ?_⟩⟩
  · by_contra hc
    push Not at hc
    exact h ⟨hc.2, hc.1⟩
  · push Not
    exact ⟨h.2, h.1⟩
  · rcases mem_keys_add (hw _ _ ht) (hw _ _ hr) h with h | h <;> rw [hk] at h
    · exact Or.inr h
    · exact Or.inl h
  · have e : coeff (smul target (ε : ℂ)) t + coeff (smul reference ((1 - ε : ℝ) : ℂ)) t = ε * coeff target t + (1 - ε) * coeff reference t := by
      rw [coeff_smul, coeff_smul]
      push_cast
      ring
    refine ⟨?_, fun hc => ?_⟩
    · rw [← e]; exact add_error (hw _ _ ht) (hw _ _ hr) t
    · rw [← e]; rw [← e] at hc
      exact add_exact (hw _ _ ht) (hw _ _ hr) t (Or.inl (not_lt.2 hc))

example : ∃ o, interpolate [([], 1)] [([(0, .Z)], 2)] (1 / 4) = .ok o ∧ coeff o [(0, .Z)] = 1 / 2 ∧ coeff o [] = 3 / 4 := by
  obtain ⟨o, h1, _, _, h4⟩ := (interpolate_spec (reference := [([], 1)]) (target := [([(0, .Z)], 2)]) (wf_single _ _) (wf_single _ _) (1 / 4)).2 (by norm_num)
  refine ⟨o, h1, ?_, ?_⟩
  · have e : ((1 / 4 : ℝ) : ℂ) * coeff ([([(0, Letter.Z)], 2)] : Terms Letter) [(0, .Z)] + (1 - ((1 / 4 : ℝ) : ℂ)) * coeff ([([], 1)] : Terms Letter) [(0, Letter.Z)] = 1 / 2 := by
      simp [coeff, PyDict.get?]; norm_num
    rw [(h4 _).2 (by rw [e]; norm_num), e]
  · have e : ((1 / 4 : ℝ) : ℂ) * coeff ([([(0, Letter.Z)], 2)] : Terms Letter) [] + (1 - ((1 / 4 : ℝ) : ℂ)) * coeff ([([], 1)] : Terms Letter) [] = 3 / 4 := by
      simp [coeff, PyDict.get?]; norm_num
    rw [(h4 _).2 (by rw [e]; norm_num), e]

end ZQ.OpSteps
