import Verif.Model.FermionTools
import Verif.Spec.FermionTools
import Verif.Props.Hubbard
import Verif.Props.Hermitian
import Verif.Props.JWInteraction
import Verif.Props.Tapering

/-! # C80: commutators -/

namespace ZQ.FTools

open ZQ ZQ.Op PyDict ZQ.JWInt

variable {A : Type} [DecidableEq A]

theorem grid_mul {δ ε : ℝ} {z w : ℂ} (hz : z ∈ Grid δ) (hw : w ∈ Grid ε) : z * w ∈ Grid (δ * ε) := by
  obtain ⟨a, b, rfl⟩ := hz
  obtain ⟨c, d, rfl⟩ := hw
  refine ⟨a * c - b * d, a * d + b * c, ?_⟩
  push_cast
  linear_combination ((δ : ℂ) * ε * b * d) * Complex.I_mul_I

theorem accum_onGrid {δ : ℝ} {o : Terms A} (h : OnGrid δ o) (t : Term A) {c : ℂ} (hc : c ∈ Grid δ) : OnGrid δ (accum o t c) := by
  intro u
  rw [coeff_accum]
  refine (Grid δ).add_mem (h u) ?_
  split_ifs
  · exact hc
  · exact (Grid δ).zero_mem

theorem mul_onGrid {S : OpClass A} {δ ε : ℝ} (hS : ∀ t c, c ∈ Grid (δ * ε) → (S.simplify t c).1 ∈ Grid (δ * ε)) {a b : Terms A}
    (ha : ∀ kv ∈ a, kv.2 ∈ Grid δ) (hb : ∀ kv ∈ b, kv.2 ∈ Grid ε) : OnGrid (δ * ε) (mul S a b) := by
  have row : ∀ (l : Term A × ℂ), l.2 ∈ Grid δ → ∀ (b res : Terms A), (∀ kv ∈ b, kv.2 ∈ Grid ε) → OnGrid (δ * ε) res → OnGrid (δ * ε) (mulRow S l b res) := by
    intro l hl b
    induction b with
    | nil => intro res _ h; exact h
    | cons r b ih =>
      intro res hb h
      exact ih _ (fun kv hkv => hb kv (List.mem_cons_of_mem _ hkv)) (accum_onGrid h _ (hS _ _ (grid_mul hl (hb r List.mem_cons_self))))
  have all : ∀ (a res : Terms A), (∀ kv ∈ a, kv.2 ∈ Grid δ) → OnGrid (δ * ε) res → OnGrid (δ * ε) (a.foldl (fun res l => mulRow S l b res) res) := by
    intro a
    induction a with
    | nil => intro res _ h; exact h
    | cons l a ih =>
      intro res ha h
      exact ih _ (fun kv hkv => ha kv (List.mem_cons_of_mem _ hkv)) (row l (ha l List.mem_cons_self) b res hb h)
  exact all a [] ha (OnGrid.nil _)

theorem neg_onGrid {δ : ℝ} {o : Terms A} (h : OnGrid δ o) : OnGrid δ (neg o) := fun t => by rw [(neg_spec o).2]; exact (Grid δ).neg_mem (h t)

theorem neg_wf {o : Terms A} (h : WF o) : WF (neg o) := by rw [WF, (neg_spec o).1]; exact h

theorem mem_of_onGrid {δ : ℝ} {o : Terms A} (hw : WF o) (h : OnGrid δ o) : ∀ kv ∈ o, kv.2 ∈ Grid δ := fun kv hkv => by
  have := h kv.1
  rwa [coeff_of_mem hw hkv] at this

/-- C80, any coefficients: each coefficient of the commutator is within `1e-8` of the difference of the products' coefficients. -/
theorem commutator_error (S : OpClass A) (a b : Terms A) (t : Term A) :
    WF (commutator S a b) ∧ ‖coeff (commutator S a b) t - (coeff (mul S a b) t - coeff (mul S b a) t)‖ < 1 / 10 ^ 8 := by
  rw [commutator, sub_eq]
  refine ⟨(add_spec (wf_mul S a b) (neg_wf (wf_mul S b a))).1, ?_⟩
  have := add_error (wf_mul S a b) (neg_wf (wf_mul S b a)) t
  rwa [(neg_spec _).2, ← sub_eq_add_neg] at this

/-- C80, any coefficients, for the anticommutator. -/
theorem anticommutator_error (S : OpClass A) (a b : Terms A) (t : Term A) :
    WF (anticommutator S a b) ∧ ‖coeff (anticommutator S a b) t - (coeff (mul S a b) t + coeff (mul S b a) t)‖ < 1 / 10 ^ 8 :=
  ⟨(add_spec (wf_mul S a b) (wf_mul S b a)).1, add_error (wf_mul S a b) (wf_mul S b a) t⟩

theorem commutator_grid {S : OpClass A} {δ ε : ℝ} (hδ : 1 / 10 ^ 8 ≤ δ * ε) (hS : ∀ t c, c ∈ Grid (δ * ε) → (S.simplify t c).1 ∈ Grid (δ * ε))
    {ev : ℕ × A → Module.End ℂ State} {P : Term A → Prop} (hs : Sound ev S P) {a b : Terms A} (hab : ∀ l ∈ a, ∀ r ∈ b, P (l.1 ++ r.1)) (hba : ∀ l ∈ b, ∀ r ∈ a, P (l.1 ++ r.1))
    (ha : ∀ kv ∈ a, kv.2 ∈ Grid δ) (hb : ∀ kv ∈ b, kv.2 ∈ Grid ε) :
    OnGrid (δ * ε) (commutator S a b) ∧ action ev (commutator S a b) = bracket (action ev a) (action ev b) ∧
    action ev (anticommutator S a b) = action ev a * action ev b + action ev b * action ev a := by
  have g1 := mul_onGrid hS ha hb
  have g2 : OnGrid (δ * ε) (mul S b a) := by
    have := mul_onGrid (S := S) (δ := ε) (ε := δ) (by rwa [mul_comm ε δ]) hb ha
    rwa [mul_comm ε δ] at this
  have w1 := wf_mul S a b
  have w2 := wf_mul S b a
  obtain ⟨_, x2, _, x4⟩ := add_onGrid hδ w1 (neg_wf w2) g1 (neg_onGrid g2)
  obtain ⟨_, _, _, y4⟩ := add_onGrid hδ w1 w2 g1 g2
  refine ⟨?_, ?_, ?_⟩
  · rw [commutator, sub_eq]; exact x2
  · rw [commutator, sub_eq, bracket, x4, neg, action_smul, action_mul ev hs a b hab, action_mul ev hs b a hba]
    module
  · rw [anticommutator, y4, action_mul ev hs a b hab, action_mul ev hs b a hba]

/-- C80 for qubit operators: with coefficients on grids whose product is not finer than the tolerance, the commutator acts as `A B - B A` and the anticommutator as
`A B + B A`. -/
theorem qubit_commutator {δ ε : ℝ} (hδ : 1 / 10 ^ 8 ≤ δ * ε) (a b : Terms Letter) (ha : ∀ kv ∈ a, kv.2 ∈ Grid δ) (hb : ∀ kv ∈ b, kv.2 ∈ Grid ε) :
    action pauliAction (commutator qubit a b) = bracket (action pauliAction a) (action pauliAction b) ∧
    action pauliAction (anticommutator qubit a b) = action pauliAction a * action pauliAction b + action pauliAction b * action pauliAction a :=
  (commutator_grid hδ (fun t _ h => qubitSimplify_mem t h) qubit_sound (fun _ _ _ _ => trivial) (fun _ _ _ _ => trivial) ha hb).2

/-- C80 for fermion operators. -/
theorem fermion_commutator {δ ε : ℝ} (hδ : 1 / 10 ^ 8 ≤ δ * ε) (a b : Terms Bool) (ha : ∀ kv ∈ a, kv.2 ∈ Grid δ) (hb : ∀ kv ∈ b, kv.2 ∈ Grid ε) :
    action ladderAction (commutator fermion a b) = bracket (action ladderAction a) (action ladderAction b) ∧
    action ladderAction (anticommutator fermion a b) = action ladderAction a * action ladderAction b + action ladderAction b * action ladderAction a :=
  (commutator_grid hδ (fun _ _ h => h) ZQ.Hubbard.fermion_sound (fun _ _ _ _ => trivial) (fun _ _ _ _ => trivial) ha hb).2

theorem commutator_canonical (a b : Terms Letter) : CanonicalOp (commutator qubit a b) := by
  have h1 := qubit_product_canonical a b
  have h2 := qubit_product_canonical b a
  rw [commutator, sub_eq]
  refine ⟨(add_spec h1.1 (neg_wf h2.1)).1, fun t ht => ?_⟩
  rcases mem_keys_add h1.1 (neg_wf h2.1) ht with h | h
  · exact h1.2 t h
  · rw [(neg_spec _).1] at h; exact h2.2 t h

/-- C80: the commutator of qubit operators has only zero coefficients exactly when the operators commute. -/
theorem qubit_commutator_zero {δ ε : ℝ} (hδ : 1 / 10 ^ 8 ≤ δ * ε) (a b : Terms Letter) (ha : ∀ kv ∈ a, kv.2 ∈ Grid δ) (hb : ∀ kv ∈ b, kv.2 ∈ Grid ε) :
    (∀ t, coeff (commutator qubit a b) t = 0) ↔ action pauliAction a * action pauliAction b = action pauliAction b * action pauliAction a := by
  have hc := (qubit_commutator hδ a b ha hb).1
  have hn : CanonicalOp ([] : Terms Letter) := ⟨wf_nil, fun t ht => by simp [keys] at ht⟩
  constructor
  · intro h
    have e : action pauliAction (commutator qubit a b) = action pauliAction [] := action_eq_of_coeff _ (commutator_canonical a b).1 hn.1 fun t => by rw [h t]; rfl
    rw [hc, action_nil, bracket, sub_eq_zero] at e
    exact e
  · intro h t
    rw [canonical_unique (commutator_canonical a b) hn (by rw [hc, bracket, h, sub_self, action_nil]) t]
    rfl

/-- C80: operators of different classes are refused. -/
theorem commutator_types (x y : Operand) :
    (commutatorOf x y = .error .typeError ↔ ¬ ((∃ a b, x = .qubit a ∧ y = .qubit b) ∨ (∃ a b, x = .ising a ∧ y = .ising b) ∨ ∃ a b, x = .fermion a ∧ y = .fermion b)) ∧
    (anticommutatorOf x y = .error .typeError ↔ commutatorOf x y = .error .typeError) := by
  cases x <;> cases y <;> simp [commutatorOf, anticommutatorOf]

/-! ### Double commutators -/

theorem normalOrdered_grid {δ : ℝ} (hδ : 1 / 10 ^ 8 ≤ δ) {o : Terms Bool} (hg : ∀ kv ∈ o, kv.2 ∈ Grid δ) : OnGrid δ (normalOrdered o) :=
  (foldl_add_onGrid hδ o (fun kv => normalOrderedTerm kv.1 kv.2) [] wf_nil (OnGrid.nil δ)
    (fun kv hkv => ⟨(normalOrderedTerm_spec kv.1 kv.2).1, ((normalOrderedTerm_spec kv.1 kv.2).2.2.1 δ hδ (hg kv hkv)).1⟩)).2.1

theorem fermion_commutator_mem {δ ε : ℝ} (hδ : 1 / 10 ^ 8 ≤ δ * ε) {a b : Terms Bool} (ha : ∀ kv ∈ a, kv.2 ∈ Grid δ) (hb : ∀ kv ∈ b, kv.2 ∈ Grid ε) :
    ∀ kv ∈ commutator fermion a b, kv.2 ∈ Grid (δ * ε) :=
  mem_of_onGrid (commutator_error fermion a b []).1
    (commutator_grid hδ (fun _ _ h => h) ZQ.Hubbard.fermion_sound (fun _ _ _ _ => trivial) (fun _ _ _ _ => trivial) ha hb).1

/-- C80: `double_commutator` of fermion operators is the normal ordered form of `[A, [B, C]]`. -/
theorem doubleCommutator_spec {δ ε ζ : ℝ} (h23 : 1 / 10 ^ 8 ≤ ε * ζ) (h123 : 1 / 10 ^ 8 ≤ δ * (ε * ζ)) (a b c : Terms Bool)
    (ha : ∀ kv ∈ a, kv.2 ∈ Grid δ) (hb : ∀ kv ∈ b, kv.2 ∈ Grid ε) (hc : ∀ kv ∈ c, kv.2 ∈ Grid ζ) :
    ∃ o, doubleCommutator a b c none = .ok o ∧ WF o ∧ (∀ t ∈ keys o, NormalTerm t) ∧
      action ladderAction o = bracket (action ladderAction a) (bracket (action ladderAction b) (action ladderAction c)) := by
  have g1 := fermion_commutator_mem h23 hb hc
  have g2 := mem_of_onGrid (normalOrdered_ordered _).1 (normalOrdered_grid h23 g1)
  have g3 := fermion_commutator_mem h123 ha g2
  refine ⟨_, rfl, (normalOrdered_ordered _).1, (normalOrdered_ordered _).2.1, ?_⟩
  rw [normalOrdered_action _ _ h123 g3, (fermion_commutator h123 a _ ha g2).1, normalOrdered_action _ _ h23 g1, (fermion_commutator h23 b c hb hc).1]

/-- Products of hopping operators in normal order. -/
theorem hop_mul (p q r s : ℕ) : hop p q * hop r s = (if q = r then hop p s else 0) - quad p r q s := by
  rw [hop, hop, quad]
  by_cases h : q = r
  · subst h
    rw [if_pos rfl, hop]
    have e := ladder_same q false
    rw [Bool.not_false] at e
    have e' : ladderAction (q, false) * ladderAction (q, true) = 1 - ladderAction (q, true) * ladderAction (q, false) := eq_sub_of_add_eq e
    rw [mul_assoc, ← mul_assoc (ladderAction (q, false)), e', sub_mul, one_mul, mul_sub]
    simp only [mul_assoc]
  · rw [if_neg h, mul_assoc, ← mul_assoc (ladderAction (q, false)), ladder_anticomm (f := (q, false)) (g := (r, true)) h, end_neg_mul, end_mul_neg, zero_sub]
    simp only [mul_assoc]

/-- The commutator of hopping operators `a†_p a_q`. -/
theorem hop_bracket (p q r s : ℕ) : bracket (hop p q) (hop r s) = (if q = r then hop p s else 0) - (if s = p then hop r q else 0) := by
  rw [bracket, hop_mul, hop_mul, quad_swap_left p r s q, quad_swap_right p r q s]
  module

theorem hopping_action (i j : ℕ) (c : ℂ) : action ladderAction (hoppingOp i j c) = c • (hop i j + hop j i) := by
  rw [hoppingOp, action_cons, action_cons, action_nil, termAction_cons, termAction_cons, termAction_cons, termAction_cons, termAction_nil, mul_one, mul_one, add_zero,
    smul_add]
  rfl

theorem bracket_smul (c d : ℂ) (M N : Module.End ℂ State) : bracket (c • M) (d • N) = (c * d) • bracket M N := by
  rw [bracket, bracket, smul_mul_smul_comm, smul_mul_smul_comm, mul_comm d c]
  module

theorem bracket_add (M M' N N' : Module.End ℂ State) : bracket (M + M') (N + N') = bracket M N + bracket M N' + bracket M' N + bracket M' N' := by
  simp only [bracket]
  noncomm_ring

theorem hopping_common {x p q : ℕ} (hxp : x ≠ p) (hxq : x ≠ q) (hpq : p ≠ q) :
    bracket (hop x p + hop p x) (hop x q + hop q x) = hop p q - hop q p := by
  rw [bracket_add, hop_bracket, hop_bracket, hop_bracket, hop_bracket, if_neg hxp.symm, if_neg hxq.symm, if_neg hpq, if_pos rfl, if_pos rfl, if_neg hpq.symm,
    if_neg hxq, if_neg hxp]
  module

theorem hop_comm_add (i j : ℕ) : hop i j + hop j i = hop j i + hop i j := add_comm _ _

theorem hoppingCommutator_common {x p q : ℕ} (hxp : x ≠ p) (hxq : x ≠ q) (hpq : p ≠ q) {o2 o3 : Terms Bool} {c d : ℂ} (h2 : firstCoeff o2 = .ok c)
    (h3 : firstCoeff o3 = .ok d) :
    hoppingCommutator o2 o3 {x, p} {x, q} = .ok (some (add (ofTerm fermion [(p, true), (q, false)] (c * d)) (ofTerm fermion [(q, true), (p, false)] (-c * d)))) := by
  have e1 : ({x, p} ∩ {x, q} : Finset ℕ) = {x} := by
    ext z; simp only [Finset.mem_inter, Finset.mem_insert, Finset.mem_singleton]
    constructor
    · rintro ⟨h | h, h' | h'⟩
      · exact h
      · exact h
      · exact h'
      · exact absurd (h.symm.trans h') hpq
    · intro h; exact ⟨.inl h, .inl h⟩
  have e2 : ({x, p} : Finset ℕ).erase x = {p} := by
    rw [Finset.erase_insert]; simpa using hxp
  have e3 : ({x, q} : Finset ℕ).erase x = {q} := by
    rw [Finset.erase_insert]; simpa using hxq
  rw [hoppingCommutator, e1, Finset.sort_singleton]
  simp only [e2, e3, Finset.sort_singleton, h2, h3]
  rfl

theorem hoppingCommutator_none {o2 o3 : Terms Bool} {s2 s3 : Finset ℕ} (h : (s2 ∩ s3).card ≠ 1) : hoppingCommutator o2 o3 s2 s3 = .ok none := by
  rw [hoppingCommutator]
  have hl : ((s2 ∩ s3).sort (· ≤ ·)).length ≠ 1 := by rwa [Finset.length_sort]
  cases hs : (s2 ∩ s3).sort (· ≤ ·) with
  | nil => rfl
  | cons a t =>
    cases t with
    | nil => rw [hs] at hl; exact absurd rfl hl
    | cons b t => rfl

/-- What the shortcut for hopping operators returns before the outer commutator: nothing if the operators commute, and otherwise the commutator. -/
theorem hoppingCommutator_spec {i j k l : ℕ} (hij : i ≠ j) (hkl : k ≠ l) (c d : ℂ) :
    ∃ r, hoppingCommutator (hoppingOp i j c) (hoppingOp k l d) {i, j} {k, l} = .ok r ∧
      (r = none → bracket (action ladderAction (hoppingOp i j c)) (action ladderAction (hoppingOp k l d)) = 0) ∧
      ∀ o, r = some o → ∃ p q : ℕ, p ≠ q ∧ o = add (ofTerm fermion [(p, true), (q, false)] (c * d)) (ofTerm fermion [(q, true), (p, false)] (-c * d)) ∧
        bracket (action ladderAction (hoppingOp i j c)) (action ladderAction (hoppingOp k l d)) = (c * d) • (hop p q - hop q p) := by
  have f2 : firstCoeff (hoppingOp i j c) = .ok c := rfl
  have f3 : firstCoeff (hoppingOp k l d) = .ok d := rfl
  rw [hopping_action, hopping_action, bracket_smul]
  have some_case : ∀ x p q : ℕ, x ≠ p → x ≠ q → p ≠ q → ({i, j} : Finset ℕ) = {x, p} → ({k, l} : Finset ℕ) = {x, q} → hop i j + hop j i = hop x p + hop p x →
      hop k l + hop l k = hop x q + hop q x →
      ∃ r, hoppingCommutator (hoppingOp i j c) (hoppingOp k l d) {i, j} {k, l} = .ok r ∧
      (r = none → (c * d) • bracket (hop i j + hop j i) (hop k l + hop l k) = 0) ∧
      ∀ o, r = some o → ∃ p q : ℕ, p ≠ q ∧ o = add (ofTerm fermion [(p, true), (q, false)] (c * d)) (ofTerm fermion [(q, true), (p, false)] (-c * d)) ∧
        (c * d) • bracket (hop i j + hop j i) (hop k l + hop l k) = (c * d) • (hop p q - hop q p) := by
    intro x p q h1 h2 h3 s2 s3 b2 b3
    refine ⟨some (add (ofTerm fermion [(p, true), (q, false)] (c * d)) (ofTerm fermion [(q, true), (p, false)] (-c * d))),
      by rw [s2, s3]; exact hoppingCommutator_common h1 h2 h3 f2 f3, (fun h => by cases h), ?_⟩
    intro o ho
    cases ho
    exact ⟨p, q, h3, rfl, by rw [b2, b3, hopping_common h1 h2 h3]⟩
  have none_case : (({i, j} : Finset ℕ) ∩ {k, l}).card ≠ 1 → bracket (hop i j + hop j i) (hop k l + hop l k) = 0 →
      ∃ r, hoppingCommutator (hoppingOp i j c) (hoppingOp k l d) {i, j} {k, l} = .ok r ∧
      (r = none → (c * d) • bracket (hop i j + hop j i) (hop k l + hop l k) = 0) ∧
      ∀ o, r = some o → ∃ p q : ℕ, p ≠ q ∧ o = add (ofTerm fermion [(p, true), (q, false)] (c * d)) (ofTerm fermion [(q, true), (p, false)] (-c * d)) ∧
        (c * d) • bracket (hop i j + hop j i) (hop k l + hop l k) = (c * d) • (hop p q - hop q p) := by
    intro h b
    exact ⟨none, hoppingCommutator_none h, fun _ => by rw [b, smul_zero], fun o ho => by cases ho⟩
  by_cases hik : i = k
  · subst hik
    by_cases hjl : j = l
    · subst hjl
      exact none_case (by rw [Finset.inter_self, Finset.card_pair hij]; decide) (sub_self _)
    · exact some_case i j l hij hkl hjl rfl rfl rfl rfl
  · by_cases hil : i = l
    · subst hil
      by_cases hjk : j = k
      · subst hjk
        exact none_case (by rw [Finset.pair_comm j i, Finset.inter_self, Finset.card_pair hij]; decide) (by rw [hop_comm_add j i]; exact sub_self _)
      · exact some_case i j k hij hik hjk rfl (Finset.pair_comm _ _) rfl (hop_comm_add _ _)
    · by_cases hjk : j = k
      · subst hjk
        exact some_case j i l hij.symm hkl hil (Finset.pair_comm _ _) rfl (hop_comm_add _ _) rfl
      · by_cases hjl : j = l
        · subst hjl
          exact some_case j i k hij.symm hjk hik (Finset.pair_comm _ _) (Finset.pair_comm _ _) (hop_comm_add _ _) (hop_comm_add _ _)
        · refine none_case ?_ ?_
          · have : ({i, j} ∩ {k, l} : Finset ℕ) = ∅ := by
              ext z; simp only [Finset.mem_inter, Finset.mem_insert, Finset.mem_singleton, Finset.notMem_empty, iff_false]
              rintro ⟨rfl | rfl, h | h⟩
              · exact hik h
              · exact hil h
              · exact hjk h
              · exact hjl h
            rw [this]; decide
          · rw [bracket_add, hop_bracket, hop_bracket, hop_bracket, hop_bracket, if_neg hjk, if_neg (Ne.symm hil), if_neg hjl, if_neg (Ne.symm hik), if_neg hik,
              if_neg (Ne.symm hjl), if_neg hil, if_neg (Ne.symm hjk)]
            simp

/-- C80: for hopping operators the shortcut gives the coefficients of the general computation, whatever operator stands first. -/
theorem doubleCommutator_hopping {δ ε ζ : ℝ} (h23 : 1 / 10 ^ 8 ≤ ε * ζ) (h123 : 1 / 10 ^ 8 ≤ δ * (ε * ζ)) (a : Terms Bool) (ha : ∀ kv ∈ a, kv.2 ∈ Grid δ)
    {i j k l : ℕ} (hij : i ≠ j) (hkl : k ≠ l) {c d : ℂ} (hc : c ∈ Grid ε) (hd : d ∈ Grid ζ) :
    ∃ o o', doubleCommutator a (hoppingOp i j c) (hoppingOp k l d) (some ({i, j}, {k, l})) = .ok o ∧
      doubleCommutator a (hoppingOp i j c) (hoppingOp k l d) none = .ok o' ∧ ∀ t, coeff o t = coeff o' t := by
  have gb : ∀ kv ∈ hoppingOp i j c, kv.2 ∈ Grid ε := by
    intro kv hkv
    simp only [hoppingOp, List.mem_cons, List.not_mem_nil, or_false] at hkv
    rcases hkv with rfl | rfl <;> exact hc
  have gc : ∀ kv ∈ hoppingOp k l d, kv.2 ∈ Grid ζ := by
    intro kv hkv
    simp only [hoppingOp, List.mem_cons, List.not_mem_nil, or_false] at hkv
    rcases hkv with rfl | rfl <;> exact hd
  obtain ⟨o', e', w', n', a'⟩ := doubleCommutator_spec h23 h123 a _ _ ha gb gc
  obtain ⟨r, er, h0, h1⟩ := hoppingCommutator_spec hij hkl c d
  cases r with
  | none =>
    refine ⟨[], o', by simp only [doubleCommutator, er]; rfl, e', fun t => ?_⟩
    have : action ladderAction o' = action ladderAction [] := by
      rw [a', h0 rfl, action_nil, bracket, mul_zero, zero_mul, sub_zero]
    exact (normal_unique w' wf_nil n' (fun t ht => by simp [keys] at ht) this t).symm
  | some m =>
    obtain ⟨p, q, hpq, em, hb⟩ := h1 m rfl
    have hcd : c * d ∈ Grid (ε * ζ) := grid_mul hc hd
    have hcd' : -c * d ∈ Grid (ε * ζ) := by rw [neg_mul]; exact (Grid _).neg_mem hcd
    obtain ⟨x1, x2, _, x4⟩ := add_onGrid h23 (wf_single [(p, true), (q, false)] (c * d)) (wf_single [(q, true), (p, false)] (-c * d))
      (onGrid_single hcd) (onGrid_single hcd')
    rw [show add [([(p, true), (q, false)], c * d)] [([(q, true), (p, false)], -c * d)] = m from em.symm] at x1 x2 x4
    have am : action ladderAction m = bracket (action ladderAction (hoppingOp i j c)) (action ladderAction (hoppingOp k l d)) := by
      rw [x4, hb, action_cons, action_nil, action_cons, action_nil, termAction_cons, termAction_cons, termAction_nil, termAction_cons, termAction_cons, termAction_nil,
        mul_one, mul_one, hop, hop]
      module
    have g2 := mem_of_onGrid x1 x2
    have g3 := fermion_commutator_mem h123 ha g2
    obtain ⟨no1, no2, _⟩ := normalOrdered_ordered (commutator fermion a m)
    refine ⟨_, o', by simp only [doubleCommutator, er]; rfl, e', fun t => ?_⟩
    refine normal_unique no1 w' no2 n' ?_ t
    rw [normalOrdered_action _ _ h123 g3, (fermion_commutator h123 a m ha g2).1, am, a']

theorem one_mem_grid : (1 : ℂ) ∈ Grid 1 := ⟨1, 0, by simp⟩

/-- The hypotheses are met by `X0`, `Y0`, and by the hopping operators on the pairs `0 1` and `1 2`, which do not commute. -/
example : (1 : ℝ) / 10 ^ 8 ≤ 1 * 1 ∧ (∀ kv ∈ ([([(0, Letter.X)], 1)] : Terms Letter), kv.2 ∈ Grid 1) ∧ (∀ kv ∈ ([([(0, Letter.Y)], 1)] : Terms Letter), kv.2 ∈ Grid 1) ∧
    (1 : ℝ) / 10 ^ 8 ≤ 1 * (1 * 1) ∧
    hoppingCommutator (hoppingOp 0 1 1) (hoppingOp 1 2 1) {0, 1} {1, 2} =
      .ok (some (add (ofTerm fermion [(0, true), (2, false)] (1 * 1)) (ofTerm fermion [(2, true), (0, false)] (-1 * 1)))) ∧
    bracket (action ladderAction (hoppingOp 0 1 1)) (action ladderAction (hoppingOp 1 2 1)) ≠ 0 := by
  refine ⟨by norm_num, fun kv h => ?_, fun kv h => ?_, by norm_num, ?_, ?_⟩
  · rw [List.mem_singleton.1 h]; exact one_mem_grid
  · rw [List.mem_singleton.1 h]; exact one_mem_grid
  · have := hoppingCommutator_common (x := 1) (p := 0) (q := 2) (by decide) (by decide) (by decide) (o2 := hoppingOp 0 1 1) (o3 := hoppingOp 1 2 1) rfl rfl
    rwa [Finset.pair_comm 1 0] at this
  · rw [hopping_action, hopping_action, bracket_smul, hop_comm_add 0 1, hopping_common (by decide) (by decide) (by decide), mul_one, one_smul]
    intro h
    have h1 := congrFun (congrArg (fun M : Module.End ℂ State => M (fun _ => 1)) h) (fun n => decide (n = 0))
    simp only [LinearMap.sub_apply, LinearMap.zero_apply, Pi.sub_apply, Pi.zero_apply] at h1
    rw [hop_ladder (by decide), hop_ladder (by decide)] at h1
    simp [sgn] at h1

end ZQ.FTools
