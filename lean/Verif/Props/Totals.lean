import Verif.Props.Conserved
import Verif.Props.OpLaws
import Verif.Props.Sparse
import Verif.Props.ReverseJW
import Verif.Props.Norms
import Verif.Props.Budget

/-!
# C151: totals of exact expectation values and the arithmetic of operators
-/

namespace ZQ.Totals

open ZQ ZQ.PyDict ZQ.Circuits ZQ.Gates ZQ.Est ZQ.Expect ZQ.Backend ZQ.Op ZQ.Sparse Matrix

variable {W : Type} {n : ℕ}

/-- Specification: `get_exact_expectation_values` succeeds and its values add up to `x`. -/
def HasTotal (sim : Simulator W) (ρ : String → ℂ) (c : Circuit) (o : Terms Letter) (x : ℝ) : Prop :=
  ∀ st : St W, ∃ e, (getExactExpectationValues sim ρ c false o st).1 = .ok e ∧ e.values.sum = x

/-! ### The total is the expectation value of the matrix -/

theorem total_eq {ρ : String → ℂ} (sim : Simulator W) (hsim : Correct sim ρ) {c : Circuit} (hc : Unitary ρ c) {o : Terms Letter} (ho : CanonicalOp o) (hb : Below c.n o) :
    HasTotal sim ρ c o (braket (outputState ρ c) (opMatrix c.n o)).re :=
  fun st => ⟨_, (exactValues_spec sim ρ hsim c hc false ho hb st).1, Conserved.sum_values _ o⟩

theorem opMatrix_apply (o : Terms Letter) (x y : Fin n → Bool) : opMatrix n o x y = OpLaws.lin o fun t => pauliString n t x y := by
  induction o with
  | nil => rfl
  | cons kv o ih =>
    show (List.map (fun kv : Term Letter × ℂ => kv.2 • pauliString n kv.1) (kv :: o)).sum x y = _
    rw [List.map_cons, List.sum_cons, OpLaws.lin, List.map_cons, List.sum_cons, Matrix.add_apply]
    congr 1

theorem braket_lin (ψ : (Fin n → Bool) → ℂ) (o : Terms Letter) : braket ψ (opMatrix n o) = OpLaws.lin o fun t => braket ψ (pauliString n t) := by
  induction o with
  | nil => exact braket_zero ψ
  | cons kv o ih =>
    show braket ψ (List.map (fun kv : Term Letter × ℂ => kv.2 • pauliString n kv.1) (kv :: o)).sum = _
    rw [List.map_cons, List.sum_cons, braket_add, OpLaws.lin, List.map_cons, List.sum_cons]
    congr 1
    unfold braket
    rw [smul_mulVec, dotProduct_smul]

theorem pauli_norm {ψ : (Fin n → Bool) → ℂ} (hn : ∑ x, Complex.normSq (ψ x) = 1) (t : Term Letter) : ‖braket ψ (pauliString n t)‖ ≤ 1 := by
  have him : (braket ψ (pauliString n t)).im = 0 := braket_real ψ _ (Evol.pauliString_hermitian t)
  have h := Stat.pauli_bound hn t
  rw [show braket ψ (pauliString n t) = ((braket ψ (pauliString n t)).re : ℂ) from Complex.ext rfl him, Complex.norm_real, Real.norm_eq_abs]
  exact abs_le_one_iff_mul_self_le_one.2 (by rw [← sq]; exact h)

/-! ### Sums -/

theorem step_bound {a : Terms Letter} (ha : WF a) (kv : Term Letter × ℂ) {f : Term Letter → ℂ} (hf : ∀ t, ‖f t‖ ≤ 1) :
    WF (addStep a kv) ∧ ‖OpLaws.lin (addStep a kv) f - (OpLaws.lin a f + kv.2 * f kv.1)‖ ≤ 1 / 10 ^ 8 := by
  classical
  obtain ⟨h1, h2, -⟩ := addStep_spec ha kv (IsSmall (coeff a kv.1 + kv.2) eqTol) Iff.rfl
  refine ⟨h1, ?_⟩
  by_cases hs : IsSmall (coeff a kv.1 + kv.2) eqTol
  · have e : OpLaws.lin (addStep a kv) f = OpLaws.lin (accum a kv.1 (-coeff a kv.1)) f := OpLaws.lin_eq h1 (wf_accum ha _ _) (fun t => by
      rw [h2 t, coeff_accum]
      by_cases ht : t = kv.1
      · rw [if_pos ht, if_pos hs, if_pos ht.symm, ht, add_neg_cancel]
      · rw [if_neg ht, if_neg fun h => ht h.symm, add_zero]) f
    have e2 : OpLaws.lin (accum a kv.1 (-coeff a kv.1)) f = OpLaws.lin a f + -coeff a kv.1 * f kv.1 := sum_accum f a _ _
    rw [e, e2, show OpLaws.lin a f + -coeff a kv.1 * f kv.1 - (OpLaws.lin a f + kv.2 * f kv.1) = -((coeff a kv.1 + kv.2) * f kv.1) by ring, norm_neg, norm_mul]
    have hs' : ‖coeff a kv.1 + kv.2‖ < 1 / 10 ^ 8 := hs
    calc ‖coeff a kv.1 + kv.2‖ * ‖f kv.1‖ ≤ ‖coeff a kv.1 + kv.2‖ * 1 := mul_le_mul_of_nonneg_left (hf _) (norm_nonneg _)
      _ ≤ 1 / 10 ^ 8 := by rw [mul_one]; exact hs'.le
  · have e : OpLaws.lin (addStep a kv) f = OpLaws.lin (accum a kv.1 kv.2) f := OpLaws.lin_eq h1 (wf_accum ha _ _) (fun t => by
      rw [h2 t, coeff_accum]
      by_cases ht : t = kv.1
      · rw [if_pos ht, if_neg hs, if_pos ht.symm, ht]
      · rw [if_neg ht, if_neg fun h => ht h.symm, add_zero]) f
    have e2 : OpLaws.lin (accum a kv.1 kv.2) f = OpLaws.lin a f + kv.2 * f kv.1 := sum_accum f a _ _
    rw [e, e2, sub_self, norm_zero]
    positivity

theorem add_bound {f : Term Letter → ℂ} (hf : ∀ t, ‖f t‖ ≤ 1) : ∀ (b a : Terms Letter), WF a →
    ‖OpLaws.lin (Op.add a b) f - (OpLaws.lin a f + OpLaws.lin b f)‖ ≤ b.length / 10 ^ 8 := by
  intro b
  induction b with
  | nil => intro a _; simp [Op.add, OpLaws.lin]
  | cons kv b ih =>
    intro a ha
    obtain ⟨h1, h2⟩ := step_bound ha kv hf
    have h3 := ih (addStep a kv) h1
    have e : OpLaws.lin (kv :: b) f = kv.2 * f kv.1 + OpLaws.lin b f := by simp [OpLaws.lin]
    have e' : Op.add a (kv :: b) = Op.add (addStep a kv) b := rfl
    rw [e, e', show OpLaws.lin (Op.add (addStep a kv) b) f - (OpLaws.lin a f + (kv.2 * f kv.1 + OpLaws.lin b f)) =
      (OpLaws.lin (Op.add (addStep a kv) b) f - (OpLaws.lin (addStep a kv) f + OpLaws.lin b f)) + (OpLaws.lin (addStep a kv) f - (OpLaws.lin a f + kv.2 * f kv.1)) by ring]
    refine (norm_add_le _ _).trans ((add_le_add h3 h2).trans (le_of_eq ?_))
    rw [List.length_cons]; push_cast; ring

theorem add_ok {a b : Terms Letter} (ha : CanonicalOp a) (hb : CanonicalOp b) {m : ℕ} (ba : Below m a) (bb : Below m b) : CanonicalOp (Op.add a b) ∧ Below m (Op.add a b) := by
  have hk : ∀ t ∈ keys (Op.add a b), t ∈ keys a ∨ t ∈ keys b := by
    have : ∀ (b a : Terms Letter), WF a → ∀ t ∈ keys (Op.add a b), t ∈ keys a ∨ t ∈ keys b := by
      classical
      intro b
      induction b with
      | nil => intro a _ t ht; exact Or.inl ht
      | cons kv b ih =>
        intro a ha t ht
        obtain ⟨h1, -, h3⟩ := addStep_spec ha kv (IsSmall (coeff a kv.1 + kv.2) eqTol) Iff.rfl
        rcases ih (addStep a kv) h1 t ht with h | h
        · rcases (h3 t).1 h with h | h
          · exact Or.inr (by rw [h.1]; simp [keys])
          · exact Or.inl h.2
        · exact Or.inr (by rw [keys, List.map_cons]; exact List.mem_cons_of_mem _ h)
    exact this b a ha.1
  refine ⟨⟨(add_spec ha.1 hb.1).1, fun t ht => (hk t ht).elim (ha.2 t) (hb.2 t)⟩, fun kv hkv => ?_⟩
  rcases hk kv.1 (List.mem_map_of_mem hkv) with h | h
  · obtain ⟨kv', h1, h2⟩ := List.mem_map.1 h
    rw [← h2]; exact ba kv' h1
  · obtain ⟨kv', h1, h2⟩ := List.mem_map.1 h
    rw [← h2]; exact bb kv' h1

theorem total_unique {ρ : String → ℂ} (sim : Simulator W) (hsim : Correct sim ρ) {c : Circuit} (hc : Unitary ρ c) {o : Terms Letter} (ho : CanonicalOp o) (hb : Below c.n o) {x : ℝ}
    (hx : HasTotal sim ρ c o x) (st : St W) : x = (braket (outputState ρ c) (opMatrix c.n o)).re := by
  obtain ⟨e, h1, h2⟩ := hx st
  obtain ⟨e', h1', h2'⟩ := total_eq sim hsim hc ho hb st
  rw [h1] at h1'
  obtain rfl := Except.ok.inj h1'
  rw [← h2, h2']

/-- C151. The total of a sum of operators is the sum of the totals, if no term of the sum is dropped for being small.  Missing: sums that drop terms, for which
`total_add_bound` bounds the difference and `total_add_counterexample` shows that there is one. -/
theorem total_add_partial {ρ : String → ℂ} (sim : Simulator W) (hsim : Correct sim ρ) {c : Circuit} (hc : Unitary ρ c) {a b : Terms Letter} (ha : CanonicalOp a) (hb : CanonicalOp b) (ba : Below c.n a)
    (bb : Below c.n b) (hk : OpLaws.Kept a b) {x y : ℝ} (hx : HasTotal sim ρ c a x) (hy : HasTotal sim ρ c b y) : HasTotal sim ρ c (Op.add a b) (x + y) := by
  intro st
  obtain ⟨h1, h2⟩ := add_ok ha hb ba bb
  obtain ⟨e, h3, h4⟩ := total_eq sim hsim hc h1 h2 st
  refine ⟨e, h3, ?_⟩
  rw [h4, total_unique sim hsim hc ha ba hx st, total_unique sim hsim hc hb bb hy st, braket_lin, braket_lin, braket_lin, OpLaws.lin_add ha.1 hb.1 hk, Complex.add_re]

/-- C151. Always, it differs from the sum of the totals by at most `10⁻⁸` for each term of the second operator. -/
theorem total_add_bound {ρ : String → ℂ} (sim : Simulator W) (hsim : Correct sim ρ) {c : Circuit} (hc : Unitary ρ c) {a b : Terms Letter} (ha : CanonicalOp a) (hb : CanonicalOp b)
    (ba : Below c.n a) (bb : Below c.n b) {x y : ℝ} (hx : HasTotal sim ρ c a x) (hy : HasTotal sim ρ c b y) (st : St W) :
    ∃ z, HasTotal sim ρ c (Op.add a b) z ∧ |z - (x + y)| ≤ b.length / 10 ^ 8 := by
  obtain ⟨h1, h2⟩ := add_ok ha hb ba bb
  refine ⟨_, total_eq sim hsim hc h1 h2, ?_⟩
  rw [total_unique sim hsim hc ha ba hx st, total_unique sim hsim hc hb bb hy st, braket_lin, braket_lin, braket_lin, ← Complex.add_re, ← Complex.sub_re]
  exact (Complex.abs_re_le_norm _).trans (add_bound (pauli_norm (Stat.output_normalised hc)) b a ha.1)

/-! ### Multiples and bounds -/

theorem smul_ok {a : Terms Letter} (ha : CanonicalOp a) {m : ℕ} (ba : Below m a) (k : ℂ) : CanonicalOp (Op.smul a k) ∧ Below m (Op.smul a k) := by
  have e : keys (Op.smul a k) = keys a := by simp [Op.smul, keys]
  refine ⟨⟨by rw [WF, e]; exact ha.1, fun t ht => ha.2 t (by rw [← e]; exact ht)⟩, fun kv hkv => ?_⟩
  obtain ⟨kv', h1, rfl⟩ := List.mem_map.1 hkv
  exact ba kv' h1

/-- C151. The total of a real multiple of an operator is the multiple of the total. -/
theorem total_smul {ρ : String → ℂ} (sim : Simulator W) (hsim : Correct sim ρ) {c : Circuit} (hc : Unitary ρ c) {a : Terms Letter} (ha : CanonicalOp a) (ba : Below c.n a) (k : ℝ) {x : ℝ}
    (hx : HasTotal sim ρ c a x) : HasTotal sim ρ c (Op.smul a (k : ℂ)) (k * x) := by
  intro st
  obtain ⟨h1, h2⟩ := smul_ok ha ba (k : ℂ)
  obtain ⟨e, h3, h4⟩ := total_eq sim hsim hc h1 h2 st
  refine ⟨e, h3, ?_⟩
  rw [h4, total_unique sim hsim hc ha ba hx st, braket_lin, braket_lin, OpLaws.lin_smul, Complex.re_ofReal_mul]

theorem value_le {ψ : (Fin n → Bool) → ℂ} (hn : ∑ x, Complex.normSq (ψ x) = 1) (kv : Term Letter × ℂ) : |(braket ψ (kv.2 • pauliString n kv.1)).re| ≤ ‖kv.2‖ := by
  have e : braket ψ (kv.2 • pauliString n kv.1) = kv.2 * braket ψ (pauliString n kv.1) := by
    unfold braket
    rw [smul_mulVec, dotProduct_smul, smul_eq_mul]
  rw [e]
  refine (Complex.abs_re_le_norm _).trans ?_
  rw [norm_mul]
  exact mul_le_of_le_one_right (norm_nonneg _) (pauli_norm hn _)

theorem values_bounded {ψ : (Fin n → Bool) → ℂ} (hn : ∑ x, Complex.normSq (ψ x) = 1) (a : Terms Letter) :
    List.Forall₂ (fun v kv => |v| ≤ ‖(kv : Term Letter × ℂ).2‖) (a.map fun kv => (braket ψ (kv.2 • pauliString n kv.1)).re) a := by
  induction a with
  | nil => exact List.Forall₂.nil
  | cons kv a ih => exact List.Forall₂.cons (value_le hn kv) ih

theorem total_le {ψ : (Fin n → Bool) → ℂ} (hn : ∑ x, Complex.normSq (ψ x) = 1) (a : Terms Letter) :
    |(a.map fun kv => (braket ψ (kv.2 • pauliString n kv.1)).re).sum| ≤ FTools.inducedNorm a 1 := by
  rw [FTools.inducedNorm_one]
  induction a with
  | nil => simp
  | cons kv a ih =>
    rw [List.map_cons, List.sum_cons, List.map_cons, List.sum_cons]
    exact (abs_add_le _ _).trans (add_le_add (value_le hn kv) ih)

/-- C151. Each value is at most as large as the absolute value of its coefficient, and the total at most as large as the 1-norm of the operator. -/
theorem total_bounded {ρ : String → ℂ} (sim : Simulator W) (hsim : Correct sim ρ) {c : Circuit} (hc : Unitary ρ c) {a : Terms Letter} (ha : CanonicalOp a) (ba : Below c.n a) (st : St W) :
    ∃ e, (getExactExpectationValues sim ρ c false a st).1 = .ok e ∧ List.Forall₂ (fun v kv => |v| ≤ ‖(kv : Term Letter × ℂ).2‖) e.values a ∧ |e.values.sum| ≤ FTools.inducedNorm a 1 := by
  have h1 : (getExactExpectationValues sim ρ c false a st).1 = .ok ⟨a.map fun kv => (braket (outputState ρ c) (kv.2 • pauliString c.n kv.1)).re, none, none⟩ :=
    (exactValues_spec sim ρ hsim c hc false ha ba st).1
  have hψ := Stat.output_normalised hc
  generalize outputState ρ c = ψ at h1 hψ
  exact ⟨_, h1, values_bounded hψ a, total_le hψ a⟩

/-! ### Products -/

/-- What `A` does on the register is given by the matrix `L`. -/
def Pads (n : ℕ) (A : Module.End ℂ State) (L : Matrix (Fin n → Bool) (Fin n → Bool) ℂ) : Prop := ∀ (ψ : State) x, A ψ (pad x) = ∑ z, L x z * ψ (pad z)

theorem pads_matrix {A : Module.End ℂ State} {L : Matrix (Fin n → Bool) (Fin n → Bool) ℂ} (h : Pads n A L) : matrixOf n A = L := by
  have := matrixOf_mul h 1
  rwa [mul_one, matrixOf_one, mul_one] at this

theorem pads_one : Pads n 1 1 := fun ψ x => by
  rw [Module.End.one_apply, Finset.sum_eq_single x (fun z _ hz => by rw [Matrix.one_apply_ne (Ne.symm hz), zero_mul]) (fun h => absurd (Finset.mem_univ x) h), Matrix.one_apply_eq, one_mul]

theorem pads_mul {A B : Module.End ℂ State} {L M : Matrix (Fin n → Bool) (Fin n → Bool) ℂ} (hA : Pads n A L) (hB : Pads n B M) : Pads n (A * B) (L * M) := fun ψ x => by
  rw [Module.End.mul_apply, hA]
  simp only [Matrix.mul_apply, Finset.sum_mul]
  rw [Finset.sum_comm]
  refine Finset.sum_congr rfl fun z _ => ?_
  rw [hB, Finset.mul_sum]
  exact Finset.sum_congr rfl fun w _ => by ring

theorem pads_add {A B : Module.End ℂ State} {L M : Matrix (Fin n → Bool) (Fin n → Bool) ℂ} (hA : Pads n A L) (hB : Pads n B M) : Pads n (A + B) (L + M) := fun ψ x => by
  have : (A + B) ψ (pad x) = A ψ (pad x) + B ψ (pad x) := rfl
  rw [this, hA, hB, ← Finset.sum_add_distrib]
  exact Finset.sum_congr rfl fun z _ => by rw [Matrix.add_apply]; ring

theorem pads_smul {A : Module.End ℂ State} {L : Matrix (Fin n → Bool) (Fin n → Bool) ℂ} (k : ℂ) (hA : Pads n A L) : Pads n (k • A) (k • L) := fun ψ x => by
  have : (k • A) ψ (pad x) = k * A ψ (pad x) := rfl
  rw [this, hA, Finset.mul_sum]
  exact Finset.sum_congr rfl fun z _ => by rw [Matrix.smul_apply, smul_eq_mul]; ring

theorem pads_term {t : Term Letter} (hb : ∀ f ∈ t, f.1 < n) : ∃ L, Pads n (termAction pauliAction t) L := by
  induction t with
  | nil => exact ⟨1, by rw [termAction_nil]; exact pads_one⟩
  | cons f t ih =>
    obtain ⟨L, hL⟩ := ih fun g hg => hb g (List.mem_cons_of_mem _ hg)
    rw [termAction_cons]
    exact ⟨_, pads_mul (A := pauliAction f) (fun ψ x => atQubit_pad (letterMatrix f.2) ⟨f.1, hb f (List.mem_cons_self ..)⟩ ψ x) hL⟩

theorem pads_action {o : Terms Letter} (hb : Below n o) : ∃ L, Pads n (action pauliAction o) L := by
  induction o with
  | nil => exact ⟨0, fun ψ x => by simp [action]⟩
  | cons kv o ih =>
    obtain ⟨L, hL⟩ := ih fun g hg => hb g (List.mem_cons_of_mem _ hg)
    obtain ⟨M, hM⟩ := pads_term (hb kv (List.mem_cons_self ..))
    rw [action_cons]
    exact ⟨_, pads_add (pads_smul kv.2 hM) hL⟩

theorem mul_below {a b : Terms Letter} {m : ℕ} (ba : Below m a) (bb : Below m b) : Below m (Op.mul qubit a b) := by
  have row : ∀ (l : Term Letter × ℂ) (b res : Terms Letter), (∀ f ∈ l.1, f.1 < m) → Below m b → (∀ t ∈ keys res, ∀ f ∈ t, f.1 < m) → ∀ t ∈ keys (mulRow qubit l b res), ∀ f ∈ t, f.1 < m := by
    intro l b
    induction b with
    | nil => intro res _ _ h; exact h
    | cons r b ih =>
      intro res hl hb h
      refine ih _ hl (fun kv hkv => hb kv (List.mem_cons_of_mem _ hkv)) ?_
      intro t ht
      rcases (mem_keys_accum _ _ _ _).1 ht with rfl | ht
      · refine qubitSimplify_index (P := fun q => q < m) fun f hf => ?_
        rcases List.mem_append.1 hf with hf | hf
        · exact hl f hf
        · exact hb r (List.mem_cons_self ..) f hf
      · exact h t ht
  have all : ∀ (a res : Terms Letter), Below m a → (∀ t ∈ keys res, ∀ f ∈ t, f.1 < m) → ∀ t ∈ keys (a.foldl (fun res l => mulRow qubit l b res) res), ∀ f ∈ t, f.1 < m := by
    intro a
    induction a with
    | nil => intro res _ h; exact h
    | cons l a ih =>
      intro res ha h
      exact ih _ (fun kv hkv => ha kv (List.mem_cons_of_mem _ hkv)) (row l b res (ha l (List.mem_cons_self ..)) bb h)
  intro kv hkv
  exact all a [] ba (by simp [keys]) kv.1 (List.mem_map_of_mem hkv)

/-- The matrix of a product is the product of the matrices. -/
theorem opMatrix_mul {a b : Terms Letter} (ha : CanonicalOp a) (hb : CanonicalOp b) (ba : Below n a) (bb : Below n b) : opMatrix n (Op.mul qubit a b) = opMatrix n a * opMatrix n b := by
  obtain ⟨L, hL⟩ := pads_action ba
  rw [opMatrix_eq_matrixOf (qubit_product_canonical a b) (mul_below ba bb), qubit_product_action, opMatrix_eq_matrixOf ha ba, opMatrix_eq_matrixOf hb bb, pads_matrix hL]
  exact matrixOf_mul hL _

theorem opMatrix_hc {a : Terms Letter} (ha : WF a) : opMatrix n (hcQubit a) = (opMatrix n a)ᴴ := by
  rw [hcQubit_eq ha]
  clear ha
  induction a with
  | nil => simp [opMatrix]
  | cons kv a ih =>
    have e : ∀ (kv : Term Letter × ℂ) (a : Terms Letter), opMatrix n (kv :: a) = kv.2 • pauliString n kv.1 + opMatrix n a := fun kv a => by simp [opMatrix]
    rw [List.map_cons, e, e, ih, Matrix.conjTranspose_add, Matrix.conjTranspose_smul, Evol.pauliString_hermitian]
    rfl

theorem hc_below {a : Terms Letter} (ha : WF a) {m : ℕ} (ba : Below m a) : Below m (hcQubit a) := by
  rw [hcQubit_eq ha]
  intro kv hkv
  obtain ⟨kv', h1, rfl⟩ := List.mem_map.1 hkv
  exact ba kv' h1

/-- C151. The total of the product of the conjugate of an operator with the operator is never negative. -/
theorem total_square_nonneg {ρ : String → ℂ} (sim : Simulator W) (hsim : Correct sim ρ) {c : Circuit} (hc : Unitary ρ c) {a : Terms Letter} (ha : CanonicalOp a) (ba : Below c.n a) :
    ∃ x, HasTotal sim ρ c (Op.mul qubit (hcQubit a) a) x ∧ 0 ≤ x := by
  refine ⟨_, total_eq sim hsim hc (qubit_product_canonical _ _) (mul_below (hc_below ha.1 ba) ba), ?_⟩
  rw [opMatrix_mul (hcQubit_canonical ha) ha (hc_below ha.1 ba) ba, opMatrix_hc ha.1]
  have e : braket (outputState ρ c) ((opMatrix c.n a)ᴴ * opMatrix c.n a) = ((∑ x, Complex.normSq ((opMatrix c.n a *ᵥ outputState ρ c) x) : ℝ) : ℂ) := by
    rw [braket, ← Matrix.mulVec_mulVec, Matrix.dotProduct_mulVec, ← Matrix.star_mulVec, dotProduct, Complex.ofReal_sum]
    exact Finset.sum_congr rfl fun x _ => by rw [Complex.normSq_eq_conj_mul_self]; rfl
  rw [e, Complex.ofReal_re]
  exact Finset.sum_nonneg fun x _ => Complex.normSq_nonneg _

/-- C151. For an operator with real coefficients the total of the square is at least the square of the total: variances are not negative. -/
theorem variance_nonneg {ρ : String → ℂ} (sim : Simulator W) (hsim : Correct sim ρ) {c : Circuit} (hc : Unitary ρ c) {a : Terms Letter} (ha : CanonicalOp a) (ba : Below c.n a)
    (hreal : ∀ kv ∈ a, kv.2.im = 0) (st : St W) {x : ℝ} (hx : HasTotal sim ρ c a x) : ∃ y, HasTotal sim ρ c (Op.mul qubit a a) y ∧ x ^ 2 ≤ y := by
  refine ⟨_, total_eq sim hsim hc (qubit_product_canonical _ _) (mul_below ba ba), ?_⟩
  rw [opMatrix_mul ha ha ba ba, total_unique sim hsim hc ha ba hx st]
  have h := Stat.qvar_eq_norm (Stat.output_normalised hc) (Stat.opMatrix_hermitian (n := c.n) hreal)
  have : 0 ≤ Stat.qvar (outputState ρ c) (opMatrix c.n a) := by
    rw [h]
    exact Finset.sum_nonneg fun x _ => Complex.normSq_nonneg _
  rw [Stat.qvar] at this
  linarith

theorem braket_adjoint (ψ : (Fin n → Bool) → ℂ) (A : Matrix (Fin n → Bool) (Fin n → Bool) ℂ) : (braket ψ Aᴴ).re = (braket ψ A).re := by
  have e : braket ψ Aᴴ = star (braket ψ A) := by
    rw [braket, braket, ← Matrix.star_dotProduct_star, star_star, Matrix.star_mulVec, dotProduct_comm, ← Matrix.dotProduct_mulVec, dotProduct_comm]
  rw [e]
  exact Complex.conj_re _

/-- C151. An operator and its conjugate have the same total. -/
theorem total_hc {ρ : String → ℂ} (sim : Simulator W) (hsim : Correct sim ρ) {c : Circuit} (hc : Unitary ρ c) {a : Terms Letter} (ha : CanonicalOp a) (ba : Below c.n a) {x : ℝ}
    (hx : HasTotal sim ρ c a x) : HasTotal sim ρ c (hcQubit a) x := by
  intro st
  obtain ⟨e, h3, h4⟩ := total_eq sim hsim hc (hcQubit_canonical ha) (hc_below ha.1 ba) st
  exact ⟨e, h3, by rw [h4, opMatrix_hc ha.1, braket_adjoint, total_unique sim hsim hc ha ba hx st]⟩

/-- C151. For operators with real coefficients the order of the factors of a product does not change the total, whether or not they commute. -/
theorem total_swap {ρ : String → ℂ} (sim : Simulator W) (hsim : Correct sim ρ) {c : Circuit} (hc : Unitary ρ c) {a b : Terms Letter} (ha : CanonicalOp a) (hb : CanonicalOp b) (ba : Below c.n a)
    (bb : Below c.n b) (ra : ∀ kv ∈ a, kv.2.im = 0) (rb : ∀ kv ∈ b, kv.2.im = 0) {x : ℝ} (hx : HasTotal sim ρ c (Op.mul qubit a b) x) : HasTotal sim ρ c (Op.mul qubit b a) x := by
  intro st
  obtain ⟨e, h3, h4⟩ := total_eq sim hsim hc (qubit_product_canonical b a) (mul_below bb ba) st
  refine ⟨e, h3, ?_⟩
  rw [h4, total_unique sim hsim hc (qubit_product_canonical a b) (mul_below ba bb) hx st, opMatrix_mul ha hb ba bb, opMatrix_mul hb ha bb ba, ← braket_adjoint, Matrix.conjTranspose_mul,
    Stat.opMatrix_hermitian ra, Stat.opMatrix_hermitian rb]

/-- C151. The total of a number is its real part, whatever the circuit. -/
theorem total_number {ρ : String → ℂ} (sim : Simulator W) (hsim : Correct sim ρ) {c : Circuit} (hc : Unitary ρ c) (k : ℂ) : HasTotal sim ρ c [([], k)] k.re := by
  intro st
  obtain ⟨e, h3, h4⟩ := total_eq sim hsim hc (o := [([], k)]) ⟨by simp [WF, PyDict.keys], fun t ht => by
    rw [show t = [] by simpa [PyDict.keys] using ht]; exact ⟨by simp, by simp⟩⟩ (fun kv hkv => by rw [List.mem_singleton.1 hkv]; simp) st
  refine ⟨e, h3, h4.trans ?_⟩
  have h1 : pauliString c.n [] = 1 := by
    ext x y
    simp [pauliString, Op.tensor, letterAt, letterMatrix, Matrix.one_apply, funext_iff, Finset.prod_ite_zero]
  rw [braket_lin, OpLaws.lin, List.map_singleton, List.sum_singleton, h1, Stat.braket_one (Stat.output_normalised hc), smul_eq_mul, mul_one]

theorem cauchy (u v : (Fin n → Bool) → ℂ) : ‖star u ⬝ᵥ v‖ ^ 2 ≤ (∑ x, Complex.normSq (u x)) * ∑ x, Complex.normSq (v x) := by
  have h1 : ‖star u ⬝ᵥ v‖ ≤ ∑ x, ‖u x‖ * ‖v x‖ := by
    refine (norm_sum_le _ _).trans (le_of_eq (Finset.sum_congr rfl fun x _ => ?_))
    rw [norm_mul, Pi.star_apply, norm_star]
  have h2 := Finset.sum_mul_sq_le_sq_mul_sq Finset.univ (fun x => ‖u x‖) fun x => ‖v x‖
  simp only [Complex.normSq_eq_norm_sq]
  exact (pow_le_pow_left₀ (norm_nonneg _) h1 2).trans h2

/-- C151. The uncertainty relation: for operators with real coefficients, the square of the total of `i a b` is at most the product of the variances. -/
theorem uncertainty {ρ : String → ℂ} (sim : Simulator W) (hsim : Correct sim ρ) {c : Circuit} (hc : Unitary ρ c) {a b : Terms Letter} (ha : CanonicalOp a) (hb : CanonicalOp b) (ba : Below c.n a)
    (bb : Below c.n b) (ra : ∀ kv ∈ a, kv.2.im = 0) (rb : ∀ kv ∈ b, kv.2.im = 0) (st : St W) {x y x₂ y₂ w : ℝ} (hx : HasTotal sim ρ c a x) (hy : HasTotal sim ρ c b y)
    (hx₂ : HasTotal sim ρ c (Op.mul qubit a a) x₂) (hy₂ : HasTotal sim ρ c (Op.mul qubit b b) y₂) (hw : HasTotal sim ρ c (Op.smul (Op.mul qubit a b) Complex.I) w) :
    w ^ 2 ≤ (x₂ - x ^ 2) * (y₂ - y ^ 2) := by
  obtain ⟨o1, o2⟩ := smul_ok (qubit_product_canonical a b) (mul_below ba bb) Complex.I
  have hn := Stat.output_normalised hc
  have A1 := Stat.opMatrix_hermitian (n := c.n) ra
  have B1 := Stat.opMatrix_hermitian (n := c.n) rb
  have vx := Stat.qvar_eq_norm hn A1
  have vy := Stat.qvar_eq_norm hn B1
  have ex := total_unique sim hsim hc ha ba hx st
  have ey := total_unique sim hsim hc hb bb hy st
  have ex₂ := total_unique sim hsim hc (qubit_product_canonical a a) (mul_below ba ba) hx₂ st
  have ey₂ := total_unique sim hsim hc (qubit_product_canonical b b) (mul_below bb bb) hy₂ st
  have ew := total_unique sim hsim hc o1 o2 hw st
  rw [opMatrix_mul ha ha ba ba] at ex₂
  rw [opMatrix_mul hb hb bb bb] at ey₂
  rw [braket_lin, OpLaws.lin_smul, ← braket_lin, opMatrix_mul ha hb ba bb] at ew
  have hx' : braket (outputState ρ c) (opMatrix c.n a) = (x : ℂ) := by rw [ex]; exact Complex.ext rfl (by rw [braket_real _ _ A1]; rfl)
  have hy' : braket (outputState ρ c) (opMatrix c.n b) = (y : ℂ) := by rw [ey]; exact Complex.ext rfl (by rw [braket_real _ _ B1]; rfl)
  rw [Stat.qvar, ← ex₂, ← ex] at vx
  rw [Stat.qvar, ← ey₂, ← ey] at vy
  have hone := Stat.braket_one hn
  generalize outputState ρ c = ψ at *
  generalize opMatrix c.n a = A at *
  generalize opMatrix c.n b = B at *
  rw [vx, vy]
  have hc' := cauchy (fun i => (A *ᵥ ψ) i - x * ψ i) fun i => (B *ᵥ ψ) i - y * ψ i
  refine le_trans ?_ hc'
  have e1 : (fun i => (A *ᵥ ψ) i - x * ψ i) = A *ᵥ ψ - (x : ℂ) • ψ := rfl
  have e2 : (fun i => (B *ᵥ ψ) i - y * ψ i) = B *ᵥ ψ - (y : ℂ) • ψ := rfl
  have f1 : star (A *ᵥ ψ) ⬝ᵥ (B *ᵥ ψ) = braket ψ (A * B) := by
    rw [braket, Matrix.star_mulVec, A1, ← Matrix.dotProduct_mulVec, Matrix.mulVec_mulVec]
  have f2 : star (A *ᵥ ψ) ⬝ᵥ ψ = (x : ℂ) := by
    rw [Matrix.star_mulVec, A1, ← Matrix.dotProduct_mulVec]; exact hx'
  have f3 : star ψ ⬝ᵥ (B *ᵥ ψ) = (y : ℂ) := hy'
  have f4 : star ψ ⬝ᵥ ψ = 1 := by rwa [braket, Matrix.one_mulVec] at hone
  have hi : star (A *ᵥ ψ - (x : ℂ) • ψ) ⬝ᵥ (B *ᵥ ψ - (y : ℂ) • ψ) = braket ψ (A * B) - x * y := by
    rw [star_sub, star_smul, sub_dotProduct, dotProduct_sub, dotProduct_sub, smul_dotProduct, smul_dotProduct, dotProduct_smul, dotProduct_smul, f1, f2, f3, f4]
    simp only [Complex.star_def, Complex.conj_ofReal, smul_eq_mul]
    ring
  rw [e1, e2, hi]
  have him : w = -(braket ψ (A * B) - x * y).im := by
    rw [ew, Complex.I_mul_re, Complex.sub_im, ← Complex.ofReal_mul, Complex.ofReal_im, sub_zero]
  rw [him, neg_sq]
  exact sq_le_sq' (by linarith [neg_abs_le (braket ψ (A * B) - x * y).im, Complex.abs_im_le_norm (braket ψ (A * B) - x * y)])
    ((le_abs_self _).trans (Complex.abs_im_le_norm _))

/-! ### Instances -/

/-- `4·10⁻⁹ Z₀`. -/
noncomputable def tiny : Terms Letter := [([(0, .Z)], ((4 / 10 ^ 9 : ℝ) : ℂ))]

theorem tiny_ok : CanonicalOp tiny ∧ Below 1 tiny := by
  refine ⟨⟨by simp [tiny, WF, PyDict.keys], ?_⟩, ?_⟩
  · intro t ht
    simp only [tiny, PyDict.keys, List.map_cons, List.map_nil, List.mem_cons, List.not_mem_nil, or_false] at ht
    subst ht; exact ⟨by decide, by decide⟩
  · intro kv hkv f hf
    simp only [tiny, List.mem_cons, List.not_mem_nil, or_false] at hkv
    subst hkv; simp at hf; simp [hf]

theorem zero_circuit (ρ : String → ℂ) : Unitary ρ ⟨[], 1⟩ := ⟨fun h => absurd h (by decide), by simp, by simp⟩

/-- C151. Two operators with totals that are not zero, whose sum has total zero: the terms of the sum are dropped. -/
theorem total_add_counterexample {ρ : String → ℂ} (sim : Simulator W) (hsim : Correct sim ρ) :
    HasTotal sim ρ ⟨[], 1⟩ tiny (4 / 10 ^ 9) ∧ Op.add tiny tiny = [] ∧ HasTotal sim ρ ⟨[], 1⟩ (Op.add tiny tiny) 0 := by
  have hd : Op.add tiny tiny = [] := by
    have hs : IsSmall (((4 / 10 ^ 9 : ℝ) : ℂ) + ((4 / 10 ^ 9 : ℝ) : ℂ)) eqTol := by
      show ‖_‖ < (1 / 10 ^ 8 : ℝ)
      rw [← Complex.ofReal_add, Complex.norm_real]
      norm_num
    have hc : coeff tiny [(0, .Z)] = ((4 / 10 ^ 9 : ℝ) : ℂ) := by simp [tiny, coeff, PyDict.get?]
    show addStep tiny ([(0, .Z)], ((4 / 10 ^ 9 : ℝ) : ℂ)) = []
    rw [addStep]
    dsimp only
    rw [hc, if_pos hs]
    simp [tiny, PyDict.set, PyDict.del]
  refine ⟨?_, hd, ?_⟩
  · have h := total_eq sim hsim (zero_circuit ρ) tiny_ok.1 tiny_ok.2
    have e : (braket (outputState ρ ⟨[], 1⟩) (opMatrix 1 tiny)).re = 4 / 10 ^ 9 := by
      have e0 : outputState ρ ⟨[], 1⟩ = Pi.single (fun _ => false) 1 := by
        show (1 : Matrix (Fin 1 → Bool) (Fin 1 → Bool) ℂ) *ᵥ Pi.single (fun _ => false) 1 = _
        rw [one_mulVec]
      rw [e0, braket_lin]
      have e1 : braket (Pi.single (fun _ => false) 1 : (Fin 1 → Bool) → ℂ) (pauliString 1 [(0, .Z)]) = 1 := by
        rw [braket, Matrix.mulVec_single_one, ← Pi.single_star, star_one, single_one_dotProduct]
        simp [pauliString, Op.tensor, letterAt, letterMatrix, pauliZ, Matrix.col]
      simp [OpLaws.lin, tiny, e1]
      norm_num
    exact e ▸ h
  · rw [hd]
    intro st
    obtain ⟨e, h1, h2⟩ := total_eq sim hsim (zero_circuit ρ) (o := []) ⟨by simp [WF, PyDict.keys], by simp [PyDict.keys]⟩ (fun kv hkv => absurd hkv (by simp)) st
    refine ⟨e, h1, h2.trans ?_⟩
    show (braket (outputState ρ ⟨[], 1⟩) 0).re = 0
    rw [braket_zero]; rfl

/-- The hypotheses of `total_add_partial` are met by operators that share a term, one of which cancels. -/
example : OpLaws.Kept ([([(0, .Z)], 2), ([(0, .X)], 1)] : Terms Letter) [([(0, .Z)], -2), ([(1, .Y)], 3)] := by
  intro t
  by_cases h1 : t = [(0, .Z)]
  · right; subst h1; simp [coeff, PyDict.get?]
  · by_cases h2 : t = [(0, .X)]
    · left; subst h2; simp [coeff, PyDict.get?]; norm_num
    · by_cases h3 : t = [(1, .Y)]
      · left; subst h3; simp [coeff, PyDict.get?]; norm_num
      · right
        rw [coeff_of_not_mem (by simp [keys, h1, h2]), coeff_of_not_mem (by simp [keys, h1, h3]), add_zero]

/-- The other hypotheses: a unitary circuit, operators on its qubits and, for the symbolic simulator, a total. -/
example (ρ : String → ℂ) : Correct (symbolic ρ : Simulator ℕ) ρ ∧ Unitary ρ ⟨[], 1⟩ ∧ CanonicalOp tiny ∧ Below 1 tiny ∧ HasTotal (symbolic ρ : Simulator ℕ) ρ ⟨[], 1⟩ tiny (4 / 10 ^ 9) ∧
    ∀ kv ∈ tiny, kv.2.im = 0 :=
  ⟨fun _ _ _ => rfl, zero_circuit ρ, tiny_ok.1, tiny_ok.2, (total_add_counterexample _ fun _ _ _ => rfl).1, fun kv hkv => by
    rw [List.mem_singleton.1 hkv]; exact Complex.ofReal_im _⟩

end ZQ.Totals
