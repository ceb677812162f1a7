import Verif.Spec.Decompositions
import Verif.Lemmas.ExceptList
import Verif.Lemmas.ControlledOp
import Verif.Props.Circuit
import Mathlib.GroupTheory.Congruence.Basic

/-!
# C16, C17: decompositions
-/

namespace ZQ.Circuits

open Gates Matrix

/-! ## C17: the engine -/

section Engine

variable {α : Type}

theorem decomposeOperations_ok_iff (rules : List (Rule α)) (ops out : List α) :
    decomposeOperations rules ops = .ok out ↔
      ∃ parts, List.Forall₂ (fun a l => decomposeOperation rules a = .ok l) ops parts ∧ out = parts.flatten := by
  unfold decomposeOperations
  cases h : ops.mapM (decomposeOperation rules) with
  | error e =>
    constructor
    · intro h'; cases h'
    · rintro ⟨parts, hp, _⟩
      rw [← mapM_ok_iff, h] at hp; cases hp
  | ok parts =>
    constructor
    · intro h'; cases h'; exact ⟨parts, (mapM_ok_iff _ _ _).1 h, rfl⟩
    · rintro ⟨parts', hp, rfl⟩
      rw [← mapM_ok_iff, h] at hp; cases hp; rfl

theorem decomposeOperation_cons (r : Rule α) (rs : List (Rule α)) (a : α) :
    decomposeOperation (r :: rs) a =
      (if r.predicate a then r.production a else .ok [a]).bind (decomposeOperations rs) := by
  rw [decomposeOperation]
  split <;> rfl

theorem flatten_con {M : Type} [Monoid M] (con : Con M) (m : α → M) (new : List α) (parts : List (List α))
    (h : List.Forall₂ (fun a l => con (l.map m).prod (m a)) new parts) :
    con (parts.flatten.map m).prod (new.map m).prod := by
  induction h with
  | nil => exact con.refl _
  | cons h1 _ ih =>
    simp only [List.flatten_cons, List.map_append, List.prod_append, List.map_cons, List.prod_cons]
    exact con.mul h1 ih

/-- **C17**, general form: meanings in any monoid, compared up to any congruence, for operations satisfying an invariant `P`. -/
theorem decompose_preserves_general {M : Type} [Monoid M] (con : Con M) (m : α → M) (P : α → Prop) (rules : List (Rule α))
    (h : ∀ r ∈ rules, ∀ a l, P a → r.predicate a = true → r.production a = .ok l →
      (∀ b ∈ l, P b) ∧ con (l.map m).prod (m a))
    (ops out : List α) (hP : ∀ a ∈ ops, P a) (ho : decomposeOperations rules ops = .ok out) :
    (∀ b ∈ out, P b) ∧ con (out.map m).prod (ops.map m).prod := by
  induction rules generalizing ops out with
  | nil =>
    obtain ⟨parts, hp, rfl⟩ := (decomposeOperations_ok_iff _ _ _).1 ho
    have : parts.flatten = ops := by
      clear ho hP
      induction hp with
      | nil => rfl
      | cons h1 _ ih => cases h1; simp [ih]
    rw [this]
    exact ⟨hP, con.refl _⟩
  | cons r rs ih =>
    obtain ⟨parts, hp, rfl⟩ := (decomposeOperations_ok_iff _ _ _).1 ho
    have step : ∀ a l, P a → decomposeOperation (r :: rs) a = .ok l → (∀ b ∈ l, P b) ∧ con (l.map m).prod (m a) := by
      intro a l ha hl
      rw [decomposeOperation_cons] at hl
      have hrs : ∀ r' ∈ rs, ∀ a l, P a → r'.predicate a = true → r'.production a = .ok l →
          (∀ b ∈ l, P b) ∧ con (l.map m).prod (m a) := fun r' hr' => h r' (by simp [hr'])
      by_cases hpred : r.predicate a = true
      · rw [if_pos hpred] at hl
        cases hprod : r.production a with
        | error e => rw [hprod] at hl; cases hl
        | ok new =>
          rw [hprod] at hl
          obtain ⟨h1, h2⟩ := h r (by simp) a new ha hpred hprod
          obtain ⟨h3, h4⟩ := ih hrs new l h1 hl
          exact ⟨h3, con.trans h4 h2⟩
      · rw [if_neg hpred] at hl
        obtain ⟨h3, h4⟩ := ih hrs [a] l (by simpa using ha) hl
        exact ⟨h3, by simpa using h4⟩
    clear ho
    constructor
    · intro b hb
      obtain ⟨l, hl, hbl⟩ := List.mem_flatten.1 hb
      clear hb
      induction hp with
      | nil => cases hl
      | cons h1 _ ih' =>
        rcases List.mem_cons.1 hl with rfl | hl
        · exact (step _ _ (hP _ (by simp)) h1).1 b hbl
        · exact ih' (fun a ha => hP a (by simp [ha])) hl
    · apply flatten_con con m ops parts
      clear ih
      induction hp with
      | nil => exact .nil
      | cons h1 _ ih' =>
        exact .cons (step _ _ (hP _ (by simp)) h1).2 (ih' (fun a ha => hP a (by simp [ha])))

/-- **C17.** If every rule preserves the meaning of the operations it matches (a meaning in any monoid: composition of operations is
multiplication, in order), the whole decomposition preserves the meaning of the operation list. -/
theorem decompose_preserves {M : Type} [Monoid M] (m : α → M) (rules : List (Rule α))
    (h : ∀ r ∈ rules, ∀ a l, r.predicate a = true → r.production a = .ok l → (l.map m).prod = m a)
    (ops out : List α) (ho : decomposeOperations rules ops = .ok out) : (out.map m).prod = (ops.map m).prod :=
  (decompose_preserves_general ⊥ m (fun _ => True) rules
    (fun r hr a l _ h1 h2 => ⟨fun _ _ => trivial, h r hr a l h1 h2⟩) ops out (fun _ _ => trivial) ho).2

/-- **C17.** Order is kept: decomposing a concatenation is concatenating the decompositions. -/
theorem decompose_append (rules : List (Rule α)) (o1 o2 r1 r2 : List α)
    (h1 : decomposeOperations rules o1 = .ok r1) (h2 : decomposeOperations rules o2 = .ok r2) :
    decomposeOperations rules (o1 ++ o2) = .ok (r1 ++ r2) := by
  obtain ⟨p1, hp1, rfl⟩ := (decomposeOperations_ok_iff _ _ _).1 h1
  obtain ⟨p2, hp2, rfl⟩ := (decomposeOperations_ok_iff _ _ _).1 h2
  exact (decomposeOperations_ok_iff _ _ _).2 ⟨p1 ++ p2, List.rel_append hp1 hp2, by simp⟩

theorem decompose_unmatched_op (rules : List (Rule α)) (a : α) (h : ∀ r ∈ rules, r.predicate a = false) :
    decomposeOperation rules a = .ok [a] := by
  induction rules with
  | nil => rfl
  | cons r rs ih =>
    rw [decomposeOperation_cons, h r (by simp)]
    show decomposeOperations rs [a] = _
    rw [decomposeOperations_ok_iff]
    exact ⟨[[a]], .cons (ih fun r' hr' => h r' (by simp [hr'])) .nil, rfl⟩

/-- **C17.** Operations matched by no rule are left unchanged (in particular, without rules nothing changes). -/
theorem decompose_unmatched (rules : List (Rule α)) (ops : List α) (h : ∀ a ∈ ops, ∀ r ∈ rules, r.predicate a = false) :
    decomposeOperations rules ops = .ok ops := by
  rw [decomposeOperations_ok_iff]
  refine ⟨ops.map fun a => [a], ?_, by rw [← List.flatMap_def]; simp⟩
  induction ops with
  | nil => exact .nil
  | cons a ops ih => exact .cons (decompose_unmatched_op rules a (h a (by simp))) (ih fun b hb => h b (by simp [hb]))

/-- **C17.** Rules are applied in order, each once: a rule list acts as its first rule on all operations followed by the remaining rules on the
results. -/
theorem decompose_rules_cons (r : Rule α) (rs : List (Rule α)) (ops mid out : List α)
    (h1 : decomposeOperations [r] ops = .ok mid) (h2 : decomposeOperations rs mid = .ok out) :
    decomposeOperations (r :: rs) ops = .ok out := by
  have one : ∀ a l, decomposeOperation [r] a = .ok l → (if r.predicate a then r.production a else .ok [a]) = .ok l := by
    intro a l hl
    rw [decomposeOperation_cons] at hl
    cases hx : (if r.predicate a then r.production a else .ok [a]) with
    | error e => rw [hx] at hl; cases hl
    | ok new =>
      rw [hx] at hl
      have : decomposeOperations [] new = .ok new := decompose_unmatched [] new (by simp)
      rw [← this]; exact hl
  obtain ⟨p1, hp1, rfl⟩ := (decomposeOperations_ok_iff _ _ _).1 h1
  clear h1
  induction hp1 generalizing out with
  | nil =>
    have : out = [] := by
      have e : decomposeOperations rs ([] : List α) = .ok [] := (decomposeOperations_ok_iff _ _ _).2 ⟨[], .nil, rfl⟩
      rw [List.flatten_nil, e] at h2; cases h2; rfl
    subst this
    exact (decomposeOperations_ok_iff _ _ _).2 ⟨[], .nil, rfl⟩
  | @cons a l ops parts ha _ ih =>
    obtain ⟨p2, hp2, rfl⟩ := (decomposeOperations_ok_iff _ _ _).1 h2
    rw [List.flatten_cons] at hp2
    obtain ⟨q1, q2, hq1, hq2, rfl⟩ := forall₂_append_split _ _ _ hp2
    have e2 := ih _ ((decomposeOperations_ok_iff _ _ _).2 ⟨q2, hq2, rfl⟩)
    have e1 : decomposeOperation (r :: rs) a = .ok q1.flatten := by
      rw [decomposeOperation_cons, one a l ha]
      exact (decomposeOperations_ok_iff _ _ _).2 ⟨q1, hq1, rfl⟩
    have e1' : decomposeOperations (r :: rs) [a] = .ok q1.flatten :=
      (decomposeOperations_ok_iff _ _ _).2 ⟨[q1.flatten], .cons e1 .nil, by simp⟩
    have := decompose_append (r :: rs) [a] ops _ _ e1' e2
    rw [List.flatten_append]
    exact this

end Engine

/-- Non-vacuity: strings with the rule "replace 2 by 1, 1" under the meaning "sum". -/
example : let r : Rule ℕ := ⟨fun n => n == 2, fun _ => .ok [1, 1]⟩
    decomposeOperations [r] [3, 2, 1] = .ok [3, 1, 1, 1] ∧
    ∀ a l, r.predicate a = true → r.production a = .ok l → (l.map Multiplicative.ofAdd).prod = Multiplicative.ofAdd a := by
  refine ⟨rfl, ?_⟩
  intro a l ha hl
  cases hl
  have : a = 2 := by simpa using ha
  subst this
  rfl

/-! ## C16: U3 -/

theorem exp_half (z : ℂ) : Complex.exp (-0.5 * Complex.I * z) * (1 / Complex.exp (-0.5 * Complex.I * z)) = 1 := by
  have := Complex.exp_ne_zero (-0.5 * Complex.I * z)
  field_simp

/-- The rotations' product. -/
noncomputable def rotationProduct (theta phi lambda : ℂ) : Mat ℂ :=
  Mat.mul (Mat.mul (rzMatrix phi) (ryMatrix theta)) (rzMatrix lambda)

theorem rotationProduct_onBits (theta phi lambda : ℂ) :
    (rotationProduct theta phi lambda).onBits 1 = (rzMatrix phi).onBits 1 * (ryMatrix theta).onBits 1 * (rzMatrix lambda).onBits 1 := by
  unfold rotationProduct
  rw [onBits_mul _ _ 1 rfl, onBits_mul _ _ 1 rfl]

/-- `U3` is the rotations' product up to the phase `exp(-i(phi+lambda)/2)`. -/
theorem rotationProduct_eq (theta phi lambda : ℂ) :
    (rotationProduct theta phi lambda).onBits 1 =
      Complex.exp (-0.5 * Complex.I * (phi + lambda)) • (u3Matrix theta phi lambda).onBits 1 := by
  unfold u3Matrix
  rw [onBits_smul, smul_smul, exp_half, one_smul]
  rfl

theorem operator_eq (n : ℕ) (ρ : String → ℂ) (g : Gate) (qs : List ℕ) (h : ∀ q ∈ qs, q < n) :
    (GateOp.mk g qs).operator n ρ =
      actOn (fun i : Fin qs.length => (⟨qs[i], h _ (List.getElem_mem _)⟩ : Fin n)) ((g.matrix ρ).onBits qs.length) := by
  unfold GateOp.operator
  rw [dif_pos h]

theorem qubits_injective {n : ℕ} (qs : List ℕ) (h : ∀ q ∈ qs, q < n) (hn : qs.Nodup) :
    Function.Injective (fun i : Fin qs.length => (⟨qs[i], h _ (List.getElem_mem _)⟩ : Fin n)) := by
  intro a b hab
  have := (Fin.mk.injEq _ _ _ _).mp hab
  exact Fin.ext ((List.Nodup.getElem_inj_iff hn).1 this)

/-- Three operations on the same qubits. -/
theorem opsOperator_three (n : ℕ) (ρ : String → ℂ) (g1 g2 g3 : Gate) (qs : List ℕ) (h : ∀ q ∈ qs, q < n) (hn : qs.Nodup) :
    opsOperator n ρ [⟨g1, qs⟩, ⟨g2, qs⟩, ⟨g3, qs⟩] =
      actOn (fun i : Fin qs.length => (⟨qs[i], h _ (List.getElem_mem _)⟩ : Fin n))
        ((g3.matrix ρ).onBits qs.length * (g2.matrix ρ).onBits qs.length * (g1.matrix ρ).onBits qs.length) := by
  unfold opsOperator
  simp only [List.reverse_cons, List.reverse_nil, List.nil_append, List.cons_append, List.map_cons, List.map_nil, List.prod_cons,
    List.prod_nil, mul_one]
  rw [operator_eq n ρ g1 qs h, operator_eq n ρ g2 qs h, operator_eq n ρ g3 qs h]
  rw [actOn_mul _ (qubits_injective qs h hn), actOn_mul _ (qubits_injective qs h hn), ← mul_assoc]

theorem rz_wf (a : Expr) : (rzGate a).WF := builtin_wf _ (by simp [builtinGates, parametricGates]) _
theorem ry_wf (a : Expr) : (ryGate a).WF := builtin_wf _ (by simp [builtinGates, parametricGates]) _
theorem u3_wf (ps : List Expr) : (Gate.factory u3Base ps).WF := builtin_wf _ (by simp [builtinGates, parametricGates, u3Base]) _

theorem u3Production_plain (t p l : Expr) (qs : List ℕ) :
    u3Production ⟨.factory u3Base [t, p, l], qs⟩ = .ok [⟨rzGate l, qs⟩, ⟨ryGate t, qs⟩, ⟨rzGate p, qs⟩] := rfl

theorem u3Production_ctrl (t p l : Expr) (k : ℕ) (hk : 1 ≤ k) (qs : List ℕ) :
    u3Production ⟨.ctrl (.factory u3Base [t, p, l]) k, qs⟩ =
      .ok [⟨.ctrl (rzGate l) k, qs⟩, ⟨.ctrl (ryGate t) k, qs⟩, ⟨.ctrl (rzGate p) k, qs⟩] := by
  have h : ∀ b ps, Gate.controlled (.factory b ps) (k : ℤ) = .ok (.ctrl (.factory b ps) k) := by
    intro b ps
    show (if (k : ℤ) < 1 then _ else _) = _
    rw [if_neg (by omega)]
    rfl
  have h1 : ∀ b ps, (u3Preprocess ⟨.ctrl (.factory u3Base [t, p, l]) k, qs⟩ (.factory b ps)) = .ok (.ctrl (.factory b ps) k) := h
  show ([rzGate p, ryGate t, rzGate l].mapM fun g => (u3Preprocess ⟨.ctrl (.factory u3Base [t, p, l]) k, qs⟩ g).map
    fun g' => (⟨g', qs⟩ : GateOp)).bind _ = _
  rw [UnitaryTools.mapM_except_ok _ _ (fun g => (⟨.ctrl g k, qs⟩ : GateOp))]
  · rfl
  · intro g hg
    simp only [List.mem_cons, List.not_mem_nil, or_false] at hg
    rcases hg with rfl | rfl | rfl
    · rw [rzGate, h1]; rfl
    · rw [ryGate, h1]; rfl
    · rw [rzGate, h1]; rfl

/-- **C16**, plain U3: the three rotations act as U3 times `exp(-i(phi+lambda)/2)`, on any qubit of any register. -/
theorem u3_decomposition_plain (n : ℕ) (ρ : String → ℂ) (t p l : Expr) (qs : List ℕ)
    (hv : (GateOp.mk (.factory u3Base [t, p, l]) qs).Valid n) :
    ∃ out, u3Production ⟨.factory u3Base [t, p, l], qs⟩ = .ok out ∧ (∀ o ∈ out, o.Valid n) ∧
      opsOperator n ρ out = Complex.exp (-0.5 * Complex.I * (p.eval ρ + l.eval ρ)) •
        (GateOp.mk (.factory u3Base [t, p, l]) qs).operator n ρ := by
  refine ⟨_, u3Production_plain t p l qs, ?_, ?_⟩
  · obtain ⟨v1, v2, v3, v4, _⟩ := hv
    intro o ho
    simp only [List.mem_cons, List.not_mem_nil, or_false] at ho
    rcases ho with rfl | rfl | rfl
    · exact ⟨v1, v2, v3, v4, rz_wf l⟩
    · exact ⟨v1, v2, v3, v4, ry_wf t⟩
    · exact ⟨v1, v2, v3, v4, rz_wf p⟩
  · obtain ⟨v1, v2, v3, v4, _⟩ := hv
    rw [opsOperator_three n ρ _ _ _ qs v3 v2, operator_eq n ρ _ qs v3, ← actOn_smul]
    congr 1
    have v4' : qs.length = 1 := v4
    rw [v4']
    exact (rotationProduct_onBits (t.eval ρ) (p.eval ρ) (l.eval ρ)).symm.trans (rotationProduct_eq _ _ _)

/-- Controlled U3: the emitted operations act as the controlled *rotation product*, i.e. the phase `exp(-i(phi+lambda)/2)` is applied only
where all controls are 1. -/
theorem u3_decomposition_ctrl (n : ℕ) (ρ : String → ℂ) (t p l : Expr) (k : ℕ) (qs : List ℕ)
    (hv : (GateOp.mk (.ctrl (.factory u3Base [t, p, l]) k) qs).Valid n) :
    ∃ out, u3Production ⟨.ctrl (.factory u3Base [t, p, l]) k, qs⟩ = .ok out ∧ (∀ o ∈ out, o.Valid n) ∧
      opsOperator n ρ out = actOn (fun i : Fin qs.length => (⟨qs[i], hv.2.2.1 _ (List.getElem_mem _)⟩ : Fin n))
        ((ctrlMat 1 k (rotationProduct (t.eval ρ) (p.eval ρ) (l.eval ρ))).onBits qs.length) := by
  obtain ⟨v1, v2, v3, v4, v5⟩ := hv
  refine ⟨_, u3Production_ctrl t p l k v5.1 qs, ?_, ?_⟩
  · intro o ho
    simp only [List.mem_cons, List.not_mem_nil, or_false] at ho
    rcases ho with rfl | rfl | rfl
    · exact ⟨v1, v2, v3, v4, v5.1, rz_wf l⟩
    · exact ⟨v1, v2, v3, v4, v5.1, ry_wf t⟩
    · exact ⟨v1, v2, v3, v4, v5.1, rz_wf p⟩
  · rw [opsOperator_three n ρ _ _ _ qs v3 v2]
    congr 1
    have v4' : qs.length = k + 1 := by rw [v4]; show 1 + k = k + 1; omega
    rw [v4']
    show (ctrlMat 1 k (rzMatrix (p.eval ρ))).onBits (k + 1) * (ctrlMat 1 k (ryMatrix (t.eval ρ))).onBits (k + 1) *
      (ctrlMat 1 k (rzMatrix (l.eval ρ))).onBits (k + 1) = _
    rw [ctrlMat_onBits, ctrlMat_onBits, ctrlMat_onBits, ctrlMat_onBits, rotationProduct_onBits, controlledOp_mul, controlledOp_mul]

/-- **C16**, controlled U3: when `exp(-i(phi+lambda)/2) = 1` (e.g. `phi + lambda = 0`) the operator is exactly preserved. -/
theorem u3_decomposition_ctrl_partial (n : ℕ) (ρ : String → ℂ) (t p l : Expr) (k : ℕ) (qs : List ℕ)
    (hv : (GateOp.mk (.ctrl (.factory u3Base [t, p, l]) k) qs).Valid n)
    (hz : Complex.exp (-0.5 * Complex.I * (p.eval ρ + l.eval ρ)) = 1) :
    ∃ out, u3Production ⟨.ctrl (.factory u3Base [t, p, l]) k, qs⟩ = .ok out ∧ (∀ o ∈ out, o.Valid n) ∧
      opsOperator n ρ out = (GateOp.mk (.ctrl (.factory u3Base [t, p, l]) k) qs).operator n ρ := by
  obtain ⟨out, e, v, s⟩ := u3_decomposition_ctrl n ρ t p l k qs hv
  refine ⟨out, e, v, ?_⟩
  obtain ⟨v1, v2, v3, v4, v5⟩ := hv
  rw [s, operator_eq n ρ _ qs v3]
  congr 1
  have v4' : qs.length = k + 1 := by rw [v4]; show 1 + k = k + 1; omega
  rw [v4']
  show _ = (ctrlMat 1 k (u3Matrix (t.eval ρ) (p.eval ρ) (l.eval ρ))).onBits (k + 1)
  rw [ctrlMat_onBits, ctrlMat_onBits, rotationProduct_eq, hz, one_smul]

theorem actOn_injective {n k : ℕ} (qs : Fin k → Fin n) (hq : Function.Injective qs)
    (A B : Matrix (Fin k → Bool) (Fin k → Bool) ℂ) (h : actOn qs A = actOn qs B) : A = B := by
  ext u v
  have := congrFun (congrFun h (Function.extend qs u fun _ => false)) (Function.extend qs v fun _ => false)
  unfold actOn at this
  have hc : ∀ w : Fin k → Bool, (Function.extend qs w fun _ => false) ∘ qs = w := fun w => funext fun i => hq.extend_apply w _ i
  rw [if_pos, if_pos, hc, hc] at this
  · exact this
  all_goals
    intro q hq'
    have hne : ¬ ∃ i, qs i = q := fun ⟨i, hi⟩ => hq' i hi
    rw [Function.extend_apply' _ _ _ hne, Function.extend_apply' _ _ _ hne]

/-- **C16**, disagreement: for a controlled U3 the decomposition equals the original up to *any* scalar only if the dropped phase is
1.  So for all other angles, controlled U3 gates are decomposed wrongly. -/
theorem u3_decomposition_ctrl_only_if (n : ℕ) (ρ : String → ℂ) (t p l : Expr) (k : ℕ) (qs : List ℕ)
    (hv : (GateOp.mk (.ctrl (.factory u3Base [t, p, l]) k) qs).Valid n) (out : List GateOp)
    (ho : u3Production ⟨.ctrl (.factory u3Base [t, p, l]) k, qs⟩ = .ok out)
    (ht : (t.eval ρ).im = 0) (hp : (p.eval ρ).im = 0) (hl : (l.eval ρ).im = 0) (z : ℂ)
    (hz : opsOperator n ρ out = z • (GateOp.mk (.ctrl (.factory u3Base [t, p, l]) k) qs).operator n ρ) :
    Complex.exp (-0.5 * Complex.I * (p.eval ρ + l.eval ρ)) = 1 := by
  obtain ⟨out', e, v, s⟩ := u3_decomposition_ctrl n ρ t p l k qs hv
  rw [e] at ho; cases ho
  obtain ⟨v1, v2, v3, v4, v5⟩ := hv
  rw [s, operator_eq n ρ _ qs v3, ← actOn_smul] at hz
  have h1 := actOn_injective _ (qubits_injective qs v3 v2) _ _ hz
  have v4' : qs.length = k + 1 := by rw [v4]; show 1 + k = k + 1; omega
  rw [v4'] at h1
  change (ctrlMat 1 k _).onBits (k + 1) = z • (ctrlMat 1 k (u3Matrix (t.eval ρ) (p.eval ρ) (l.eval ρ))).onBits (k + 1) at h1
  rw [ctrlMat_onBits, ctrlMat_onBits, rotationProduct_eq] at h1
  set c := Complex.exp (-0.5 * Complex.I * (p.eval ρ + l.eval ρ)) with hc
  have hk : 0 < k := v5.1
  have h00 := congrFun (congrFun h1 (fun _ => false)) (fun _ => false)
  have nf : ¬ ((∀ c : Fin k, (fun _ : Fin (k + 1) => false) (Fin.castAdd 1 c) = true) ∧
      (∀ c : Fin k, (fun _ : Fin (k + 1) => false) (Fin.castAdd 1 c) = true)) := by
    intro h; have := h.1 ⟨0, hk⟩; simp at this
  rw [Matrix.smul_apply] at h00
  unfold controlledOp at h00
  rw [if_neg nf, if_pos rfl, if_neg nf] at h00
  have z1 : z = 1 := by simpa using h00.symm
  rw [z1, one_smul] at h1
  have h11 : ∀ a b, c * (u3Matrix (t.eval ρ) (p.eval ρ) (l.eval ρ)).onBits 1 a b = (u3Matrix (t.eval ρ) (p.eval ρ) (l.eval ρ)).onBits 1 a b := by
    intro a b
    have := congrFun (congrFun h1 (Fin.append (fun _ => true) a)) (Fin.append (fun _ => true) b)
    unfold controlledOp at this
    rw [if_pos (by constructor <;> intro c <;> rw [Fin.append_left]), if_pos (by constructor <;> intro c <;> rw [Fin.append_left])] at this
    simpa only [Fin.append_right, Matrix.smul_apply, smul_eq_mul] using this
  by_contra hne
  have hzero : (u3Matrix (t.eval ρ) (p.eval ρ) (l.eval ρ)).onBits 1 = 0 := by
    ext a b
    have := h11 a b
    have h0 : (c - 1) * (u3Matrix (t.eval ρ) (p.eval ρ) (l.eval ρ)).onBits 1 a b = 0 := by linear_combination this
    rcases mul_eq_zero.1 h0 with h | h
    · exact absurd (sub_eq_zero.1 h) hne
    · exact h
  have real : ∀ w : ℂ, w.im = 0 → w = ((w.re : ℝ) : ℂ) := fun w hw => by apply Complex.ext <;> simp [hw]
  have hu := u3_unitary (t.eval ρ).re (p.eval ρ).re (l.eval ρ).re
  rw [← real _ ht, ← real _ hp, ← real _ hl, hzero, Matrix.mem_unitaryGroup_iff] at hu
  simp at hu

/-- **C16**, concrete disagreement: one control, U3(0, pi, 0) (that is, controlled Z) on two qubits. The emitted gates are not equal to it up to
any scalar, in particular not up to a global phase. -/
theorem u3_decomposition_counterexample :
    ∃ (op : GateOp) (out : List GateOp), op.Valid 2 ∧ u3Rule.predicate op = true ∧ u3Rule.production op = .ok out ∧
      ∀ ρ, ¬ EqUpToPhase (opsOperator 2 ρ out) (op.operator 2 ρ) := by
  have hv : (GateOp.mk (.ctrl (.factory u3Base [.num 0, .num (Real.pi : ℂ), .num 0]) 1) [0, 1]).Valid 2 :=
    ⟨by simp, by simp, by simp, rfl, le_refl _, u3_wf _⟩
  obtain ⟨out, e, _, _⟩ := u3_decomposition_ctrl 2 (fun _ => 0) _ _ _ _ _ hv
  refine ⟨_, out, hv, rfl, e, ?_⟩
  rintro ρ ⟨z, _, hz⟩
  have := u3_decomposition_ctrl_only_if 2 ρ _ _ _ _ _ hv out e (by simp [Expr.eval]) (by simp [Expr.eval]) (by simp [Expr.eval]) z hz
  simp only [Expr.eval, add_zero] at this
  rw [show (-0.5 * Complex.I * (Real.pi : ℂ)) = -((Real.pi : ℂ) / 2 * Complex.I) by ring, Complex.exp_neg, Complex.exp_pi_div_two_mul_I] at this
  have h := congrArg Complex.re this
  simp at h

/-- Equality up to a phase as a congruence on operators composed in operation order. -/
noncomputable def phaseCon (n : ℕ) : Con (Matrix (Fin n → Bool) (Fin n → Bool) ℂ)ᵐᵒᵖ where
  r a b := EqUpToPhase a.unop b.unop
  iseqv := ⟨fun a => ⟨1, by simp, by simp⟩,
    fun {a b} ⟨z, hz, h⟩ => ⟨z⁻¹, by simp [hz], by
      have : z ≠ 0 := by intro h0; rw [h0] at hz; simp at hz
      rw [h, smul_smul, inv_mul_cancel₀ this, one_smul]⟩,
    fun {a b c} ⟨z, hz, h⟩ ⟨z', hz', h'⟩ => ⟨z * z', by simp [hz, hz'], by rw [h, h', smul_smul]⟩⟩
  mul' {a b c d} := fun ⟨z, hz, h⟩ ⟨z', hz', h'⟩ => ⟨z' * z, by simp [hz, hz'], by
    rw [MulOpposite.unop_mul, MulOpposite.unop_mul, h, h', smul_mul_smul_comm]⟩

theorem opsOperator_eq_unop (n : ℕ) (ρ : String → ℂ) (ops : List GateOp) :
    opsOperator n ρ ops = (ops.map fun o => MulOpposite.op (o.operator n ρ)).prod.unop := by
  unfold opsOperator
  rw [MulOpposite.unop_list_prod, List.map_map, List.map_reverse]
  rfl

/-- An operation the U3 rule handles correctly: a plain U3 with real `phi + lambda`, or a controlled one whose dropped phase is 1. -/
def GoodU3 (ρ : String → ℂ) (op : GateOp) : Prop :=
  ∃ t p l, (op.gate = .factory u3Base [t, p, l] ∧ (p.eval ρ + l.eval ρ).im = 0) ∨
    ∃ k, op.gate = .ctrl (.factory u3Base [t, p, l]) k ∧ Complex.exp (-0.5 * Complex.I * (p.eval ρ + l.eval ρ)) = 1

theorem u3Predicate_rotation (g : Gate) (qs : List ℕ) (h : g.name ≠ "U3")
    (h2 : ∀ w k, g = .ctrl w k → w.name ≠ "U3") : u3Predicate ⟨g, qs⟩ = false := by
  unfold u3Predicate
  have : (g.name == "U3") = false := by simpa using h
  simp only [this, Bool.false_or]
  cases g with
  | factory b ps => rfl
  | dag w => rfl
  | ctrl w k => simpa using h2 w k rfl

theorem phase_norm {w : ℂ} (h : w.im = 0) : ‖Complex.exp (-0.5 * Complex.I * w)‖ = 1 := by
  rw [Complex.norm_exp]
  simp [h]

/-- **C16.** For a circuit in which every U3 is plain with real angles (or a controlled U3 with trivial dropped phase), the decomposition
succeeds, produces valid operations, and its operator equals the circuit's up to one global phase. -/
theorem u3_circuit_partial (ops : List GateOp) (n : ℕ) (ρ : String → ℂ) (hv : ∀ o ∈ ops, o.Valid n)
    (hg : ∀ o ∈ ops, u3Predicate o = true → GoodU3 ρ o) :
    ∃ out, decomposeOperations [u3Rule] ops = .ok out ∧ (∀ o ∈ out, o.Valid n) ∧
      EqUpToPhase (opsOperator n ρ out) (opsOperator n ρ ops) := by
  have prod : ∀ o, o.Valid n → u3Predicate o = true → GoodU3 ρ o →
      ∃ l, u3Production o = .ok l ∧ (∀ b ∈ l, b.Valid n ∧ u3Predicate b = false) ∧
        EqUpToPhase (opsOperator n ρ l) (o.operator n ρ) := by
    rintro ⟨g, qs⟩ ho hp ⟨t, p, l, hcase⟩
    rcases hcase with ⟨hg, hreal⟩ | ⟨k, hg, hz⟩
    · simp only at hg
      subst hg
      obtain ⟨out, e, v, s⟩ := u3_decomposition_plain n ρ t p l qs ho
      refine ⟨out, e, fun b hb => ⟨v b hb, ?_⟩, _, phase_norm hreal, s⟩
      rw [u3Production_plain] at e
      cases e
      simp only [List.mem_cons, List.not_mem_nil, or_false] at hb
      rcases hb with rfl | rfl | rfl <;> rfl
    · simp only at hg
      subst hg
      obtain ⟨out, e, v, s⟩ := u3_decomposition_ctrl_partial n ρ t p l k qs ho hz
      refine ⟨out, e, fun b hb => ⟨v b hb, ?_⟩, 1, by simp, by rw [s, one_smul]⟩
      rw [u3Production_ctrl _ _ _ _ ho.2.2.2.2.1] at e
      cases e
      simp only [List.mem_cons, List.not_mem_nil, or_false] at hb
      rcases hb with rfl | rfl | rfl <;> rfl
  have single : ∀ o, o.Valid n → (u3Predicate o = true → GoodU3 ρ o) → ∃ l, decomposeOperation [u3Rule] o = .ok l := by
    intro o ho hg
    rw [decomposeOperation_cons]
    by_cases hp : u3Predicate o = true
    · obtain ⟨l, e, _, _⟩ := prod o ho hp (hg hp)
      refine ⟨l, ?_⟩
      rw [if_pos (show u3Rule.predicate o = true from hp), show u3Rule.production o = .ok l from e]
      exact decompose_unmatched [] l (by simp)
    · refine ⟨[o], ?_⟩
      rw [if_neg (show ¬ u3Rule.predicate o = true from hp)]
      exact decompose_unmatched [] [o] (by simp)
  have total : ∃ parts, List.Forall₂ (fun a l => decomposeOperation [u3Rule] a = .ok l) ops parts := by
    clear prod
    induction ops with
    | nil => exact ⟨[], .nil⟩
    | cons o ops ih =>
      obtain ⟨parts, hp⟩ := ih (fun a ha => hv a (by simp [ha])) (fun a ha => hg a (by simp [ha]))
      obtain ⟨l, e⟩ := single o (hv o (by simp)) (hg o (by simp))
      exact ⟨l :: parts, .cons e hp⟩
  obtain ⟨parts, hp⟩ := total
  have ho := (decomposeOperations_ok_iff [u3Rule] ops parts.flatten).2 ⟨parts, hp, rfl⟩
  obtain ⟨h1, h2⟩ := decompose_preserves_general (phaseCon n) (fun o : GateOp => MulOpposite.op (o.operator n ρ))
    (fun o => o.Valid n ∧ (u3Predicate o = true → GoodU3 ρ o)) [u3Rule] (by
      intro r hr a l ha hpred hprod
      rw [List.mem_singleton.1 hr] at hpred hprod
      obtain ⟨l', e, hv', hph⟩ := prod a ha.1 hpred (ha.2 hpred)
      rw [show u3Rule.production a = u3Production a from rfl, e] at hprod
      cases hprod
      refine ⟨fun b hb => ⟨(hv' b hb).1, fun h => ?_⟩, ?_⟩
      · rw [(hv' b hb).2] at h; cases h
      · show EqUpToPhase _ _
        rw [← opsOperator_eq_unop]
        exact hph) ops _ (fun a ha => ⟨hv a ha, hg a ha⟩) ho
  refine ⟨_, ho, fun o ho' => (h1 o ho').1, ?_⟩
  rw [opsOperator_eq_unop, opsOperator_eq_unop]
  exact h2

/-- The largest qubit index is unchanged by the rule, since every emitted operation has the qubits of the original one. -/
theorem u3Production_qubits (op : GateOp) (out : List GateOp) (h : u3Production op = .ok out) : out ≠ [] ∧ ∀ o ∈ out, o.qubits = op.qubits := by
  unfold u3Production at h
  split at h
  · rename_i t p l _
    cases hm : ([rzGate p, ryGate t, rzGate l].mapM fun g => (u3Preprocess op g).map fun g' => (⟨g', op.qubits⟩ : GateOp)) with
    | error e => rw [hm] at h; cases h
    | ok ops =>
      rw [hm] at h
      cases h
      rw [mapM_ok_iff] at hm
      refine ⟨?_, ?_⟩
      · intro h0
        have := hm.length_eq
        rw [List.reverse_eq_nil_iff.1 h0] at this
        simp at this
      · intro o ho
        have hex : ∃ g, (u3Preprocess op g).map (fun g' => (⟨g', op.qubits⟩ : GateOp)) = .ok o := by
          obtain ⟨i, hi, rfl⟩ := List.mem_iff_getElem.1 (List.mem_reverse.1 ho)
          exact ⟨_, (List.forall₂_iff_get.1 hm).2 i (by rw [(List.forall₂_iff_get.1 hm).1]; exact hi) hi⟩
        obtain ⟨g, hg⟩ := hex
        cases hx : u3Preprocess op g with
        | error e => rw [hx] at hg; cases hg
        | ok g' => rw [hx] at hg; cases hg; rfl
  · cases h

theorem decompose_qubits (ops out : List GateOp) (h : decomposeOperations [u3Rule] ops = .ok out) (q : ℕ) :
    (∃ o ∈ out, q ∈ o.qubits) ↔ ∃ o ∈ ops, q ∈ o.qubits := by
  obtain ⟨parts, hp, rfl⟩ := (decomposeOperations_ok_iff _ _ _).1 h
  clear h
  have one : ∀ a l, decomposeOperation [u3Rule] a = .ok l → ((∃ o ∈ l, q ∈ o.qubits) ↔ q ∈ a.qubits) := by
    intro a l hl
    rw [decomposeOperation_cons] at hl
    by_cases hpred : u3Predicate a = true
    · rw [if_pos (show u3Rule.predicate a = true from hpred)] at hl
      cases hprod : u3Rule.production a with
      | error e => rw [hprod] at hl; cases hl
      | ok new =>
        rw [hprod] at hl
        have e : decomposeOperations [] new = .ok new := decompose_unmatched [] new (by simp)
        rw [show (Except.ok new).bind (decomposeOperations ([] : List (Rule GateOp))) = decomposeOperations [] new from rfl, e] at hl
        injection hl with hl
        subst hl
        obtain ⟨hne, hq⟩ := u3Production_qubits a new hprod
        constructor
        · rintro ⟨o, ho, h⟩; rw [hq o ho] at h; exact h
        · intro h
          obtain ⟨o, ho⟩ := List.exists_mem_of_ne_nil new hne
          exact ⟨o, ho, by rw [hq o ho]; exact h⟩
    · rw [if_neg (show ¬ u3Rule.predicate a = true from hpred)] at hl
      have e : decomposeOperations ([] : List (Rule GateOp)) [a] = .ok [a] := decompose_unmatched [] [a] (by simp)
      rw [show (Except.ok [a]).bind (decomposeOperations ([] : List (Rule GateOp))) = decomposeOperations [] [a] from rfl, e] at hl
      cases hl
      simp
  induction hp with
  | nil => simp
  | cons h1 _ ih =>
    simp only [List.flatten_cons, List.mem_append, List.mem_cons, exists_eq_or_imp, or_and_right, exists_or]
    rw [one _ _ h1]
    exact or_congr (by simp) ih

/-- **C16**, register size: if the circuit's register is exactly as large as its operations need, the decomposed circuit has the same size. -/
theorem decompose_register_partial (c d : Circuit) (hc : Circuit.make c.ops none = .ok c)
    (hd : decomposeCircuit c [u3Rule] = .ok d) : d.n = c.n := by
  unfold decomposeCircuit at hd
  cases ho : decomposeOperations [u3Rule] c.ops with
  | error e => rw [ho] at hd; cases hd
  | ok out =>
    rw [ho] at hd
    have hd' : Circuit.make out none = .ok d := hd
    obtain ⟨c1, c2, c3⟩ := make_default c.ops c hc
    obtain ⟨d1, d2, d3⟩ := make_default out d hd'
    have hq := decompose_qubits c.ops out ho
    have le1 : c.n ≤ d.n := by
      rcases Nat.eq_zero_or_pos c.n with h0 | h0
      · omega
      · split at c3
        · omega
        · obtain ⟨o, ho', hq', h⟩ := c3
          obtain ⟨o', ho'', hq''⟩ := (hq (c.n - 1)).2 ⟨o, ho', hq'⟩
          have := d2 o' ho'' _ hq''
          omega
    have le2 : d.n ≤ c.n := by
      rcases Nat.eq_zero_or_pos d.n with h0 | h0
      · omega
      · split at d3
        · omega
        · obtain ⟨o, ho', hq', h⟩ := d3
          obtain ⟨o', ho'', hq''⟩ := (hq (d.n - 1)).1 ⟨o, ho', hq'⟩
          have := c2 o' ho'' _ hq''
          omega
    omega

/-- **C16**, disagreement: a declared register larger than the operations need is lost. -/
theorem decompose_register_counterexample :
    ∃ c d : Circuit, Circuit.make c.ops (some 3) = .ok c ∧ decomposeCircuit c [u3Rule] = .ok d ∧ d.n ≠ c.n := by
  refine ⟨⟨[⟨identityGate, [0]⟩], 3⟩, ⟨[⟨identityGate, [0]⟩], 1⟩, ?_, ?_, by decide⟩
  · exact make_natCast_pos _ 3 (by norm_num)
  · unfold decomposeCircuit
    rw [decompose_unmatched [u3Rule] _ (by
      intro a ha r hr
      rw [List.mem_singleton.1 hr, List.mem_singleton.1 ha]
      rfl)]
    rfl

/-- Non-vacuity of the circuit theorem: U3(1, 2, 3) on qubit 0 followed by X on qubit 1 of two qubits. -/
example : ∃ ops : List GateOp, (∀ o ∈ ops, o.Valid 2) ∧ (∀ o ∈ ops, u3Predicate o = true → GoodU3 (fun _ => 0) o) ∧
    ∃ o ∈ ops, u3Predicate o = true := by
  have hX : (Gate.factory ⟨"X", .builtin fun _ => xMatrix, 1, true⟩ []).WF := builtin_wf _ (by simp [builtinGates, fixedGates]) _
  refine ⟨[⟨.factory u3Base [.num 1, .num 2, .num 3], [0]⟩, ⟨.factory ⟨"X", .builtin fun _ => xMatrix, 1, true⟩ [], [1]⟩], ?_, ?_, ?_⟩
  · intro o ho
    simp only [List.mem_cons, List.not_mem_nil, or_false] at ho
    rcases ho with rfl | rfl
    · exact ⟨by simp, by simp, by simp, rfl, u3_wf _⟩
    · exact ⟨by simp, by simp, by simp, rfl, hX⟩
  · intro o ho hp
    simp only [List.mem_cons, List.not_mem_nil, or_false] at ho
    rcases ho with rfl | rfl
    · exact ⟨.num 1, .num 2, .num 3, Or.inl ⟨rfl, by simp [Expr.eval]⟩⟩
    · cases hp
  · exact ⟨_, List.mem_cons_self, rfl⟩

end ZQ.Circuits
