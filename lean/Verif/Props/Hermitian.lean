import Verif.Lemmas.NormalIndep
import Verif.Props.QubitOp

/-! # C44: Hermitian conjugation -/

namespace ZQ.Op

open PyDict

/-! ### Both classes: conjugation with a renaming of the terms -/

section
variable {A : Type} [DecidableEq A]

theorem keys_hc (κ : Term A → Term A) (o : Terms A) : keys (o.map fun kv => (κ kv.1, (starRingEnd ℂ) kv.2)) = (keys o).map κ := by
  rw [keys, keys, List.map_map, List.map_map]; rfl

theorem coeff_hc {κ : Term A → Term A} (hκ : ∀ t, κ (κ t) = t) (o : Terms A) (t : Term A) :
    coeff (o.map fun kv => (κ kv.1, (starRingEnd ℂ) kv.2)) t = (starRingEnd ℂ) (coeff o (κ t)) := by
  induction o with
  | nil => rw [List.map_nil, coeff_of_not_mem (by simp [keys]), coeff_of_not_mem (by simp [keys]), map_zero]
  | cons kv o ih =>
    obtain ⟨u, c⟩ := kv
    rw [List.map_cons, coeff_cons, coeff_cons, ih]
    by_cases h : κ u = t
    · rw [if_pos h, if_pos (by rw [← h, hκ])]
    · rw [if_neg h, if_neg (fun e => h (by rw [e, hκ]))]

theorem wf_hc {κ : Term A → Term A} (hκ : ∀ t, κ (κ t) = t) {o : Terms A} (h : WF o) : WF (o.map fun kv => (κ kv.1, (starRingEnd ℂ) kv.2)) := by
  rw [WF, keys_hc]
  exact h.map (fun a b e => by rw [← hκ a, e, hκ])

theorem ofItems_hc {κ : Term A → Term A} (hκ : ∀ t, κ (κ t) = t) {o : Terms A} (h : WF o) :
    ofItems (o.map fun kv => (κ kv.1, (starRingEnd ℂ) kv.2)) = o.map fun kv => (κ kv.1, (starRingEnd ℂ) kv.2) :=
  ofItems_eq_self (wf_hc hκ h)

/-- Coefficients of a product. -/
theorem coeff_mul (S : OpClass A) (a b : Terms A) (t : Term A) :
    coeff (mul S a b) t = (a.map fun l => (b.map fun r => if (S.simplify (l.1 ++ r.1) (l.2 * r.2)).2 = t
      then (S.simplify (l.1 ++ r.1) (l.2 * r.2)).1 else 0).sum).sum := by
  have row : ∀ (l : Term A × ℂ) (b res : Terms A), coeff (mulRow S l b res) t = coeff res t
      + (b.map fun r => if (S.simplify (l.1 ++ r.1) (l.2 * r.2)).2 = t then (S.simplify (l.1 ++ r.1) (l.2 * r.2)).1 else 0).sum := by
    intro l b
    induction b with
    | nil => intro res; simp [mulRow]
    | cons r b ih =>
      intro res
      show coeff (mulRow S l b (accum res (S.simplify (l.1 ++ r.1) (l.2 * r.2)).2 (S.simplify (l.1 ++ r.1) (l.2 * r.2)).1)) t = _
      rw [ih, coeff_accum, List.map_cons, List.sum_cons]
      ring
  have all : ∀ (a res : Terms A), coeff (a.foldl (fun res l => mulRow S l b res) res) t = coeff res t
      + (a.map fun l => (b.map fun r => if (S.simplify (l.1 ++ r.1) (l.2 * r.2)).2 = t then (S.simplify (l.1 ++ r.1) (l.2 * r.2)).1 else 0).sum).sum := by
    intro a
    induction a with
    | nil => intro res; simp
    | cons l a ih =>
      intro res
      rw [List.foldl_cons, ih, row, List.map_cons, List.sum_cons]
      ring
  rw [mul, all, coeff_of_not_mem (by simp [keys]), zero_add]

theorem sum_swap {ι κ : Type} (l : List ι) (m : List κ) (f : ι → κ → ℂ) :
    (l.map fun i => (m.map fun j => f i j).sum).sum = (m.map fun j => (l.map fun i => f i j).sum).sum := by
  induction l with
  | nil => simp
  | cons i l ih => simp only [List.map_cons, List.sum_cons, List.sum_map_add, ih]

end

theorem conjTerm_conjTerm (t : Term Bool) : conjTerm (conjTerm t) = t := by
  rw [conjTerm, conjTerm, ← List.map_reverse, List.map_map, List.reverse_reverse]
  have : ((fun f : ℕ × Bool => (f.1, !f.2)) ∘ fun f : ℕ × Bool => (f.1, !f.2)) = id := by
    funext f; simp
  rw [this, List.map_id]

theorem conjTerm_append (t u : Term Bool) : conjTerm (t ++ u) = conjTerm u ++ conjTerm t := by
  rw [conjTerm, List.reverse_append, List.map_append]; rfl

theorem hcFermion_eq {o : Terms Bool} (h : WF o) : hcFermion o = o.map fun kv => (conjTerm kv.1, (starRingEnd ℂ) kv.2) :=
  ofItems_hc conjTerm_conjTerm h

theorem hcQubit_eq {o : Terms Letter} (h : WF o) : hcQubit o = o.map fun kv => (kv.1, (starRingEnd ℂ) kv.2) :=
  ofItems_hc (κ := id) (fun _ => rfl) h

/-! ### The adjoint action -/

theorem isAdjoint_term_fermion (t : Term Bool) : IsAdjoint (termAction ladderAction t) (termAction ladderAction (conjTerm t)) := by
  induction t with
  | nil => exact IsAdjoint.one
  | cons f t ih =>
    have e : conjTerm (f :: t) = conjTerm t ++ [(f.1, !f.2)] := conjTerm_append [f] t
    rw [e, termAction_append, termAction_cons, termAction_cons, termAction_nil, mul_one]
    exact IsAdjoint.mul (rowFinite_ladder f) (rowFinite_term _ rowFinite_ladder _) (isAdjoint_ladder f) ih

/-- C44: the conjugate of a fermion operator acts as the adjoint. -/
theorem hcFermion_adjoint {o : Terms Bool} (h : WF o) : IsAdjoint (action ladderAction o) (action ladderAction (hcFermion o)) := by
  rw [hcFermion_eq h]
  clear h
  induction o with
  | nil => exact IsAdjoint.zero
  | cons kv o ih =>
    obtain ⟨t, c⟩ := kv
    rw [List.map_cons, action_cons, action_cons]
    exact ((isAdjoint_term_fermion t).smul c).add ih

theorem rowFinite_pauli (f : ℕ × Letter) : RowFinite (pauliAction f) := rowFinite_atQubit _ _

theorem isAdjoint_term_qubit {t : Term Letter} (h : Canonical t) : IsAdjoint (termAction pauliAction t) (termAction pauliAction t) := by
  have rev : ∀ t : Term Letter, IsAdjoint (termAction pauliAction t) (termAction pauliAction t.reverse) := by
    intro t
    induction t with
    | nil => exact IsAdjoint.one
    | cons f t ih =>
      rw [List.reverse_cons, termAction_append, termAction_cons, termAction_cons, termAction_nil, mul_one]
      exact IsAdjoint.mul (rowFinite_pauli f) (rowFinite_term _ rowFinite_pauli _) (isAdjoint_pauli f) ih
  have hrev : termAction pauliAction t.reverse = termAction pauliAction t := by
    have hp := h.1
    clear rev h
    induction t with
    | nil => rfl
    | cons f t ih =>
      rw [List.map_cons, List.pairwise_cons] at hp
      rw [List.reverse_cons, termAction_append, termAction_cons, termAction_cons, termAction_nil, mul_one, ih hp.2]
      have comm : ∀ u : Term Letter, (∀ g ∈ u, f.1 ≠ g.1) → termAction pauliAction u * pauliAction f = pauliAction f * termAction pauliAction u := by
        intro u
        induction u with
        | nil => intro _; rw [termAction_nil, one_mul, mul_one]
        | cons g u ihu =>
          intro hu
          rw [termAction_cons, mul_assoc, ihu (fun g' hg' => hu g' (List.mem_cons_of_mem _ hg')), ← mul_assoc, ← mul_assoc,
            pauliAction_comm (f := g) (g := f) (fun e => hu g (List.mem_cons_self ..) e.symm)]
      exact comm t (fun g hg => by have := hp.1 g.1 (List.mem_map_of_mem hg); omega)
  have := rev t
  rwa [hrev] at this

/-- C44: the conjugate of a qubit operator acts as the adjoint. -/
theorem hcQubit_adjoint {o : Terms Letter} (h : CanonicalOp o) : IsAdjoint (action pauliAction o) (action pauliAction (hcQubit o)) := by
  rw [hcQubit_eq h.1]
  have hc : ∀ kv ∈ o, Canonical kv.1 := fun kv hkv => h.2 kv.1 (List.mem_map_of_mem hkv)
  clear h
  induction o with
  | nil => exact IsAdjoint.zero
  | cons kv o ih =>
    obtain ⟨t, c⟩ := kv
    rw [List.map_cons, action_cons, action_cons]
    exact ((isAdjoint_term_qubit (hc (t, c) (List.mem_cons_self ..))).smul c).add (ih fun kv hkv => hc kv (List.mem_cons_of_mem _ hkv))

theorem hcQubit_canonical {o : Terms Letter} (h : CanonicalOp o) : CanonicalOp (hcQubit o) := by
  rw [hcQubit_eq h.1]
  refine ⟨wf_hc (κ := id) (fun _ => rfl) h.1, ?_⟩
  have := keys_hc (id : Term Letter → Term Letter) o
  rw [List.map_id] at this
  exact fun t ht => h.2 t (by rw [← this]; exact ht)

/-! ### Involution, conjugate linearity, products -/

/-- C44: conjugating twice gives the operator back (the same dictionary). -/
theorem hcFermion_involutive {o : Terms Bool} (h : WF o) : hcFermion (hcFermion o) = o := by
  rw [hcFermion_eq h, hcFermion_eq (wf_hc conjTerm_conjTerm h), List.map_map]
  conv_rhs => rw [← List.map_id o]
  exact List.map_congr_left fun kv _ => by
    show (conjTerm (conjTerm kv.1), _) = _
    rw [conjTerm_conjTerm]
    exact Prod.ext rfl (Complex.conj_conj _)

theorem hcQubit_involutive {o : Terms Letter} (h : WF o) : hcQubit (hcQubit o) = o := by
  have hw : WF (o.map fun kv => (kv.1, (starRingEnd ℂ) kv.2)) := wf_hc (κ := id) (fun _ => rfl) h
  rw [hcQubit_eq h, hcQubit_eq hw, List.map_map]
  conv_rhs => rw [← List.map_id o]
  exact List.map_congr_left fun kv _ => Prod.ext rfl (Complex.conj_conj _)

/-- C44: the coefficient of a term of the conjugate. -/
theorem hcFermion_coeff {o : Terms Bool} (h : WF o) (t : Term Bool) : coeff (hcFermion o) t = (starRingEnd ℂ) (coeff o (conjTerm t)) := by
  rw [hcFermion_eq h]; exact coeff_hc conjTerm_conjTerm o t

theorem hcQubit_coeff {o : Terms Letter} (h : WF o) (t : Term Letter) : coeff (hcQubit o) t = (starRingEnd ℂ) (coeff o t) := by
  rw [hcQubit_eq h]; exact coeff_hc (κ := id) (fun _ => rfl) o t

theorem wf_hcFermion {o : Terms Bool} (h : WF o) : WF (hcFermion o) := by rw [hcFermion_eq h]; exact wf_hc conjTerm_conjTerm h

theorem mem_keys_hcFermion {o : Terms Bool} (h : WF o) (t : Term Bool) : t ∈ keys (hcFermion o) ↔ conjTerm t ∈ keys o := by
  rw [hcFermion_eq h, keys_hc, List.mem_map]
  constructor
  · rintro ⟨u, hu, rfl⟩; rw [conjTerm_conjTerm]; exact hu
  · intro hu; exact ⟨_, hu, conjTerm_conjTerm t⟩

theorem norm_conj_add (x y : ℂ) : ‖(starRingEnd ℂ) x + (starRingEnd ℂ) y‖ = ‖x + y‖ := by rw [← map_add, Complex.norm_conj]

/-- C44: conjugation is conjugate-linear (fermion operators). -/
theorem hcFermion_linear {a b : Terms Bool} (ha : WF a) (hb : WF b) (c : ℂ) :
    (∀ t, coeff (hcFermion (add a b)) t = coeff (add (hcFermion a) (hcFermion b)) t) ∧
    hcFermion (smul a c) = smul (hcFermion a) ((starRingEnd ℂ) c) := by
  obtain ⟨h1, h2, _⟩ := add_coeff ha hb
  obtain ⟨g1, g2, _⟩ := add_coeff (wf_hcFermion ha) (wf_hcFermion hb)
  refine ⟨fun t => ?_, ?_⟩
  · rw [hcFermion_coeff h1, g2, h2, hcFermion_coeff ha, hcFermion_coeff hb]
    have small : IsSmall ((starRingEnd ℂ) (coeff a (conjTerm t)) + (starRingEnd ℂ) (coeff b (conjTerm t))) eqTol
        ↔ IsSmall (coeff a (conjTerm t) + coeff b (conjTerm t)) eqTol := by rw [IsSmall, IsSmall, norm_conj_add]
    have hk := mem_keys_hcFermion hb t
    by_cases k : conjTerm t ∈ keys b
    · rw [if_pos k, if_pos (hk.2 k)]
      by_cases s : IsSmall (coeff a (conjTerm t) + coeff b (conjTerm t)) eqTol
      · rw [if_pos s, if_pos (small.2 s), map_zero]
      · rw [if_neg s, if_neg (fun x => s (small.1 x)), map_add]
    · rw [if_neg k, if_neg (fun x => k (hk.1 x))]
  · have ws : WF (smul a c) := by rw [WF, keys_smul]; exact ha
    rw [hcFermion_eq ws, hcFermion_eq ha, smul, smul, List.map_map, List.map_map]
    exact List.map_congr_left fun kv _ => Prod.ext rfl (map_mul _ _ _)

/-- C44: conjugation is conjugate-linear (qubit operators). -/
theorem hcQubit_linear {a b : Terms Letter} (ha : WF a) (hb : WF b) (c : ℂ) :
    (∀ t, coeff (hcQubit (add a b)) t = coeff (add (hcQubit a) (hcQubit b)) t) ∧
    hcQubit (smul a c) = smul (hcQubit a) ((starRingEnd ℂ) c) := by
  have wa : WF (hcQubit a) := by rw [hcQubit_eq ha]; exact wf_hc (κ := id) (fun _ => rfl) ha
  have wb : WF (hcQubit b) := by rw [hcQubit_eq hb]; exact wf_hc (κ := id) (fun _ => rfl) hb
  have hk : keys (hcQubit b) = keys b := by
    have := keys_hc (id : Term Letter → Term Letter) b
    rw [List.map_id] at this
    rw [hcQubit_eq hb]; exact this
  obtain ⟨h1, h2, _⟩ := add_coeff ha hb
  obtain ⟨g1, g2, _⟩ := add_coeff wa wb
  refine ⟨fun t => ?_, ?_⟩
  · rw [hcQubit_coeff h1, g2, h2, hcQubit_coeff ha, hcQubit_coeff hb, hk]
    have small : IsSmall ((starRingEnd ℂ) (coeff a t) + (starRingEnd ℂ) (coeff b t)) eqTol ↔ IsSmall (coeff a t + coeff b t) eqTol := by
      rw [IsSmall, IsSmall, norm_conj_add]
    by_cases k : t ∈ keys b
    · rw [if_pos k, if_pos k]
      by_cases s : IsSmall (coeff a t + coeff b t) eqTol
      · rw [if_pos s, if_pos (small.2 s), map_zero]
      · rw [if_neg s, if_neg (fun x => s (small.1 x)), map_add]
    · rw [if_neg k, if_neg k]
  · have ws : WF (smul a c) := by rw [WF, keys_smul]; exact ha
    rw [hcQubit_eq ws, hcQubit_eq ha, smul, smul, List.map_map, List.map_map]
    exact List.map_congr_left fun kv _ => Prod.ext rfl (map_mul _ _ _)

/-- C44: conjugation reverses products (fermion operators). -/
theorem hcFermion_mul {a b : Terms Bool} (ha : WF a) (hb : WF b) (t : Term Bool) :
    coeff (hcFermion (mul fermion a b)) t = coeff (mul fermion (hcFermion b) (hcFermion a)) t := by
  rw [hcFermion_coeff (wf_mul _ _ _), coeff_mul, coeff_mul, hcFermion_eq ha, hcFermion_eq hb]
  simp only [List.map_map]
  rw [sum_swap, ← List.sum_hom _ (starRingEnd ℂ), List.map_map]
  congr 1
  refine List.map_congr_left fun r _ => ?_
  show (starRingEnd ℂ) (List.sum _) = _
  rw [← List.sum_hom _ (starRingEnd ℂ), List.map_map]
  show _ = List.sum _
  congr 1
  refine List.map_congr_left fun l _ => ?_
  show (starRingEnd ℂ) (if l.1 ++ r.1 = conjTerm t then l.2 * r.2 else 0)
    = if conjTerm r.1 ++ conjTerm l.1 = t then (starRingEnd ℂ) r.2 * (starRingEnd ℂ) l.2 else 0
  have : l.1 ++ r.1 = conjTerm t ↔ conjTerm r.1 ++ conjTerm l.1 = t := by
    rw [← conjTerm_append]
    constructor
    · intro h; rw [h, conjTerm_conjTerm]
    · intro h; rw [← h, conjTerm_conjTerm]
  by_cases h : l.1 ++ r.1 = conjTerm t
  · rw [if_pos h, if_pos (this.1 h), map_mul, mul_comm]
  · rw [if_neg h, if_neg (fun x => h (this.2 x)), map_zero]

/-- C44: conjugation reverses products (qubit operators). -/
theorem hcQubit_mul {a b : Terms Letter} (ha : CanonicalOp a) (hb : CanonicalOp b) (t : Term Letter) :
    coeff (hcQubit (mul qubit a b)) t = coeff (mul qubit (hcQubit b) (hcQubit a)) t := by
  have hab : CanonicalOp (mul qubit a b) := qubit_product_canonical a b
  refine canonical_unique (hcQubit_canonical hab) (qubit_product_canonical _ _) ?_ t
  refine IsAdjoint.unique (A := action pauliAction (mul qubit a b)) (rowFinite_action _ rowFinite_pauli _) (rowFinite_action _ rowFinite_pauli _)
    (hcQubit_adjoint hab) ?_
  rw [qubit_product_action, qubit_product_action]
  exact IsAdjoint.mul (rowFinite_action _ rowFinite_pauli _) (rowFinite_action _ rowFinite_pauli _) (hcQubit_adjoint ha) (hcQubit_adjoint hb)

/-! ### `is_hermitian` -/

theorem isCommon_exists {A : Type} [DecidableEq A] {a b : Terms A} (ha : WF a) : ∃ common, IsCommon a b common :=
  ⟨(keys a).filter (fun t => decide (t ∈ keys b)), List.Nodup.filter _ ha, fun t => by simp⟩

/-- C44: a qubit operator with a self-adjoint action is reported Hermitian; all its coefficients are real. -/
theorem isHermitianQubit_of_selfadjoint {o : Terms Letter} (h : CanonicalOp o) (common : List (Term Letter)) (hcom : IsCommon o (hcQubit o) common)
    (hs : IsAdjoint (action pauliAction o) (action pauliAction o)) : isHermitianQubit o common = true ∧ ∀ t, (starRingEnd ℂ) (coeff o t) = coeff o t := by
  have hact : action pauliAction (hcQubit o) = action pauliAction o :=
    IsAdjoint.unique (rowFinite_action _ rowFinite_pauli _) (rowFinite_action _ rowFinite_pauli _) (hcQubit_adjoint h) hs
  have hreal : ∀ t, (starRingEnd ℂ) (coeff o t) = coeff o t := fun t => by
    rw [← hcQubit_coeff h.1]; exact canonical_unique (hcQubit_canonical h) h hact t
  refine ⟨?_, hreal⟩
  have : hcQubit o = o := by
    rw [hcQubit_eq h.1]
    conv_rhs => rw [← List.map_id o]
    refine List.map_congr_left fun kv hkv => Prod.ext rfl ?_
    have := hreal kv.1
    rw [coeff_of_mem h.1 (show (kv.1, kv.2) ∈ o from hkv)] at this
    exact this
  rw [isHermitianQubit, this]
  rw [this] at hcom
  exact isclose_refl h.1 common hcom

/-- C44, converse for coefficients of modulus at most one (see C43 for why larger ones are excluded): a qubit operator reported Hermitian has
coefficients with imaginary part below half the tolerance. -/
theorem isHermitianQubit_sound_partial {o : Terms Letter} (h : CanonicalOp o) (common : List (Term Letter)) (hcom : IsCommon o (hcQubit o) common)
    (hu : ∀ t, ‖coeff o t‖ ≤ 1) : isHermitianQubit o common = true ↔ ∀ t, ‖coeff o t - (starRingEnd ℂ) (coeff o t)‖ < 1 / 10 ^ 8 := by
  rw [isHermitianQubit, isclose_iff_of_unit h.1 (hcQubit_canonical h).1 common hcom
    (fun t => ⟨hu t, by rw [hcQubit_coeff h.1, Complex.norm_conj]; exact hu t⟩)]
  simp only [hcQubit_coeff h.1]

theorem Grid.conj {δ : ℝ} {z : ℂ} (h : z ∈ Grid δ) : (starRingEnd ℂ) z ∈ Grid δ := by
  obtain ⟨m, n, rfl⟩ := h
  exact ⟨m, -n, by simp⟩

/-- Normal ordered forms are unique: operators with the same action (and coefficients on a common grid) have equal normal forms. -/
theorem normalOrdered_unique {a b : Terms Bool} (δ : ℝ) (hδ : 1 / 10 ^ 8 ≤ δ) (ga : ∀ kv ∈ a, kv.2 ∈ Grid δ) (gb : ∀ kv ∈ b, kv.2 ∈ Grid δ) :
    (∀ t, coeff (normalOrdered a) t = coeff (normalOrdered b) t) ↔ action ladderAction a = action ladderAction b := by
  obtain ⟨wa, na, _⟩ := normalOrdered_ordered a
  obtain ⟨wb, nb, _⟩ := normalOrdered_ordered b
  rw [← normalOrdered_action a δ hδ ga, ← normalOrdered_action b δ hδ gb]
  constructor
  · intro h; exact action_eq_of_coeff _ wa wb h
  · intro h t; exact normal_unique wa wb na nb h t

theorem grid_hcFermion {o : Terms Bool} (h : WF o) {δ : ℝ} (hg : ∀ kv ∈ o, kv.2 ∈ Grid δ) : ∀ kv ∈ hcFermion o, kv.2 ∈ Grid δ := by
  intro kv hkv
  rw [hcFermion_eq h] at hkv
  obtain ⟨kv', h', rfl⟩ := List.mem_map.1 hkv
  exact Grid.conj (hg kv' h')

/-- C44: a fermion operator (coefficients on a grid) with a self-adjoint action is reported Hermitian. -/
theorem isHermitianFermion_of_selfadjoint {o : Terms Bool} (h : WF o) (δ : ℝ) (hδ : 1 / 10 ^ 8 ≤ δ) (hg : ∀ kv ∈ o, kv.2 ∈ Grid δ)
    (common : List (Term Bool)) (hcom : IsCommon (normalOrdered o) (normalOrdered (hcFermion o)) common)
    (hs : IsAdjoint (action ladderAction o) (action ladderAction o)) : isHermitianFermion o common = true := by
  have hact : action ladderAction o = action ladderAction (hcFermion o) :=
    IsAdjoint.unique (rowFinite_action _ rowFinite_ladder _) (rowFinite_action _ rowFinite_ladder _) hs (hcFermion_adjoint h)
  have hc := (normalOrdered_unique δ hδ hg (grid_hcFermion h hg)).2 hact
  have w1 := (normalOrdered_ordered o).1
  have w2 := (normalOrdered_ordered (hcFermion o)).1
  refine isclose_of_close_partial w1 w2 common hcom (fun t _ _ => ?_) (fun t _ => ?_)
  · rw [hc t, sub_self, norm_zero]
    exact mul_pos eqTol_pos (lt_of_lt_of_le one_pos (le_max_left _ _))
  · rw [hc t, sub_self, norm_zero]; exact eqTol_pos

/-- C44, converse when the normal ordered coefficients have modulus at most one: then `is_hermitian` means exactly self-adjoint. -/
theorem isHermitianFermion_iff_partial {o : Terms Bool} (h : WF o) (δ : ℝ) (hδ : 1 / 10 ^ 8 ≤ δ) (hg : ∀ kv ∈ o, kv.2 ∈ Grid δ)
    (common : List (Term Bool)) (hcom : IsCommon (normalOrdered o) (normalOrdered (hcFermion o)) common)
    (hu : ∀ t, ‖coeff (normalOrdered o) t‖ ≤ 1 ∧ ‖coeff (normalOrdered (hcFermion o)) t‖ ≤ 1) :
    isHermitianFermion o common = true ↔ IsAdjoint (action ladderAction o) (action ladderAction o) := by
  refine ⟨fun hh => ?_, isHermitianFermion_of_selfadjoint h δ hδ hg common hcom⟩
  have w1 := (normalOrdered_ordered o).1
  have w2 := (normalOrdered_ordered (hcFermion o)).1
  have hclose := (isclose_iff_of_unit w1 w2 common hcom hu).1 hh
  have g1 : OnGrid δ (normalOrdered o) := (foldl_add_onGrid hδ o (fun kv => normalOrderedTerm kv.1 kv.2) [] wf_nil (OnGrid.nil δ)
    (fun kv hkv => ⟨(normalOrderedTerm_spec kv.1 kv.2).1, ((normalOrderedTerm_spec kv.1 kv.2).2.2.1 δ hδ (hg kv hkv)).1⟩)).2.1
  have g2 : OnGrid δ (normalOrdered (hcFermion o)) := (foldl_add_onGrid hδ (hcFermion o) (fun kv => normalOrderedTerm kv.1 kv.2) [] wf_nil (OnGrid.nil δ)
    (fun kv hkv => ⟨(normalOrderedTerm_spec kv.1 kv.2).1,
      ((normalOrderedTerm_spec kv.1 kv.2).2.2.1 δ hδ (grid_hcFermion h hg kv hkv)).1⟩)).2.1
  have heq : ∀ t, coeff (normalOrdered o) t = coeff (normalOrdered (hcFermion o)) t := by
    intro t
    by_contra hne
    have := Grid.norm_ge (le_trans (by norm_num) hδ) ((Grid δ).sub_mem (g1 t) (g2 t)) (sub_ne_zero.2 hne)
    exact absurd (hclose t) (not_lt.2 (hδ.trans this))
  have hact := (normalOrdered_unique δ hδ hg (grid_hcFermion h hg)).1 heq
  have := hcFermion_adjoint h
  rwa [← hact] at this

/-- C44: `is_hermitian` is not exact: `10^9 a†_1 a_1 + (1/2) a†_0` is reported Hermitian, whatever the iteration order of the common terms, although
its action is not self-adjoint (the tolerance inherited from the large coefficient hides the difference, see C43). -/
theorem isHermitian_counterexample :
    let o : Terms Bool := [([(1, true), (1, false)], 10 ^ 9), ([(0, true)], 1 / 2)]
    WF o ∧ (∀ common, IsCommon (normalOrdered o) (normalOrdered (hcFermion o)) common → isHermitianFermion o common = true) ∧
    ¬ IsAdjoint (action ladderAction o) (action ladderAction o) := by
  intro o
  have hw : WF o := by simp [o, WF, keys]
  have b9 : ¬ ‖(10 ^ 9 : ℂ)‖ < 1 / 10 ^ 8 := by norm_num
  have bh : ¬ ‖(1 / 2 : ℂ)‖ < 1 / 10 ^ 8 := by norm_num
  have hc : hcFermion o = [([(1, true), (1, false)], 10 ^ 9), ([(0, false)], 1 / 2)] := by
    rw [hcFermion_eq hw]
    have k9 : (starRingEnd ℂ) (10 ^ 9 : ℂ) = 10 ^ 9 := by rw [map_pow, Complex.conj_ofNat]
    have kh : (starRingEnd ℂ) (1 / 2 : ℂ) = 1 / 2 := by rw [map_div₀, map_one, Complex.conj_ofNat]
    show [(_, (starRingEnd ℂ) (10 ^ 9 : ℂ)), (_, (starRingEnd ℂ) (1 / 2 : ℂ))] = _
    rw [k9, kh]
    rfl
  have n2 : NormalTerm [(1, true), (1, false)] := by simp [NormalTerm, Before]
  have n1 : ∀ b : Bool, NormalTerm [(0, b)] := fun b => by simp [NormalTerm]
  have e1 : normalOrdered o = o := normalOrdered_fixed hw
    (fun t ht => by simp [o, keys] at ht; rcases ht with rfl | rfl; exact n2; exact n1 _)
    (fun kv hkv => by simp [o] at hkv; rcases hkv with rfl | rfl; exact b9; simpa using bh)
  have e2 : normalOrdered (hcFermion o) = [([(1, true), (1, false)], 10 ^ 9), ([(0, false)], 1 / 2)] := by
    rw [hc]
    exact normalOrdered_fixed (by simp [WF, keys])
      (fun t ht => by simp [keys] at ht; rcases ht with rfl | rfl; exact n2; exact n1 _)
      (fun kv hkv => by simp at hkv; rcases hkv with rfl | rfl; exact b9; simpa using bh)
  refine ⟨hw, fun common hcom => ?_, fun hadj => ?_⟩
  · rw [isHermitianFermion, e1, e2]
    rw [e1, e2] at hcom
    have hcomm : common = [[(1, true), (1, false)]] := by
      have hmem : ∀ t, t ∈ common ↔ t = [(1, true), (1, false)] := by
        intro t
        rw [hcom.2]
        simp only [o, keys, List.map_cons, List.map_nil, List.mem_cons, List.not_mem_nil, or_false]
        constructor
        · rintro ⟨h1 | h1, h2 | h2⟩
          · exact h1
          · exact h1
          · exact h2
          · rw [h1] at h2; simp at h2
        · rintro rfl; simp
      have hn := hcom.1
      match common, hmem, hn with
      | [], hmem, _ => exact absurd ((hmem _).2 rfl) (by simp)
      | [x], hmem, _ => rw [(hmem x).1 (by simp)]
      | x :: y :: l, hmem, hn =>
        have h1 := (hmem x).1 (by simp)
        have h2 := (hmem y).1 (by simp)
        rw [h1, h2] at hn
        simp at hn
    have c1 : coeff o [(1, true), (1, false)] = 10 ^ 9 := by simp [o, coeff, get?]
    have c2 : coeff ([([(1, true), (1, false)], 10 ^ 9), ([(0, false)], 1 / 2)] : Terms Bool) [(1, true), (1, false)] = 10 ^ 9 := by
      simp [coeff, get?]
    have hn9 : ‖(10 ^ 9 : ℂ)‖ = 10 ^ 9 := by norm_num
    have hmax : max (1 : ℝ) (max (10 ^ 9) (10 ^ 9)) = 10 ^ 9 := by norm_num
    have hloop : iscloseLoop o [([(1, true), (1, false)], 10 ^ 9), ([(0, false)], 1 / 2)] common eqTol = some (eqTol * 10 ^ 9) := by
      rw [hcomm, iscloseLoop, c1, c2, hn9, hmax]
      rw [if_pos (by rw [IsSmall, sub_self, norm_zero, eqTol]; norm_num)]
      rfl
    rw [isclose, hloop]
    have small : IsSmall (1 / 2 : ℂ) (eqTol * 10 ^ 9) := by rw [IsSmall, eqTol]; norm_num
    dsimp only
    rw [Bool.and_eq_true, List.all_eq_true, List.all_eq_true]
    constructor
    · intro kv hkv
      simp only [o, List.mem_cons, List.not_mem_nil, or_false] at hkv
      rcases hkv with rfl | rfl
      · exact decide_eq_true (Or.inl (by simp [keys]))
      · exact decide_eq_true (Or.inr small)
    · intro kv hkv
      simp only [List.mem_cons, List.not_mem_nil, or_false] at hkv
      rcases hkv with rfl | rfl
      · exact decide_eq_true (Or.inl (by simp [o, keys]))
      · exact decide_eq_true (Or.inr small)
  · have hact : action ladderAction o = action ladderAction (hcFermion o) :=
      IsAdjoint.unique (rowFinite_action _ rowFinite_ladder _) (rowFinite_action _ rowFinite_ladder _) hadj (hcFermion_adjoint hw)
    have := normal_unique (a := o) (b := hcFermion o) hw (wf_hcFermion hw)
      (fun t ht => (normalOrdered_ordered o).2.1 t (by rw [e1]; exact ht))
      (fun t ht => (normalOrdered_ordered (hcFermion o)).2.1 t (by rw [e2, ← hc]; exact ht)) hact [(0, true)]
    rw [hc] at this
    simp [o, coeff, get?] at this

/-- A non-trivial self-adjoint operator: `i a†_0 a_1 - i a†_1 a_0` equals its conjugate and meets the hypotheses above. -/
example : WF ([([(0, true), (1, false)], Complex.I), ([(1, true), (0, false)], -Complex.I)] : Terms Bool) ∧
    ∀ kv ∈ ([([(0, true), (1, false)], Complex.I), ([(1, true), (0, false)], -Complex.I)] : Terms Bool), kv.2 ∈ Grid 1 := by
  refine ⟨by simp [WF, keys], fun kv hkv => ?_⟩
  simp only [List.mem_cons, List.not_mem_nil, or_false] at hkv
  rcases hkv with rfl | rfl
  · exact ⟨0, 1, by simp⟩
  · exact ⟨0, -1, by simp⟩

end ZQ.Op
