import Verif.Lemmas.StandsFor
import Verif.Props.QubitOp
import Verif.Props.Hermitian
import Verif.Lemmas.PauliSets

/-! Products of qubit operators whose coefficients are only approximately known. -/

namespace ZQ.Op

open PyDict

/-- The sum of the absolute values of the coefficients. -/
noncomputable def l1 (o : Terms Letter) : ℝ := (o.map fun kv => ‖kv.2‖).sum

theorem l1_nonneg (o : Terms Letter) : 0 ≤ l1 o := List.sum_nonneg fun x hx => by
  obtain ⟨kv, _, rfl⟩ := List.mem_map.1 hx
  exact norm_nonneg _

theorem qubitSimplify_phase (t : Term Letter) : ∃ u : Term Letter, ∃ φ : ℂ, ‖φ‖ = 1 ∧ ∀ c, qubitSimplify t c = (c * φ, u) := by
  have loop : ∀ (rest : Term Letter) (left : ℕ × Letter) (acc : Term Letter), ∃ u : Term Letter, ∃ φ : ℂ, ‖φ‖ = 1 ∧
      ∀ c, simplifyLoop left rest c acc = (c * φ, u) := by
    intro rest
    induction rest with
    | nil => intro left acc; exact ⟨_, 1, norm_one, fun c => by rw [simplifyLoop, mul_one]⟩
    | cons r rest ih =>
      intro left acc
      by_cases h : left.1 = r.1
      · obtain ⟨u, φ, h1, h2⟩ := ih (left.1, (pauliProduct left.2 r.2).2) acc
        refine ⟨u, (pauliProduct left.2 r.2).1 * φ, ?_, fun c => by rw [simplifyLoop, if_pos h, h2, mul_assoc]⟩
        have : ∀ a b : Letter, ‖(pauliProduct a b).1‖ = 1 := by intro a b; cases a <;> cases b <;> simp [pauliProduct]
        rw [norm_mul, this, h1, mul_one]
      · obtain ⟨u, φ, h1, h2⟩ := ih r (if left.2 ≠ .I then acc ++ [left] else acc)
        exact ⟨u, φ, h1, fun c => by rw [simplifyLoop, if_neg h, h2]⟩
  simp only [qubitSimplify]
  cases sortByIndex t with
  | nil => exact ⟨[], 1, norm_one, fun c => by simp⟩
  | cons f rest => exact loop rest f []

theorem qubitSimplify_norm_eq (t : Term Letter) (c : ℂ) : ‖(qubitSimplify t c).1‖ = ‖c‖ := by
  obtain ⟨u, φ, h1, h2⟩ := qubitSimplify_phase t
  rw [h2, norm_mul, h1, mul_one]

theorem qubitSimplify_key (t : Term Letter) (c d : ℂ) : (qubitSimplify t c).2 = (qubitSimplify t d).2 := by
  obtain ⟨u, φ, h1, h2⟩ := qubitSimplify_phase t
  rw [h2, h2]

theorem termAction_reverse (t : Term Letter) : termAction pauliAction t * termAction pauliAction t.reverse = 1 ∧
    termAction pauliAction t.reverse * termAction pauliAction t = 1 := by
  induction t with
  | nil => rw [List.reverse_nil, termAction_nil, mul_one]; exact ⟨rfl, rfl⟩
  | cons f t ih =>
    have e : termAction pauliAction (f :: t).reverse = termAction pauliAction t.reverse * pauliAction f := by
      rw [List.reverse_cons, termAction_append, termAction_cons, termAction_nil, mul_one]
    rw [e, termAction_cons]
    constructor
    · rw [mul_assoc, ← mul_assoc (termAction pauliAction t), ih.1, one_mul, pauliAction_sq]
    · rw [mul_assoc, ← mul_assoc (pauliAction f), pauliAction_sq, one_mul, ih.2]

/-- Canonical terms with proportional actions are equal. -/
theorem canonical_inj {t u : Term Letter} (ht : Canonical t) (hu : Canonical u) {x y : ℂ} (hx : x ≠ 0)
    (h : x • termAction pauliAction t = y • termAction pauliAction u) : t = u := by
  by_contra hne
  have hc : ∀ {v : Term Letter}, Canonical v → ∀ z : ℂ, CanonicalOp [(v, z)] := fun hv z => ⟨wf_single _ _, fun w hw => by
    rw [keys, List.map_singleton, List.mem_singleton] at hw; rw [hw]; exact hv⟩
  have e := canonical_unique (hc ht x) (hc hu y) (by rw [action_cons, action_nil, add_zero, action_cons, action_nil, add_zero]; exact h) t
  rw [coeff_cons, coeff_cons, if_pos rfl, if_neg (Ne.symm hne), coeff_of_not_mem (by simp [keys])] at e
  exact hx e

theorem simplify_inj_left {l l' r : Term Letter} (hl : Canonical l) (hl' : Canonical l') {c d : ℂ}
    (h : (qubitSimplify (l ++ r) c).2 = (qubitSimplify (l' ++ r) d).2) : l = l' := by
  obtain ⟨u, φ, p1, p2⟩ := qubitSimplify_phase (l ++ r)
  obtain ⟨v, χ, q1, q2⟩ := qubitSimplify_phase (l' ++ r)
  rw [p2, q2] at h
  change u = v at h
  subst h
  have e1 := qubit_sound (l ++ r) 1 trivial
  have e2 := qubit_sound (l' ++ r) 1 trivial
  change (qubitSimplify (l ++ r) 1).1 • termAction pauliAction (qubitSimplify (l ++ r) 1).2 = _ at e1
  change (qubitSimplify (l' ++ r) 1).1 • termAction pauliAction (qubitSimplify (l' ++ r) 1).2 = _ at e2
  rw [p2, one_mul, one_smul, termAction_append] at e1
  rw [q2, one_mul, one_smul, termAction_append] at e2
  refine canonical_inj hl hl' (x := χ) (y := φ) (by rintro rfl; simp at q1) ?_
  have f1 := congrArg (· * termAction pauliAction r.reverse) e1
  have f2 := congrArg (· * termAction pauliAction r.reverse) e2
  simp only [mul_assoc, (termAction_reverse r).1, mul_one] at f1 f2
  rw [← f1, ← f2, smul_mul_assoc, smul_mul_assoc, smul_smul, smul_smul, mul_comm]

theorem simplify_inj_right {l l' r : Term Letter} (hl : Canonical l) (hl' : Canonical l') {c d : ℂ}
    (h : (qubitSimplify (r ++ l) c).2 = (qubitSimplify (r ++ l') d).2) : l = l' := by
  obtain ⟨u, φ, p1, p2⟩ := qubitSimplify_phase (r ++ l)
  obtain ⟨v, χ, q1, q2⟩ := qubitSimplify_phase (r ++ l')
  rw [p2, q2] at h
  change u = v at h
  subst h
  have e1 := qubit_sound (r ++ l) 1 trivial
  have e2 := qubit_sound (r ++ l') 1 trivial
  change (qubitSimplify (r ++ l) 1).1 • termAction pauliAction (qubitSimplify (r ++ l) 1).2 = _ at e1
  change (qubitSimplify (r ++ l') 1).1 • termAction pauliAction (qubitSimplify (r ++ l') 1).2 = _ at e2
  rw [p2, one_mul, one_smul, termAction_append] at e1
  rw [q2, one_mul, one_smul, termAction_append] at e2
  refine canonical_inj hl hl' (x := χ) (y := φ) (by rintro rfl; simp at q1) ?_
  have f1 := congrArg (termAction pauliAction r.reverse * ·) e1
  have f2 := congrArg (termAction pauliAction r.reverse * ·) e2
  simp only [← mul_assoc, (termAction_reverse r).2, one_mul] at f1 f2
  rw [← f1, ← f2, mul_smul_comm, mul_smul_comm, smul_smul, smul_smul, mul_comm]

/-- A sum over a list with distinct keys in which at most one summand is not zero. -/
theorem norm_sum_le_of_unique {ε : ℝ} (hε : 0 ≤ ε) (f : Term Letter × ℂ → ℂ) {a : Terms Letter} (ha : WF a) (hf : ∀ kv ∈ a, ‖f kv‖ ≤ ε)
    (hu : ∀ kv ∈ a, ∀ kv' ∈ a, f kv ≠ 0 → f kv' ≠ 0 → kv.1 = kv'.1) : ‖(a.map f).sum‖ ≤ ε := by
  induction a with
  | nil => simpa using hε
  | cons kv a ih =>
    have hn := List.nodup_cons.1 (show (kv.1 :: keys a).Nodup from ha)
    rw [List.map_cons, List.sum_cons]
    by_cases h0 : f kv = 0
    · rw [h0, zero_add]
      exact ih hn.2 (fun x hx => hf x (List.mem_cons_of_mem _ hx)) fun x hx y hy => hu x (List.mem_cons_of_mem _ hx) y (List.mem_cons_of_mem _ hy)
    · have : (a.map f).sum = 0 := by
        apply List.sum_eq_zero
        intro x hx
        obtain ⟨y, hy, rfl⟩ := List.mem_map.1 hx
        by_contra hy0
        exact hn.1 (hu kv (List.mem_cons_self ..) y (List.mem_cons_of_mem _ hy) h0 hy0 ▸ List.mem_map_of_mem hy)
      rw [this, add_zero]
      exact hf kv (List.mem_cons_self ..)

theorem norm_list_sum_le {ι : Type} (l : List ι) (f : ι → ℂ) (g : ι → ℝ) (h : ∀ i ∈ l, ‖f i‖ ≤ g i) : ‖(l.map f).sum‖ ≤ (l.map g).sum := by
  induction l with
  | nil => simp
  | cons i l ih =>
    rw [List.map_cons, List.sum_cons, List.map_cons, List.sum_cons]
    exact (norm_add_le _ _).trans (add_le_add (h i (List.mem_cons_self ..)) (ih fun j hj => h j (List.mem_cons_of_mem _ hj)))

theorem coeff_mul_le_left {a : Terms Letter} (ha : CanonicalOp a) {ε : ℝ} (h : ∀ t, ‖coeff a t‖ ≤ ε) (b : Terms Letter) (t : Term Letter) :
    ‖coeff (mul qubit a b) t‖ ≤ ε * l1 b := by
  have hε : 0 ≤ ε := (norm_nonneg _).trans (h [])
  rw [coeff_mul, sum_swap, l1, ← List.sum_map_mul_left]
  refine norm_list_sum_le _ _ _ fun r _ => ?_
  refine norm_sum_le_of_unique (mul_nonneg hε (norm_nonneg _)) (fun l : Term Letter × ℂ => if (qubit.simplify (l.1 ++ r.1) (l.2 * r.2)).2 = t
    then (qubit.simplify (l.1 ++ r.1) (l.2 * r.2)).1 else 0) ha.1 (fun l hl => ?_) fun l hl l' hl' h1 h2 => ?_
  · split
    · refine (le_of_eq (qubitSimplify_norm_eq _ _)).trans ?_
      rw [norm_mul]
      refine mul_le_mul_of_nonneg_right ?_ (norm_nonneg _)
      have := h l.1
      rwa [coeff_of_mem ha.1 hl] at this
    · rw [norm_zero]; exact mul_nonneg hε (norm_nonneg _)
  · have k1 := of_not_not fun hc => h1 (if_neg hc)
    have k2 := of_not_not fun hc => h2 (if_neg hc)
    exact simplify_inj_left (ha.2 _ (List.mem_map_of_mem hl)) (ha.2 _ (List.mem_map_of_mem hl')) (k1.trans k2.symm)

theorem coeff_mul_le_right {b : Terms Letter} (hb : CanonicalOp b) {ε : ℝ} (h : ∀ t, ‖coeff b t‖ ≤ ε) (a : Terms Letter) (t : Term Letter) :
    ‖coeff (mul qubit a b) t‖ ≤ l1 a * ε := by
  have hε : 0 ≤ ε := (norm_nonneg _).trans (h [])
  rw [coeff_mul, l1, ← List.sum_map_mul_right]
  refine norm_list_sum_le _ _ _ fun l _ => ?_
  refine norm_sum_le_of_unique (mul_nonneg (norm_nonneg _) hε) (fun r : Term Letter × ℂ => if (qubit.simplify (l.1 ++ r.1) (l.2 * r.2)).2 = t
    then (qubit.simplify (l.1 ++ r.1) (l.2 * r.2)).1 else 0) hb.1 (fun r hr => ?_) fun r hr r' hr' h1 h2 => ?_
  · split
    · refine (le_of_eq (qubitSimplify_norm_eq _ _)).trans ?_
      rw [norm_mul]
      refine mul_le_mul_of_nonneg_left ?_ (norm_nonneg _)
      have := h r.1
      rwa [coeff_of_mem hb.1 hr] at this
    · rw [norm_zero]; exact mul_nonneg (norm_nonneg _) hε
  · have k1 := of_not_not fun hc => h1 (if_neg hc)
    have k2 := of_not_not fun hc => h2 (if_neg hc)
    exact simplify_inj_right (hb.2 _ (List.mem_map_of_mem hr)) (hb.2 _ (List.mem_map_of_mem hr')) (k1.trans k2.symm)

/-- The difference of two operators. -/
theorem difference {a E : Terms Letter} (ha : CanonicalOp a) (hE : CanonicalOp E) : ∃ D : Terms Letter, CanonicalOp D ∧
    action pauliAction a = action pauliAction E + action pauliAction D ∧ ∀ t, coeff D t = coeff a t - coeff E t := by
  have hk : keys (Op.neg E) = keys E := (neg_spec E).1
  have hw : WF (Op.neg E) := by rw [WF, hk]; exact hE.1
  obtain ⟨x1, x2, x3, x4⟩ := exactAdd_spec ha.1 hw
  refine ⟨exactAdd a (Op.neg E), ⟨x1, fun t ht => ((x4 t).1 ht).elim (ha.2 t) fun h => hE.2 t (by rwa [hk] at h)⟩, ?_, fun t => ?_⟩
  · rw [x2, Op.neg, action_smul]; module
  · rw [x3, (neg_spec E).2]; ring

theorem onGrid_mul {δ γ : ℝ} {a b : Terms Letter} (wa : WF a) (wb : WF b) (ha : OnGrid γ a) (hb : ∀ t, ∀ z ∈ Grid γ, z * coeff b t ∈ Grid δ) : OnGrid δ (mul qubit a b) := by
  intro t
  refine coeff_mul_mem qubit (Grid δ) a b (fun l hl r hr => qubitSimplify_mem _ ?_) t
  rw [← coeff_of_mem wa hl, ← coeff_of_mem wb hr]
  exact hb _ _ (ha _)

theorem StandsFor.mul_right {G : Prop} {δ γ : ℝ} {n : ℕ} {a b : Terms Letter} {M : Module.End ℂ State} (ha : StandsFor pauliAction Canonical G γ n a M)
    (hb : CanonicalOp b) (h1 : l1 b ≤ 1) (hg : ∀ t, ∀ z ∈ Grid γ, z * coeff b t ∈ Grid δ) :
    StandsFor pauliAction Canonical G δ n (mul qubit a b) (M * action pauliAction b) := by
  obtain ⟨w, hP, ⟨E, e1, e2, e3, e4⟩, hx⟩ := ha
  refine ⟨(qubit_product_canonical a b).1, (qubit_product_canonical a b).2,
    ⟨mul qubit E b, (qubit_product_canonical E b).1, (qubit_product_canonical E b).2, by rw [qubit_product_action, e3], fun t => ?_⟩, fun g => ⟨?_, ?_⟩⟩
  · obtain ⟨D, d1, d2, d3⟩ := difference ⟨w, hP⟩ ⟨e1, e2⟩
    obtain ⟨x1, x2, x3, x4⟩ := exactAdd_spec (qubit_product_canonical E b).1 (qubit_product_canonical D b).1
    have e := canonical_unique (qubit_product_canonical a b) ⟨x1, fun t ht => ((x4 t).1 ht).elim ((qubit_product_canonical E b).2 t) ((qubit_product_canonical D b).2 t)⟩
      (by rw [x2, qubit_product_action, qubit_product_action, qubit_product_action, d2, add_mul]) t
    rw [e, x3, add_sub_cancel_left]
    have hn : (0 : ℝ) ≤ n * (1 / 10 ^ 8) := by positivity
    refine (coeff_mul_le_left d1 (ε := n * (1 / 10 ^ 8)) (fun u => by rw [d3]; exact e4 u) b t).trans ?_
    nlinarith
  · exact onGrid_mul w hb.1 (hx g).1 hg
  · rw [qubit_product_action, (hx g).2]

theorem StandsFor.mul_left {G : Prop} {δ γ : ℝ} {n : ℕ} {a b : Terms Letter} {M : Module.End ℂ State} (hb : StandsFor pauliAction Canonical G γ n b M)
    (ha : CanonicalOp a) (h1 : l1 a ≤ 1) (hg : ∀ t, ∀ z ∈ Grid γ, coeff a t * z ∈ Grid δ) :
    StandsFor pauliAction Canonical G δ n (mul qubit a b) (action pauliAction a * M) := by
  obtain ⟨w, hP, ⟨E, e1, e2, e3, e4⟩, hx⟩ := hb
  refine ⟨(qubit_product_canonical a b).1, (qubit_product_canonical a b).2,
    ⟨mul qubit a E, (qubit_product_canonical a E).1, (qubit_product_canonical a E).2, by rw [qubit_product_action, e3], fun t => ?_⟩, fun g => ⟨?_, ?_⟩⟩
  · obtain ⟨D, d1, d2, d3⟩ := difference ⟨w, hP⟩ ⟨e1, e2⟩
    obtain ⟨x1, x2, x3, x4⟩ := exactAdd_spec (qubit_product_canonical a E).1 (qubit_product_canonical a D).1
    have e := canonical_unique (qubit_product_canonical a b) ⟨x1, fun t ht => ((x4 t).1 ht).elim ((qubit_product_canonical a E).2 t) ((qubit_product_canonical a D).2 t)⟩
      (by rw [x2, qubit_product_action, qubit_product_action, qubit_product_action, d2, mul_add]) t
    rw [e, x3, add_sub_cancel_left]
    have hn : (0 : ℝ) ≤ n * (1 / 10 ^ 8) := by positivity
    refine (coeff_mul_le_right d1 (ε := n * (1 / 10 ^ 8)) (fun u => by rw [d3]; exact e4 u) a t).trans ?_
    nlinarith
  · intro t
    refine coeff_mul_mem qubit (Grid δ) a b (fun l hl r hr => qubitSimplify_mem _ ?_) t
    rw [← coeff_of_mem ha.1 hl, ← coeff_of_mem w hr]
    exact hg _ _ ((hx g).1 _)
  · rw [qubit_product_action, (hx g).2]

theorem l1_set_le (o : Terms Letter) (h : WF o) (t : Term Letter) (s : ℂ) : l1 (PyDict.set o t s) + ‖coeff o t‖ = l1 o + ‖s‖ := by
  induction o with
  | nil => simp [PyDict.set, l1, coeff_of_not_mem (o := ([] : Terms Letter)) (t := t) (by simp [keys])]
  | cons p o ih =>
    obtain ⟨u, c⟩ := p
    have hn := List.nodup_cons.1 (show (u :: keys o).Nodup from h)
    rw [coeff_cons]
    by_cases e : u = t
    · subst e
      simp [PyDict.set, l1]; ring
    · have := ih hn.2
      simp [PyDict.set, l1, e] at this ⊢
      linarith

theorem l1_del_le (o : Terms Letter) (t : Term Letter) : l1 (PyDict.del o t) ≤ l1 o := by
  induction o with
  | nil => exact le_rfl
  | cons p o ih =>
    obtain ⟨u, c⟩ := p
    by_cases e : u = t
    · simp [PyDict.del, l1, e]
    · simp [PyDict.del, l1, e] at ih ⊢
      exact ih

theorem l1_addStep {a : Terms Letter} (ha : WF a) (kv : Term Letter × ℂ) : l1 (addStep a kv) ≤ l1 a + ‖kv.2‖ := by
  have h1 := l1_set_le a ha kv.1 (coeff a kv.1 + kv.2)
  have h2 := norm_add_le (coeff a kv.1) kv.2
  rw [addStep]
  split
  · exact (l1_del_le _ _).trans (by linarith)
  · linarith

/-- Adding a list of terms. -/
theorem l1_foldl_add (l : List (Term Letter × ℂ)) {a : Terms Letter} (ha : WF a) :
    l1 (l.foldl (fun acc x => add acc (ofTerm qubit x.1 x.2)) a) ≤ l1 a + (l.map fun x => ‖x.2‖).sum := by
  induction l generalizing a with
  | nil => simp
  | cons x l ih =>
    have hw : WF (ofTerm qubit x.1 x.2) := wf_single _ _
    have h1 := ih (add_spec ha hw).1
    have h2 := l1_addStep ha ((qubitSimplify x.1 x.2).2, (qubitSimplify x.1 x.2).1)
    have h3 : ‖(qubitSimplify x.1 x.2).1‖ = ‖x.2‖ := qubitSimplify_norm_eq _ _
    have h4 : add a (ofTerm qubit x.1 x.2) = addStep a ((qubitSimplify x.1 x.2).2, (qubitSimplify x.1 x.2).1) := rfl
    rw [List.foldl_cons, List.map_cons, List.sum_cons]
    rw [h4] at h1 ⊢
    simp only [h3] at h2
    linarith

end ZQ.Op
