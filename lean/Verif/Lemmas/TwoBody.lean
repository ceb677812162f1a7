import Verif.Props.Rdm
import Verif.Lemmas.NormalClosed

/-! The Pauli strings of one- and two-body operators under the Jordan-Wigner transform are again combinations of products of at most four ladder
operators. -/

namespace ZQ.Rdm

open ZQ ZQ.Op ZQ.PolyT ZQ.JWInt PyDict

/-! ### Dictionaries and spans -/

section
variable {A : Type} [DecidableEq A]

/-- The operators of dictionaries whose keys have the property `P`. -/
def dictSpan (ev : ℕ × A → Module.End ℂ State) (P : Term A → Prop) : Submodule ℂ (Module.End ℂ State) where
  carrier := {M | ∃ o : Terms A, WF o ∧ (∀ t ∈ keys o, P t) ∧ action ev o = M}
  zero_mem' := ⟨[], wf_nil, by simp [keys], rfl⟩
  smul_mem' := by
    rintro c M ⟨o, hw, hk, rfl⟩
    refine ⟨smul o c, ?_, ?_, action_smul ev o c⟩
    · rw [WF, keys_smul]; exact hw
    · rw [keys_smul]; exact hk
  add_mem' := by
    rintro M N ⟨o, hw, hk, rfl⟩ ⟨b, -, hb, rfl⟩
    have key : ∀ (b acc : Terms A), WF acc → (∀ t ∈ keys acc, P t) → (∀ t ∈ keys b, P t) →
        ∃ r : Terms A, WF r ∧ (∀ t ∈ keys r, P t) ∧ action ev r = action ev acc + action ev b := by
      intro b
      induction b with
      | nil => intro acc h1 h2 _; exact ⟨acc, h1, h2, by rw [action_nil, add_zero]⟩
      | cons p b ih =>
        obtain ⟨u, c⟩ := p
        intro acc h1 h2 h3
        obtain ⟨r, r1, r2, r3⟩ := ih (accum acc u c) (wf_accum h1 _ _)
          (fun t ht => by
            rcases (mem_keys_accum acc u t c).1 ht with rfl | ht
            · exact h3 _ (by simp [keys])
            · exact h2 t ht) (fun t ht => h3 t (by simp [keys] at ht ⊢; exact Or.inr ht))
        exact ⟨r, r1, r2, by rw [r3, action_accum, action_cons, add_assoc]⟩
    exact key b o hw hk hb

theorem mem_dictSpan {ev : ℕ × A → Module.End ℂ State} {P : Term A → Prop} {M : Module.End ℂ State} :
    M ∈ dictSpan ev P ↔ ∃ o : Terms A, WF o ∧ (∀ t ∈ keys o, P t) ∧ action ev o = M := Iff.rfl

theorem dictSpan_single {ev : ℕ × A → Module.End ℂ State} {P : Term A → Prop} {t : Term A} (h : P t) : termAction ev t ∈ dictSpan ev P :=
  ⟨[(t, 1)], wf_single _ _, fun u hu => by
    rw [keys, List.map_singleton, List.mem_singleton] at hu
    rw [hu]; exact h, by rw [action_cons, action_nil, one_smul, add_zero]⟩

theorem dictSpan_mono {ev : ℕ × A → Module.End ℂ State} {P Q : Term A → Prop} (h : ∀ t, P t → Q t) : dictSpan ev P ≤ dictSpan ev Q :=
  fun _ ⟨o, h1, h2, h3⟩ => ⟨o, h1, fun t ht => h t (h2 t ht), h3⟩

/-- To show that all operators of `dictSpan` are in a submodule it is enough to show it for the terms. -/
theorem dictSpan_le {ev : ℕ × A → Module.End ℂ State} {P : Term A → Prop} {S : Submodule ℂ (Module.End ℂ State)} (h : ∀ t, P t → termAction ev t ∈ S) :
    dictSpan ev P ≤ S := by
  rintro M ⟨o, -, hk, rfl⟩
  induction o with
  | nil => exact S.zero_mem
  | cons kv o ih =>
    rw [action_cons]
    exact S.add_mem (S.smul_mem _ (h _ (hk _ (by simp [keys])))) (ih fun t ht => hk t (by simp [keys] at ht ⊢; exact Or.inr ht))

end

theorem twoBody_iff {M : Module.End ℂ State} : TwoBody M ↔ M ∈ dictSpan ladderAction fun t => Ordered t ∧ t.length ≤ 4 := Iff.rfl

theorem closed_length (k : ℕ) : Closed fun t : Term Bool => t.length ≤ k :=
  ⟨fun t u h ht => le_of_eq_of_le h.length_eq.symm ht, fun p u h => by simp only [List.length_cons] at h; omega⟩

/-- Products of at most four ladder operators are two-body operators. -/
theorem twoBody_term {t : Term Bool} (h : t.length ≤ 4) : TwoBody (termAction ladderAction t) := by
  obtain ⟨h1, h2, h3, -⟩ := normalOrderedTerm_spec t 1
  refine ⟨normalOrderedTerm t 1, h1, fun u hu => ⟨h2 u hu, (noTerm_closed (closed_length 4) _ t 1 h).2 u hu⟩, ?_⟩
  rw [(h3 1 (by norm_num) ⟨1, 0, by simp⟩).2, one_smul]

/-! ### Majorana operators -/

/-- The Pauli string of a Majorana operator. -/
def majTerm (f : ℕ × Bool) : Term Letter := zSegment 0 f.1 ++ [(f.1, if f.2 then .Y else .X)]

theorem majTerm_apply (f : ℕ × Bool) (ψ : State) (s : ℕ → Bool) :
    termAction pauliAction (majTerm f) ψ s = sgn s f.1 * (xyPhase (if f.2 then .Y else .X) (s f.1) * ψ (Function.update s f.1 (!(s f.1)))) := by
  have h := segment_sign' 0 f.1 s
  rw [zero_add] at h
  have h0 : sgn s 0 = 1 := by simp [sgn, occupiedBefore]
  rw [h0, one_mul] at h
  rw [majTerm, termAction_append, Module.End.mul_apply, allZ_action (allZ_segment _ _), ← h, termAction_cons, termAction_nil, mul_one,
    xy_apply (by cases f.2 <;> simp)]

theorem maj_eq (f : ℕ × Bool) : termAction pauliAction (majTerm f) =
    (if f.2 then Complex.I else 1) • ladderAction (f.1, true) + (if f.2 then -Complex.I else 1) • ladderAction (f.1, false) := by
  refine LinearMap.ext fun ψ => funext fun s => ?_
  rw [majTerm_apply]
  show _ = _ * ladderAction (f.1, true) ψ s + _ * ladderAction (f.1, false) ψ s
  rw [ladder_apply, ladder_apply]
  obtain ⟨p, b⟩ := f
  cases b <;> cases h : s p <;> simp [xyPhase, h] <;> ring

theorem ladder_eq (f : ℕ × Bool) : ladderAction f =
    (1 / 2 : ℂ) • termAction pauliAction (majTerm (f.1, false)) + ((if f.2 then -Complex.I else Complex.I) / 2) • termAction pauliAction (majTerm (f.1, true)) := by
  rw [maj_eq, maj_eq]
  obtain ⟨p, b⟩ := f
  have e : Complex.I / 2 * Complex.I = -(1 / 2) := by rw [div_mul_eq_mul_div, Complex.I_mul_I]; norm_num
  have e' : -(Complex.I / 2 * Complex.I) = (1 / 2) := by rw [e]; norm_num
  cases b
  · simp only [if_true, Bool.false_eq_true, if_false, smul_add, smul_smul, one_smul, mul_one, neg_div, neg_mul, mul_neg, e, neg_neg]
    module
  · simp only [if_true, Bool.false_eq_true, if_false, smul_add, smul_smul, one_smul, mul_one, neg_div, neg_mul, mul_neg, e, neg_neg]
    module

/-- Products of `k` Majorana operators with numbers below `n`. -/
def majSpan (n k : ℕ) : Submodule ℂ (Module.End ℂ State) :=
  Submodule.span ℂ {M | ∃ l : List (ℕ × Bool), l.length = k ∧ (∀ f ∈ l, f.1 < n) ∧ M = termAction pauliAction (l.flatMap majTerm)}

theorem ladder_majSpan {n : ℕ} : ∀ {t : Term Bool}, (∀ f ∈ t, f.1 < n) → termAction ladderAction t ∈ majSpan n t.length
  | [], _ => Submodule.subset_span ⟨[], rfl, by simp, rfl⟩
  | f :: t, h => by
    have ih := ladder_majSpan (t := t) fun g hg => h g (List.mem_cons_of_mem _ hg)
    have hf : f.1 < n := h f (by simp)
    rw [termAction_cons]
    suffices ∀ X ∈ majSpan n t.length, ladderAction f * X ∈ majSpan n (f :: t).length from this _ ih
    intro X hX
    have hm : ∀ b, termAction pauliAction (majTerm (f.1, b)) * X ∈ majSpan n (f :: t).length := by
      intro b
      induction hX using Submodule.span_induction with
      | mem x hx =>
        obtain ⟨l, l1, l2, rfl⟩ := hx
        refine Submodule.subset_span ⟨(f.1, b) :: l, by simp [l1], ?_, by rw [List.flatMap_cons, termAction_append]⟩
        intro g hg
        rcases List.mem_cons.1 hg with rfl | hg
        · exact hf
        · exact l2 g hg
      | zero => rw [mul_zero]; exact Submodule.zero_mem _
      | add x y _ _ hx hy => rw [mul_add]; exact Submodule.add_mem _ hx hy
      | smul c x _ hx => rw [mul_smul_comm]; exact Submodule.smul_mem _ _ hx
    rw [ladder_eq f, add_mul, smul_mul_assoc, smul_mul_assoc]
    exact Submodule.add_mem _ (Submodule.smul_mem _ _ (hm _)) (Submodule.smul_mem _ _ (hm _))

/-- Products of `k` Majorana operators are combinations of products of `k` ladder operators. -/
theorem maj_ladder : ∀ l : List (ℕ × Bool), termAction pauliAction (l.flatMap majTerm) ∈ dictSpan ladderAction fun t => t.length = l.length
  | [] => dictSpan_single (t := []) rfl
  | f :: l => by
    have ih := maj_ladder l
    rw [List.flatMap_cons, termAction_append]
    suffices ∀ b, ∀ X ∈ dictSpan ladderAction (fun t => t.length = l.length),
        ladderAction (f.1, b) * X ∈ dictSpan ladderAction fun t => t.length = (f :: l).length by
      rw [maj_eq, add_mul, smul_mul_assoc, smul_mul_assoc]
      exact Submodule.add_mem _ (Submodule.smul_mem _ _ (this _ _ ih)) (Submodule.smul_mem _ _ (this _ _ ih))
    intro b X hX
    have := dictSpan_le (ev := ladderAction) (P := fun t => t.length = l.length)
      (S := (dictSpan ladderAction fun t => t.length = (f :: l).length).comap (LinearMap.mulLeft ℂ (ladderAction (f.1, b)))) (fun t ht => by
        show ladderAction (f.1, b) * termAction ladderAction t ∈ dictSpan ladderAction fun t => t.length = (f :: l).length
        rw [← termAction_cons]
        exact dictSpan_single (by simp [ht]))
    exact this hX

/-- The canonical string of a product of at most four Majorana operators. -/
theorem maj_string {n : ℕ} {l : List (ℕ × Bool)} (hl : l.length ≤ 4) (hn : ∀ f ∈ l, f.1 < n) :
    ∃ (u : Term Letter) (c : ℂ), Canonical u ∧ TwoBody (termAction pauliAction u) ∧ (∀ f ∈ u, f.1 < n) ∧
      termAction pauliAction (l.flatMap majTerm) = c • termAction pauliAction u := by
  refine ⟨(qubitSimplify (l.flatMap majTerm) 1).2, (qubitSimplify (l.flatMap majTerm) 1).1, qubitSimplify_canonical _ _, ?_, ?_, ?_⟩
  · have h := qubitSimplify_action (l.flatMap majTerm) 1
    rw [one_smul] at h
    have h0 : (qubitSimplify (l.flatMap majTerm) 1).1 ≠ 0 := by
      rw [← norm_ne_zero_iff, qubitSimplify_norm]; simp
    have h2 : termAction pauliAction (qubitSimplify (l.flatMap majTerm) 1).2 = (qubitSimplify (l.flatMap majTerm) 1).1⁻¹ • termAction pauliAction (l.flatMap majTerm) := by
      rw [← h, smul_smul, inv_mul_cancel₀ h0, one_smul]
    rw [h2, twoBody_iff]
    refine Submodule.smul_mem _ _ ((dictSpan_le fun t ht => ?_) (maj_ladder l))
    exact twoBody_iff.1 (twoBody_term (by rw [ht]; exact hl))
  · refine qubitSimplify_index (P := fun q => q < n) fun f hf => ?_
    obtain ⟨g, hg, hf⟩ := List.mem_flatMap.1 hf
    have hgn := hn g hg
    rw [majTerm, List.mem_append, List.mem_singleton] at hf
    rcases hf with hf | rfl
    · exact lt_trans (mem_segment hf).2 hgn
    · exact hgn
  · rw [qubitSimplify_action, one_smul]

/-- The Pauli strings that occur in one- and two-body operators on `n` modes. -/
def StringOn (n : ℕ) (u : Term Letter) : Prop := Canonical u ∧ TwoBody (termAction pauliAction u) ∧ ∀ f ∈ u, f.1 < n

theorem ladder_strings {n : ℕ} {t : Term Bool} (h : ∀ f ∈ t, f.1 < n) (h4 : t.length ≤ 4) : termAction ladderAction t ∈ dictSpan pauliAction (StringOn n) := by
  have : majSpan n t.length ≤ dictSpan pauliAction (StringOn n) := by
    refine Submodule.span_le.2 ?_
    rintro M ⟨l, l1, l2, rfl⟩
    obtain ⟨u, c, u1, u2, u3, u4⟩ := maj_string (by rw [l1]; exact h4) l2
    rw [u4]
    exact Submodule.smul_mem _ _ (dictSpan_single ⟨u1, u2, u3⟩)
  exact this (ladder_majSpan h)

theorem tensor_strings {n : ℕ} {key : Key} (hk : key.length ≤ 4) (t : Tensor) : tensorAction n key t ∈ dictSpan pauliAction (StringOn n) := by
  refine Submodule.sum_mem _ fun idx _ => Submodule.smul_mem _ _ (ladder_strings (fun f hf => ?_) (by simp [hk]))
  have := (List.of_mem_zip hf).1
  rw [List.mem_ofFn] at this
  obtain ⟨k, hk⟩ := this
  rw [← hk]; exact (idx k).2

/-- An interaction operator is a combination of such Pauli strings. -/
theorem interaction_strings (n : ℕ) (c : ℂ) (one two : Tensor) : polyAction (interaction n c one two) ∈ dictSpan pauliAction (StringOn n) := by
  refine list_sum_mem fun M hM => ?_
  obtain ⟨kv, hkv, rfl⟩ := List.mem_map.1 hM
  refine tensor_strings ?_ _
  simp only [interaction, List.mem_cons, List.not_mem_nil, or_false] at hkv
  rcases hkv with rfl | rfl | rfl <;> simp

/-- **Every Pauli string of a one- and two-body operator is a two-body operator itself**, and acts on the operator's modes only. -/
theorem string_of_interaction {n : ℕ} {c : ℂ} {one two : Tensor} {o : Terms Letter} (ho : CanonicalOp o)
    (h : action pauliAction o = polyAction (interaction n c one two)) {t : Term Letter} (ht : coeff o t ≠ 0) : StringOn n t := by
  obtain ⟨E, e1, e2, e3⟩ := mem_dictSpan.1 (interaction_strings n c one two)
  have hc := canonical_unique ho ⟨e1, fun t ht => (e2 t ht).1⟩ (h.trans e3.symm) t
  rw [hc] at ht
  by_contra hs
  exact ht (coeff_of_not_mem fun hk => hs (e2 t hk))

end ZQ.Rdm
