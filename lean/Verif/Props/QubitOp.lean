import Verif.Lemmas.PauliIndep

/-! # C41: the product of qubit operators is the operator product -/

namespace ZQ.Op

open PyDict

/-- C41: the product acts as the composition. -/
theorem qubit_product_action (a b : Terms Letter) :
    action pauliAction (mul qubit a b) = action pauliAction a * action pauliAction b :=
  action_mul pauliAction qubit_sound a b fun _ _ _ _ => trivial

/-- C41: on states. -/
theorem qubit_product_apply (a b : Terms Letter) (ψ : State) :
    action pauliAction (mul qubit a b) ψ = action pauliAction a (action pauliAction b ψ) := by
  rw [qubit_product_action]; rfl

/-- C41: every term of a product is canonical. -/
theorem qubit_product_canonical (a b : Terms Letter) : CanonicalOp (mul qubit a b) := by
  refine ⟨wf_mul qubit a b, fun t ht => ?_⟩
  obtain ⟨l, _, r, _, rfl⟩ := (mem_keys_mul qubit a b t).1 ht
  exact qubitSimplify_canonical _ _

/-- C41: the constructor gives the canonical form of the product of the factors. -/
theorem qubitOf_spec (t : Term Letter) (c : ℂ) (hv : ∀ f ∈ t, f.2 ≠ .I) :
    ∃ o, qubitOf t c = .ok o ∧ CanonicalOp o ∧ action pauliAction o = c • termAction pauliAction t := by
  refine ⟨ofTerm qubit t c, by rw [qubitOf, if_pos hv], ⟨by simp [WF, ofTerm, keys], fun u hu => ?_⟩, ?_⟩
  · rw [ofTerm, keys, List.map_singleton, List.mem_singleton] at hu
    rw [hu]; exact qubitSimplify_canonical _ _
  · rw [ofTerm, action_cons, action_nil, add_zero]
    exact qubit_sound t c trivial

/-- Invalid letters are rejected. -/
theorem qubitOf_invalid (t : Term Letter) (c : ℂ) (f : ℕ × Letter) (hf : f ∈ t) (hI : f.2 = .I) : qubitOf t c = .error .valueError := by
  rw [qubitOf, if_neg (fun h => h f hf hI)]

/-- C41: powers are repeated composition, and canonical. -/
theorem qubit_pow_spec (a : Terms Letter) (n : ℕ) :
    CanonicalOp (pow qubit a n) ∧ action pauliAction (pow qubit a n) = action pauliAction a ^ n := by
  have h0 : CanonicalOp (ofTerm qubit [] 1) ∧ action pauliAction (ofTerm qubit [] 1) = 1 := by
    obtain ⟨o, h1, h2, h3⟩ := qubitOf_spec [] 1 (fun f hf => by simp at hf)
    rw [qubitOf, if_pos (fun f hf => by simp at hf)] at h1
    injection h1 with h1
    rw [h1]
    exact ⟨h2, by rw [h3, termAction_nil, one_smul]⟩
  rw [pow]
  induction n with
  | zero => exact ⟨h0.1, by rw [pow_zero]; exact h0.2⟩
  | succ n ih =>
    rw [List.range_succ, List.foldl_append]
    exact ⟨qubit_product_canonical _ _, by rw [List.foldl_cons, List.foldl_nil, qubit_product_action, ih.2, pow_succ]⟩

/-- C41: the action determines every coefficient, so the coefficients of a product are the exact ones. -/
theorem canonical_unique {a b : Terms Letter} (ha : CanonicalOp a) (hb : CanonicalOp b)
    (h : action pauliAction a = action pauliAction b) (t : Term Letter) : coeff a t = coeff b t := by
  classical
  have hd : ∀ (b acc : Terms Letter), CanonicalOp acc → (∀ u ∈ keys b, Canonical u) →
      CanonicalOp (b.foldl (fun acc kv => accum acc kv.1 (-kv.2)) acc) ∧
      action pauliAction (b.foldl (fun acc kv => accum acc kv.1 (-kv.2)) acc) = action pauliAction acc - action pauliAction b ∧
      (∀ t, WF b → coeff (b.foldl (fun acc kv => accum acc kv.1 (-kv.2)) acc) t = coeff acc t - coeff b t) := by
    intro b
    induction b with
    | nil => intro acc h1 _; exact ⟨h1, by rw [action_nil, sub_zero]; rfl, fun t _ => by rw [coeff_of_not_mem (o := []) (by simp [keys]), sub_zero]; rfl⟩
    | cons p b ih =>
      obtain ⟨u, c⟩ := p
      intro acc h1 h2
      have hcan : CanonicalOp (accum acc u (-c)) := by
        refine ⟨wf_accum h1.1 _ _, fun v hv => ?_⟩
        rcases (mem_keys_accum acc u v (-c)).1 hv with rfl | hv
        · exact h2 _ (by simp [keys])
        · exact h1.2 v hv
      obtain ⟨i1, i2, i3⟩ := ih (accum acc u (-c)) hcan (fun v hv => h2 v (by simp [keys] at hv ⊢; exact Or.inr hv))
      refine ⟨i1, ?_, fun t hw => ?_⟩
      · rw [List.foldl_cons, i2, action_accum, action_cons]; module
      · have hn := List.nodup_cons.1 (show (u :: keys b).Nodup from hw)
        rw [List.foldl_cons, i3 t hn.2, coeff_accum, coeff_cons]
        by_cases e : u = t
        · subst e; rw [if_pos rfl, if_pos rfl, coeff_of_not_mem hn.1]; ring
        · rw [if_neg e, if_neg e]; ring
  obtain ⟨h1, h2, h3⟩ := hd b a ha hb.2
  have := coeff_zero_of_action_zero h1 (by rw [h2, h, sub_self]) t
  rw [h3 t hb.1] at this
  exact sub_eq_zero.1 this

/-- C41: multiplication is associative, coefficient by coefficient. -/
theorem qubit_mul_assoc (a b c : Terms Letter) (t : Term Letter) :
    coeff (mul qubit (mul qubit a b) c) t = coeff (mul qubit a (mul qubit b c)) t :=
  canonical_unique (qubit_product_canonical _ _) (qubit_product_canonical _ _)
    (by simp only [qubit_product_action, mul_assoc]) t

/-- The operators are not a trivial algebra: `X0 * Y0 = i Z0`, `Y0 * X0 = -i Z0`, and unsorted factors are sorted. -/
example : mul qubit [([(0, .X)], 1)] [([(0, .Y)], 1)] = [([(0, .Z)], 1 * 1 * Complex.I)] := by
  simp [mul, mulRow, qubit, qubitSimplify, sortByIndex, simplifyLoop, pauliProduct, accum, get?, PyDict.set]

example : qubitSimplify [(2, .X), (0, .Y), (2, .Y)] 1 = (1 * Complex.I, [(0, .Y), (2, .Z)]) := by
  simp [qubitSimplify, sortByIndex, simplifyLoop, pauliProduct]

example : CanonicalOp [([(0, .Y), (2, .Z)], 3), ([], 1)] := by
  refine ⟨by simp [WF, keys], ?_⟩
  intro t ht
  simp [keys] at ht
  rcases ht with rfl | rfl
  · exact ⟨by simp, by simp⟩
  · exact canonical_nil

end ZQ.Op
