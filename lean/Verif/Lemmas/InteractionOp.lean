import Verif.Lemmas.TwoBody
import Verif.Props.GroundRdm
import Verif.Spec.Workflow

/-! Interaction operators: adjoints, particle numbers, and the modes they involve. -/

namespace ZQ.Workflow

open ZQ ZQ.Op ZQ.PolyT ZQ.JWInt ZQ.Rdm ZQ.Ground PyDict Matrix

theorem isAdjoint_sum {ι : Type} (l : List ι) {A B : ι → Module.End ℂ State} (h : ∀ i ∈ l, IsAdjoint (A i) (B i)) :
    IsAdjoint (l.map A).sum (l.map B).sum := by
  induction l with
  | nil => exact IsAdjoint.zero
  | cons i l ih =>
    rw [List.map_cons, List.map_cons, List.sum_cons, List.sum_cons]
    exact (h i (by simp)).add (ih fun j hj => h j (by simp [hj]))

theorem hop_adjoint (p q : ℕ) : IsAdjoint (hop p q) (hop q p) := by
  have := isAdjoint_term_fermion [(p, true), (q, false)]
  simp only [conjTerm, List.reverse_cons, List.reverse_nil, List.nil_append, List.cons_append, List.map_cons, List.map_nil, termAction_cons, termAction_nil, mul_one,
    Bool.not_true, Bool.not_false] at this
  exact this

theorem quad_adjoint (p q r s : ℕ) : IsAdjoint (quad p q r s) (quad s r q p) := by
  have := isAdjoint_term_fermion [(p, true), (q, true), (r, false), (s, false)]
  simp only [conjTerm, List.reverse_cons, List.reverse_nil, List.nil_append, List.cons_append, List.map_cons, List.map_nil, termAction_cons, termAction_nil, mul_one,
    Bool.not_true, Bool.not_false] at this
  simpa only [quad, mul_assoc] using this

theorem sum_swap {M : Type} [AddCommMonoid M] {α β : Type} (l : List α) (r : List β) (f : α → β → M) :
    (l.map fun p => (r.map fun q => f p q).sum).sum = (r.map fun q => (l.map fun p => f p q).sum).sum := by
  induction l with
  | nil => simp
  | cons a l ih => rw [List.map_cons, List.sum_cons, ih, ← List.sum_map_add]; rfl

theorem isAdjoint_congr {A B B' : Module.End ℂ State} (h : IsAdjoint A B) (e : B = B') : IsAdjoint A B' := e ▸ h

/-- A Hermitian interaction operator is its own adjoint. -/
theorem interaction_adjoint {n : ℕ} {c : ℂ} {one two : Tensor} (hc : c.im = 0) (h : Hermitian n one two) :
    IsAdjoint (polyAction (interaction n c one two)) (polyAction (interaction n c one two)) := by
  rw [polyAction_interaction]
  have hc' : (starRingEnd ℂ) c = c := Complex.conj_eq_iff_im.2 hc
  refine IsAdjoint.add (IsAdjoint.add ?_ ?_) ?_
  · have := IsAdjoint.smul c IsAdjoint.one
    rwa [hc'] at this
  · refine isAdjoint_congr (B := ((List.range n).map fun p => ((List.range n).map fun q => (starRingEnd ℂ) (one [p, q]) • hop q p).sum).sum) ?_ ?_
    · exact isAdjoint_sum _ fun p _ => isAdjoint_sum _ fun q _ => (hop_adjoint p q).smul _
    · rw [sum_swap]
      refine congrArg List.sum (List.map_congr_left fun p hp => congrArg List.sum (List.map_congr_left fun q hq => ?_))
      rw [h.1 p (List.mem_range.1 hp) q (List.mem_range.1 hq)]
  · refine isAdjoint_congr (B := ((List.range n).map fun p => ((List.range n).map fun q => ((List.range n).map fun r => ((List.range n).map fun s =>
      (starRingEnd ℂ) (two [p, q, r, s]) • quad s r q p).sum).sum).sum).sum) ?_ ?_
    · exact isAdjoint_sum _ fun p _ => isAdjoint_sum _ fun q _ => isAdjoint_sum _ fun r _ => isAdjoint_sum _ fun s _ => (quad_adjoint p q r s).smul _
    · have e : ((List.range n).map fun p => ((List.range n).map fun q => ((List.range n).map fun r => ((List.range n).map fun s =>
          (starRingEnd ℂ) (two [p, q, r, s]) • quad s r q p).sum).sum).sum).sum =
          ((List.range n).map fun s => ((List.range n).map fun r => ((List.range n).map fun q => ((List.range n).map fun p =>
          (starRingEnd ℂ) (two [p, q, r, s]) • quad s r q p).sum).sum).sum).sum := by
        have e1 : ∀ p, ((List.range n).map fun q => ((List.range n).map fun r => ((List.range n).map fun s =>
            (starRingEnd ℂ) (two [p, q, r, s]) • quad s r q p).sum).sum).sum =
            ((List.range n).map fun s => ((List.range n).map fun r => ((List.range n).map fun q =>
            (starRingEnd ℂ) (two [p, q, r, s]) • quad s r q p).sum).sum).sum := by
          intro p
          have : ∀ q, ((List.range n).map fun r => ((List.range n).map fun s => (starRingEnd ℂ) (two [p, q, r, s]) • quad s r q p).sum).sum =
            ((List.range n).map fun s => ((List.range n).map fun r => (starRingEnd ℂ) (two [p, q, r, s]) • quad s r q p).sum).sum := fun q => sum_swap _ _ _
          simp only [this]
          rw [sum_swap]
          refine congrArg List.sum (List.map_congr_left fun s _ => ?_)
          exact sum_swap _ _ _
        simp only [e1]
        rw [sum_swap]
        refine congrArg List.sum (List.map_congr_left fun s _ => ?_)
        rw [sum_swap]
        refine congrArg List.sum (List.map_congr_left fun r _ => ?_)
        exact sum_swap _ _ _
      rw [e]
      refine congrArg List.sum (List.map_congr_left fun p hp => congrArg List.sum (List.map_congr_left fun q hq =>
        congrArg List.sum (List.map_congr_left fun r hr => congrArg List.sum (List.map_congr_left fun s hs => ?_))))
      rw [h.2 p (List.mem_range.1 hp) q (List.mem_range.1 hq) r (List.mem_range.1 hr) s (List.mem_range.1 hs)]

theorem matrixOf_hermitian {A : Module.End ℂ State} (h : IsAdjoint A A) (m : ℕ) : (matrixOf m A).IsHermitian := by
  ext x y
  rw [Matrix.conjTranspose_apply]
  exact (h (pad x) (pad y)).symm

/-! ### Particle numbers -/

theorem conserves_zero (m : ℕ) : Conserves (matrixOf m 0) := fun _ _ h => absurd rfl h

theorem conserves_add {m : ℕ} {A B : Module.End ℂ State} (ha : Conserves (matrixOf m A)) (hb : Conserves (matrixOf m B)) : Conserves (matrixOf m (A + B)) := by
  intro x y h
  by_cases h1 : matrixOf m A x y = 0
  · refine hb x y fun h2 => h ?_
    show matrixOf m A x y + matrixOf m B x y = 0
    rw [h1, h2, add_zero]
  · exact ha x y h1

theorem conserves_smul {m : ℕ} {A : Module.End ℂ State} (c : ℂ) (ha : Conserves (matrixOf m A)) : Conserves (matrixOf m (c • A)) := by
  intro x y h
  refine ha x y fun h2 => h ?_
  show c * matrixOf m A x y = 0
  rw [h2, mul_zero]

theorem conserves_sum {m : ℕ} {ι : Type} (l : List ι) {A : ι → Module.End ℂ State} (h : ∀ i ∈ l, Conserves (matrixOf m (A i))) : Conserves (matrixOf m (l.map A).sum) := by
  induction l with
  | nil => exact conserves_zero m
  | cons i l ih =>
    rw [List.map_cons, List.sum_cons]
    exact conserves_add (h i (by simp)) (ih fun j hj => h j (by simp [hj]))

theorem conserves_term {m : ℕ} {t : Term Bool} (h : FTools.countOps t true (fun _ => true) = FTools.countOps t false (fun _ => true)) :
    Conserves (matrixOf m (termAction ladderAction t)) := by
  intro x y hxy
  have := term_particles t x y hxy
  rw [h] at this
  omega

/-- Interaction operators conserve the number of particles. -/
theorem interaction_conserves (m n : ℕ) (c : ℂ) (one two : Tensor) : Conserves (matrixOf m (polyAction (interaction n c one two))) := by
  rw [polyAction_interaction]
  have h1 : ∀ p q, Conserves (matrixOf m (hop p q)) := fun p q => by
    have := conserves_term (m := m) (t := [(p, true), (q, false)]) (by simp [FTools.countOps])
    rwa [termAction_cons, termAction_cons, termAction_nil, mul_one] at this
  have h2 : ∀ p q r s, Conserves (matrixOf m (quad p q r s)) := fun p q r s => by
    have := conserves_term (m := m) (t := [(p, true), (q, true), (r, false), (s, false)]) (by simp [FTools.countOps])
    rw [termAction_cons, termAction_cons, termAction_cons, termAction_cons, termAction_nil, mul_one] at this
    simpa only [quad, mul_assoc] using this
  refine conserves_add (conserves_add (conserves_smul c ?_) ?_) ?_
  · exact conserves_term (m := m) (t := []) rfl
  · exact conserves_sum _ fun p _ => conserves_sum _ fun q _ => conserves_smul _ (h1 p q)
  · exact conserves_sum _ fun p _ => conserves_sum _ fun q _ => conserves_sum _ fun r _ => conserves_sum _ fun s _ => conserves_smul _ (h2 p q r s)

/-! ### Idle modes -/

/-- An operator without strings on qubit `j` does not involve it. -/
theorem idle_of_strings {o : Terms Letter} {j : ℕ} (h : ∀ kv ∈ o, ∀ f ∈ kv.1, j ≠ f.1) : Idle (action pauliAction o) j := by
  have key : ∀ l : Letter, action pauliAction o * pauliAction (j, l) = pauliAction (j, l) * action pauliAction o := by
    intro l
    induction o with
    | nil => rw [action_nil, zero_mul, mul_zero]
    | cons kv o ih =>
      rw [action_cons, add_mul, mul_add, ih fun kv' h' => h kv' (by simp [h']), smul_mul_assoc, mul_smul_comm, term_comm_pauli kv.1 (h kv (by simp))]
  exact ⟨key _, key _⟩

theorem pauli_anti {j : ℕ} {k l : Letter} (hk : k ≠ .I) (hl : l ≠ .I) (h : k ≠ l) : pauliAction (j, k) * pauliAction (j, l) = (-1 : ℂ) • (pauliAction (j, l) * pauliAction (j, k)) := by
  have ha : ∀ k' ψ s, pauliAction (j, k') ψ s = letterMatrix k' (s j) false * ψ (Function.update s j false) + letterMatrix k' (s j) true * ψ (Function.update s j true) := by
    intro k' ψ s
    rw [pauliAction, atQubit_apply]
  refine LinearMap.ext fun ψ => funext fun s => ?_
  rw [LinearMap.smul_apply, Module.End.mul_apply, Module.End.mul_apply, Pi.smul_apply, smul_eq_mul]
  simp only [ha, Function.update_self, Function.update_idem]
  cases k <;> cases l <;> simp at hk hl h <;> cases s j <;> simp [letterMatrix, pauliX, pauliY, pauliZ]

theorem term_anti {t : Term Letter} (ht : Canonical t) {j : ℕ} {k l : Letter} (hk : (j, k) ∈ t) (hl : l ≠ .I) (h : k ≠ l) :
    termAction pauliAction t * pauliAction (j, l) = (-1 : ℂ) • (pauliAction (j, l) * termAction pauliAction t) := by
  obtain ⟨a, b, rfl⟩ := List.append_of_mem hk
  have hp := ht.1
  rw [List.map_append, List.map_cons, List.pairwise_append, List.pairwise_cons] at hp
  have ha : ∀ g ∈ a, j ≠ g.1 := fun g hg => (hp.2.2 g.1 (List.mem_map_of_mem hg) j (by simp)).ne'
  have hb : ∀ g ∈ b, j ≠ g.1 := fun g hg => (hp.2.1.1 g.1 (List.mem_map_of_mem hg)).ne
  have hk' : k ≠ .I := ht.2 (j, k) (by simp)
  rw [termAction_append, termAction_cons, mul_assoc, mul_assoc, term_comm_pauli b hb, ← mul_assoc (pauliAction (j, k)), pauli_anti hk' hl h, ← mul_assoc (pauliAction (j, l)),
    ← term_comm_pauli a ha]
  simp only [smul_mul_assoc, mul_smul_comm, mul_assoc]

/-- If an operator does not involve qubit `j`, no string with a coefficient acts on it. -/
theorem strings_of_idle {o : Terms Letter} (ho : CanonicalOp o) {j : ℕ} (h : Idle (action pauliAction o) j) {t : Term Letter} (ht : coeff o t ≠ 0) :
    ∀ f ∈ t, f.1 ≠ j := by
  classical
  rintro ⟨j', k⟩ hf rfl
  have hmem : t ∈ keys o := by
    by_contra hk
    exact ht (coeff_of_not_mem hk)
  have hct := ho.2 t hmem
  -- a letter that anticommutes with the letter of the string
  obtain ⟨l, hl, hkl, hcomm⟩ : ∃ l : Letter, l ≠ .I ∧ k ≠ l ∧ action pauliAction o * pauliAction (j', l) = pauliAction (j', l) * action pauliAction o := by
    have hk' : k ≠ .I := hct.2 _ hf
    cases k
    · exact absurd rfl hk'
    · exact ⟨.Z, by simp, by simp, h.2⟩
    · exact ⟨.Z, by simp, by simp, h.2⟩
    · exact ⟨.X, by simp, by simp, h.1⟩
  have hsq : pauliAction (j', l) * pauliAction (j', l) = 1 := by
    refine LinearMap.ext fun ψ => funext fun s => ?_
    rw [Module.End.mul_apply, Module.End.one_apply]
    have ha : ∀ ψ s, pauliAction (j', l) ψ s = letterMatrix l (s j') false * ψ (Function.update s j' false) + letterMatrix l (s j') true * ψ (Function.update s j' true) := by
      intro ψ s
      rw [pauliAction, atQubit_apply]
    simp only [ha, Function.update_self, Function.update_idem]
    have hu : Function.update s j' (s j') = s := Function.update_eq_self _ _
    cases l <;> simp at hl <;> cases hs : s j' <;> rw [hs] at hu <;> simp [letterMatrix, pauliX, pauliY, pauliZ, hu]
    all_goals rw [← mul_assoc, Complex.I_mul_I]; ring
  -- conjugating with it changes the signs of the strings that anticommute with it
  have hsign : ∀ u : Term Letter, Canonical u → ∃ e : ℂ, (e = 1 ∨ e = -1) ∧ pauliAction (j', l) * termAction pauliAction u * pauliAction (j', l) = e • termAction pauliAction u ∧
      (u = t → e = -1) := by
    intro u hu
    by_cases hm : ∃ k', (j', k') ∈ u ∧ k' ≠ l
    · obtain ⟨k', hk1, hk2⟩ := hm
      refine ⟨-1, Or.inr rfl, ?_, fun _ => rfl⟩
      rw [mul_assoc, term_anti hu hk1 hl hk2, mul_smul_comm, ← mul_assoc, hsq, one_mul]
    · refine ⟨1, Or.inl rfl, ?_, fun e => absurd ⟨k, e ▸ hf, hkl⟩ hm⟩
      push Not at hm
      have hc : termAction pauliAction u * pauliAction (j', l) = pauliAction (j', l) * termAction pauliAction u := by
        by_cases hin : (j', l) ∈ u
        · obtain ⟨a, b, rfl⟩ := List.append_of_mem hin
          have hp := hu.1
          rw [List.map_append, List.map_cons, List.pairwise_append, List.pairwise_cons] at hp
          have ha : ∀ g ∈ a, j' ≠ g.1 := fun g hg => (hp.2.2 g.1 (List.mem_map_of_mem hg) j' (by simp)).ne'
          have hb : ∀ g ∈ b, j' ≠ g.1 := fun g hg => (hp.2.1.1 g.1 (List.mem_map_of_mem hg)).ne
          rw [termAction_append, termAction_cons, mul_assoc, mul_assoc, term_comm_pauli (f := (j', l)) b hb, ← mul_assoc (pauliAction (j', l)) (termAction pauliAction a),
            ← term_comm_pauli (f := (j', l)) a ha, mul_assoc]
        · refine term_comm_pauli u fun g hg e => ?_
          obtain ⟨g1, g2⟩ := g
          obtain rfl : j' = g1 := e
          exact hin (hm g2 hg ▸ hg)
      rw [mul_assoc, hc, ← mul_assoc, hsq, one_mul, one_smul]
  choose! e he1 he2 he3 using hsign
  have hE : action pauliAction (o.map fun kv => (kv.1, e kv.1 * kv.2)) = action pauliAction o := by
    have h1 : ∀ o' : Terms Letter, (∀ u ∈ keys o', Canonical u) →
        action pauliAction (o'.map fun kv => (kv.1, e kv.1 * kv.2)) = pauliAction (j', l) * action pauliAction o' * pauliAction (j', l) := by
      intro o'
      induction o' with
      | nil => intro _; rw [List.map_nil, action_nil, mul_zero, zero_mul]
      | cons kv o' ih =>
        intro hk
        rw [List.map_cons, action_cons, action_cons, ih fun u hu => hk u (by simp [keys] at hu ⊢; exact Or.inr hu), mul_add, add_mul, mul_smul_comm, smul_mul_assoc,
          he2 kv.1 (hk kv.1 (by simp [keys])), smul_smul, mul_comm]
    rw [h1 o ho.2, ← hcomm, mul_assoc, hsq, mul_one]
  have hkeys : keys (o.map fun kv => (kv.1, e kv.1 * kv.2)) = keys o := by rw [keys, List.map_map]; rfl
  have hu := canonical_unique (a := o.map fun kv => (kv.1, e kv.1 * kv.2)) (b := o) ⟨by rw [WF, hkeys]; exact ho.1, by rw [hkeys]; exact ho.2⟩ ho hE t
  have hmo : (t, coeff o t) ∈ o := by
    obtain ⟨kv, hkv, rfl⟩ := List.mem_map.1 hmem
    rw [coeff_of_mem ho.1 hkv]; exact hkv
  have hc2 : coeff (o.map fun kv => (kv.1, e kv.1 * kv.2)) t = e t * coeff o t :=
    coeff_of_mem (by rw [WF, hkeys]; exact ho.1) (List.mem_map.2 ⟨_, hmo, rfl⟩)
  rw [hc2, he3 t hct rfl] at hu
  have : coeff o t = 0 := by linear_combination (-1 / 2 : ℂ) * hu
  exact ht this

/-- The number of qubits counted is the number of modes up to the last one that is involved. -/
theorem countQubit_involved {o : Terms Letter} (ho : CanonicalOp o) (hc : ∀ kv ∈ o, kv.2 ≠ 0) {m : ℕ} (hm : Involved (action pauliAction o) m) : countQubit o = m := by
  refine le_antisymm (Expect.countQubit_le o m fun kv hkv f hf => ?_) ?_
  · by_contra hlt
    have h0 : coeff o kv.1 ≠ 0 := by rw [coeff_of_mem ho.1 hkv]; exact hc kv hkv
    exact strings_of_idle ho (hm.1 f.1 (not_lt.1 hlt)) h0 f hf rfl
  · by_contra hlt
    obtain ⟨j, rfl⟩ : ∃ j, m = j + 1 := ⟨m - 1, by omega⟩
    refine hm.2 j rfl (idle_of_strings fun kv hkv f hf => ?_)
    have := countQubit_bound ho kv hkv f hf
    omega

end ZQ.Workflow
