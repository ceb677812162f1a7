import Verif.Lemmas.Relabel
import Verif.Lemmas.ExceptList
import Verif.Model.OperatorEdit
import Verif.Props.Workflow

/-!
# C122: reordering the modes of an interaction operator is a unitary change
-/

namespace ZQ.OperatorEdit

open ZQ ZQ.Op ZQ.PolyT ZQ.Files ZQ.ArraySerde ZQ.Results ZQ.JWInt ZQ.Ground ZQ.Workflow ZQ.Sparse Matrix

/-! ## The reordered operator -/

theorem axisIndex_names {n : ℕ} {z : ℤ} {k : ℕ} (h : Names n z k) : axisIndex n z = .ok k := by
  obtain ⟨h1, h2⟩ := h
  rw [axisIndex]
  rcases h2 with rfl | rfl
  · rw [if_pos ⟨by omega, by omega⟩]; simp
  · rw [if_neg (by omega), if_pos ⟨by omega, by omega⟩]
    congr 1
    omega

theorem axisIndex_none {n : ℕ} {z : ℤ} (h : ∀ k, ¬ Names n z k) : axisIndex n z = .error .indexError := by
  rw [axisIndex, if_neg fun hc => h z.toNat ⟨by omega, .inl (by omega)⟩, if_neg fun hc => h (n + z).toNat ⟨by omega, .inr (by omega)⟩]

theorem mapM_names {n : ℕ} {ordering : List ℤ} {l : List ℕ} (h : List.Forall₂ (Names n) ordering l) : ordering.mapM (axisIndex n) = .ok l := by
  induction h with
  | nil => rfl
  | cons h1 _ ih =>
    rw [List.mapM_cons, axisIndex_names h1, ih]; rfl

theorem mapM_none {n : ℕ} {ordering : List ℤ} {z : ℤ} (hz : z ∈ ordering) (h : ∀ k, ¬ Names n z k) : ordering.mapM (axisIndex n) = .error .indexError := by
  induction ordering with
  | nil => cases hz
  | cons y ys ih =>
    rw [List.mapM_cons]
    by_cases hy : ∃ k, Names n y k
    · obtain ⟨k, hk⟩ := hy
      rw [axisIndex_names hk]
      have : z ∈ ys := (List.mem_cons.1 hz).resolve_left fun e => h k (e ▸ hk)
      show (ys.mapM (axisIndex n) >>= _) = _
      rw [ih this]; rfl
    · rw [axisIndex_none fun k hk => hy ⟨k, hk⟩]; rfl

/-- A list that has each number below `n` exactly once is a permutation. -/
theorem perm_of_list {n : ℕ} {l : List ℕ} (h : l.Perm (List.range n)) : ∃ σ : Equiv.Perm (Fin n), ∀ i : Fin n, l.getD i 0 = σ i := by
  have hl : l.length = n := by rw [h.length_eq, List.length_range]
  have hnd : l.Nodup := h.nodup_iff.2 List.nodup_range
  have hb : ∀ i : Fin n, l.getD i 0 < n := fun i => by
    rw [List.getD_eq_getElem _ _ (by omega)]
    exact List.mem_range.1 (h.mem_iff.1 (List.getElem_mem _))
  have hi : Function.Injective fun i : Fin n => (⟨l.getD i 0, hb i⟩ : Fin n) := fun i j hij => by
    have := congrArg Fin.val hij
    dsimp only at this
    rw [List.getD_eq_getElem _ _ (by omega), List.getD_eq_getElem _ _ (by omega)] at this
    exact Fin.ext ((hnd.getElem_inj_iff).1 this)
  exact ⟨Equiv.ofBijective _ (Finite.injective_iff_bijective.1 hi), fun i => rfl⟩

theorem zip_map_left {n : ℕ} (f : ℕ → ℕ) (idx : List ℕ) (key : List Bool) : (idx.map f).zip key = (idx.zip key).map fun x => (f x.1, x.2) := by
  induction idx generalizing key with
  | nil => rfl
  | cons i idx ih =>
    cases key with
    | nil => rfl
    | cons b key => rw [List.map_cons, List.zip_cons_cons, List.zip_cons_cons, List.map_cons, ih]

theorem relabel_tensor {n : ℕ} {l : List ℕ} {σ : Equiv.Perm (Fin n)} (hσ : ∀ i : Fin n, l.getD i 0 = σ i) {U : Module.End ℂ State} (hU : Relabels (permExtend σ) U)
    (key : Key) (t : Tensor) : U * tensorAction n key (chosen l t) = tensorAction n key t * U := by
  rw [tensorAction, tensorAction, Finset.mul_sum, Finset.sum_mul]
  refine Fintype.sum_equiv ((Equiv.refl (Fin key.length)).arrowCongr σ) _ _ fun idx => ?_
  rw [mul_smul_comm, smul_mul_assoc, hU.term]
  have h1 : (List.ofFn fun k => ((idx k : Fin n) : ℕ)).map (fun i => l.getD i 0) = List.ofFn fun k => (((Equiv.refl (Fin key.length)).arrowCongr σ idx k : Fin n) : ℕ) := by
    rw [List.map_ofFn]
    congr 1
    funext k
    exact hσ (idx k)
  have h2 : (List.ofFn fun k => ((idx k : Fin n) : ℕ)).map (permExtend σ) = List.ofFn fun k => (((Equiv.refl (Fin key.length)).arrowCongr σ idx k : Fin n) : ℕ) := by
    rw [List.map_ofFn]
    congr 1
    funext k
    exact permExtend_lt σ (idx k)
  rw [← zip_map_left (n := n) (permExtend σ), h2, chosen, h1]

theorem relabel_interaction {n : ℕ} {l : List ℕ} {σ : Equiv.Perm (Fin n)} (hσ : ∀ i : Fin n, l.getD i 0 = σ i) {U : Module.End ℂ State} (hU : Relabels (permExtend σ) U)
    (c : ℂ) (one two : Tensor) : U * polyAction (interaction n c (chosen l one) (chosen l two)) = polyAction (interaction n c one two) * U := by
  have h0 : U * tensorAction n [] (fun _ => c) = tensorAction n [] (fun _ => c) * U := by
    rw [tensorAction_const, mul_smul_comm, smul_mul_assoc, mul_one, one_mul]
  rw [polyAction, polyAction, interaction, interaction]
  simp only [List.map_cons, List.map_nil, List.sum_cons, List.sum_nil, add_zero]
  rw [mul_add, mul_add, add_mul, add_mul, h0, relabel_tensor hσ hU, relabel_tensor hσ hU]

/-- **Reordering the modes** with an ordering that names each mode once: mode `i` of the result is mode `π i` of the operator, where the `i`-th integer of the ordering
names mode `π i`; the result is the operator up to the unitary change that relabels the modes. -/
theorem reorder_spec {n : ℕ} (c : ℂ) (one two : Tensor) {ordering : List ℤ} {l : List ℕ} (hl : List.Forall₂ (Names n) ordering l) (hp : l.Perm (List.range n)) :
    ∃ T π U, reorderModes n c one two ordering = .ok T ∧ T.n = n ∧ (∀ (i : ℕ) (hi : i < l.length), π i = l[i]) ∧ (∀ j, n ≤ j → π j = j) ∧ Relabels π U ∧
      U * polyAction T = polyAction (interaction n c one two) * U := by
  have hn : l.length = n := by rw [hp.length_eq, List.length_range]
  obtain ⟨σ, hσ⟩ := perm_of_list hp
  obtain ⟨U, hU⟩ := relabels_extend σ
  refine ⟨_, permExtend σ, U, ?_, ?_, fun i hi => ?_, fun j hj => permExtend_ge σ hj, hU, relabel_interaction hσ hU c one two⟩
  · show (ordering.mapM (axisIndex n) >>= fun l => Except.ok (interaction l.length c (chosen l one) (chosen l two))) = _
    rw [mapM_names hl]
    show Except.ok (interaction l.length c _ _) = _
    rw [hn]
  · rfl
  · have := permExtend_lt σ ⟨i, by omega⟩
    rw [← hσ] at this
    rw [this, List.getD_eq_getElem _ _ hi]

/-- The entries of the result, whatever the ordering names. -/
theorem reorder_entries {n : ℕ} (c : ℂ) (one two : Tensor) {ordering : List ℤ} {l : List ℕ} (hl : List.Forall₂ (Names n) ordering l) :
    ∃ one' two', reorderModes n c one two ordering = .ok (interaction l.length c one' two') ∧
      (∀ p q (hp : p < l.length) (hq : q < l.length), one' [p, q] = one [l[p], l[q]]) ∧
      ∀ p q r s (hp : p < l.length) (hq : q < l.length) (hr : r < l.length) (hs : s < l.length), two' [p, q, r, s] = two [l[p], l[q], l[r], l[s]] := by
  refine ⟨chosen l one, chosen l two, ?_, fun p q hp hq => ?_, fun p q r s hp hq hr hs => ?_⟩
  · show (ordering.mapM (axisIndex n) >>= fun l => Except.ok (interaction l.length c (chosen l one) (chosen l two))) = _
    rw [mapM_names hl]; rfl
  · rw [chosen]; simp [hp, hq]
  · rw [chosen]; simp [hp, hq, hr, hs]

/-- An integer that names no mode is an `IndexError`. -/
theorem reorder_rejects {n : ℕ} (c : ℂ) (one two : Tensor) {ordering : List ℤ} {z : ℤ} (hz : z ∈ ordering) (h : ∀ k, ¬ Names n z k) :
    reorderModes n c one two ordering = .error .indexError := by
  show (ordering.mapM (axisIndex n) >>= _) = _
  rw [mapM_none hz h]; rfl

/-! ## The same spectrum -/

theorem pad_comp {n : ℕ} {π : Equiv.Perm ℕ} {σ : Equiv.Perm (Fin n)} (h1 : ∀ i : Fin n, π i = σ i) (h2 : ∀ j, n ≤ j → π j = j) (x : Fin n → Bool) :
    pad x ∘ π = pad (x ∘ σ) := by
  funext j
  rw [Function.comp_apply, pad, pad]
  by_cases hj : j < n
  · have := h1 ⟨j, hj⟩
    dsimp only at this
    rw [dif_pos (by rw [this]; exact (σ _).2), dif_pos hj]
    simp only [Function.comp_apply]
    congr 1
    exact Fin.ext this
  · rw [h2 j (by omega), dif_neg hj, dif_neg hj]

theorem fin_perm {n : ℕ} {π : Equiv.Perm ℕ} (h : ∀ j, n ≤ j → π j = j) : ∃ σ : Equiv.Perm (Fin n), ∀ i : Fin n, π i = σ i := by
  have hlt : ∀ j : Fin n, π j < n := fun j => by
    by_contra hc
    have := h (π j) (by omega)
    have := π.injective this
    have := j.2
    omega
  have hi : Function.Injective fun i : Fin n => (⟨π i, hlt i⟩ : Fin n) := fun i j hij => Fin.ext (π.injective (congrArg Fin.val hij))
  exact ⟨Equiv.ofBijective _ (Finite.injective_iff_bijective.1 hi), fun i => rfl⟩

/-- The matrices of an operator and of the relabelled operator, on the modes that are relabelled: the rows and columns are permuted and get signs. -/
theorem relabel_matrix {n : ℕ} {π : Equiv.Perm ℕ} {U A B : Module.End ℂ State} (hU : Relabels π U) (hπ : ∀ j, n ≤ j → π j = j) (h : U * B = A * U) :
    ∃ (σ : Equiv.Perm (Fin n)) (ε : (Fin n → Bool) → ℂ), (∀ i : Fin n, π i = σ i) ∧ (∀ x, ε x = 1 ∨ ε x = -1) ∧
      ∀ x y, matrixOf n A x y = ε x * ε y * matrixOf n B (x ∘ σ) (y ∘ σ) := by
  obtain ⟨σ, hσ⟩ := fin_perm hπ
  obtain ⟨⟨ε, e1, e2⟩, -⟩ := hU
  refine ⟨σ, fun x => ε (pad x), hσ, fun x => e1 _, fun x y => ?_⟩
  have hb : U (basisState (pad (y ∘ σ))) = ε (pad y) • basisState (pad y) := by
    funext s
    rw [e2, Pi.smul_apply, smul_eq_mul, basisState, basisState, ← pad_comp hσ hπ]
    by_cases hs : s = pad y
    · rw [if_pos hs, if_pos (by rw [hs]), hs]
    · rw [if_neg hs, if_neg fun e => hs (funext fun q => ?_), mul_zero, mul_zero]
      have := congrFun e (π⁻¹ q)
      simpa using this
  have hsq : ε (pad y) * ε (pad y) = 1 := by rcases e1 (pad y) with h | h <;> rw [h] <;> norm_num
  have key : ε (pad x) * matrixOf n B (x ∘ σ) (y ∘ σ) = ε (pad y) * matrixOf n A x y := by
    have h3 : (U * B) (basisState (pad (y ∘ σ))) (pad x) = (A * U) (basisState (pad (y ∘ σ))) (pad x) := by rw [h]
    have h4 : (U * B) (basisState (pad (y ∘ σ))) (pad x) = ε (pad x) * B (basisState (pad (y ∘ σ))) (pad x ∘ π) := e2 _ _
    have h5 : (A * U) (basisState (pad (y ∘ σ))) (pad x) = ε (pad y) * A (basisState (pad y)) (pad x) := by
      show A (U (basisState (pad (y ∘ σ)))) (pad x) = _
      rw [hb, map_smul]; rfl
    rw [h4, h5, pad_comp hσ hπ] at h3
    exact h3
  calc matrixOf n A x y = ε (pad y) * (ε (pad y) * matrixOf n A x y) := by rw [← mul_assoc, hsq, one_mul]
    _ = _ := by rw [← key]; ring

theorem occupied_comp {n : ℕ} (σ : Equiv.Perm (Fin n)) (x : Fin n → Bool) : occupied (x ∘ σ) = occupied x := by
  rw [occupied, occupied]
  refine Finset.card_bij' (fun q _ => σ q) (fun q _ => σ.symm q) ?_ ?_ ?_ ?_ <;> simp

/-- The state that goes with a permutation of the modes and signs. -/
def moved {n : ℕ} (σ : Equiv.Perm (Fin n)) (ε : (Fin n → Bool) → ℂ) (ψ : (Fin n → Bool) → ℂ) : (Fin n → Bool) → ℂ := fun x => ε (x ∘ σ.symm) * ψ (x ∘ σ.symm)

theorem sum_comp {n : ℕ} (σ : Equiv.Perm (Fin n)) (f : (Fin n → Bool) → ℂ) : ∑ x, f (x ∘ σ.symm) = ∑ x, f x :=
  Fintype.sum_equiv (σ.arrowCongr (Equiv.refl Bool)) _ _ fun _ => rfl

theorem inner_moved {n : ℕ} (σ : Equiv.Perm (Fin n)) {ε : (Fin n → Bool) → ℂ} (hε : ∀ x, ε x = 1 ∨ ε x = -1) (φ ψ : (Fin n → Bool) → ℂ) :
    Ground.inner (moved σ ε φ) (moved σ ε ψ) = Ground.inner φ ψ := by
  rw [Ground.inner, Ground.inner, dotProduct, dotProduct, ← sum_comp σ fun x => star φ x * ψ x]
  refine Finset.sum_congr rfl fun x _ => ?_
  simp only [moved, Pi.star_apply, star_mul']
  rcases hε (x ∘ σ.symm) with h | h <;> rw [h] <;> simp

theorem mulVec_moved {n : ℕ} (σ : Equiv.Perm (Fin n)) {ε : (Fin n → Bool) → ℂ} (hε : ∀ x, ε x = 1 ∨ ε x = -1) {A B : Matrix (Fin n → Bool) (Fin n → Bool) ℂ}
    (h : ∀ x y, A x y = ε x * ε y * B (x ∘ σ) (y ∘ σ)) (ψ : (Fin n → Bool) → ℂ) : B *ᵥ moved σ ε ψ = moved σ ε (A *ᵥ ψ) := by
  funext x
  have hc : ∀ y : Fin n → Bool, (y ∘ σ.symm) ∘ σ = y := fun y => funext fun q => by simp
  have hsq : ∀ x, ε x * ε x = 1 := fun x => by rcases hε x with h | h <;> rw [h] <;> norm_num
  rw [moved, Matrix.mulVec, Matrix.mulVec, dotProduct, dotProduct, ← sum_comp σ fun y => A (x ∘ σ.symm) y * ψ y, Finset.mul_sum]
  refine Finset.sum_congr rfl fun y _ => ?_
  rw [h, hc, hc, moved]
  linear_combination (-(B x y * ε (y ∘ σ.symm) * ψ (y ∘ σ.symm))) * hsq (x ∘ σ.symm)

theorem particles_moved {n : ℕ} (σ : Equiv.Perm (Fin n)) (ε : (Fin n → Bool) → ℂ) {k : ℕ} {ψ : (Fin n → Bool) → ℂ} (h : HasParticles k ψ) : HasParticles k (moved σ ε ψ) := fun x hx => by
  rw [← occupied_comp σ.symm]
  exact h _ fun e => hx (by rw [moved, e, mul_zero])

theorem moved_surjective {n : ℕ} (σ : Equiv.Perm (Fin n)) {ε : (Fin n → Bool) → ℂ} (hε : ∀ x, ε x = 1 ∨ ε x = -1) {k : ℕ} {φ : (Fin n → Bool) → ℂ} (h : HasParticles k φ) :
    ∃ ψ, HasParticles k ψ ∧ moved σ ε ψ = φ := by
  have hsq : ∀ x, ε x * ε x = 1 := fun x => by rcases hε x with h | h <;> rw [h] <;> norm_num
  refine ⟨fun x => ε x * φ (x ∘ σ), fun x hx => ?_, funext fun x => ?_⟩
  · rw [← occupied_comp σ]
    exact h _ fun e => hx (by dsimp only; rw [e, mul_zero])
  · have hc : (x ∘ σ.symm) ∘ σ = x := funext fun q => by simp
    rw [moved, ← mul_assoc, hsq, one_mul, hc]

/-- A state of lowest energy among the states with `k` particles becomes one. -/
theorem ground_moved {n : ℕ} (σ : Equiv.Perm (Fin n)) {ε : (Fin n → Bool) → ℂ} (hε : ∀ x, ε x = 1 ∨ ε x = -1) {A B : Matrix (Fin n → Bool) (Fin n → Bool) ℂ}
    (h : ∀ x y, A x y = ε x * ε y * B (x ∘ σ) (y ∘ σ)) {k : ℕ} {e : ℝ} {ψ : (Fin n → Bool) → ℂ} : GroundState A k e ψ ↔ GroundState B k e (moved σ ε ψ) := by
  constructor
  · intro g
    refine ⟨particles_moved σ ε g.particles, by rw [inner_moved σ hε]; exact g.unit, by rw [mulVec_moved σ hε h, inner_moved σ hε]; exact g.energy, fun φ hφ => ?_⟩
    obtain ⟨χ, h1, rfl⟩ := moved_surjective σ hε hφ
    rw [mulVec_moved σ hε h, inner_moved σ hε, inner_moved σ hε]
    exact g.lowest χ h1
  · intro g
    refine ⟨fun x hx => ?_, by rw [← inner_moved σ hε]; exact g.unit, by rw [← inner_moved σ hε, ← mulVec_moved σ hε h]; exact g.energy, fun φ hφ => ?_⟩
    · have hc : (x ∘ σ) ∘ σ.symm = x := funext fun q => by simp
      have := g.particles (x ∘ σ) (by
        rw [moved, hc]
        rcases hε x with h | h <;> rw [h] <;> simpa using hx)
      rwa [occupied_comp] at this
    · have := g.lowest _ (particles_moved σ ε hφ)
      rwa [mulVec_moved σ hε h, inner_moved σ hε, inner_moved σ hε] at this

/-- **Relabelling keeps the energies**: an operator and the relabelled operator have the same lowest energies at each number of particles. -/
theorem relabel_ground {n : ℕ} {π : Equiv.Perm ℕ} {U A B : Module.End ℂ State} (hU : Relabels π U) (hπ : ∀ j, n ≤ j → π j = j) (h : U * B = A * U) (k : ℕ) (e : ℝ) :
    (∃ ψ, GroundState (matrixOf n A) k e ψ) ↔ ∃ ψ, GroundState (matrixOf n B) k e ψ := by
  obtain ⟨σ, ε, -, hε, hm⟩ := relabel_matrix hU hπ h
  refine ⟨fun ⟨ψ, hψ⟩ => ⟨_, (ground_moved σ hε hm).1 hψ⟩, fun ⟨ψ, hψ⟩ => ?_⟩
  obtain ⟨χ, -, rfl⟩ := moved_surjective σ hε hψ.particles
  exact ⟨χ, (ground_moved σ hε hm).2 hψ⟩

/-- **Relabelling is unitary**: there is an inverse, and it is the adjoint. -/
theorem relabel_unitary {π : Equiv.Perm ℕ} {U : Module.End ℂ State} (h : Relabels π U) : ∃ V, U * V = 1 ∧ V * U = 1 ∧ IsAdjoint U V := by
  obtain ⟨V, ⟨⟨η, n1, n2⟩, -⟩, h1, h2⟩ := h.inverse
  obtain ⟨⟨ε, e1, e2⟩, -⟩ := h
  refine ⟨V, h1, h2, fun s s' => ?_⟩
  have hs : ∀ ψ t, U (V ψ) t = ψ t := fun ψ t => by
    show (U * V) ψ t = _
    rw [h1]; rfl
  have hee : ∀ t, ε t * η (t ∘ π) = 1 := fun t => by
    have := hs (fun _ => 1) t
    rwa [e2, n2, mul_one] at this
  rw [n2, e2, basisState, basisState]
  by_cases hc : s' ∘ π = s
  · have hs' : s ∘ ⇑π⁻¹ = s' := by rw [← hc]; funext q; simp
    rw [if_pos hc, if_pos hs', mul_one, mul_one]
    have := hee s'
    rw [hc] at this
    rcases e1 s' with h | h <;> rcases n1 s with h' | h' <;> rw [h, h'] at this <;> rw [h, h'] <;> first | (norm_num at this; done) | norm_num
  · rw [if_neg hc, if_neg fun e => hc (by rw [← e]; funext q; simp), mul_zero, mul_zero, map_zero]

/-- The hypotheses can be met: four orbitals, of which the second is given as `-2`. -/
example : List.Forall₂ (Names 4) [0, -2, 1, 3] [0, 2, 1, 3] ∧ [0, 2, 1, 3].Perm (List.range 4) := by
  exact ⟨.cons ⟨by norm_num, by norm_num⟩ (.cons ⟨by norm_num, by norm_num⟩ (.cons ⟨by norm_num, by norm_num⟩ (.cons ⟨by norm_num, by norm_num⟩ .nil))), by decide⟩

example : ∀ k, ¬ Names 4 4 k := fun k hk => by have := hk.1; have := hk.2; omega

end ZQ.OperatorEdit
