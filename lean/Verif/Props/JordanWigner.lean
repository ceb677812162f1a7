import Verif.Lemmas.ExactSum
import Verif.Props.Ising

/-! # C45: the Jordan-Wigner transform -/

namespace ZQ.Op

open PyDict

theorem zSign_zFactors (p : ℕ) (s : ℕ → Bool) : zSign (zFactors p) s = sgn s p := by
  induction p with
  | zero => rfl
  | succ p ih =>
    rw [sgn_succ, ← ih, zSign, zFactors, List.range_succ, List.map_append, List.map_append, List.prod_append]
    simp [zSign, zFactors]

theorem allZ_zFactors (p : ℕ) : AllZ (zFactors p) := by
  intro f hf
  obtain ⟨i, _, rfl⟩ := List.mem_map.1 hf
  rfl

theorem canonical_chain (p : ℕ) (a : Letter) (ha : a ≠ .I) : Canonical (zFactors p ++ [(p, a)]) := by
  refine ⟨?_, ?_⟩
  · rw [List.map_append, zFactors, List.map_map]
    show (List.map id (List.range p) ++ _).Pairwise _
    rw [List.map_id]
    rw [List.pairwise_append]
    refine ⟨List.pairwise_lt_range, by simp, ?_⟩
    intro x hx y hy
    simp at hy; subst hy
    exact List.mem_range.1 hx
  · intro f hf
    rcases List.mem_append.1 hf with hf | hf
    · rw [allZ_zFactors p f hf]; simp
    · rw [List.mem_singleton.1 hf]; exact ha

theorem jwLadder_eq (f : ℕ × Bool) :
    jwLadder f = [(zFactors f.1 ++ [(f.1, .X)], 1 / 2), (zFactors f.1 ++ [(f.1, .Y)], if f.2 then -(1 / 2 * Complex.I) else 1 / 2 * Complex.I)] := by
  have hX : ofTerm qubit (zFactors f.1 ++ [(f.1, .X)]) (1 / 2) = [(zFactors f.1 ++ [(f.1, .X)], 1 / 2)] := by
    rw [ofTerm]
    show [((qubitSimplify _ _).2, (qubitSimplify _ _).1)] = _
    rw [qubitSimplify_of_canonical (canonical_chain f.1 .X (by simp))]
  have hY : ∀ k, ofTerm qubit (zFactors f.1 ++ [(f.1, .Y)]) k = [(zFactors f.1 ++ [(f.1, .Y)], k)] := by
    intro k
    rw [ofTerm]
    show [((qubitSimplify _ _).2, (qubitSimplify _ _).1)] = _
    rw [qubitSimplify_of_canonical (canonical_chain f.1 .Y (by simp))]
  rw [jwLadder, hX, hY]
  set k : ℂ := if f.2 then -(1 / 2 * Complex.I) else 1 / 2 * Complex.I with hk
  have hn : zFactors f.1 ++ [(f.1, .Y)] ∉ keys ([(zFactors f.1 ++ [(f.1, Letter.X)], (1 / 2 : ℂ))] : Terms Letter) := by
    simp [keys]
  have hkn : ‖k‖ = 1 / 2 := by
    rw [hk]; split
    · rw [norm_neg, norm_mul, Complex.norm_I]; norm_num
    · rw [norm_mul, Complex.norm_I]; norm_num
  show addStep _ (_, k) = _
  rw [addStep]
  dsimp only
  rw [coeff_of_not_mem hn, zero_add, if_neg (by rw [IsSmall, hkn, eqTol]; norm_num), set_of_not_mem hn]
  rfl

/-- C45: the image of a ladder operator acts on qubits as the ladder operator acts on occupations. -/
theorem jwLadder_action (f : ℕ × Bool) : action pauliAction (jwLadder f) = ladderAction f := by
  obtain ⟨p, b⟩ := f
  rw [jwLadder_eq, action_cons, action_cons, action_nil, add_zero]
  apply LinearMap.ext; intro ψ; funext s
  rw [LinearMap.add_apply, LinearMap.smul_apply, LinearMap.smul_apply, Pi.add_apply, Pi.smul_apply, Pi.smul_apply]
  simp only [termAction_append, termAction_cons, termAction_nil, mul_one, Module.End.mul_apply, allZ_action (allZ_zFactors p),
    zSign_zFactors, ladder_apply, smul_eq_mul, pauliAction, atQubit_apply, letterMatrix, pauliX, pauliY]
  cases hs : s p <;> cases b <;> simp [hs] <;> ring_nf <;> simp [Complex.I_sq] <;> ring_nf

/-- C45: the images of the ladder operators satisfy the canonical anticommutation relations. -/
theorem jw_anticommutation (p q : ℕ) :
    action pauliAction (mul qubit (jwLadder (p, false)) (jwLadder (q, true))) + action pauliAction (mul qubit (jwLadder (q, true)) (jwLadder (p, false)))
      = (if p = q then 1 else 0) ∧
    action pauliAction (mul qubit (jwLadder (p, false)) (jwLadder (q, false))) + action pauliAction (mul qubit (jwLadder (q, false)) (jwLadder (p, false))) = 0 ∧
    action pauliAction (mul qubit (jwLadder (p, true)) (jwLadder (q, true))) + action pauliAction (mul qubit (jwLadder (q, true)) (jwLadder (p, true))) = 0 := by
  simp only [qubit_product_action, jwLadder_action]
  by_cases h : p = q
  · subst h
    refine ⟨by rw [if_pos rfl]; exact ladder_same p false, ?_, ?_⟩
    · rw [ladder_sq, add_zero]
    · rw [ladder_sq, add_zero]
  · refine ⟨?_, ?_, ?_⟩
    · rw [if_neg h, ladder_anticomm (f := (p, false)) (g := (q, true)) h, neg_add_cancel]
    · rw [ladder_anticomm (f := (p, false)) (g := (q, false)) h, neg_add_cancel]
    · rw [ladder_anticomm (f := (p, true)) (g := (q, true)) h, neg_add_cancel]

/-- C45: the image of a single term is exact, whatever its coefficient. -/
theorem jwTerm_spec (t : Term Bool) (c : ℂ) :
    CanonicalOp (jwTerm t c) ∧ action pauliAction (jwTerm t c) = c • termAction ladderAction t ∧
    ∀ δ : ℝ, c ∈ Grid (2 ^ t.length * δ) → OnGrid δ (jwTerm t c) := by
  have key : ∀ (t : Term Bool) (acc : Terms Letter), CanonicalOp acc →
      CanonicalOp (t.foldl (fun acc f => mul qubit acc (jwLadder f)) acc) ∧
      action pauliAction (t.foldl (fun acc f => mul qubit acc (jwLadder f)) acc) = action pauliAction acc * termAction ladderAction t ∧
      ∀ δ : ℝ, OnGrid (2 ^ t.length * δ) acc → OnGrid δ (t.foldl (fun acc f => mul qubit acc (jwLadder f)) acc) := by
    intro t
    induction t with
    | nil => intro acc h; exact ⟨h, by rw [termAction_nil, mul_one]; rfl, fun δ hg => by simpa using hg⟩
    | cons f t ih =>
      intro acc h
      obtain ⟨i1, i2, i3⟩ := ih (mul qubit acc (jwLadder f)) (qubit_product_canonical _ _)
      refine ⟨i1, ?_, fun δ hg => i3 δ ?_⟩
      · rw [List.foldl_cons, i2, qubit_product_action, jwLadder_action, termAction_cons, mul_assoc]
      · intro u
        apply coeff_mul_mem
        intro l hl r hr
        apply qubitSimplify_mem
        have hl' : l.2 ∈ Grid (2 * (2 ^ t.length * δ)) := by
          have := hg l.1
          rw [coeff_of_mem h.1 (show (l.1, l.2) ∈ acc from hl), List.length_cons, pow_succ] at this
          rwa [show (2 : ℝ) * (2 ^ t.length * δ) = 2 ^ t.length * 2 * δ by ring]
        have hh := Grid.half hl'
        rw [jwLadder_eq] at hr
        simp only [List.mem_cons, List.not_mem_nil, or_false] at hr
        rcases hr with rfl | rfl
        · exact hh
        · dsimp only
          split
          · rw [mul_neg, ← mul_assoc]; exact (Grid _).neg_mem (Grid.mul_I hh)
          · rw [← mul_assoc]; exact Grid.mul_I hh
  have h0 : CanonicalOp (ofTerm qubit [] c) := by
    refine ⟨wf_single _ _, fun u hu => ?_⟩
    rw [ofTerm, keys, List.map_singleton, List.mem_singleton] at hu
    rw [hu]; exact qubitSimplify_canonical _ _
  have h1 : ofTerm qubit [] c = [([], c)] := rfl
  obtain ⟨k1, k2, k3⟩ := key t (ofTerm qubit [] c) h0
  refine ⟨k1, ?_, fun δ hc => k3 δ (by rw [h1]; exact onGrid_single hc)⟩
  rw [jwTerm, k2, h1, action_cons, action_nil, add_zero, termAction_nil, smul_mul_assoc, one_mul]

/-- C45, exact: when the coefficients are multiples of `2^(length) * δ` with `δ` at least the tolerance (so that no partial sum can be tiny
without being zero), the transform acts exactly as the fermion operator. -/
theorem jordanWigner_action (o : Terms Bool) (δ : ℝ) (hδ : 1 / 10 ^ 8 ≤ δ) (hg : ∀ kv ∈ o, kv.2 ∈ Grid (2 ^ kv.1.length * δ)) :
    action pauliAction (jordanWigner o) = action ladderAction o := by
  obtain ⟨_, _, _, h4⟩ := foldl_add_onGrid hδ o (fun kv => jwTerm kv.1 kv.2) [] wf_nil (OnGrid.nil δ)
    (fun kv hkv => ⟨(jwTerm_spec kv.1 kv.2).1.1, (jwTerm_spec kv.1 kv.2).2.2 δ (hg kv hkv)⟩)
  rw [jordanWigner, h4, action_nil, zero_add, action]
  congr 1
  apply List.map_congr_left
  intro kv _
  exact (jwTerm_spec kv.1 kv.2).2.1

/-- C45, all operators: the result is canonical and differs from an operator with exactly the right action by at most `1e-8` per term of the
input in every coefficient (the additions may drop sums below `1e-8`). -/
theorem jordanWigner_error (o : Terms Bool) :
    CanonicalOp (jordanWigner o) ∧
    ∃ E : Terms Letter, CanonicalOp E ∧ action pauliAction E = action ladderAction o ∧
      ∀ t, ‖coeff (jordanWigner o) t - coeff E t‖ ≤ o.length * (1 / 10 ^ 8) := by
  have hf : ∀ kv ∈ o, WF (jwTerm kv.1 kv.2) ∧ ∀ t ∈ keys (jwTerm kv.1 kv.2), Canonical t :=
    fun kv _ => (jwTerm_spec kv.1 kv.2).1
  obtain ⟨w, err⟩ := foldl_add_error o (fun kv => jwTerm kv.1 kv.2) [] wf_nil (fun kv h => (hf kv h).1)
  obtain ⟨E, e1, e2, e3, e4⟩ := exactSum_spec Canonical o (fun kv => jwTerm kv.1 kv.2) hf
  refine ⟨⟨w, foldl_add_keys Canonical o (fun kv => jwTerm kv.1 kv.2) [] wf_nil (fun t ht => by simp [keys] at ht) hf⟩, E, ⟨e1, e2⟩, ?_, fun t => ?_⟩
  · rw [e3, action]
    congr 1
    apply List.map_congr_left
    intro kv _
    exact (jwTerm_spec kv.1 kv.2).2.1
  · have := err t
    rw [coeff_of_not_mem (o := []) (by simp [keys]), zero_add] at this
    rw [e4]; exact this

/-- C45: sums, scalar multiples and products of fermion operators go to sums, multiples and products of actions. -/
theorem fermion_algebra (a b : Terms Bool) (c : ℂ) :
    action ladderAction (mul fermion a b) = action ladderAction a * action ladderAction b ∧
    action ladderAction (smul a c) = c • action ladderAction a :=
  ⟨action_mul ladderAction (P := fun _ => True) (fun _ _ _ => rfl) a b (fun _ _ _ _ => trivial), action_smul _ _ _⟩

/-- Integer coefficients with terms of length at most four (a molecular Hamiltonian's shape) meet the grid hypothesis with `δ = 1/16`. -/
example : ∀ kv ∈ ([([(3, true), (1, false)], 2), ([(2, true), (1, true), (1, false), (0, false)], -1), ([], 5)] : Terms Bool),
    kv.2 ∈ Grid (2 ^ kv.1.length * (1 / 16)) := by
  intro kv hkv
  simp only [List.mem_cons, List.not_mem_nil, or_false] at hkv
  rcases hkv with rfl | rfl | rfl
  · exact ⟨8, 0, by norm_num⟩
  · exact ⟨-1, 0, by norm_num⟩
  · exact ⟨80, 0, by norm_num⟩

end ZQ.Op
