import Verif.Spec.Relabel
import Verif.Lemmas.Fermion
import Mathlib.GroupTheory.Perm.Sign
import Mathlib.Algebra.Group.End
import Mathlib.Data.Fin.Tuple.Basic
import Mathlib.Logic.Equiv.Fin.Basic

/-! # Lemmas: every permutation of finitely many modes is a unitary relabelling -/

namespace ZQ.Op

theorem Relabels.one : Relabels 1 1 :=
  ⟨⟨fun _ => 1, fun _ => .inl rfl, fun ψ s => by rw [one_mul]; rfl⟩, fun j b => by rw [one_mul, mul_one]; rfl⟩

theorem Relabels.mul {π ρ : Equiv.Perm ℕ} {U V : Module.End ℂ State} (hU : Relabels π U) (hV : Relabels ρ V) : Relabels (π * ρ) (U * V) := by
  obtain ⟨⟨ε, e1, e2⟩, e3⟩ := hU
  obtain ⟨⟨η, n1, n2⟩, n3⟩ := hV
  refine ⟨⟨fun s => ε s * η (s ∘ π), fun s => ?_, fun ψ s => ?_⟩, fun j b => ?_⟩
  · rcases e1 s with h | h <;> rcases n1 (s ∘ π) with h' | h' <;> simp [h, h']
  · show U (V ψ) s = _
    rw [e2, n2, mul_assoc]; rfl
  · rw [mul_assoc, n3, ← mul_assoc, e3, mul_assoc]; rfl

/-- Exchanging two neighbouring modes. -/
noncomputable def swapAction (k : ℕ) : Module.End ℂ State where
  toFun ψ s := (if s k = true ∧ s (k + 1) = true then -1 else 1) * ψ (s ∘ Equiv.swap k (k + 1))
  map_add' ψ φ := by funext s; exact mul_add _ _ _
  map_smul' c ψ := by
    funext s
    show _ * (c * _) = c * (_ * _)
    ring

theorem sgn_congr {s t : ℕ → Bool} {p : ℕ} (h : ∀ q < p, s q = t q) : sgn s p = sgn t p := by
  induction p with
  | zero => rfl
  | succ p ih => rw [sgn_succ, sgn_succ, ih fun q hq => h q (by omega), h p (by omega)]

theorem sgn_swap {s : ℕ → Bool} {k p : ℕ} (h : k + 1 < p) : sgn (s ∘ Equiv.swap k (k + 1)) p = sgn s p := by
  induction p with
  | zero => omega
  | succ p ih =>
    by_cases hp : k + 1 < p
    · rw [sgn_succ, sgn_succ, ih hp, Function.comp_apply, Equiv.swap_apply_of_ne_of_ne (by omega) (by omega)]
    · obtain rfl : p = k + 1 := by omega
      rw [sgn_succ, sgn_succ, sgn_succ, sgn_succ, sgn_congr (s := s ∘ Equiv.swap k (k + 1)) (t := s) fun q hq => by
        rw [Function.comp_apply, Equiv.swap_apply_of_ne_of_ne (by omega) (by omega)]]
      simp only [Function.comp_apply, Equiv.swap_apply_left, Equiv.swap_apply_right]
      ring

theorem relabels_swap (k : ℕ) : Relabels (Equiv.swap k (k + 1)) (swapAction k) := by
  refine ⟨⟨_, fun s => ?_, fun ψ s => rfl⟩, fun j b => LinearMap.ext fun ψ => funext fun s => ?_⟩
  · split_ifs <;> simp
  · show (if s k = true ∧ s (k + 1) = true then (-1 : ℂ) else 1) * ladderAction (j, b) ψ (s ∘ Equiv.swap k (k + 1)) = ladderAction (Equiv.swap k (k + 1) j, b) (swapAction k ψ) s
    rw [ladder_apply, ladder_apply]
    show _ * (if s (Equiv.swap k (k + 1) j) = b then _ else _) = (if s (Equiv.swap k (k + 1) j) = b then sgn s (Equiv.swap k (k + 1) j) *
      ((if Function.update s (Equiv.swap k (k + 1) j) (!b) k = true ∧ Function.update s (Equiv.swap k (k + 1) j) (!b) (k + 1) = true then (-1 : ℂ) else 1) *
        ψ (Function.update s (Equiv.swap k (k + 1) j) (!b) ∘ Equiv.swap k (k + 1))) else 0)
    have hup : Function.update s (Equiv.swap k (k + 1) j) (!b) ∘ Equiv.swap k (k + 1) = Function.update (s ∘ Equiv.swap k (k + 1)) j (!b) := by
      funext q
      by_cases hq : q = j
      · rw [hq]; simp
      · simp [Function.update_of_ne hq, Function.update_of_ne fun e => hq ((Equiv.swap k (k + 1)).injective e)]
    rw [hup]
    by_cases hb : s (Equiv.swap k (k + 1) j) = b
    · rw [if_pos hb, if_pos hb, ← mul_assoc, ← mul_assoc]
      congr 1
      by_cases h1 : j = k
      · subst h1
        rw [Equiv.swap_apply_left] at hb ⊢
        rw [sgn_congr (s := s ∘ Equiv.swap j (j + 1)) (t := s) fun q hq => by
          rw [Function.comp_apply, Equiv.swap_apply_of_ne_of_ne (by omega) (by omega)], sgn_succ]
        rw [Function.update_self, Function.update_of_ne (by omega), hb]
        cases s j <;> cases b <;> simp
      · by_cases h2 : j = k + 1
        · subst h2
          rw [Equiv.swap_apply_right] at hb ⊢
          rw [sgn_succ, sgn_congr (s := s ∘ Equiv.swap k (k + 1)) (t := s) fun q hq => by
            rw [Function.comp_apply, Equiv.swap_apply_of_ne_of_ne (by omega) (by omega)]]
          rw [Function.update_self, Function.update_of_ne (by omega), Function.comp_apply, Equiv.swap_apply_left, hb]
          cases s (k + 1) <;> cases b <;> simp
        · rw [Equiv.swap_apply_of_ne_of_ne h1 h2, Function.update_of_ne (by omega), Function.update_of_ne (by omega), mul_comm]
          congr 1
          by_cases h3 : j < k
          · exact sgn_congr fun q hq => by rw [Function.comp_apply, Equiv.swap_apply_of_ne_of_ne (by omega) (by omega)]
          · exact sgn_swap (by omega)
    · rw [if_neg hb, if_neg hb, mul_zero]

/-- A permutation of the first `n` modes, as a permutation of all modes. -/
def permExtend {n : ℕ} (σ : Equiv.Perm (Fin n)) : Equiv.Perm ℕ := σ.extendDomain Fin.equivSubtype

theorem permExtend_lt {n : ℕ} (σ : Equiv.Perm (Fin n)) (j : Fin n) : permExtend σ j = σ j :=
  Equiv.Perm.extendDomain_apply_image σ Fin.equivSubtype j

theorem permExtend_ge {n : ℕ} (σ : Equiv.Perm (Fin n)) {j : ℕ} (h : n ≤ j) : permExtend σ j = j :=
  Equiv.Perm.extendDomain_apply_not_subtype σ Fin.equivSubtype (by omega)

theorem permExtend_mul {n : ℕ} (σ τ : Equiv.Perm (Fin n)) : permExtend (σ * τ) = permExtend σ * permExtend τ :=
  (Equiv.Perm.extendDomain_mul Fin.equivSubtype σ τ).symm

theorem permExtend_swap {n : ℕ} (i : Fin n) : permExtend (Equiv.swap i.castSucc i.succ) = Equiv.swap (i : ℕ) (i + 1) := by
  ext j
  by_cases h : j < n + 1
  · have := permExtend_lt (Equiv.swap i.castSucc i.succ) ⟨j, h⟩
    rw [show ((⟨j, h⟩ : Fin (n + 1)) : ℕ) = j from rfl] at this
    rw [this]
    by_cases h1 : j = i
    · rw [show (⟨j, h⟩ : Fin (n + 1)) = i.castSucc from Fin.ext h1, h1, Equiv.swap_apply_left, Equiv.swap_apply_left]; rfl
    · by_cases h2 : j = i + 1
      · rw [show (⟨j, h⟩ : Fin (n + 1)) = i.succ from Fin.ext h2, h2, Equiv.swap_apply_right, Equiv.swap_apply_right]; rfl
      · rw [Equiv.swap_apply_of_ne_of_ne h1 h2, Equiv.swap_apply_of_ne_of_ne (fun e => h1 (congrArg Fin.val e)) fun e => h2 (congrArg Fin.val e)]
  · rw [permExtend_ge _ (by omega), Equiv.swap_apply_of_ne_of_ne (by omega) (by omega)]

theorem relabels_extend {n : ℕ} (σ : Equiv.Perm (Fin n)) : ∃ U, Relabels (permExtend σ) U := by
  cases n with
  | zero =>
    refine ⟨1, ?_⟩
    rw [show permExtend σ = 1 from Equiv.ext fun j => permExtend_ge σ (Nat.zero_le j)]
    exact .one
  | succ n =>
    have hσ : σ ∈ Submonoid.closure (Set.range fun i : Fin n ↦ Equiv.swap i.castSucc i.succ) := by
      rw [Equiv.Perm.mclosure_swap_castSucc_succ]; trivial
    induction hσ using Submonoid.closure_induction with
    | mem x hx =>
      obtain ⟨i, rfl⟩ := hx
      exact ⟨_, permExtend_swap i ▸ relabels_swap i⟩
    | one =>
      refine ⟨1, ?_⟩
      rw [show permExtend (1 : Equiv.Perm (Fin (n + 1))) = 1 from Equiv.Perm.extendDomain_one _]
      exact .one
    | mul x y _ _ hx hy =>
      obtain ⟨U, hU⟩ := hx
      obtain ⟨V, hV⟩ := hy
      exact ⟨U * V, permExtend_mul x y ▸ hU.mul hV⟩

/-- Every permutation of the numbers below `n` is realised by a relabelling. -/
theorem relabels_exists {n : ℕ} {π : Equiv.Perm ℕ} (h : ∀ j, n ≤ j → π j = j) : ∃ U, Relabels π U := by
  have hlt : ∀ j, j < n → π j < n := fun j hj => by
    by_contra hc
    have := h (π j) (by omega)
    have := π.injective this
    omega
  have hlt' : ∀ j, j < n → π.symm j < n := fun j hj => by
    by_contra hc
    have h1 := h (π.symm j) (by omega)
    rw [Equiv.apply_symm_apply] at h1
    omega
  let σ : Equiv.Perm (Fin n) := ⟨fun j => ⟨π j, hlt j j.2⟩, fun j => ⟨π.symm j, hlt' j j.2⟩, fun j => by simp, fun j => by simp⟩
  obtain ⟨U, hU⟩ := relabels_extend σ
  have : permExtend σ = π := Equiv.ext fun j => by
    by_cases hj : j < n
    · exact permExtend_lt σ ⟨j, hj⟩
    · rw [permExtend_ge σ (by omega), h j (by omega)]
  exact ⟨U, this ▸ hU⟩

/-! ### Consequences -/

theorem Relabels.inverse {π : Equiv.Perm ℕ} {U : Module.End ℂ State} (h : Relabels π U) : ∃ V, Relabels π⁻¹ V ∧ U * V = 1 ∧ V * U = 1 := by
  obtain ⟨⟨ε, e1, e2⟩, e3⟩ := h
  have hsq : ∀ s, ε s * ε s = 1 := fun s => by rcases e1 s with h | h <;> rw [h] <;> norm_num
  have hc1 : ∀ s : ℕ → Bool, (s ∘ π) ∘ ⇑π⁻¹ = s := fun s => funext fun q => by simp
  have hc2 : ∀ s : ℕ → Bool, (s ∘ ⇑π⁻¹) ∘ π = s := fun s => funext fun q => by simp
  let V : Module.End ℂ State :=
    { toFun := fun ψ s => ε (s ∘ ⇑π⁻¹) * ψ (s ∘ ⇑π⁻¹)
      map_add' := fun ψ φ => funext fun s => mul_add _ _ _
      map_smul' := fun c ψ => funext fun s => by
        show _ * (c * _) = c * (_ * _)
        ring }
  have hUV : U * V = 1 := LinearMap.ext fun ψ => funext fun s => by
    show U (V ψ) s = ψ s
    rw [e2]
    show _ * (ε ((s ∘ π) ∘ ⇑π⁻¹) * ψ ((s ∘ π) ∘ ⇑π⁻¹)) = _
    rw [hc1, ← mul_assoc, hsq, one_mul]
  have hVU : V * U = 1 := LinearMap.ext fun ψ => funext fun s => by
    show ε (s ∘ ⇑π⁻¹) * U ψ (s ∘ ⇑π⁻¹) = ψ s
    rw [e2, hc2, ← mul_assoc, hsq, one_mul]
  refine ⟨V, ⟨⟨_, fun s => e1 _, fun ψ s => rfl⟩, fun j b => ?_⟩, hUV, hVU⟩
  have := e3 (π⁻¹ j) b
  rw [show π (π⁻¹ j) = j by simp] at this
  calc V * ladderAction (j, b) = V * (ladderAction (j, b) * U) * V := by rw [mul_assoc, mul_assoc, hUV, mul_one]
    _ = V * (U * ladderAction (π⁻¹ j, b)) * V := by rw [this]
    _ = _ := by rw [← mul_assoc, hVU, one_mul]

theorem Relabels.term {π : Equiv.Perm ℕ} {U : Module.End ℂ State} (h : Relabels π U) (t : Term Bool) :
    U * termAction ladderAction t = termAction ladderAction (t.map fun f => (π f.1, f.2)) * U := by
  induction t with
  | nil => simp only [List.map_nil, termAction_nil, mul_one, one_mul]
  | cons f t ih => rw [List.map_cons, termAction_cons, termAction_cons, ← mul_assoc, h.2 f.1 f.2, mul_assoc, ih, mul_assoc]

theorem Relabels.operator {π : Equiv.Perm ℕ} {U : Module.End ℂ State} (h : Relabels π U) (o : Terms Bool) :
    U * action ladderAction o = action ladderAction (o.map fun kv => (kv.1.map fun f => (π f.1, f.2), kv.2)) * U := by
  induction o with
  | nil => simp only [List.map_nil, action_nil, mul_zero, zero_mul]
  | cons kv o ih => rw [List.map_cons, action_cons, action_cons, mul_add, add_mul, ih, mul_smul_comm, smul_mul_assoc, h.term]

end ZQ.Op
