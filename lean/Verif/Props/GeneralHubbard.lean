import Verif.Model.GeneralHubbard
import Verif.Props.Hubbard

/-!
# C125: number and interaction operators of the multiband Hubbard model
-/

namespace ZQ.GeneralHubbard

open ZQ ZQ.Op PyDict ZQ.Hubbard

/-! ### Specification -/

/-- Specification: the number of particles in mode `i`. -/
def occ (s : ℕ → Bool) (i : ℕ) : ℂ := if s i then 1 else 0

/-- Specification: the operator multiplies each basis state `s` by `v s`. -/
def Multiplies (M : Module.End ℂ State) (v : (ℕ → Bool) → ℂ) : Prop := ∀ ψ s, M ψ s = v s * ψ s

/-- Specification: the number that is taken off each occupation. -/
noncomputable def shift (phs : Bool) : ℂ := if phs then 1 / 2 else 0

/-- Specification: exchanging particles and holes. -/
def exchanged (s : ℕ → Bool) : ℕ → Bool := fun i => !s i

/-! ### Proofs -/

theorem number_eq (i : ℕ) (c : ℂ) (phs : Bool) : numberOperator i c phs = if phs then [([(i, true), (i, false)], c), ([], -(1 / 2))] else [([(i, true), (i, false)], c)] := by
  cases phs with
  | false => rfl
  | true =>
    show sub [([(i, true), (i, false)], c)] (ofTerm fermion [] (1 / 2)) = _
    rw [if_pos rfl]
    show subStep [([(i, true), (i, false)], c)] ([], 1 / 2) = _
    unfold subStep
    dsimp only
    have hk : ([(i, true), (i, false)] : Term Bool) ≠ [] := by simp
    rw [show coeff ([([(i, true), (i, false)], c)] : Terms Bool) [] = 0 by rw [coeff_cons, if_neg hk]; exact coeff_of_not_mem (by simp [keys]),
      zero_sub, if_neg (by rw [IsSmall, norm_neg, eqTol]; norm_num), PyDict.set, if_neg hk, PyDict.set]

theorem number_action (i : ℕ) (c : ℂ) (phs : Bool) : action ladderAction (numberOperator i c phs) = c • occupation i - shift phs • 1 := by
  rw [number_eq, shift]
  cases phs with
  | false =>
    rw [if_neg (by simp), if_neg (by simp), zero_smul, sub_zero, action_cons, action_nil, add_zero, termAction_cons, termAction_cons, termAction_nil, mul_one]
    rfl
  | true =>
    rw [if_pos rfl, if_pos rfl, action_cons, action_cons, action_nil, add_zero, termAction_cons, termAction_cons, termAction_nil, mul_one, occupation]
    module

theorem occupation_multiplies (i : ℕ) : Multiplies (occupation i) fun s => occ s i := by
  intro ψ s
  show (if s i = true then (-1) ^ occupiedBefore s i * (if (Function.update s i (!true)) i = false then
    (-1) ^ occupiedBefore (Function.update s i (!true)) i * ψ (Function.update (Function.update s i (!true)) i (!false)) else 0) else 0 : ℂ) = occ s i * ψ s
  by_cases h : s i = true
  · have hu : Function.update (Function.update s i (!true)) i (!false) = s := by
      rw [Function.update_idem]
      funext k
      by_cases hk : k = i
      · subst hk; simp [h]
      · simp [hk]
    have hb : occupiedBefore (Function.update s i (!true)) i = occupiedBefore s i := by
      rw [occupiedBefore, occupiedBefore]
      congr 1
      apply List.filter_congr
      intro q hq
      rw [Function.update_of_ne (by have := List.mem_range.1 hq; omega)]
    rw [if_pos h, if_pos (by simp), hu, hb, show occ s i = 1 from if_pos h, ← mul_assoc, ← mul_pow]
    norm_num
  · rw [if_neg h, show occ s i = 0 from if_neg h, zero_mul]

/-- C125. `number_operator(i, c)` is `c` times the number of particles in mode `i`, with particle-hole symmetry minus 1/2. -/
theorem number_spec (i : ℕ) (c : ℂ) (phs : Bool) : Multiplies (action ladderAction (numberOperator i c phs)) fun s => c * occ s i - shift phs := by
  intro ψ s
  rw [number_action]
  show c * (occupation i ψ s) - shift phs * ψ s = _
  rw [occupation_multiplies]
  ring

/-- C125. What `interaction_operator(i, j, c)` is, for all arguments, also for `i = j`. -/
theorem interaction_spec (i j : ℕ) (c : ℂ) (phs : Bool) :
    Multiplies (action ladderAction (interactionOperator i j c phs)) fun s => (c * occ s i - shift phs) * (occ s j - shift phs) := by
  intro ψ s
  rw [interactionOperator, action_mul ladderAction fermion_sound _ _ (fun _ _ _ _ => trivial)]
  show action ladderAction (numberOperator i c phs) (action ladderAction (numberOperator j 1 phs) ψ) s = _
  rw [number_spec, number_spec]
  ring

/-- C125, the intended meaning, for operators without particle-hole symmetry or with the coefficient 1: `c (n_i - 1/2) (n_j - 1/2)`, or `c n_i n_j`. It is the repulsion of `fermi_hubbard`, and with
particle-hole symmetry it takes the same value when particles and holes are exchanged. Missing: other coefficients with particle-hole symmetry, see `interaction_counterexample`. -/
theorem interaction_partial (i j : ℕ) (c : ℂ) (phs : Bool) (h : phs = false ∨ c = 1) :
    Multiplies (action ladderAction (interactionOperator i j c phs)) (fun s => c * ((occ s i - shift phs) * (occ s j - shift phs))) ∧
      action ladderAction (interactionOperator i j c phs) = repulsion c phs i j ∧
      (phs = true → ∀ s, c * ((occ (exchanged s) i - shift phs) * (occ (exchanged s) j - shift phs)) = c * ((occ s i - shift phs) * (occ s j - shift phs))) := by
  refine ⟨fun ψ s => ?_, ?_, ?_⟩
  · rw [interaction_spec]
    rcases h with rfl | rfl
    · simp only [shift, if_neg (show ¬ (false = true) by decide)]; ring
    · ring
  · rw [interactionOperator, action_mul ladderAction fermion_sound _ _ (fun _ _ _ _ => trivial), number_action, number_action, repulsion]
    rcases h with rfl | rfl
    · simp [shift, smul_mul_assoc]
    · simp [shift]
  · rintro rfl s
    simp only [shift, if_pos, occ, exchanged]
    by_cases h1 : s i = true <;> by_cases h2 : s j = true <;> simp [h1, h2] <;> norm_num

/-- C125, negation: with particle-hole symmetry and the coefficient 2, `interaction_operator(0, 1)` tells particles from holes. On the empty state it gives 1/4, on the full state 3/4; both should be
2 / 4. -/
theorem interaction_counterexample :
    (∀ ψ, action ladderAction (interactionOperator 0 1 2 true) ψ (fun _ => false) = 1 / 4 * ψ fun _ => false) ∧
    (∀ ψ, action ladderAction (interactionOperator 0 1 2 true) ψ (fun _ => true) = 3 / 4 * ψ fun _ => true) ∧
    action ladderAction (interactionOperator 0 1 2 true) ≠ repulsion 2 true 0 1 := by
  have h1 : ∀ ψ, action ladderAction (interactionOperator 0 1 2 true) ψ (fun _ => false) = 1 / 4 * ψ fun _ => false := by
    intro ψ
    rw [interaction_spec]
    simp only [occ, shift]
    norm_num
  refine ⟨h1, fun ψ => ?_, fun h => ?_⟩
  · rw [interaction_spec]
    simp only [occ, shift]
    norm_num
  · have h2 := h1 (fun _ => 1)
    rw [h] at h2
    have h3 : repulsion 2 true 0 1 (fun _ => 1) (fun _ => false) = (2 : ℂ) * ((occupation 0 ((occupation 1 - (1 / 2 : ℂ) • 1) (fun _ => 1)) (fun _ => false)) -
        1 / 2 * ((occupation 1 (fun _ => 1) (fun _ => false)) - 1 / 2 * 1)) := rfl
    rw [h3, occupation_multiplies, occupation_multiplies] at h2
    simp only [occ] at h2
    norm_num at h2

/-- Mode 0 holds a particle, mode 1 does not. -/
example : Multiplies (action ladderAction (interactionOperator 0 1 1 true)) (fun s => 1 * ((occ s 0 - shift true) * (occ s 1 - shift true))) ∧
    (1 : ℂ) * ((occ (fun i => i == 0) 0 - shift true) * (occ (fun i => i == 0) 1 - shift true)) = -1 / 4 := by
  refine ⟨(interaction_partial 0 1 1 true (Or.inr rfl)).1, ?_⟩
  simp only [occ, shift]
  norm_num

end ZQ.GeneralHubbard
