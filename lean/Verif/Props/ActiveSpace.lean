import Verif.Props.Molecule

/-!
# C88: active spaces
-/

namespace ZQ.Mol

open ZQ ZQ.Op ZQ.PolyT ZQ.FTools ZQ.UCC ZQ.JWInt

/-! ## Frozen modes -/

section Modes

variable (m : ℕ) (occupied active : List ℕ)

/-- The occupations kept by the projection. -/
def Fits (s : ℕ → Bool) : Prop :=
  (∀ p ∈ occupied, s (2 * p) = true ∧ s (2 * p + 1) = true) ∧ (∀ p < m, p ∉ occupied → p ∉ active → s (2 * p) = false ∧ s (2 * p + 1) = false)

open Classical in
theorem frozen_apply (ψ : State) (s : ℕ → Bool) : frozen m occupied active ψ s = if Fits m occupied active s then ψ s else 0 := by
  by_cases h : Fits m occupied active s
  · rw [if_pos h]; exact if_pos h
  · rw [if_neg h]; exact if_neg h

variable {m occupied active}

theorem fits_core {s : ℕ → Bool} (h : Fits m occupied active s) {x : ℕ} (hx : x / 2 ∈ occupied) : s x = true := by
  obtain ⟨h0, h1⟩ := h.1 _ hx
  rcases Nat.mod_two_eq_zero_or_one x with e | e
  · rwa [show 2 * (x / 2) = x by omega] at h0
  · rwa [show 2 * (x / 2) + 1 = x by omega] at h1

theorem fits_empty {s : ℕ → Bool} (h : Fits m occupied active s) {x : ℕ} (hm : x < 2 * m) (hx : x / 2 ∉ occupied) (hx' : x / 2 ∉ active) : s x = false := by
  obtain ⟨h0, h1⟩ := h.2 (x / 2) (by omega) hx hx'
  rcases Nat.mod_two_eq_zero_or_one x with e | e
  · rwa [show 2 * (x / 2) = x by omega] at h0
  · rwa [show 2 * (x / 2) + 1 = x by omega] at h1

theorem kill_left {x : ℕ} {b : Bool} (h : ∀ s, Fits m occupied active s → s x ≠ b) : frozen m occupied active * ladderAction (x, b) = 0 := by
  refine LinearMap.ext fun ψ => funext fun s => ?_
  rw [Module.End.mul_apply, frozen_apply]
  by_cases hs : Fits m occupied active s
  · rw [if_pos hs, ladder_apply, if_neg (h s hs)]; rfl
  · rw [if_neg hs]; rfl

theorem kill_right {x : ℕ} {b : Bool} (h : ∀ s, Fits m occupied active s → s x ≠ !b) : ladderAction (x, b) * frozen m occupied active = 0 := by
  refine LinearMap.ext fun ψ => funext fun s => ?_
  rw [Module.End.mul_apply, ladder_apply, frozen_apply]
  split_ifs with h1 h2
  · exact absurd (Function.update_self ..) (h _ h2)
  · rw [mul_zero]; rfl
  · rfl

theorem core_left {x : ℕ} (hx : x / 2 ∈ occupied) : frozen m occupied active * ladderAction (x, false) = 0 :=
  kill_left fun s hs => by rw [fits_core hs hx]; decide
theorem core_right {x : ℕ} (hx : x / 2 ∈ occupied) : ladderAction (x, true) * frozen m occupied active = 0 :=
  kill_right fun s hs => by rw [fits_core hs hx]; decide
theorem empty_left {x : ℕ} (hm : x < 2 * m) (hx : x / 2 ∉ occupied) (hx' : x / 2 ∉ active) : frozen m occupied active * ladderAction (x, true) = 0 :=
  kill_left fun s hs => by rw [fits_empty hs hm hx hx']; decide
theorem empty_right {x : ℕ} (hm : x < 2 * m) (hx : x / 2 ∉ occupied) (hx' : x / 2 ∉ active) : ladderAction (x, false) * frozen m occupied active = 0 :=
  kill_right fun s hs => by rw [fits_empty hs hm hx hx']; decide

theorem core_number {x : ℕ} (hx : x / 2 ∈ occupied) : frozen m occupied active * hop x x = frozen m occupied active := by
  refine LinearMap.ext fun ψ => funext fun s => ?_
  rw [Module.End.mul_apply, frozen_apply, frozen_apply]
  by_cases hs : Fits m occupied active s
  · rw [if_pos hs, if_pos hs, Rdm.hop_diag, if_pos (fits_core hs hx)]
  · rw [if_neg hs, if_neg hs]

/-- The projected one-body product. -/
noncomputable def PH (m : ℕ) (occupied active : List ℕ) (x y : ℕ) : Module.End ℂ State := frozen m occupied active * hop x y * frozen m occupied active

/-- The projected two-body product. -/
noncomputable def PQ (m : ℕ) (occupied active : List ℕ) (x y z w : ℕ) : Module.End ℂ State := frozen m occupied active * quad x y z w * frozen m occupied active

theorem PH_left {x y : ℕ} (h : frozen m occupied active * ladderAction (x, true) = 0) : PH m occupied active x y = 0 := by
  rw [PH, hop, ← mul_assoc, h, zero_mul, zero_mul]

theorem PH_right {x y : ℕ} (h : ladderAction (y, false) * frozen m occupied active = 0) : PH m occupied active x y = 0 := by
  rw [PH, hop, mul_assoc, mul_assoc, h, mul_zero, mul_zero]

theorem PH_swap {x y : ℕ} (hne : x ≠ y) (h : frozen m occupied active * ladderAction (y, false) = 0 ∨ ladderAction (x, true) * frozen m occupied active = 0) :
    PH m occupied active x y = 0 := by
  rw [PH, hop, ladder_anticomm (f := (x, true)) (g := (y, false)) hne]
  rcases h with h | h
  · rw [end_mul_neg, ← mul_assoc, h, zero_mul, neg_zero, zero_mul]
  · rw [end_mul_neg, end_neg_mul, mul_assoc, mul_assoc, h, mul_zero, mul_zero, neg_zero]

theorem PH_core {x : ℕ} (hx : x / 2 ∈ occupied) : PH m occupied active x x = frozen m occupied active * frozen m occupied active := by rw [PH, core_number hx]

open Classical in
/-- One if the mode belongs to a core orbital. -/
noncomputable def isCore (occupied : List ℕ) (x : ℕ) : ℂ := if x / 2 ∈ occupied then 1 else 0

theorem PH_cases (hd : ∀ p ∈ occupied, p ∉ active) {x y : ℕ} (hx : x < 2 * m) (hy : y < 2 * m) : PH m occupied active x y =
    (if x = y then isCore occupied x else 0) • (frozen m occupied active * frozen m occupied active) + (isCore active x * isCore active y) • PH m occupied active x y := by
  unfold isCore
  by_cases cx : x / 2 ∈ occupied
  · rw [if_pos cx, if_neg (hd _ cx), zero_mul, zero_smul, add_zero]
    by_cases e : x = y
    · subst e; rw [if_pos rfl, one_smul, PH_core cx]
    · rw [if_neg e, zero_smul, PH_swap e (Or.inr (core_right cx))]
  · rw [if_neg cx, ite_self, zero_smul, zero_add]
    by_cases ax : x / 2 ∈ active
    · rw [if_pos ax, one_mul]
      by_cases ay : y / 2 ∈ active
      · rw [if_pos ay, one_smul]
      · rw [if_neg ay, zero_smul]
        by_cases cy : y / 2 ∈ occupied
        · exact PH_swap (fun e => cx (e ▸ cy)) (Or.inl (core_left cy))
        · exact PH_right (empty_right hy cy ay)
    · rw [if_neg ax, zero_mul, zero_smul]
      exact PH_left (empty_left hx cx ax)

theorem PQ_first {x y z w : ℕ} (h : frozen m occupied active * ladderAction (x, true) = 0) : PQ m occupied active x y z w = 0 := by
  rw [PQ, quad, ← mul_assoc, ← mul_assoc, ← mul_assoc, h, zero_mul, zero_mul, zero_mul, zero_mul]

theorem PQ_last {x y z w : ℕ} (h : ladderAction (w, false) * frozen m occupied active = 0) : PQ m occupied active x y z w = 0 := by
  rw [PQ, quad, mul_assoc, mul_assoc _ (ladderAction (w, false)), h, mul_zero, mul_zero]

theorem PQ_swapLeft (x y z w : ℕ) : PQ m occupied active x y z w = -PQ m occupied active y x z w := by
  rw [PQ, PQ, quad_swap_left y x, end_mul_neg, end_neg_mul]

theorem PQ_swapRight (x y z w : ℕ) : PQ m occupied active x y z w = -PQ m occupied active x y w z := by
  rw [PQ, PQ, quad_swap_right x y w z, end_mul_neg, end_neg_mul]

/-- A core electron that is removed must be put back. -/
theorem PQ_core (x y z : ℕ) {w : ℕ} (hw : w / 2 ∈ occupied) : PQ m occupied active x y z w =
    (if w = x then (1 : ℂ) else 0) • PH m occupied active y z - (if w = y then (1 : ℂ) else 0) • PH m occupied active x z := by
  by_cases e : x = y
  · subst e
    rw [PQ, quad_pp, mul_zero, zero_mul, sub_self]
  · by_cases h1 : w = x
    · subst h1
      rw [if_pos rfl, if_neg e, zero_smul, sub_zero, one_smul, PQ, quad_ps e, ← mul_assoc, core_number hw]; rfl
    · by_cases h2 : w = y
      · subst h2
        rw [if_neg (Ne.symm e), if_pos rfl, zero_smul, zero_sub, one_smul, PQ, quad_qs e, end_mul_neg, end_neg_mul, ← mul_assoc, core_number hw]; rfl
      · rw [if_neg h1, if_neg h2, zero_smul, zero_smul, sub_zero]
        by_cases hz : z = w
        · subst hz; rw [PQ, quad_rr, mul_zero, zero_mul]
        · have : quad x y z w = -(ladderAction (w, false) * (ladderAction (x, true) * ladderAction (y, true) * ladderAction (z, false))) := by
            rw [quad, mul_assoc _ (ladderAction (z, false)), ladder_anticomm (f := (z, false)) (g := (w, false)) hz, end_mul_neg, ← mul_assoc,
              mul_assoc _ (ladderAction (y, true)), ladder_anticomm (f := (y, true)) (g := (w, false)) (Ne.symm h2), end_mul_neg, end_neg_mul, neg_neg, ← mul_assoc,
              ladder_anticomm (f := (x, true)) (g := (w, false)) (Ne.symm h1), end_neg_mul, end_neg_mul]
            simp only [mul_assoc]
          rw [PQ, this, end_mul_neg, ← mul_assoc, core_left hw, zero_mul, neg_zero, zero_mul]

/-- A core electron that is added must be removed. -/
theorem PQ_coreFirst {x y z w : ℕ} (hx : x / 2 ∈ occupied) (hz : x ≠ z) (hw : x ≠ w) : PQ m occupied active x y z w = 0 := by
  by_cases e : x = y
  · subst e
    rw [PQ, quad_pp, mul_zero, zero_mul]
  · have : quad x y z w = -(ladderAction (y, true) * ladderAction (z, false) * ladderAction (w, false) * ladderAction (x, true)) := by
      rw [quad, ladder_anticomm (f := (x, true)) (g := (y, true)) e, end_neg_mul, end_neg_mul, mul_assoc (ladderAction (y, true)),
        ladder_anticomm (f := (x, true)) (g := (z, false)) hz, end_mul_neg, end_neg_mul, neg_neg, mul_assoc, mul_assoc (ladderAction (z, false)),
        ladder_anticomm (f := (x, true)) (g := (w, false)) hw, end_mul_neg, end_mul_neg]
      simp only [mul_assoc]
    rw [PQ, this, end_mul_neg, end_neg_mul, mul_assoc, mul_assoc, core_right hx, mul_zero, mul_zero, neg_zero]

theorem PQ_cases (hd : ∀ p ∈ occupied, p ∉ active) {x y z w : ℕ} (hx : x < 2 * m) (hy : y < 2 * m) (hz : z < 2 * m) (hw : w < 2 * m) : PQ m occupied active x y z w =
    (isCore active x * isCore active y * isCore active z * isCore active w) • PQ m occupied active x y z w +
    (isCore occupied w) • ((if w = x then (1 : ℂ) else 0) • PH m occupied active y z - (if w = y then (1 : ℂ) else 0) • PH m occupied active x z) +
    (isCore active w * isCore occupied z) • ((if z = y then (1 : ℂ) else 0) • PH m occupied active x w - (if z = x then (1 : ℂ) else 0) • PH m occupied active y w) := by
  unfold isCore
  by_cases cw : w / 2 ∈ occupied
  · rw [if_pos cw, if_neg (hd _ cw), mul_zero, zero_smul, zero_mul, zero_smul, one_smul, zero_add, add_zero, PQ_core x y z cw]
  · rw [if_neg cw, zero_smul, add_zero]
    by_cases aw : w / 2 ∈ active
    · rw [if_pos aw, mul_one, one_mul]
      by_cases cz : z / 2 ∈ occupied
      · rw [if_pos cz, if_neg (hd _ cz), mul_zero, zero_smul, one_smul, zero_add, PQ_swapRight, PQ_core x y w cz, neg_sub]
      · rw [if_neg cz, zero_smul, add_zero]
        by_cases az : z / 2 ∈ active
        · rw [if_pos az, mul_one]
          by_cases ax : x / 2 ∈ active
          · rw [if_pos ax, one_mul]
            by_cases ay : y / 2 ∈ active
            · rw [if_pos ay, one_smul]
            · rw [if_neg ay, zero_smul, PQ_swapLeft]
              by_cases cy : y / 2 ∈ occupied
              · have e1 : y ≠ z := fun e => cz (e ▸ cy)
                have e2 : y ≠ w := fun e => cw (e ▸ cy)
                rw [PQ_coreFirst cy e1 e2, neg_zero]
              · rw [PQ_first (empty_left hy cy ay), neg_zero]
          · rw [if_neg ax, zero_mul, zero_smul]
            by_cases cx : x / 2 ∈ occupied
            · exact PQ_coreFirst cx (fun e => cz (e ▸ cx)) (fun e => cw (e ▸ cx))
            · exact PQ_first (empty_left hx cx ax)
        · rw [if_neg az, mul_zero, zero_smul, PQ_swapRight, PQ_last (empty_right hz cz az), neg_zero]
    · rw [if_neg aw, mul_zero, zero_smul, zero_mul, zero_smul, add_zero]
      exact PQ_last (empty_right hw cw aw)

end Modes

/-! ## Frozen orbitals -/

section Orbitals

variable {m : ℕ} {occupied active : List ℕ}

/-- The projected one-electron excitation. -/
noncomputable def PE (m : ℕ) (occupied active : List ℕ) (p q : ℕ) : Module.End ℂ State := frozen m occupied active * excite p q * frozen m occupied active

/-- The projected two-electron excitation. -/
noncomputable def PX (m : ℕ) (occupied active : List ℕ) (p q r s : ℕ) : Module.End ℂ State := frozen m occupied active * excitePair p q r s * frozen m occupied active

theorem PE_eq (p q : ℕ) : PE m occupied active p q = PH m occupied active (2 * p) (2 * q) + PH m occupied active (2 * p + 1) (2 * q + 1) := by
  rw [PE, excite, mul_add, add_mul]; rfl

theorem PX_eq (p q r s : ℕ) : PX m occupied active p q r s =
    PQ m occupied active (2 * p) (2 * q) (2 * r) (2 * s) + PQ m occupied active (2 * p) (2 * q + 1) (2 * r + 1) (2 * s) +
    (PQ m occupied active (2 * p + 1) (2 * q) (2 * r) (2 * s + 1) + PQ m occupied active (2 * p + 1) (2 * q + 1) (2 * r + 1) (2 * s + 1)) := by
  simp only [PX, excitePair, Finset.sum_range_succ, Finset.sum_range_zero, zero_add, add_zero, pairMove_eq, mul_add, add_mul, PQ]

open Classical in
/-- One if the orbital is in the list. -/
noncomputable def isIn (l : List ℕ) (p : ℕ) : ℂ := if p ∈ l then 1 else 0

theorem isCore_even (l : List ℕ) (p : ℕ) : isCore l (2 * p) = isIn l p := by rw [isCore, isIn, show 2 * p / 2 = p by omega]
theorem isCore_odd (l : List ℕ) (p : ℕ) : isCore l (2 * p + 1) = isIn l p := by rw [isCore, isIn, show (2 * p + 1) / 2 = p by omega]

theorem PE_cases (hd : ∀ p ∈ occupied, p ∉ active) {p q : ℕ} (hp : p < m) (hq : q < m) : PE m occupied active p q =
    (if p = q then 2 * isIn occupied p else 0) • (frozen m occupied active * frozen m occupied active) + (isIn active p * isIn active q) • PE m occupied active p q := by
  have h0 := PH_cases (m := m) hd (x := 2 * p) (y := 2 * q) (by omega) (by omega)
  have h1 := PH_cases (m := m) hd (x := 2 * p + 1) (y := 2 * q + 1) (by omega) (by omega)
  rw [isCore_even, isCore_even, isCore_even] at h0
  rw [isCore_odd, isCore_odd, isCore_odd] at h1
  conv_lhs => rw [PE_eq, h0, h1]
  rw [PE_eq]
  by_cases e : p = q
  · subst e
    rw [if_pos rfl, if_pos rfl, if_pos rfl]
    module
  · rw [if_neg (by omega), if_neg (by omega), if_neg e]
    module

theorem PX_cases (hd : ∀ p ∈ occupied, p ∉ active) {p q r s : ℕ} (hp : p < m) (hq : q < m) (hr : r < m) (hs : s < m) : PX m occupied active p q r s =
    (isIn active p * isIn active q * isIn active r * isIn active s) • PX m occupied active p q r s +
    (isIn occupied s) • ((if s = p then (2 : ℂ) else 0) • PE m occupied active q r - (if s = q then (1 : ℂ) else 0) • PE m occupied active p r) +
    (isIn active s * isIn occupied r) • ((if r = q then (2 : ℂ) else 0) • PE m occupied active p s - (if r = p then (1 : ℂ) else 0) • PE m occupied active q s) := by
  have h0 := PQ_cases (m := m) hd (x := 2 * p) (y := 2 * q) (z := 2 * r) (w := 2 * s) (by omega) (by omega) (by omega) (by omega)
  have h1 := PQ_cases (m := m) hd (x := 2 * p) (y := 2 * q + 1) (z := 2 * r + 1) (w := 2 * s) (by omega) (by omega) (by omega) (by omega)
  have h2 := PQ_cases (m := m) hd (x := 2 * p + 1) (y := 2 * q) (z := 2 * r) (w := 2 * s + 1) (by omega) (by omega) (by omega) (by omega)
  have h3 := PQ_cases (m := m) hd (x := 2 * p + 1) (y := 2 * q + 1) (z := 2 * r + 1) (w := 2 * s + 1) (by omega) (by omega) (by omega) (by omega)
  conv_lhs => rw [PX_eq, h0, h1, h2, h3]
  simp only [PX_eq, PE_eq, isCore_even, isCore_odd]
  have t : ∀ a b : ℕ, (2 * a = 2 * b) = (a = b) := fun a b => propext (by omega)
  have t1 : ∀ a b : ℕ, (2 * a + 1 = 2 * b + 1) = (a = b) := fun a b => propext (by omega)
  have t2 : ∀ a b : ℕ, (2 * a + 1 = 2 * b) = False := fun a b => propext (iff_of_false (by omega) id)
  have t3 : ∀ a b : ℕ, (2 * a = 2 * b + 1) = False := fun a b => propext (iff_of_false (by omega) id)
  simp only [t, t1, t2, t3, if_false]
  have d : ∀ a b : ℕ, (if a = b then (2 : ℂ) else 0) = 2 * if a = b then (1 : ℂ) else 0 := by intro a b; split_ifs <;> norm_num
  rw [d, d]
  generalize (if s = p then (1 : ℂ) else 0) = a1
  generalize (if s = q then (1 : ℂ) else 0) = a2
  generalize (if r = q then (1 : ℂ) else 0) = a3
  generalize (if r = p then (1 : ℂ) else 0) = a4
  module

/-! ## Sums over orbitals -/

theorem sum_isIn {l : List ℕ} (hl : l.Nodup) (hm : ∀ p ∈ l, p < m) {M : Type} [AddCommGroup M] [Module ℂ M] (F : ℕ → M) :
    ∑ p ∈ Finset.range m, isIn l p • F p = (l.map F).sum := by
  classical
  have : ∀ p ∈ Finset.range m, isIn l p • F p = if p ∈ l.toFinset then F p else 0 := by
    intro p _
    unfold isIn
    by_cases h : p ∈ l
    · rw [if_pos h, one_smul, if_pos (List.mem_toFinset.2 h)]
    · rw [if_neg h, zero_smul, if_neg (fun h' => h (List.mem_toFinset.1 h'))]
  rw [Finset.sum_congr rfl this, ← Finset.sum_filter, ← List.sum_toFinset F hl]
  refine Finset.sum_congr ?_ fun _ _ => rfl
  ext p
  simp only [Finset.mem_filter, Finset.mem_range, List.mem_toFinset]
  exact ⟨fun h => h.2, fun h => ⟨hm p h, h⟩⟩

theorem sum_active {l : List ℕ} (hl : l.Nodup) (hm : ∀ p ∈ l, p < m) {M : Type} [AddCommGroup M] [Module ℂ M] (F : ℕ → M) :
    ∑ a ∈ Finset.range l.length, F (l.getD a 0) = ∑ p ∈ Finset.range m, isIn l p • F p := by
  rw [sum_isIn hl hm, ← list_range_sum]
  congr 1
  refine List.ext_getElem (by simp) fun a h1 h2 => ?_
  simp only [List.length_map] at h2
  simp [List.getD_eq_getElem?_getD, List.getElem?_eq_getElem h2]

end Orbitals

/-! ## The arrays -/

theorem core_inner (g : RTensor) (i : ℕ) (l : List ℕ) (c : ℝ) :
    l.foldl (fun c j => c + (2 * g [i, j, j, i] - g [i, j, i, j])) c = c + (l.map fun j => 2 * g [i, j, j, i] - g [i, j, i, j]).sum := by
  induction l generalizing c with
  | nil => simp
  | cons j l ih => rw [List.foldl_cons, ih, List.map_cons, List.sum_cons]; ring

/-- The core constant: the electrons of the core orbitals, each with its kinetic and nuclear energy and its interaction with the others. -/
theorem core_spec (h g : RTensor) (occupied : List ℕ) : coreConstant h g occupied =
    (occupied.map fun i => 2 * h [i, i] + (occupied.map fun j => 2 * g [i, j, j, i] - g [i, j, i, j]).sum).sum := by
  have key : ∀ (l : List ℕ) (c : ℝ), l.foldl (fun c i => occupied.foldl (fun c j => c + (2 * g [i, j, j, i] - g [i, j, i, j])) (c + 2 * h [i, i])) c =
      c + (l.map fun i => 2 * h [i, i] + (occupied.map fun j => 2 * g [i, j, j, i] - g [i, j, i, j]).sum).sum := by
    intro l
    induction l with
    | nil => intro c; simp
    | cons i l ih =>
      intro c
      rw [List.foldl_cons, ih, core_inner, List.map_cons, List.sum_cons]
      ring
  rw [coreConstant, key, zero_add]

theorem modified_inner (g : RTensor) (u v : ℕ) (l : List ℕ) (t : RTensor) (a b : ℕ) :
    l.foldl (fun t i => put t [u, v] (t [u, v] + (2 * g [i, u, v, i] - g [i, u, i, v]))) t [a, b] =
      t [a, b] + if a = u ∧ b = v then (l.map fun i => 2 * g [i, u, v, i] - g [i, u, i, v]).sum else 0 := by
  induction l generalizing t with
  | nil => simp
  | cons i l ih =>
    rw [List.foldl_cons, ih]
    by_cases h : a = u ∧ b = v
    · obtain ⟨rfl, rfl⟩ := h
      rw [if_pos ⟨rfl, rfl⟩, if_pos ⟨rfl, rfl⟩, put_self, List.map_cons, List.sum_cons]; ring
    · rw [if_neg h, if_neg h, put_ne]
      intro e
      simp only [List.cons.injEq, and_true] at e
      exact h e

theorem modified_middle (g : RTensor) (occupied : List ℕ) (u : ℕ) (l : List ℕ) (hl : l.Nodup) (t : RTensor) (a b : ℕ) :
    l.foldl (fun t v => occupied.foldl (fun t i => put t [u, v] (t [u, v] + (2 * g [i, u, v, i] - g [i, u, i, v]))) t) t [a, b] =
      t [a, b] + if a = u ∧ b ∈ l then (occupied.map fun i => 2 * g [i, a, b, i] - g [i, a, i, b]).sum else 0 := by
  induction l generalizing t with
  | nil => simp
  | cons v l ih =>
    rw [List.foldl_cons, ih (List.nodup_cons.1 hl).2, modified_inner]
    by_cases ha : a = u
    · subst ha
      by_cases hb : b = v
      · subst hb
        rw [if_pos ⟨rfl, rfl⟩, if_neg (fun h => (List.nodup_cons.1 hl).1 h.2), if_pos ⟨rfl, List.mem_cons_self⟩, add_zero]
      · rw [if_neg (fun h => hb h.2), add_zero]
        simp [hb]
    · rw [if_neg (fun h => ha h.1), if_neg (fun h => ha h.1), if_neg (fun h => ha h.1), add_zero]

theorem modified_spec (h g : RTensor) (occupied : List ℕ) {active : List ℕ} (hl : active.Nodup) {a b : ℕ} (ha : a ∈ active) (hb : b ∈ active) :
    modifiedOne h g occupied active [a, b] = h [a, b] + (occupied.map fun i => 2 * g [i, a, b, i] - g [i, a, i, b]).sum := by
  have key : ∀ (l : List ℕ) (t : RTensor), l.Nodup → l.foldl (fun t u => active.foldl (fun t v => occupied.foldl (fun t i => put t [u, v] (t [u, v] + (2 * g [i, u, v, i] - g [i, u, i, v]))) t) t) t [a, b] =
      t [a, b] + if a ∈ l then (occupied.map fun i => 2 * g [i, a, b, i] - g [i, a, i, b]).sum else 0 := by
    intro l
    induction l with
    | nil => intro t _; simp
    | cons u l ih =>
      intro t hl
      rw [List.foldl_cons, ih _ (List.nodup_cons.1 hl).2, modified_middle g occupied u active ‹_›]
      by_cases h : a = u
      · subst h
        rw [if_pos ⟨rfl, hb⟩, if_neg (List.nodup_cons.1 hl).1, if_pos List.mem_cons_self, add_zero]
      · rw [if_neg (fun h' => h h'.1), add_zero]
        simp [h]
  rw [modifiedOne, key active h hl, if_pos ha]

/-! ## The active space -/

section Active

variable {m : ℕ} {occupied active : List ℕ}

theorem project_electronic (P : Module.End ℂ State) (orb : ℕ → ℕ) (m : ℕ) (c : ℝ) (h g : RTensor) : P * electronicOn orb m c h g * P =
    (c : ℂ) • (P * P) + ∑ p ∈ Finset.range m, ∑ q ∈ Finset.range m, (h [p, q] : ℂ) • (P * excite (orb p) (orb q) * P) +
    (1 / 2 : ℂ) • ∑ p ∈ Finset.range m, ∑ q ∈ Finset.range m, ∑ r ∈ Finset.range m, ∑ s ∈ Finset.range m,
      (g [p, q, r, s] : ℂ) • (P * excitePair (orb p) (orb q) (orb r) (orb s) * P) := by
  unfold electronicOn
  simp only [mul_add, add_mul, Finset.mul_sum, Finset.sum_mul, mul_smul_comm, smul_mul_assoc, mul_one]

/-- Pulling a sum over a repeated index together. -/
theorem sum_diag {M : Type} [AddCommGroup M] [Module ℂ M] (m : ℕ) (f : ℕ → ℕ → M) (a : ℂ) :
    ∑ p ∈ Finset.range m, ∑ q ∈ Finset.range m, (if p = q then a else 0) • f p q = a • ∑ p ∈ Finset.range m, f p p := by
  rw [Finset.smul_sum]
  refine Finset.sum_congr rfl fun p hp => ?_
  rw [Finset.sum_eq_single p]
  · rw [if_pos rfl]
  · intro q _ h; rw [if_neg (Ne.symm h), zero_smul]
  · exact fun h => absurd hp h

/-- The one-electron part, projected. -/
theorem project_one (hd : ∀ p ∈ occupied, p ∉ active) (A : ℕ → ℕ → ℂ) :
    ∑ p ∈ Finset.range m, ∑ q ∈ Finset.range m, A p q • PE m occupied active p q =
      (∑ p ∈ Finset.range m, isIn occupied p * (2 * A p p)) • (frozen m occupied active * frozen m occupied active) +
      ∑ p ∈ Finset.range m, ∑ q ∈ Finset.range m, (isIn active p * isIn active q * A p q) • PE m occupied active p q := by
  have e : ∀ p ∈ Finset.range m, ∀ q ∈ Finset.range m, A p q • PE m occupied active p q =
      (if p = q then (1 : ℂ) else 0) • ((2 * isIn occupied p * A p q) • (frozen m occupied active * frozen m occupied active)) +
        (isIn active p * isIn active q * A p q) • PE m occupied active p q := by
    intro p hp q hq
    conv_lhs => rw [PE_cases hd (Finset.mem_range.1 hp) (Finset.mem_range.1 hq)]
    by_cases h : p = q
    · rw [if_pos h, if_pos h]; module
    · rw [if_neg h, if_neg h]; module
  rw [Finset.sum_congr rfl fun p hp => Finset.sum_congr rfl fun q hq => e p hp q hq]
  simp only [Finset.sum_add_distrib]
  rw [sum_diag m (fun p q => (2 * isIn occupied p * A p q) • (frozen m occupied active * frozen m occupied active)) 1, one_smul, Finset.sum_smul]
  refine congrArg₂ (· + ·) (Finset.sum_congr rfl fun p _ => ?_) rfl
  congr 1; ring

/-- The two-electron part, projected: the interaction with the core electrons becomes a one-electron term. -/
theorem project_two (hd : ∀ p ∈ occupied, p ∉ active) (B : ℕ → ℕ → ℕ → ℕ → ℂ) (hB : ∀ p q r s, B p q r s = B q p s r) :
    (1 / 2 : ℂ) • ∑ p ∈ Finset.range m, ∑ q ∈ Finset.range m, ∑ r ∈ Finset.range m, ∑ s ∈ Finset.range m, B p q r s • PX m occupied active p q r s =
      (∑ p ∈ Finset.range m, isIn occupied p * ∑ i ∈ Finset.range m, isIn occupied i * (2 * B p i i p - B p i p i)) • (frozen m occupied active * frozen m occupied active) +
      ∑ p ∈ Finset.range m, ∑ q ∈ Finset.range m, (isIn active p * isIn active q * ∑ i ∈ Finset.range m, isIn occupied i * (2 * B i p q i - B i p i q)) • PE m occupied active p q +
      (1 / 2 : ℂ) • ∑ p ∈ Finset.range m, ∑ q ∈ Finset.range m, ∑ r ∈ Finset.range m, ∑ s ∈ Finset.range m,
        (isIn active p * isIn active q * isIn active r * isIn active s * B p q r s) • PX m occupied active p q r s := by
  set P := frozen m occupied active with hP
  set δ : ℕ → ℕ → ℂ := fun a b => if a = b then 1 else 0 with hδ
  have hδ2 : ∀ a b, (if a = b then (2 : ℂ) else 0) = 2 * δ a b := by intro a b; simp only [hδ]; split_ifs <;> norm_num
  have e : ∀ p ∈ Finset.range m, ∀ q ∈ Finset.range m, ∀ r ∈ Finset.range m, ∀ s ∈ Finset.range m, B p q r s • PX m occupied active p q r s =
      (isIn active p * isIn active q * isIn active r * isIn active s * B p q r s) • PX m occupied active p q r s +
      (δ s p • ((2 * isIn occupied s * B p q r s) • PE m occupied active q r) - δ s q • ((isIn occupied s * B p q r s) • PE m occupied active p r)) +
      (δ r q • ((2 * isIn active s * isIn occupied r * B p q r s) • PE m occupied active p s) - δ r p • ((isIn active s * isIn occupied r * B p q r s) • PE m occupied active q s)) := by
    intro p hp q hq r hr s hs
    conv_lhs => rw [PX_cases hd (Finset.mem_range.1 hp) (Finset.mem_range.1 hq) (Finset.mem_range.1 hr) (Finset.mem_range.1 hs), hδ2, hδ2]
    module
  rw [Finset.sum_congr rfl fun p hp => Finset.sum_congr rfl fun q hq => Finset.sum_congr rfl fun r hr => Finset.sum_congr rfl fun s hs => e p hp q hq r hr s hs]
  simp only [Finset.sum_add_distrib, Finset.sum_sub_distrib]
  have pick : ∀ (f : ℕ → Module.End ℂ State), ∀ a ∈ Finset.range m, ∑ b ∈ Finset.range m, δ b a • f b = f a := by
    intro f a ha
    rw [Finset.sum_eq_single a]
    · simp [hδ]
    · intro b _ h; simp [hδ, h]
    · exact fun h => absurd ha h
  have pick' : ∀ (f : ℕ → Module.End ℂ State), ∀ a ∈ Finset.range m, ∑ b ∈ Finset.range m, δ a b • f b = f a := by
    intro f a ha
    rw [← pick f a ha]
    refine Finset.sum_congr rfl fun b _ => ?_
    simp only [hδ, eq_comm]
  -- the four deltas
  have s1 : ∑ p ∈ Finset.range m, ∑ q ∈ Finset.range m, ∑ r ∈ Finset.range m, ∑ s ∈ Finset.range m, δ s p • ((2 * isIn occupied s * B p q r s) • PE m occupied active q r) =
      (2 : ℂ) • ∑ q ∈ Finset.range m, ∑ r ∈ Finset.range m, (∑ i ∈ Finset.range m, isIn occupied i * B i q r i) • PE m occupied active q r := by
    rw [Finset.sum_congr rfl fun p hp => Finset.sum_congr rfl fun q _ => Finset.sum_congr rfl fun r _ => pick (fun s => (2 * isIn occupied s * B p q r s) • PE m occupied active q r) p hp]
    rw [Finset.sum_comm, Finset.smul_sum]
    refine Finset.sum_congr rfl fun q _ => ?_
    rw [Finset.sum_comm, Finset.smul_sum]
    refine Finset.sum_congr rfl fun r _ => ?_
    rw [Finset.sum_smul, Finset.smul_sum]
    refine Finset.sum_congr rfl fun i _ => ?_
    module
  have s2 : ∑ p ∈ Finset.range m, ∑ q ∈ Finset.range m, ∑ r ∈ Finset.range m, ∑ s ∈ Finset.range m, δ s q • ((isIn occupied s * B p q r s) • PE m occupied active p r) =
      ∑ p ∈ Finset.range m, ∑ r ∈ Finset.range m, (∑ i ∈ Finset.range m, isIn occupied i * B p i r i) • PE m occupied active p r := by
    rw [Finset.sum_congr rfl fun p _ => Finset.sum_congr rfl fun q hq => Finset.sum_congr rfl fun r _ => pick (fun s => (isIn occupied s * B p q r s) • PE m occupied active p r) q hq]
    refine Finset.sum_congr rfl fun p _ => ?_
    rw [Finset.sum_comm]
    refine Finset.sum_congr rfl fun r _ => ?_
    rw [Finset.sum_smul]
  have s3 : ∑ p ∈ Finset.range m, ∑ q ∈ Finset.range m, ∑ r ∈ Finset.range m, ∑ s ∈ Finset.range m, δ r q • ((2 * isIn active s * isIn occupied r * B p q r s) • PE m occupied active p s) =
      (2 : ℂ) • ∑ p ∈ Finset.range m, ∑ s ∈ Finset.range m, (isIn active s * ∑ i ∈ Finset.range m, isIn occupied i * B p i i s) • PE m occupied active p s := by
    rw [Finset.smul_sum]
    refine Finset.sum_congr rfl fun p _ => ?_
    have : ∀ q ∈ Finset.range m, ∑ r ∈ Finset.range m, ∑ s ∈ Finset.range m, δ r q • ((2 * isIn active s * isIn occupied r * B p q r s) • PE m occupied active p s) =
        ∑ s ∈ Finset.range m, (2 * isIn active s * isIn occupied q * B p q q s) • PE m occupied active p s := by
      intro q hq
      rw [Finset.sum_comm]
      exact Finset.sum_congr rfl fun s _ => pick (fun r => (2 * isIn active s * isIn occupied r * B p q r s) • PE m occupied active p s) q hq
    rw [Finset.sum_congr rfl this, Finset.sum_comm, Finset.smul_sum]
    refine Finset.sum_congr rfl fun s _ => ?_
    rw [Finset.mul_sum, Finset.sum_smul, Finset.smul_sum]
    refine Finset.sum_congr rfl fun i _ => ?_
    module
  have s4 : ∑ p ∈ Finset.range m, ∑ q ∈ Finset.range m, ∑ r ∈ Finset.range m, ∑ s ∈ Finset.range m, δ r p • ((isIn active s * isIn occupied r * B p q r s) • PE m occupied active q s) =
      ∑ q ∈ Finset.range m, ∑ s ∈ Finset.range m, (isIn active s * ∑ i ∈ Finset.range m, isIn occupied i * B i q i s) • PE m occupied active q s := by
    have : ∀ p ∈ Finset.range m, ∀ q, ∑ r ∈ Finset.range m, ∑ s ∈ Finset.range m, δ r p • ((isIn active s * isIn occupied r * B p q r s) • PE m occupied active q s) =
        ∑ s ∈ Finset.range m, (isIn active s * isIn occupied p * B p q p s) • PE m occupied active q s := by
      intro p hp q
      rw [Finset.sum_comm]
      exact Finset.sum_congr rfl fun s _ => pick (fun r => (isIn active s * isIn occupied r * B p q r s) • PE m occupied active q s) p hp
    rw [Finset.sum_congr rfl fun p hp => Finset.sum_congr rfl fun q _ => this p hp q, Finset.sum_comm]
    refine Finset.sum_congr rfl fun q _ => ?_
    rw [Finset.sum_comm]
    refine Finset.sum_congr rfl fun s _ => ?_
    rw [Finset.mul_sum, Finset.sum_smul]
    refine Finset.sum_congr rfl fun i _ => ?_
    congr 1; ring
  rw [s1, s2, s3, s4, project_one hd (fun q r => ∑ i ∈ Finset.range m, isIn occupied i * B i q r i), project_one hd (fun q r => ∑ i ∈ Finset.range m, isIn occupied i * B q i r i),
    project_one hd (fun q r => isIn active r * ∑ i ∈ Finset.range m, isIn occupied i * B q i i r),
    project_one hd (fun q r => isIn active r * ∑ i ∈ Finset.range m, isIn occupied i * B i q i r)]
  have z : ∀ p, isIn occupied p * isIn active p = 0 := by
    intro p
    unfold isIn
    by_cases h : p ∈ occupied
    · rw [if_neg (hd p h), mul_zero]
    · rw [if_neg h, zero_mul]
  have z' : ∀ f : ℕ → ℂ, ∑ p ∈ Finset.range m, isIn occupied p * (2 * (isIn active p * f p)) = 0 := by
    intro f
    refine Finset.sum_eq_zero fun p _ => ?_
    rw [show isIn occupied p * (2 * (isIn active p * f p)) = isIn occupied p * isIn active p * (2 * f p) by ring, z, zero_mul]
  have aa : ∀ p, isIn active p * isIn active p = isIn active p := by
    intro p
    unfold isIn
    split_ifs <;> simp
  rw [z' (fun p => ∑ i ∈ Finset.range m, isIn occupied i * B p i i p), z' (fun p => ∑ i ∈ Finset.range m, isIn occupied i * B i p i p), zero_smul, zero_add, zero_add]
  -- the constant
  have k : ∑ p ∈ Finset.range m, isIn occupied p * ∑ i ∈ Finset.range m, isIn occupied i * (2 * B p i i p - B p i p i) =
      ∑ p ∈ Finset.range m, isIn occupied p * (2 * ∑ i ∈ Finset.range m, isIn occupied i * B i p p i) -
      (1 / 2) * ∑ p ∈ Finset.range m, isIn occupied p * (2 * ∑ i ∈ Finset.range m, isIn occupied i * B p i p i) := by
    rw [Finset.mul_sum, ← Finset.sum_sub_distrib]
    refine Finset.sum_congr rfl fun p _ => ?_
    simp only [Finset.mul_sum, ← Finset.sum_sub_distrib]
    refine Finset.sum_congr rfl fun i _ => ?_
    rw [hB p i i p]
    ring
  rw [k]
  -- the one-electron terms
  have k1 : ∑ p ∈ Finset.range m, ∑ q ∈ Finset.range m, (isIn active p * isIn active q * ∑ i ∈ Finset.range m, isIn occupied i * (2 * B i p q i - B i p i q)) • PE m occupied active p q =
      ∑ p ∈ Finset.range m, ∑ q ∈ Finset.range m, (isIn active p * isIn active q * ∑ i ∈ Finset.range m, isIn occupied i * B i p q i) • PE m occupied active p q -
      (1 / 2 : ℂ) • ∑ p ∈ Finset.range m, ∑ q ∈ Finset.range m, (isIn active p * isIn active q * ∑ i ∈ Finset.range m, isIn occupied i * B p i q i) • PE m occupied active p q +
      (∑ p ∈ Finset.range m, ∑ q ∈ Finset.range m, (isIn active p * isIn active q * (isIn active q * ∑ i ∈ Finset.range m, isIn occupied i * B p i i q)) • PE m occupied active p q -
      (1 / 2 : ℂ) • ∑ p ∈ Finset.range m, ∑ q ∈ Finset.range m, (isIn active p * isIn active q * (isIn active q * ∑ i ∈ Finset.range m, isIn occupied i * B i p i q)) • PE m occupied active p q) := by
    simp only [Finset.smul_sum, ← Finset.sum_sub_distrib, ← Finset.sum_add_distrib]
    refine Finset.sum_congr rfl fun p _ => Finset.sum_congr rfl fun q _ => ?_
    have b1 : ∑ i ∈ Finset.range m, isIn occupied i * B p i i q = ∑ i ∈ Finset.range m, isIn occupied i * B i p q i :=
      Finset.sum_congr rfl fun i _ => by rw [hB p i i q]
    have b2 : ∑ i ∈ Finset.range m, isIn occupied i * B p i q i = ∑ i ∈ Finset.range m, isIn occupied i * B i p i q :=
      Finset.sum_congr rfl fun i _ => by rw [hB p i q i]
    have b3 : ∑ i ∈ Finset.range m, isIn occupied i * (2 * B i p q i - B i p i q) =
        2 * ∑ i ∈ Finset.range m, isIn occupied i * B i p q i - ∑ i ∈ Finset.range m, isIn occupied i * B i p i q := by
      rw [Finset.mul_sum, ← Finset.sum_sub_distrib]
      exact Finset.sum_congr rfl fun i _ => by ring
    rw [b1, b2, b3]
    generalize ∑ i ∈ Finset.range m, isIn occupied i * B i p q i = X
    generalize ∑ i ∈ Finset.range m, isIn occupied i * B i p i q = Y
    have b4 : ∀ W : ℂ, isIn active p * isIn active q * (isIn active q * W) = isIn active p * isIn active q * W := by
      intro W
      rw [show isIn active p * isIn active q * (isIn active q * W) = isIn active p * (isIn active q * isIn active q) * W by ring, aa]
    rw [b4, b4]
    module
  rw [k1]
  module

theorem cast_list_sum (l : List ℕ) (f : ℕ → ℝ) : (((l.map f).sum : ℝ) : ℂ) = (l.map fun i => (f i : ℂ)).sum := by
  induction l with
  | nil => simp
  | cons a l ih => simp [ih]

/-- The active space integrals give the Hamiltonian that the electrons of the active orbitals see when the core orbitals are full and the others empty. -/
theorem active_projected {m : ℕ} (c : ℝ) (h g : RTensor) (hg : ∀ p q r s, g [p, q, r, s] = g [q, p, s, r]) {occupied : Option (List ℕ)} {active : List ℕ}
    (ho : (occupied.getD []).Nodup) (ha : active.Nodup) (hd : ∀ p ∈ occupied.getD [], p ∉ active) {core : ℝ} {h' g' : RTensor}
    (hr : getActiveSpaceIntegrals m h g occupied (some active) = .ok (core, h', g')) :
    frozen m (occupied.getD []) active * electronic m c h g * frozen m (occupied.getD []) active =
      frozen m (occupied.getD []) active * electronicOn (fun a => active.getD a 0) active.length (c + core) h' g' * frozen m (occupied.getD []) active := by
  unfold getActiveSpaceIntegrals at hr
  generalize occupied.getD [] = occ at *
  dsimp only at hr
  split_ifs at hr with c1 c2
  simp only [Except.ok.injEq, Prod.mk.injEq] at hr
  obtain ⟨rfl, rfl, rfl⟩ := hr
  simp only [Bool.or_eq_true, List.any_eq_true, decide_eq_true_eq, not_or, not_exists, not_and, not_le] at c2
  obtain ⟨hom, ham⟩ := c2
  rw [electronic, project_electronic, project_electronic]
  have one := project_one (m := m) hd (fun p q => (h [p, q] : ℂ))
  have two := project_two (m := m) hd (fun p q r s => (g [p, q, r, s] : ℂ)) (fun p q r s => by rw [hg])
  simp only [PE, PX] at one two
  simp only [id_eq]
  rw [one, two]
  -- the constant
  have kc : ((coreConstant h g occ : ℝ) : ℂ) = (∑ p ∈ Finset.range m, isIn occ p * (2 * (h [p, p] : ℂ))) +
      ∑ p ∈ Finset.range m, isIn occ p * ∑ i ∈ Finset.range m, isIn occ i * (2 * (g [p, i, i, p] : ℂ) - (g [p, i, p, i] : ℂ)) := by
    have e : ∀ p, ∑ i ∈ Finset.range m, isIn occ i * (2 * (g [p, i, i, p] : ℂ) - (g [p, i, p, i] : ℂ)) =
        (occ.map fun i => 2 * (g [p, i, i, p] : ℂ) - (g [p, i, p, i] : ℂ)).sum := fun p => sum_isIn ho hom _
    simp only [e]
    have e1 := sum_isIn ho hom (M := ℂ) (m := m) fun p => 2 * (h [p, p] : ℂ) + (occ.map fun i => 2 * (g [p, i, i, p] : ℂ) - (g [p, i, p, i] : ℂ)).sum
    simp only [smul_eq_mul, mul_add, Finset.sum_add_distrib] at e1
    rw [e1, core_spec, cast_list_sum]
    congr 1
    refine List.map_congr_left fun p _ => ?_
    push_cast
    rw [cast_list_sum]
    push_cast
    rfl
  -- the sums over the active orbitals
  have k1 : ∑ a ∈ Finset.range active.length, ∑ b ∈ Finset.range active.length,
      ((modifiedOne h g occ active ([a, b].map fun a => active.getD a 0) : ℝ) : ℂ) • (frozen m occ active * excite (active.getD a 0) (active.getD b 0) * frozen m occ active) =
      ∑ p ∈ Finset.range m, ∑ q ∈ Finset.range m, (isIn active p * isIn active q * (h [p, q] : ℂ)) • (frozen m occ active * excite p q * frozen m occ active) +
      ∑ p ∈ Finset.range m, ∑ q ∈ Finset.range m, (isIn active p * isIn active q * ∑ i ∈ Finset.range m, isIn occ i * (2 * (g [i, p, q, i] : ℂ) - (g [i, p, i, q] : ℂ))) •
        (frozen m occ active * excite p q * frozen m occ active) := by
    rw [← Finset.sum_add_distrib]
    simp only [List.map_cons, List.map_nil]
    refine (sum_active ha ham (m := m) fun p => ∑ b ∈ Finset.range active.length, ((modifiedOne h g occ active [p, active.getD b 0] : ℝ) : ℂ) •
      (frozen m occ active * excite p (active.getD b 0) * frozen m occ active)).trans ?_
    refine Finset.sum_congr rfl fun p _ => ?_
    rw [sum_active ha ham (m := m) fun q => ((modifiedOne h g occ active [p, q] : ℝ) : ℂ) • (frozen m occ active * excite p q * frozen m occ active), ← Finset.sum_add_distrib,
      Finset.smul_sum]
    refine Finset.sum_congr rfl fun q _ => ?_
    rw [show ∑ i ∈ Finset.range m, isIn occ i * (2 * (g [i, p, q, i] : ℂ) - (g [i, p, i, q] : ℂ)) = (occ.map fun i => 2 * (g [i, p, q, i] : ℂ) - (g [i, p, i, q] : ℂ)).sum
      from sum_isIn ho hom _]
    by_cases hp : p ∈ active
    · by_cases hq : q ∈ active
      · rw [modified_spec h g occ ha hp hq]
        push_cast
        rw [cast_list_sum]
        push_cast
        module
      · rw [show isIn active q = 0 from if_neg hq]; module
    · rw [show isIn active p = 0 from if_neg hp]; module
  have k2 : ∑ a ∈ Finset.range active.length, ∑ b ∈ Finset.range active.length, ∑ c ∈ Finset.range active.length, ∑ d ∈ Finset.range active.length,
      ((g ([a, b, c, d].map fun a => active.getD a 0) : ℝ) : ℂ) •
        (frozen m occ active * excitePair (active.getD a 0) (active.getD b 0) (active.getD c 0) (active.getD d 0) * frozen m occ active) =
      ∑ p ∈ Finset.range m, ∑ q ∈ Finset.range m, ∑ r ∈ Finset.range m, ∑ s ∈ Finset.range m,
        (isIn active p * isIn active q * isIn active r * isIn active s * (g [p, q, r, s] : ℂ)) • (frozen m occ active * excitePair p q r s * frozen m occ active) := by
    simp only [List.map_cons, List.map_nil]
    rw [sum_active ha ham (m := m) fun p => ∑ b ∈ Finset.range active.length, ∑ c ∈ Finset.range active.length, ∑ d ∈ Finset.range active.length,
      ((g [p, active.getD b 0, active.getD c 0, active.getD d 0] : ℝ) : ℂ) • (frozen m occ active * excitePair p (active.getD b 0) (active.getD c 0) (active.getD d 0) * frozen m occ active)]
    refine Finset.sum_congr rfl fun p _ => ?_
    rw [sum_active ha ham (m := m) fun q => ∑ c ∈ Finset.range active.length, ∑ d ∈ Finset.range active.length,
      ((g [p, q, active.getD c 0, active.getD d 0] : ℝ) : ℂ) • (frozen m occ active * excitePair p q (active.getD c 0) (active.getD d 0) * frozen m occ active), Finset.smul_sum]
    refine Finset.sum_congr rfl fun q _ => ?_
    rw [sum_active ha ham (m := m) fun r => ∑ d ∈ Finset.range active.length,
      ((g [p, q, r, active.getD d 0] : ℝ) : ℂ) • (frozen m occ active * excitePair p q r (active.getD d 0) * frozen m occ active), Finset.smul_sum, Finset.smul_sum]
    refine Finset.sum_congr rfl fun r _ => ?_
    rw [sum_active ha ham (m := m) fun s => ((g [p, q, r, s] : ℝ) : ℂ) • (frozen m occ active * excitePair p q r s * frozen m occ active), Finset.smul_sum, Finset.smul_sum,
      Finset.smul_sum]
    refine Finset.sum_congr rfl fun s _ => ?_
    module
  rw [k1, k2]
  push_cast
  rw [kc]
  module

end Active

/-! ## Matrix elements -/

section Elements

theorem modes_cons (p : ℕ) (l : List ℕ) : modes (p :: l) = 2 * p :: (2 * p + 1) :: modes l := rfl

theorem mem_modes {l : List ℕ} {x : ℕ} : x ∈ modes l ↔ x / 2 ∈ l := by
  induction l with
  | nil => simp [modes]
  | cons p l ih =>
    rw [modes_cons, List.mem_cons, List.mem_cons, ih, List.mem_cons]
    constructor
    · rintro (h | h | h)
      · left; omega
      · left; omega
      · exact Or.inr h
    · rintro (h | h)
      · by_cases e : x % 2 = 0
        · left; omega
        · right; left; omega
      · exact Or.inr (Or.inr h)

theorem modes_length (l : List ℕ) : (modes l).length = 2 * l.length := by
  induction l with
  | nil => rfl
  | cons p l ih => rw [modes_cons, List.length_cons, List.length_cons, ih, List.length_cons]; ring

theorem modes_pairwise {l : List ℕ} (h : l.Pairwise (· < ·)) : (modes l).Pairwise (· < ·) := by
  induction l with
  | nil => exact List.Pairwise.nil
  | cons p l ih =>
    rw [List.pairwise_cons] at h
    rw [modes_cons, List.pairwise_cons, List.pairwise_cons]
    refine ⟨fun x hx => ?_, fun x hx => ?_, ih h.2⟩
    · rcases List.mem_cons.1 hx with rfl | hx
      · omega
      · have := h.1 _ (mem_modes.1 hx); omega
    · have := h.1 _ (mem_modes.1 hx); omega

theorem modes_nodup {l : List ℕ} (h : l.Nodup) : (modes l).Nodup := by
  induction l with
  | nil => exact List.nodup_nil
  | cons p l ih =>
    rw [List.nodup_cons] at h
    rw [modes_cons, List.nodup_cons, List.nodup_cons, List.mem_cons, mem_modes, mem_modes, show 2 * p / 2 = p by omega, show (2 * p + 1) / 2 = p by omega]
    refine ⟨?_, h.1, ih h.2⟩
    rintro (e | e)
    · omega
    · exact h.1 e

theorem modes_idxOf {l : List ℕ} {x : ℕ} (h : x / 2 ∈ l) : (modes l).idxOf x = 2 * l.idxOf (x / 2) + x % 2 := by
  induction l with
  | nil => simp at h
  | cons p l ih =>
    rw [modes_cons]
    by_cases e : x / 2 = p
    · by_cases e2 : x % 2 = 0
      · rw [show x = 2 * p by omega, List.idxOf_cons_self, show 2 * p / 2 = p by omega, List.idxOf_cons_self]; omega
      · rw [show x = 2 * p + 1 by omega, List.idxOf_cons_ne _ (by omega), List.idxOf_cons_self, show (2 * p + 1) / 2 = p by omega, List.idxOf_cons_self]; omega
    · rw [List.idxOf_cons_ne _ (by omega), List.idxOf_cons_ne _ (by omega), List.idxOf_cons_ne _ (Ne.symm e)]
      rcases List.mem_cons.1 h with h | h
      · exact absurd h e
      · rw [ih h]; omega

/-- The core electrons come in pairs, so they contribute no sign. -/
theorem core_even (l : List ℕ) {x : ℕ} (h : x / 2 ∉ l) : (-1 : ℂ) ^ ((modes l).filter fun i => decide (i < x)).length = 1 := by
  induction l with
  | nil => rfl
  | cons p l ih =>
    rw [List.mem_cons, not_or] at h
    rw [modes_cons, List.filter_cons, List.filter_cons]
    by_cases e : 2 * p < x
    · rw [if_pos (decide_eq_true e), if_pos (decide_eq_true (show 2 * p + 1 < x by omega)), List.length_cons, List.length_cons, pow_succ, pow_succ, ih h.2]; norm_num
    · rw [if_neg (by simpa using e), if_neg (by simp; omega), ih h.2]

variable {occupied active : List ℕ}

/-- A product on active modes has the same matrix elements with the core filled and with the core left out. -/
theorem term_active (ho : occupied.Nodup) (ha : active.Pairwise (· < ·)) (hd : ∀ p ∈ occupied, p ∉ active) (τ : Term Bool) (hτ : ∀ f ∈ τ, f.1 / 2 ∈ active)
    {t t' : ℕ → Bool} (ht : ∀ k, 2 * active.length ≤ k → t' k = t k) :
    termAction ladderAction τ (basisState (place (modes occupied) (modes active) t)) (place (modes occupied) (modes active) t') =
      termAction ladderAction (τ.map fun f => (2 * active.idxOf (f.1 / 2) + f.1 % 2, f.2)) (basisState t) t' := by
  have hd' : ∀ k ∈ modes active, k ∉ modes occupied := fun k hk hk' => hd _ (mem_modes.1 hk') (mem_modes.1 hk)
  have e : (τ.map fun f => (2 * active.idxOf (f.1 / 2) + f.1 % 2, f.2)) = τ.map fun f => ((modes active).idxOf f.1, f.2) := by
    refine List.map_congr_left fun f hf => ?_
    rw [modes_idxOf (hτ f hf)]
  have sg : (τ.map fun f => (-1 : ℂ) ^ ((modes occupied).filter fun i => decide (i < f.1)).length).prod = 1 := by
    refine List.prod_eq_one fun x hx => ?_
    obtain ⟨f, hf, rfl⟩ := List.mem_map.1 hx
    exact core_even _ fun h => hd _ h (hτ f hf)
  rw [e]
  rcases term_place (modes_nodup ho) (modes_pairwise ha) hd' τ (fun f hf => mem_modes.2 (hτ f hf)) t with ⟨h1, h2⟩ | ⟨c, u, h1, h2, h3⟩
  · rw [h1, h2]; rfl
  · rw [h1, h2, sg, mul_one]
    show c * basisState _ _ = c * basisState _ _
    congr 1
    by_cases hu : u = t'
    · rw [hu, basisState_self, basisState_self]
    · rw [basisState_ne (Ne.symm hu), basisState_ne]
      intro he
      refine hu (funext fun k => ?_)
      by_cases hk : k < 2 * active.length
      · have hm : k < (modes active).length := by rw [modes_length]; exact hk
        have := congrFun he (modes active)[k]
        have hin : (modes active)[k] ∈ modes active := List.getElem_mem hm
        rw [place, place, if_neg (hd' _ hin), if_neg (hd' _ hin), if_pos hin, if_pos hin, List.Nodup.idxOf_getElem (modes_pairwise ha).nodup] at this
        exact this.symm
      · rw [h3 k (by rw [modes_length]; omega), ht k (by omega)]

theorem hop_term (x y : ℕ) : hop x y = termAction ladderAction [(x, true), (y, false)] := by
  rw [termAction_cons, termAction_cons, termAction_nil, mul_one]; rfl

theorem quad_term (x y z w : ℕ) : quad x y z w = termAction ladderAction [(x, true), (y, true), (z, false), (w, false)] := by
  rw [termAction_cons, termAction_cons, termAction_cons, termAction_cons, termAction_nil, mul_one, quad]
  simp only [mul_assoc]

theorem idx_mode (ha : active.Nodup) {a : ℕ} (hlt : a < active.length) {σ : ℕ} (hσ : σ < 2) :
    2 * active.idxOf ((2 * active.getD a 0 + σ) / 2) + (2 * active.getD a 0 + σ) % 2 = 2 * a + σ := by
  rw [show (2 * active.getD a 0 + σ) / 2 = active.getD a 0 by omega, show (2 * active.getD a 0 + σ) % 2 = σ by omega,
    show active.getD a 0 = active[a] by simp [List.getD_eq_getElem?_getD, List.getElem?_eq_getElem hlt], List.Nodup.idxOf_getElem ha]

theorem mode_mem {a : ℕ} (hlt : a < active.length) {σ : ℕ} (hσ : σ < 2) : (2 * active.getD a 0 + σ) / 2 ∈ active := by
  rw [show (2 * active.getD a 0 + σ) / 2 = active.getD a 0 by omega, show active.getD a 0 = active[a] by simp [List.getD_eq_getElem?_getD, List.getElem?_eq_getElem hlt]]
  exact List.getElem_mem hlt

/-- The Hamiltonian of the active orbitals has the same matrix elements with the core filled and with the core left out. -/
theorem electronic_active (ho : occupied.Nodup) (ha : active.Pairwise (· < ·)) (hd : ∀ p ∈ occupied, p ∉ active) (c : ℝ) (h g : RTensor)
    {t t' : ℕ → Bool} (ht : ∀ k, 2 * active.length ≤ k → t' k = t k) :
    electronicOn (fun a => active.getD a 0) active.length c h g (basisState (place (modes occupied) (modes active) t)) (place (modes occupied) (modes active) t') =
      electronic active.length c h g (basisState t) t' := by
  have h0 : basisState (place (modes occupied) (modes active) t) (place (modes occupied) (modes active) t') = basisState t t' := by
    have := term_active ho ha hd [] (by simp) ht
    rwa [List.map_nil, termAction_nil] at this
  have h1 : ∀ a < active.length, ∀ b < active.length, ∀ σ < 2, hop (2 * active.getD a 0 + σ) (2 * active.getD b 0 + σ) (basisState (place (modes occupied) (modes active) t))
      (place (modes occupied) (modes active) t') = hop (2 * a + σ) (2 * b + σ) (basisState t) t' := by
    intro a la b lb σ hσ
    rw [hop_term, term_active ho ha hd _ _ ht, hop_term]
    · simp only [List.map_cons, List.map_nil]
      rw [idx_mode ha.nodup la hσ, idx_mode ha.nodup lb hσ]
    · intro f hf
      simp only [List.mem_cons, List.not_mem_nil, or_false] at hf
      rcases hf with rfl | rfl
      exacts [mode_mem la hσ, mode_mem lb hσ]
  have h2 : ∀ a < active.length, ∀ b < active.length, ∀ d < active.length, ∀ e < active.length, ∀ σ < 2, ∀ τ < 2,
      quad (2 * active.getD a 0 + σ) (2 * active.getD b 0 + τ) (2 * active.getD d 0 + τ) (2 * active.getD e 0 + σ) (basisState (place (modes occupied) (modes active) t))
      (place (modes occupied) (modes active) t') = quad (2 * a + σ) (2 * b + τ) (2 * d + τ) (2 * e + σ) (basisState t) t' := by
    intro a la b lb d ld e le σ hσ τ hτ
    rw [quad_term, term_active ho ha hd _ _ ht, quad_term]
    · simp only [List.map_cons, List.map_nil]
      rw [idx_mode ha.nodup la hσ, idx_mode ha.nodup lb hτ, idx_mode ha.nodup ld hτ, idx_mode ha.nodup le hσ]
    · intro f hf
      simp only [List.mem_cons, List.not_mem_nil, or_false] at hf
      rcases hf with rfl | rfl | rfl | rfl
      exacts [mode_mem la hσ, mode_mem lb hτ, mode_mem ld hτ, mode_mem le hσ]
  have e1 : ∀ a < active.length, ∀ b < active.length, excite (active.getD a 0) (active.getD b 0) (basisState (place (modes occupied) (modes active) t))
      (place (modes occupied) (modes active) t') = excite a b (basisState t) t' := by
    intro a la b lb
    have x0 := h1 a la b lb 0 (by norm_num)
    have x1 := h1 a la b lb 1 (by norm_num)
    exact congrArg₂ (· + ·) x0 x1
  have e2 : ∀ a < active.length, ∀ b < active.length, ∀ d < active.length, ∀ e < active.length, excitePair (active.getD a 0) (active.getD b 0) (active.getD d 0) (active.getD e 0)
      (basisState (place (modes occupied) (modes active) t)) (place (modes occupied) (modes active) t') = excitePair a b d e (basisState t) t' := by
    intro a la b lb d ld e le
    rw [excitePair, excitePair, LinearMap.sum_apply, LinearMap.sum_apply, Finset.sum_apply, Finset.sum_apply]
    refine Finset.sum_congr rfl fun σ hσ => ?_
    rw [LinearMap.sum_apply, LinearMap.sum_apply, Finset.sum_apply, Finset.sum_apply]
    exact Finset.sum_congr rfl fun τ hτ => h2 a la b lb d ld e le σ (Finset.mem_range.1 hσ) τ (Finset.mem_range.1 hτ)
  unfold electronic electronicOn
  simp only [LinearMap.add_apply, Pi.add_apply, LinearMap.smul_apply, Pi.smul_apply, LinearMap.sum_apply, Finset.sum_apply, Module.End.one_apply, id_eq]
  refine congrArg₂ (· + ·) (congrArg₂ (· + ·) (by rw [h0]) ?_) (congrArg _ ?_)
  · exact Finset.sum_congr rfl fun a la => Finset.sum_congr rfl fun b lb => by rw [e1 a (Finset.mem_range.1 la) b (Finset.mem_range.1 lb)]
  · exact Finset.sum_congr rfl fun a la => Finset.sum_congr rfl fun b lb => Finset.sum_congr rfl fun d ld => Finset.sum_congr rfl fun e le => by
      rw [e2 a (Finset.mem_range.1 la) b (Finset.mem_range.1 lb) d (Finset.mem_range.1 ld) e (Finset.mem_range.1 le)]

theorem place_fits (m : ℕ) (t : ℕ → Bool) : Fits m occupied active (place (modes occupied) (modes active) t) := by
  refine ⟨fun p hp => ⟨?_, ?_⟩, fun p _ ho ha => ⟨?_, ?_⟩⟩
  · exact if_pos (mem_modes.2 (by rwa [show 2 * p / 2 = p by omega]))
  · exact if_pos (mem_modes.2 (by rwa [show (2 * p + 1) / 2 = p by omega]))
  · rw [place, if_neg, if_neg]
    · rwa [mem_modes, show 2 * p / 2 = p by omega]
    · rwa [mem_modes, show 2 * p / 2 = p by omega]
  · rw [place, if_neg, if_neg]
    · rwa [mem_modes, show (2 * p + 1) / 2 = p by omega]
    · rwa [mem_modes, show (2 * p + 1) / 2 = p by omega]

theorem frozen_basis {m : ℕ} {s : ℕ → Bool} (h : Fits m occupied active s) : frozen m occupied active (basisState s) = basisState s := by
  funext s'
  rw [frozen_apply]
  by_cases e : s' = s
  · rw [e, if_pos h]
  · rw [basisState_ne e, ite_self]

/-- C88.  The matrix elements of the molecular Hamiltonian between two states with full core orbitals and empty external orbitals are those of the Hamiltonian of the
active space integrals between the configurations of the active orbitals. -/
theorem active_elements {m : ℕ} (c : ℝ) (h g : RTensor) (hg : ∀ p q r s, g [p, q, r, s] = g [q, p, s, r]) {occupied : Option (List ℕ)} {active : List ℕ}
    (ho : (occupied.getD []).Nodup) (ha : active.Pairwise (· < ·)) (hd : ∀ p ∈ occupied.getD [], p ∉ active) {core : ℝ} {h' g' : RTensor}
    (hr : getActiveSpaceIntegrals m h g occupied (some active) = .ok (core, h', g')) {t t' : ℕ → Bool} (ht : ∀ k, 2 * active.length ≤ k → t' k = t k) :
    electronic m c h g (basisState (place (modes (occupied.getD [])) (modes active) t)) (place (modes (occupied.getD [])) (modes active) t') =
      electronic active.length (c + core) h' g' (basisState t) t' := by
  have key := congrFun (LinearMap.congr_fun (active_projected c h g hg ho ha.nodup hd hr) (basisState (place (modes (occupied.getD [])) (modes active) t)))
    (place (modes (occupied.getD [])) (modes active) t')
  rw [Module.End.mul_apply, Module.End.mul_apply, Module.End.mul_apply, Module.End.mul_apply, frozen_basis (place_fits m t), frozen_apply, frozen_apply,
    if_pos (place_fits m t'), if_pos (place_fits m t')] at key
  rw [key, electronic_active ho ha hd _ _ _ ht]

end Elements

/-! ## The Hamiltonian of an active space -/

/-- C88.  The Hamiltonian returned for an active space is the electronic structure Hamiltonian of the active space integrals, with entries below `1e-8` dropped. -/
theorem hamiltonian_active {m : ℕ} (c : ℝ) {h g : RTensor} {occupied : Option (List ℕ)} {active : List ℕ} {core : ℝ} {h' g' : RTensor}
    (hr : getActiveSpaceIntegrals m h g occupied (some active) = .ok (core, h', g')) :
    ∃ T, getMolecularHamiltonian m c (some (h, g)) occupied (some active) = .ok T ∧ T.n = 2 * active.length ∧
      polyAction T = electronic active.length (c + core) (fun i => chop (h' i)) (fun i => chop (g' i)) := by
  have hl : ¬ active.length < 1 := by
    intro hl
    unfold getActiveSpaceIntegrals at hr
    dsimp only at hr
    rw [if_pos hl] at hr
    cases hr
  refine ⟨_, ?_, rfl, build_spec active.length (c + core) h' g'⟩
  unfold getMolecularHamiltonian
  cases occupied <;> (dsimp only; rw [if_neg hl, hr]; rfl)

/-- C88.  End to end: if none of the integrals is a non-zero number below `1e-8`, the Hamiltonian returned for the active space has the matrix elements that the
Hamiltonian returned for the whole molecule has between states with full core orbitals and empty external orbitals. -/
theorem hamiltonian_elements {m : ℕ} (c : ℝ) {h g : RTensor} (hg : ∀ p q r s, g [p, q, r, s] = g [q, p, s, r]) (kh : ∀ i, chop (h i) = h i) (kg : ∀ i, chop (g i) = g i)
    {occupied : Option (List ℕ)} {active : List ℕ} (ho : (occupied.getD []).Nodup) (ha : active.Pairwise (· < ·)) (hd : ∀ p ∈ occupied.getD [], p ∉ active)
    {core : ℝ} {h' g' : RTensor} (hr : getActiveSpaceIntegrals m h g occupied (some active) = .ok (core, h', g')) (kh' : ∀ i, chop (h' i) = h' i) :
    ∃ T T', getMolecularHamiltonian m c (some (h, g)) none none = .ok T ∧ getMolecularHamiltonian m c (some (h, g)) occupied (some active) = .ok T' ∧
      ∀ t t' : ℕ → Bool, (∀ k, 2 * active.length ≤ k → t' k = t k) →
        polyAction T' (basisState t) t' = polyAction T (basisState (place (modes (occupied.getD [])) (modes active) t)) (place (modes (occupied.getD [])) (modes active) t') := by
  obtain ⟨T, hT, _, aT⟩ := hamiltonian_full m c h g
  obtain ⟨T', hT', _, aT'⟩ := hamiltonian_active c hr
  refine ⟨T, T', hT, hT', fun t t' ht => ?_⟩
  have kg' : ∀ i, chop (g' i) = g' i := by
    unfold getActiveSpaceIntegrals at hr
    dsimp only at hr
    split_ifs at hr
    simp only [Except.ok.injEq, Prod.mk.injEq] at hr
    obtain ⟨-, -, rfl⟩ := hr
    exact fun i => kg _
  rw [aT, aT', funext kh, funext kg, funext kh', funext kg', active_elements c h g hg ho ha hd hr ht]

/-- C88.  When the two functions raise an error. -/
theorem active_errors (m : ℕ) (c : ℝ) (h g : RTensor) (occupied : Option (List ℕ)) :
    getActiveSpaceIntegrals m h g occupied none = .error .typeError ∧ getActiveSpaceIntegrals m h g occupied (some []) = .error .valueError ∧
    (∀ active, active ≠ [] → ((∃ i ∈ occupied.getD [], m ≤ i) ∨ (∃ i ∈ active, m ≤ i)) →
      getActiveSpaceIntegrals m h g occupied (some active) = .error .indexError ∧ getMolecularHamiltonian m c (some (h, g)) occupied (some active) = .error .indexError) ∧
    (∀ active, active ≠ [] → (∀ i ∈ occupied.getD [], i < m) → (∀ i ∈ active, i < m) → ∃ r, getActiveSpaceIntegrals m h g occupied (some active) = .ok r) ∧
    (∀ ints, getMolecularHamiltonian m c ints occupied (some []) = .error .valueError) ∧
    (∀ ints l, getMolecularHamiltonian m c ints (some l) none = .error .typeError) ∧
    getMolecularHamiltonian m c none none none = .error .runtimeError ∧
    (∀ active, active ≠ [] → getMolecularHamiltonian m c none occupied (some active) = .error .runtimeError) := by
  have len : ∀ {l : List ℕ}, l ≠ [] → ¬ l.length < 1 := fun hl hlt => hl (List.length_eq_zero_iff.1 (by omega))
  have ix : ∀ active : List ℕ, active ≠ [] → ((∃ i ∈ occupied.getD [], m ≤ i) ∨ (∃ i ∈ active, m ≤ i)) → getActiveSpaceIntegrals m h g occupied (some active) = .error .indexError := by
    intro active hne hi
    unfold getActiveSpaceIntegrals
    dsimp only
    rw [if_neg (len hne), if_pos]
    simpa only [Bool.or_eq_true, List.any_eq_true, decide_eq_true_eq] using hi
  refine ⟨rfl, rfl, fun active hne hi => ⟨ix active hne hi, ?_⟩, fun active hne h1 h2 => ?_, fun ints => ?_, fun ints l => rfl, rfl, fun active hne => ?_⟩
  · unfold getMolecularHamiltonian
    cases occupied <;> (dsimp only; rw [if_neg (len hne), ix active hne hi]; rfl)
  · unfold getActiveSpaceIntegrals
    dsimp only
    rw [if_neg (len hne), if_neg]
    · exact ⟨_, rfl⟩
    · simp only [Bool.or_eq_true, List.any_eq_true, decide_eq_true_eq, not_or, not_exists, not_and, not_le]
      exact ⟨h1, h2⟩
  · cases occupied <;> rfl
  · unfold getMolecularHamiltonian
    cases occupied <;> (dsimp only; rw [if_neg (len hne)])

/-- C88.  The core energy in terms of the Coulomb and exchange matrices. -/
theorem core_coulomb_exchange (h g : RTensor) (occupied : List ℕ) : coreConstant h g occupied =
    2 * (occupied.map fun i => h [i, i]).sum + (occupied.map fun i => (occupied.map fun j => 2 * jMat g [i, j] - kMat g [i, j]).sum).sum := by
  rw [core_spec, List.sum_map_add, List.sum_map_mul_left]
  rfl

/-- C88.  Antisymmetrized integrals change sign when two creators or two annihilators change places (for integrals of identical particles), and describe the
same interaction up to the factor `-2`. -/
theorem antisym_spec (g : RTensor) : (∀ a b c d, antisymtei g [a, b, d, c] = -antisymtei g [a, b, c, d]) ∧
    ((∀ p q r s, g [p, q, r, s] = g [q, p, s, r]) → ∀ a b c d, antisymtei g [b, a, c, d] = -antisymtei g [a, b, c, d]) ∧
    ∀ n, ∑ a ∈ Finset.range n, ∑ b ∈ Finset.range n, ∑ c ∈ Finset.range n, ∑ d ∈ Finset.range n, (antisymtei g [a, b, c, d] : ℂ) • pairMove a b c d =
      (-2 : ℂ) • ∑ a ∈ Finset.range n, ∑ b ∈ Finset.range n, ∑ c ∈ Finset.range n, ∑ d ∈ Finset.range n, (g [a, b, c, d] : ℂ) • pairMove a b c d := by
  refine ⟨fun a b c d => ?_, fun hg a b c d => ?_, fun n => ?_⟩
  · show g [a, b, c, d] - g [a, b, d, c] = -(g [a, b, d, c] - g [a, b, c, d]); ring
  · show g [b, a, d, c] - g [b, a, c, d] = -(g [a, b, d, c] - g [a, b, c, d]); rw [hg b a d c, hg b a c d]; ring
  · simp only [Finset.smul_sum, pairMove_eq]
    refine Finset.sum_congr rfl fun a _ => Finset.sum_congr rfl fun b _ => ?_
    have e : ∀ c d, (antisymtei g [a, b, c, d] : ℂ) • quad a b c d = (g [a, b, d, c] : ℂ) • quad a b c d - (g [a, b, c, d] : ℂ) • quad a b c d := by
      intro c d
      rw [show antisymtei g [a, b, c, d] = g [a, b, d, c] - g [a, b, c, d] from rfl]
      push_cast
      module
    have sw : ∑ c ∈ Finset.range n, ∑ d ∈ Finset.range n, (g [a, b, d, c] : ℂ) • quad a b c d = -∑ c ∈ Finset.range n, ∑ d ∈ Finset.range n, (g [a, b, c, d] : ℂ) • quad a b c d := by
      rw [Finset.sum_comm, ← Finset.sum_neg_distrib]
      refine Finset.sum_congr rfl fun c _ => ?_
      rw [← Finset.sum_neg_distrib]
      refine Finset.sum_congr rfl fun d _ => ?_
      rw [quad_swap_right a b c d]
      module
    simp only [e, Finset.sum_sub_distrib, sw, ← Finset.smul_sum]
    module

/-! ## Examples -/

/-- Integrals of a toy molecule: all one-electron integrals `-1`, all two-electron integrals `1/2`. -/
private noncomputable def toyOne : RTensor := fun _ => -1
private noncomputable def toyTwo : RTensor := fun _ => 1 / 2

/-- A core orbital and an active space of three orbitals out of four meet the hypotheses of `active_projected`, `active_elements` and `hamiltonian_elements`,
and the active space integrals differ from the original ones. -/
example : ∃ core h' g', getActiveSpaceIntegrals 4 toyOne toyTwo (some [0]) (some [1, 3]) = .ok (core, h', g') ∧ (∀ p q r s, toyTwo [p, q, r, s] = toyTwo [q, p, s, r]) ∧
    (∀ i, chop (toyOne i) = toyOne i) ∧ (∀ i, chop (toyTwo i) = toyTwo i) ∧ ((some [0]).getD [] : List ℕ).Nodup ∧ ([1, 3] : List ℕ).Pairwise (· < ·) ∧
    (∀ p ∈ ((some [0]).getD [] : List ℕ), p ∉ [1, 3]) ∧ core = -3 / 2 ∧ h' [0, 1] = -1 / 2 := by
  have hr : getActiveSpaceIntegrals 4 toyOne toyTwo (some [0]) (some [1, 3]) = .ok (coreConstant toyOne toyTwo [0],
      fun i => modifiedOne toyOne toyTwo [0] [1, 3] (i.map fun a => [1, 3].getD a 0), fun i => toyTwo (i.map fun a => [1, 3].getD a 0)) := by
    unfold getActiveSpaceIntegrals
    dsimp only
    rw [if_neg (by simp), if_neg (by simp)]
    rfl
  refine ⟨_, _, _, hr, fun _ _ _ _ => rfl, fun i => if_neg (by rw [toyOne]; norm_num), fun i => if_neg (by rw [toyTwo]; norm_num [abs_of_pos]), by decide, by decide, by decide,
    ?_, ?_⟩
  · rw [core_spec]; simp [toyOne, toyTwo]; norm_num
  · show modifiedOne toyOne toyTwo [0] [1, 3] [1, 3] = _
    rw [modified_spec _ _ _ (by decide) (by simp) (by simp)]
    simp [toyOne, toyTwo]; norm_num

/-- The states of a given number of electrons, the hypothesis of `reduced_spec`, exist: two electrons in four modes. -/
example : occupation 4 (fun _ => 1) (basisState fun k => decide (k < 2)) = ((2 : ℤ) : ℂ) • basisState (fun k => decide (k < 2)) := by
  funext s
  show (∑ i ∈ Finset.range 4, if s i then (1 : ℂ) else 0) * basisState _ s = _ * basisState _ s
  by_cases e : s = fun k => decide (k < 2)
  · subst e
    rw [basisState_self]
    rw [Finset.sum_range_succ, Finset.sum_range_succ, Finset.sum_range_succ, Finset.sum_range_one]
    norm_num
  · rw [basisState_ne e, mul_zero, mul_zero]

end ZQ.Mol
