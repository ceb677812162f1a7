import Verif.Props.GroundState
import Verif.Props.Hermitian
import Verif.Props.JWInteraction

/-!
# Reduced density matrices of ground states (C93)
-/

namespace ZQ.Ground

open ZQ ZQ.Op ZQ.Sparse ZQ.Expect ZQ.PolyT ZQ.Rdm ZQ.FTools ZQ.JWInt Matrix Bits

/-! ## Expectation values in a state -/

theorem stateExpect_one {n : ℕ} {ψ : (Fin n → Bool) → ℂ} (h : inner ψ ψ = 1) : stateExpect n ψ 1 = 1 := by
  show inner ψ (matrixOf n 1 *ᵥ ψ) = 1
  rw [matrixOf_one, Matrix.one_mulVec, h]

theorem occupied_sum {n N : ℕ} (hN : n ≤ N) (x : Fin n → Bool) : (∑ i ∈ Finset.range N, if pad x i then (1 : ℂ) else 0) = occupied x := by
  rw [Finset.sum_ite, Finset.sum_const_zero, add_zero, Finset.sum_const, nsmul_eq_mul, mul_one, occupied]
  congr 1
  symm
  refine Finset.card_bij (fun q _ => q.1) (fun q hq => ?_) (fun a _ b _ h => Fin.ext h) fun i hi => ?_
  · rw [Finset.mem_filter, Finset.mem_range]
    refine ⟨lt_of_lt_of_le q.2 hN, ?_⟩
    rw [pad, dif_pos q.2]
    exact (Finset.mem_filter.1 hq).2
  · rw [Finset.mem_filter, Finset.mem_range] at hi
    have hlt : i < n := by
      by_contra h
      rw [pad, dif_neg h] at hi
      exact absurd hi.2 (by simp)
    rw [pad, dif_pos hlt] at hi
    exact ⟨⟨i, hlt⟩, Finset.mem_filter.2 ⟨Finset.mem_univ _, hi.2⟩, rfl⟩

/-- A product of ladder operators changes the number of particles by the difference of its creation and annihilation operators. -/
theorem term_particles {n : ℕ} (t : Term Bool) (x y : Fin n → Bool) (h : matrixOf n (termAction ladderAction t) x y ≠ 0) :
    (occupied x : ℤ) - occupied y = countOps t true (fun _ => true) - countOps t false (fun _ => true) := by
  obtain ⟨N, hN, ht⟩ : ∃ N, n ≤ N ∧ ∀ f ∈ t, f.1 < N := by
    clear h
    induction t with
    | nil => exact ⟨n, le_rfl, fun f hf => absurd hf List.not_mem_nil⟩
    | cons f t ih =>
      obtain ⟨N, h1, h2⟩ := ih
      refine ⟨max N (f.1 + 1), le_max_of_le_left h1, fun g hg => ?_⟩
      rcases List.mem_cons.1 hg with rfl | hg
      · exact lt_of_lt_of_le (Nat.lt_succ_self _) (le_max_right _ _)
      · exact lt_of_lt_of_le (h2 g hg) (le_max_left _ _)
  have key := congrFun (LinearMap.congr_fun (occupation_term (fun _ => 1) ht) (basisState (pad y))) (pad x)
  rw [LinearMap.add_apply, LinearMap.smul_apply, Module.End.mul_apply, Module.End.mul_apply, Pi.add_apply, Pi.smul_apply, smul_eq_mul] at key
  have h2 : occupation N (fun _ => 1) (basisState (pad y)) = (occupied y : ℂ) • basisState (pad y) := by
    funext s
    show (∑ i ∈ Finset.range N, if s i then (1 : ℂ) else 0) * basisState (pad y) s = _
    rw [Pi.smul_apply, smul_eq_mul]
    by_cases hs : s = pad y
    · rw [hs, occupied_sum hN]
    · rw [basisState, if_neg hs, mul_zero, mul_zero]
  rw [h2, map_smul, Pi.smul_apply, smul_eq_mul] at key
  change (∑ i ∈ Finset.range N, if pad x i then (1 : ℂ) else 0) * matrixOf n (termAction ladderAction t) x y =
    (occupied y : ℂ) * matrixOf n (termAction ladderAction t) x y + change (fun _ => 1) t * matrixOf n (termAction ladderAction t) x y at key
  rw [occupied_sum hN, ← add_mul] at key
  have := mul_right_cancel₀ h key
  rw [change_one, particles_eq] at this
  have h3 : ((occupied x : ℤ) : ℂ) = ((occupied y + -((countOps t false fun _ => true : ℕ) - (countOps t true fun _ => true : ℕ) : ℤ) : ℤ) : ℂ) := by
    push_cast
    push_cast at this
    exact this
  have h4 : (occupied x : ℤ) = _ := Int.cast_injective h3
  omega

/-- A state with a definite number of particles gives no expectation value to operators that change the number. -/
theorem state_conserving {n k : ℕ} {ψ : (Fin n → Bool) → ℂ} (h : HasParticles k ψ) : Conserving (stateExpect n ψ) := by
  intro t ht
  show inner ψ (matrixOf n _ *ᵥ ψ) = 0
  refine Finset.sum_eq_zero fun x _ => ?_
  by_cases hx : ψ x = 0
  · rw [Pi.star_apply, hx, star_zero, zero_mul]
  · refine mul_eq_zero_of_right _ (Finset.sum_eq_zero fun y _ => ?_)
    by_cases hy : ψ y = 0
    · rw [hy, mul_zero]
    · have : matrixOf n (termAction ladderAction t) x y = 0 := by
        by_contra hc
        have := term_particles t x y hc
        rw [h x hx, h y hy] at this
        omega
      show matrixOf n _ x y * ψ y = 0
      rw [this, zero_mul]

theorem string_norm (t : Term Letter) (s s' : ℕ → Bool) : ‖termAction pauliAction t (basisState s) s'‖ ≤ 1 := by
  induction t generalizing s' with
  | nil =>
    rw [termAction_nil, Module.End.one_apply, basisState]
    split_ifs <;> simp
  | cons f t ih =>
    obtain ⟨q, l⟩ := f
    rw [termAction_cons, Module.End.mul_apply, pauliAction, atQubit_apply]
    have h0 := ih (Function.update s' q false)
    have h1 := ih (Function.update s' q true)
    generalize termAction pauliAction t (basisState s) (Function.update s' q false) = u at *
    generalize termAction pauliAction t (basisState s) (Function.update s' q true) = v at *
    cases l <;> cases s' q <;> simpa [letterMatrix, pauliX, pauliY, pauliZ]

/-- **Every normalised state is physical**: Pauli strings have real expectation values between -1 and 1. -/
theorem state_physical {n : ℕ} {ψ : (Fin n → Bool) → ℂ} (h : inner ψ ψ = 1) : Physical (stateExpect n ψ) := by
  intro t ht
  have hpad : ∀ x y : Fin n → Bool, (∀ k, pad x k = pad y k) → x = y := by
    intro x y hxy
    funext q
    have := hxy q
    rwa [pad, pad, dif_pos q.2, dif_pos q.2] at this
  set P := matrixOf n (termAction pauliAction t) with hP
  have hval : stateExpect n ψ (termAction pauliAction t) = ∑ x, ∑ y, star (ψ x) * (P x y * ψ y) := by
    show inner ψ (P *ᵥ ψ) = _
    refine Finset.sum_congr rfl fun x _ => ?_
    rw [Pi.star_apply, Matrix.mulVec, dotProduct, Finset.mul_sum]
  have hherm : ∀ x y, P y x = star (P x y) := fun x y => isAdjoint_term_qubit ht (pad y) (pad x)
  have hsup : ∀ x y k, P x y ≠ 0 → pad y k = (pad x k).xor (flips t k) := fun x y k hxy => string_support t (pad y) (pad x) hxy k
  have hn1 : ∑ x, ‖ψ x‖ ^ 2 = 1 := by
    have h2 : ((∑ x, ‖ψ x‖ ^ 2 : ℝ) : ℂ) = 1 := by
      rw [← h, Complex.ofReal_sum]
      refine Finset.sum_congr rfl fun x _ => ?_
      rw [Pi.star_apply, Complex.star_def, Complex.conj_mul']; norm_cast
    exact_mod_cast h2
  constructor
  · have : star (stateExpect n ψ (termAction pauliAction t)) = stateExpect n ψ (termAction pauliAction t) := by
      rw [hval, star_sum, Finset.sum_comm]
      refine Finset.sum_congr rfl fun x _ => ?_
      rw [star_sum]
      refine Finset.sum_congr rfl fun y _ => ?_
      rw [star_mul, star_mul, star_star, hherm y x, star_star]
      ring
    exact Complex.conj_eq_iff_im.1 this
  · refine (Complex.abs_re_le_norm _).trans ?_
    rw [hval]
    have b1 : ∀ x y, ‖star (ψ x) * (P x y * ψ y)‖ ≤ (if P x y ≠ 0 then ‖ψ x‖ ^ 2 / 2 else 0) + if P x y ≠ 0 then ‖ψ y‖ ^ 2 / 2 else 0 := by
      intro x y
      by_cases h0 : P x y = 0
      · rw [h0, if_neg (by simp), if_neg (by simp), zero_mul, mul_zero]; simp
      · rw [if_pos h0, if_pos h0, norm_mul, norm_mul, norm_star]
        have := string_norm t (pad y) (pad x)
        change ‖P x y‖ ≤ 1 at this
        have h3 : ‖P x y‖ * ‖ψ y‖ ≤ ‖ψ y‖ := by
          have := mul_le_mul_of_nonneg_right this (norm_nonneg (ψ y)); linarith
        have h4 := mul_le_mul_of_nonneg_left h3 (norm_nonneg (ψ x))
        nlinarith [sq_nonneg (‖ψ x‖ - ‖ψ y‖)]
    have c1 : ∀ x, ∑ y, (if P x y ≠ 0 then ‖ψ x‖ ^ 2 / 2 else 0) ≤ ‖ψ x‖ ^ 2 / 2 := by
      intro x
      by_cases hex : ∃ y, P x y ≠ 0
      · obtain ⟨y, hy⟩ := hex
        rw [Finset.sum_eq_single y (fun z _ hz => if_neg fun hc => hz (hpad z y fun k => by rw [hsup x z k hc, hsup x y k hy])) fun h => absurd (Finset.mem_univ _) h, if_pos hy]
      · push Not at hex
        rw [Finset.sum_eq_zero fun y _ => if_neg (by simp [hex y])]
        positivity
    have c2 : ∀ y, ∑ x, (if P x y ≠ 0 then ‖ψ y‖ ^ 2 / 2 else 0) ≤ ‖ψ y‖ ^ 2 / 2 := by
      intro y
      by_cases hex : ∃ x, P x y ≠ 0
      · obtain ⟨x, hx⟩ := hex
        rw [Finset.sum_eq_single x (fun z _ hz => if_neg fun hc => hz (hpad z x fun k => ?_)) fun h => absurd (Finset.mem_univ _) h, if_pos hx]
        have e1 := hsup z y k hc
        have e2 := hsup x y k hx
        rw [e1] at e2
        exact Bool.xor_left_inj.1 e2
      · push Not at hex
        rw [Finset.sum_eq_zero fun y _ => if_neg (by simp [hex y])]
        positivity
    calc ‖∑ x, ∑ y, star (ψ x) * (P x y * ψ y)‖ ≤ ∑ x, ∑ y, ‖star (ψ x) * (P x y * ψ y)‖ :=
          (norm_sum_le _ _).trans (Finset.sum_le_sum fun x _ => norm_sum_le _ _)
      _ ≤ ∑ x, ∑ y, ((if P x y ≠ 0 then ‖ψ x‖ ^ 2 / 2 else 0) + if P x y ≠ 0 then ‖ψ y‖ ^ 2 / 2 else 0) :=
          Finset.sum_le_sum fun x _ => Finset.sum_le_sum fun y _ => b1 x y
      _ = ∑ x, ∑ y, (if P x y ≠ 0 then ‖ψ x‖ ^ 2 / 2 else 0) + ∑ y, ∑ x, (if P x y ≠ 0 then ‖ψ y‖ ^ 2 / 2 else 0) := by
          simp only [Finset.sum_add_distrib]
          congr 1
          exact Finset.sum_comm
      _ ≤ ∑ x, ‖ψ x‖ ^ 2 / 2 + ∑ y, ‖ψ y‖ ^ 2 / 2 := add_le_add (Finset.sum_le_sum fun x _ => c1 x) (Finset.sum_le_sum fun y _ => c2 y)
      _ = 1 := by rw [← Finset.sum_div, hn1]; norm_num

/-! ## The entries -/

theorem sandwich_spec {n : ℕ} {wf : List ℂ} (hw : wf.length = 2 ^ n) {M : Mat ℂ} (hr : M.rows = 2 ^ n) (hc : M.cols = 2 ^ n) :
    sandwich wf M = .ok (inner (stateOn n wf) (M.onBits n *ᵥ stateOn n wf)) := by
  have h1 : vecMat (wf.map star) M = .ok ((List.range M.cols).map fun j => ((List.range M.rows).map fun i => (wf.map star).getD i 0 * M.e i j).sum) :=
    if_neg (by rw [List.length_map, hw, hr]; simp)
  unfold sandwich
  rw [h1]
  show dot _ _ = _
  unfold dot
  rw [if_neg (by simp [hw, hc]), zipWith_sum _ _ (by simp [hw, hc]), List.length_map, List.length_range, hc, sum_range_eq_sum_bits]
  unfold inner
  rw [dotProduct_mulVec]
  refine congrArg Except.ok (Finset.sum_congr rfl fun y _ => ?_)
  refine congrArg (· * stateOn n wf y) ?_
  rw [List.getD_eq_getElem?_getD, List.getElem?_map, List.getElem?_range (basisIndex_lt y), Option.map_some, Option.getD_some, list_range_sum, hr, sum_range_eq_sum_bits]
  refine Finset.sum_congr rfl fun x _ => ?_
  rw [getD_star]; rfl

theorem entryOf_spec {n : ℕ} {wf : List ℂ} (hw : wf.length = 2 ^ n) {t : Term Bool} (ht : ∀ f ∈ t, f.1 < n) :
    entryOf wf n t = .ok (stateExpect n (stateOn n wf) (termAction ladderAction t)) := by
  have hof : ofTerm fermion t 1 = [(t, 1)] := rfl
  obtain ⟨M, m1, m2, m3, m4⟩ := jordanWignerSparse_spec (ofTerm fermion t 1) (some n) n rfl (countFermion_le fun kv hkv f hf => by
    rw [hof, List.mem_singleton] at hkv
    subst hkv
    exact ht f hf)
  unfold entryOf
  rw [m1]
  refine (sandwich_spec hw m2 m3).trans (congrArg Except.ok ?_)
  show inner _ _ = inner _ (matrixOf n (termAction ladderAction t) *ᵥ stateOn n wf)
  congr 2
  ext x y
  refine (m4 x y).trans ?_
  rw [hof, action_cons, action_nil, add_zero, one_smul]; rfl

theorem flatMap_getD {α : Type} (g : ℕ → ℕ → α) (m : ℕ) (d : α) : ∀ (n : ℕ) {i j : ℕ}, i < n → j < m →
    ((List.range n).flatMap fun i => (List.range m).map (g i)).getD (i * m + j) d = g i j ∧
    ((List.range n).flatMap fun i => (List.range m).map (g i)).length = n * m := by
  intro n
  have hl : ∀ n, ((List.range n).flatMap fun i => (List.range m).map (g i)).length = n * m := by
    intro n; simp
  refine fun {i j} hi hj => ⟨?_, hl n⟩
  induction n with
  | zero => omega
  | succ n ih =>
    rw [List.range_succ, List.flatMap_append]
    by_cases h : i < n
    · rw [List.getD_append _ _ _ _ (by rw [hl]; nlinarith), ih h]
    · obtain rfl : i = n := by omega
      rw [List.getD_append_right _ _ _ _ (by rw [hl]; omega), hl]
      simp [hj]

/-- The one-body array holds `⟨a†_i a_j⟩`. -/
theorem oneBody_spec {n : ℕ} {wf : List ℂ} (hw : wf.length = 2 ^ n) : ∃ T, oneBody wf n = .ok T ∧
    ∀ i < n, ∀ j < n, T [i, j] = stateExpect n (stateOn n wf) (ladderAction (i, true) * ladderAction (j, false)) := by
  set v := fun i j => stateExpect n (stateOn n wf) (ladderAction (i, true) * ladderAction (j, false)) with hv
  have h1 : (((List.range n).flatMap fun i => (List.range n).map fun j => (i, j)).mapM fun ij => entryOf wf n [(ij.1, true), (ij.2, false)]) =
      .ok ((List.range n).flatMap fun i => (List.range n).map (v i)) := by
    have : ∀ l : List (ℕ × ℕ), (∀ x ∈ l, x.1 < n ∧ x.2 < n) → l.mapM (fun ij => entryOf wf n [(ij.1, true), (ij.2, false)]) = .ok (l.map fun x => v x.1 x.2) := by
      intro l hl
      induction l with
      | nil => rfl
      | cons x l ih =>
        have hx := hl x List.mem_cons_self
        rw [List.mapM_cons, ih fun y hy => hl y (List.mem_cons_of_mem _ hy), entryOf_spec hw (by simp [hx.1, hx.2]), termAction_cons, termAction_cons, termAction_nil, mul_one]
        rfl
    rw [this _ fun x hx => by
      obtain ⟨i, hi, hx⟩ := List.mem_flatMap.1 hx
      obtain ⟨j, hj, rfl⟩ := List.mem_map.1 hx
      exact ⟨List.mem_range.1 hi, List.mem_range.1 hj⟩]
    congr 1
    rw [List.map_flatMap]
    simp only [List.map_map, Function.comp_def]
  unfold oneBody
  rw [h1]
  refine ⟨_, rfl, fun i hi j hj => ?_⟩
  exact (flatMap_getD v n 0 n hi hj).1

theorem mem_quads {n p q r s : ℕ} : (p, q, r, s) ∈ quads n ↔ p < n ∧ q ≤ p ∧ r < n ∧ s ≤ r := by
  simp only [quads, List.mem_flatMap, List.mem_map, List.mem_range, Prod.mk.injEq]
  constructor
  · rintro ⟨a, ha, b, hb, c, hc, d, hd, rfl, rfl, rfl, rfl⟩
    exact ⟨ha, by omega, hc, by omega⟩
  · rintro ⟨h1, h2, h3, h4⟩
    exact ⟨p, h1, q, by omega, r, h3, s, by omega, rfl, rfl, rfl, rfl⟩

/-- Every assignment writes the right value, and every entry is assigned. -/
theorem fold_assign (v : ℕ → ℕ → ℕ → ℕ → ℂ) (h1 : ∀ p q r s, v q p r s = -v p q r s) (h2 : ∀ p q r s, v p q s r = -v p q r s) (l : List (ℕ × ℕ × ℕ × ℕ)) (T : Tensor)
    (p q r s : ℕ) :
    (T [p, q, r, s] = v p q r s ∨ ∃ x ∈ l, (x.1 = p ∧ x.2.1 = q ∨ x.1 = q ∧ x.2.1 = p) ∧ (x.2.2.1 = r ∧ x.2.2.2 = s ∨ x.2.2.1 = s ∧ x.2.2.2 = r)) →
    (l.foldl (fun T x => assignFour T x (v x.1 x.2.1 x.2.2.1 x.2.2.2)) T) [p, q, r, s] = v p q r s := by
  induction l generalizing T with
  | nil => rintro (h | ⟨x, hx, -⟩); exact h; exact absurd hx List.not_mem_nil
  | cons x l ih =>
    obtain ⟨a, b, c, d⟩ := x
    intro h
    rw [List.foldl_cons]
    refine ih _ ?_
    have e1 : -v a b c d = v b a c d := (h1 _ _ _ _).symm
    have e2 : v a b c d = v b a d c := by rw [h2, h1]; ring
    have e3 : -v a b c d = v a b d c := (h2 _ _ _ _).symm
    have key : assignFour T (a, b, c, d) (v a b c d) [p, q, r, s] =
        if (p = a ∧ q = b ∨ p = b ∧ q = a) ∧ (r = c ∧ s = d ∨ r = d ∧ s = c) then v p q r s else T [p, q, r, s] := by
      simp only [assignFour, assign, List.cons.injEq, and_true]
      clear ih h
      grind
    rw [show assignFour T (a, b, c, d) (v (a, b, c, d).1 (a, b, c, d).2.1 (a, b, c, d).2.2.1 (a, b, c, d).2.2.2) [p, q, r, s] = _ from key]
    split_ifs with hc
    · exact Or.inl rfl
    · rcases h with h | ⟨x, hx, hx'⟩
      · exact Or.inl h
      · rcases List.mem_cons.1 hx with rfl | hx
        · exact absurd hx' (by dsimp only; rintro ⟨h1, h2⟩; apply hc; constructor <;> omega)
        · exact Or.inr ⟨x, hx, hx'⟩

/-- The two-body array holds `⟨a†_p a†_q a_r a_s⟩`. -/
theorem twoBody_spec {n : ℕ} {wf : List ℂ} (hw : wf.length = 2 ^ n) : ∃ T, twoBody wf n = .ok T ∧
    ∀ p < n, ∀ q < n, ∀ r < n, ∀ s < n, T [p, q, r, s] = stateExpect n (stateOn n wf) (quad p q r s) := by
  set v := fun p q r s => stateExpect n (stateOn n wf) (quad p q r s) with hv
  have h1 : ∀ (l : List (ℕ × ℕ × ℕ × ℕ)) (T : Tensor), (∀ x ∈ l, x.1 < n ∧ x.2.1 < n ∧ x.2.2.1 < n ∧ x.2.2.2 < n) →
      l.foldlM (fun T x => do
        .ok (assignFour T x (← entryOf wf n [(x.1, true), (x.2.1, true), (x.2.2.1, false), (x.2.2.2, false)]))) T =
      (.ok (l.foldl (fun T x => assignFour T x (v x.1 x.2.1 x.2.2.1 x.2.2.2)) T) : Except Err Tensor) := by
    intro l
    induction l with
    | nil => intro T _; rfl
    | cons x l ih =>
      intro T hl
      obtain ⟨x1, x2, x3, x4⟩ := hl x List.mem_cons_self
      rw [List.foldlM_cons, entryOf_spec hw (by simp [x1, x2, x3, x4]), List.foldl_cons, ← ih _ fun y hy => hl y (List.mem_cons_of_mem _ hy)]
      simp only [termAction_cons, termAction_nil, mul_one, hv, quad, mul_assoc]
      rfl
  refine ⟨_, h1 (quads n) _ ?_, fun p hp q hq r hr s hs => ?_⟩
  · rintro ⟨p, q, r, s⟩ hx
    obtain ⟨a, b, c, d⟩ := mem_quads.1 hx
    exact ⟨a, by dsimp only; omega, c, by dsimp only; omega⟩
  · refine fold_assign v (fun p q r s => ?_) (fun p q r s => ?_) _ _ _ _ _ _ (Or.inr ?_)
    · rw [hv]; dsimp only; rw [quad_swap_left, map_neg]
    · rw [hv]; dsimp only; rw [quad_swap_right, map_neg]
    · refine ⟨(max p q, min p q, max r s, min r s), mem_quads.2 ?_, ?_, ?_⟩
      · omega
      · dsimp only; omega
      · dsimp only; omega

/-- Operators with real coefficients are Hermitian. -/
theorem hermitian_of_real {o : Terms Letter} (ho : CanonicalOp o) (hr : ∀ kv ∈ o, kv.2.im = 0) : (opMatrix (countQubit o) o).IsHermitian := by
  rw [opMatrix_eq_matrixOf ho (countQubit_bound ho)]
  have : IsAdjoint (action pauliAction o) (action pauliAction o) := by
    have key : ∀ o' : Terms Letter, (∀ kv ∈ o', kv ∈ o) → IsAdjoint (action pauliAction o') (action pauliAction o') := by
      intro o' h
      induction o' with
      | nil => exact IsAdjoint.zero
      | cons kv o' ih =>
        rw [action_cons]
        have h0 := h kv List.mem_cons_self
        have h1 := IsAdjoint.smul kv.2 (isAdjoint_term_qubit (ho.2 kv.1 (List.mem_map_of_mem h0)))
        rw [Complex.conj_eq_iff_im.2 (hr kv h0)] at h1
        exact h1.add (ih fun kv hkv => h kv (List.mem_cons_of_mem _ hkv))
    exact key o fun _ h => h
  exact Matrix.IsHermitian.ext fun x y => (this (pad x) (pad y)).symm

/-- **The reduced density matrices of the ground state**: for a Hermitian operator and at most as many particles as qubits, the arrays are the reduced density
matrices of a ground state with this number of particles. -/
theorem groundStateRdm_spec {eigh eigsh : Mat ℂ → Eigen} (h1 : Solves eigh) (h2 : Solves eigsh) {o : Terms Letter} (ho : CanonicalOp o) {k : ℕ} (hk : k ≤ countQubit o)
    (hH : (opMatrix (countQubit o) o).IsHermitian) :
    ∃ D1 D2 e ψ, groundStateRdm eigh eigsh o k = .ok (make (countQubit o) D1 D2) ∧ GroundState (opMatrix (countQubit o) o) k e ψ ∧
      Represents (make (countQubit o) D1 D2) (stateExpect (countQubit o) ψ) := by
  obtain ⟨M, m1, m2, m3, m4⟩ := qubitOperatorSparse_spec ho none (countQubit o) rfl le_rfl
  obtain ⟨e, wf, g1, g2, g3, -⟩ := groundStateAt_spec h1 h2 hk m2 m3 (by rw [m4]; exact hH)
  obtain ⟨T1, t1, t2⟩ := oneBody_spec g2
  obtain ⟨T2, u1, u2⟩ := twoBody_spec g2
  refine ⟨T1, T2, e, stateOn (countQubit o) wf, ?_, by rw [← m4]; exact g3, ⟨T1, rfl, t2⟩, ⟨T2, rfl, u2⟩⟩
  unfold groundStateRdm
  rw [m1]
  show (groundStateAt eigh eigsh M k >>= _) = _
  rw [g1]
  show (oneBody wf (countQubit o) >>= _) = _
  rw [t1]
  show (twoBody wf (countQubit o) >>= _) = _
  rw [u1]
  rfl

/-- **The energy from the density matrices**: the expectation value, computed from the density matrices of the ground state, of any interaction operator with the same
matrix as the qubit operator is the ground state energy: the lowest energy of the states with this number of particles. -/
theorem groundStateRdm_energy {eigh eigsh : Mat ℂ → Eigen} (h1 : Solves eigh) (h2 : Solves eigsh) {o : Terms Letter} (ho : CanonicalOp o) {k : ℕ} (hk : k ≤ countQubit o)
    (hH : (opMatrix (countQubit o) o).IsHermitian) (c : ℂ) (one two : Tensor)
    (hT : matrixOf (countQubit o) (polyAction (interaction (countQubit o) c one two)) = opMatrix (countQubit o) o) :
    ∃ D1 D2 e ψ, groundStateRdm eigh eigsh o k = .ok (make (countQubit o) D1 D2) ∧ GroundState (opMatrix (countQubit o) o) k e ψ ∧
      expectationInteraction (countQubit o) D1 D2 (countQubit o) c one two = .ok (e : ℂ) := by
  obtain ⟨D1, D2, e, ψ, g1, g2, g3⟩ := groundStateRdm_spec h1 h2 ho hk hH
  refine ⟨D1, D2, e, ψ, g1, g2, ?_⟩
  rw [expectation_interaction g3 (stateExpect_one g2.unit), ← g2.energy, ← hT]
  rfl

/-- The energy, computed from the density matrices, of the qubit operator itself, if its Pauli strings are at most two-body operators. -/
theorem groundStateRdm_qubit {eigh eigsh : Mat ℂ → Eigen} (h1 : Solves eigh) (h2 : Solves eigsh) {o : Terms Letter} (ho : CanonicalOp o) {k : ℕ} (hk : k ≤ countQubit o)
    (hH : (opMatrix (countQubit o) o).IsHermitian) (hT : ∀ t ∈ PyDict.keys o, TwoBody (termAction pauliAction t)) :
    ∃ R e ψ, groundStateRdm eigh eigsh o k = .ok R ∧ GroundState (opMatrix (countQubit o) o) k e ψ ∧ expectationQubit R o = .ok (e : ℂ) := by
  obtain ⟨D1, D2, e, ψ, g1, g2, g3⟩ := groundStateRdm_spec h1 h2 ho hk hH
  have hb : ∀ kv ∈ o, ∀ f ∈ kv.1, f.1 < countQubit o := countQubit_bound ho
  refine ⟨_, e, ψ, g1, g2, ?_⟩
  rw [(expectation_qubit g3 (stateExpect_one g2.unit) (state_conserving g2.particles) ho fun t ht f hf => ?_).1 hT]
  · rw [← g2.energy, opMatrix_eq_matrixOf ho hb]
    rfl
  · obtain ⟨kv, hkv, rfl⟩ := List.mem_map.1 ht
    exact hb kv hkv f hf

/-- More particles than qubits raise `IndexError`. -/
theorem groundStateRdm_none {eigh : Mat ℂ → Eigen} (h : ∀ A : Mat ℂ, A.rows = 0 → (eigh A).vecs.cols = 0) (eigsh : Mat ℂ → Eigen) {o : Terms Letter} (ho : CanonicalOp o) {k : ℕ}
    (hk : countQubit o < k) : groundStateRdm eigh eigsh o k = .error .indexError := by
  obtain ⟨M, m1, m2, m3, m4⟩ := qubitOperatorSparse_spec ho none (countQubit o) rfl le_rfl
  unfold groundStateRdm
  rw [m1]
  show (groundStateAt eigh eigsh M k >>= _) = _
  rw [groundStateAt_none h eigsh hk m2 m3]
  rfl

/-! ### A concrete case: `Z0 + 2 Z1` with one particle -/

example : ∃ (eigh eigsh : Mat ℂ → Eigen) (R : PolyTensor) (e : ℝ) (ψ : (Fin (countQubit [([(0, Letter.Z)], 1), ([(1, .Z)], 2)]) → Bool) → ℂ),
    groundStateRdm eigh eigsh [([(0, .Z)], 1), ([(1, .Z)], 2)] 1 = .ok R ∧
    GroundState (opMatrix (countQubit [([(0, .Z)], 1), ([(1, .Z)], 2)]) [([(0, .Z)], 1), ([(1, .Z)], 2)]) 1 e ψ ∧
    expectationQubit R [([(0, .Z)], 1), ([(1, .Z)], 2)] = .ok (e : ℂ) := by
  obtain ⟨solver, hs, -⟩ := exists_solver
  have ho : CanonicalOp [([(0, .Z)], 1), ([(1, .Z)], 2)] := by
    refine ⟨by simp [WF, PyDict.keys], ?_⟩
    intro t ht
    simp only [PyDict.keys, List.map_cons, List.map_nil, List.mem_cons, List.not_mem_nil, or_false] at ht
    rcases ht with rfl | rfl <;> exact ⟨by simp, by simp⟩
  refine ⟨solver, solver, ?_⟩
  refine groundStateRdm_qubit (k := 1) hs hs ho (by decide +kernel) (hermitian_of_real ho (by simp)) ?_
  intro t ht
  simp only [PyDict.keys, List.map_cons, List.map_nil, List.mem_cons, List.not_mem_nil, or_false] at ht
  rcases ht with rfl | rfl <;> exact twoBody_z _

end ZQ.Ground
