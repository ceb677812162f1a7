import Verif.Model.UnitaryChecks
import Verif.Spec.UnitaryChecks
import Mathlib.Analysis.Complex.Basic
import Mathlib.Data.Complex.BigOperators

/-!
# C86: checking that a matrix is unitary, comparing unitaries up to a phase
-/

namespace ZQ.UCheck

open Matrix

/-- The array of a square matrix. -/
noncomputable def arr {n : ℕ} (U : Matrix (Fin n) (Fin n) ℂ) : Arr := ⟨n, n, fun i j => if h : i < n ∧ j < n then U ⟨i, h.1⟩ ⟨j, h.2⟩ else 0⟩

theorem arr_entry {n : ℕ} (U : Matrix (Fin n) (Fin n) ℂ) (i j : Fin n) : (arr U).entry i j = U i j := by
  unfold arr
  dsimp only
  rw [dif_pos ⟨i.2, j.2⟩]

theorem isIdentity_iff {n : ℕ} (u : Arr) (hr : u.rows = n) (hc : u.cols = n) (tol : ℝ) : ∃ b, isIdentity u tol = .ok b ∧
    (b = true ↔ ∀ i j : Fin n, ‖u.entry i j - (1 : Matrix (Fin n) (Fin n) ℂ) i j‖ ≤ if i = j then tol + rtol else tol) := by
  classical
  unfold isIdentity
  rw [if_neg (by rw [hr, hc]; simp)]
  refine ⟨_, rfl, ?_⟩
  rw [decide_eq_true_iff, hr]
  have key : ∀ i j : Fin n, (‖u.entry i j - (if (i : ℕ) = j then 1 else 0)‖ ≤ tol + rtol * ‖(if (i : ℕ) = j then 1 else 0 : ℂ)‖) ↔
      ‖u.entry i j - (1 : Matrix (Fin n) (Fin n) ℂ) i j‖ ≤ if i = j then tol + rtol else tol := by
    intro i j
    rw [Matrix.one_apply]
    by_cases h : i = j
    · subst h; rw [if_pos rfl, if_pos rfl, if_pos rfl, norm_one, mul_one]
    · rw [if_neg (fun e => h (Fin.ext e)), if_neg h, if_neg h]; simp
  constructor
  · intro h i j
    exact (key i j).1 (h i i.2 j j.2)
  · intro h i hi j hj
    exact (key ⟨i, hi⟩ ⟨j, hj⟩).2 (h ⟨i, hi⟩ ⟨j, hj⟩)

theorem dot_arr {n : ℕ} (U V : Matrix (Fin n) (Fin n) ℂ) : ∃ w, (arr U).conjT.dot (arr V) = .ok w ∧ w.rows = n ∧ w.cols = n ∧
    ∀ i j : Fin n, w.entry i j = (Uᴴ * V) i j := by
  unfold Arr.dot
  rw [if_neg (by simp [arr, Arr.conjT])]
  refine ⟨_, rfl, rfl, rfl, fun i j => ?_⟩
  rw [Matrix.mul_apply]
  change ∑ k ∈ Finset.range n, (starRingEnd ℂ) ((arr U).entry k i) * (arr V).entry k j = _
  rw [Finset.sum_range]
  refine Finset.sum_congr rfl fun k _ => ?_
  rw [arr_entry, arr_entry]
  rfl

theorem isUnitary_iff {n : ℕ} (U : Matrix (Fin n) (Fin n) ℂ) (tol : ℝ) : ∃ b, isUnitary (arr U) tol = .ok b ∧
    (b = true ↔ ∀ i j : Fin n, ‖(Uᴴ * U) i j - (1 : Matrix (Fin n) (Fin n) ℂ) i j‖ ≤ if i = j then tol + rtol else tol) := by
  obtain ⟨w, hw, hr, hc, he⟩ := dot_arr U U
  obtain ⟨b, hb, hb'⟩ := isIdentity_iff w hr hc tol
  refine ⟨b, ?_, ?_⟩
  · unfold isUnitary
    rw [if_neg (by simp [arr]), hw]
    exact hb
  · rw [hb']
    simp only [he]

/-! ## Accepting and rejecting -/

/-- **A matrix that is not square is rejected**, by both checks. -/
theorem not_square {u : Arr} (h : u.rows ≠ u.cols) (tol : ℝ) : isIdentity u tol = .error .runtimeError ∧ isUnitary u tol = .error .runtimeError := by
  unfold isIdentity isUnitary
  rw [if_pos h, if_pos h]
  exact ⟨rfl, rfl⟩

/-- **The check of the identity**: for a square matrix it returns whether the off-diagonal entries are within the tolerance of zero and the diagonal entries
within the tolerance plus `10⁻⁵` of one. -/
theorem identity_iff {n : ℕ} (U : Matrix (Fin n) (Fin n) ℂ) (tol : ℝ) : ∃ b, isIdentity (arr U) tol = .ok b ∧
    (b = true ↔ (∀ i j, i ≠ j → ‖U i j‖ ≤ tol) ∧ ∀ i, ‖U i i - 1‖ ≤ tol + 1 / 10 ^ 5) := by
  obtain ⟨b, hb, hb'⟩ := isIdentity_iff (n := n) (arr U) rfl rfl tol
  refine ⟨b, hb, ?_⟩
  rw [hb']
  constructor
  · intro h
    constructor
    · intro i j hij
      have := h i j
      rwa [arr_entry, Matrix.one_apply, if_neg hij, if_neg hij, sub_zero] at this
    · intro i
      have := h i i
      rwa [arr_entry, Matrix.one_apply, if_pos rfl, if_pos rfl] at this
  · rintro ⟨h1, h2⟩ i j
    rw [arr_entry, Matrix.one_apply]
    by_cases h : i = j
    · subst h; rw [if_pos rfl, if_pos rfl]; exact h2 i
    · rw [if_neg h, if_neg h, sub_zero]; exact h1 i j h

/-- **The check of unitarity is sound**: if it accepts, `U† U` is the identity up to the tolerance plus `10⁻⁵`. -/
theorem unitary_sound_partial {n : ℕ} {U : Matrix (Fin n) (Fin n) ℂ} {tol : ℝ} (h : isUnitary (arr U) tol = .ok true) : NearOne (Uᴴ * U) (tol + 1 / 10 ^ 5) := by
  obtain ⟨b, hb, hb'⟩ := isUnitary_iff U tol
  rw [h] at hb
  injection hb with hb
  subst hb
  intro i j
  have := hb'.1 rfl i j
  refine this.trans ?_
  have : (0 : ℝ) ≤ rtol := by unfold rtol; positivity
  split_ifs
  · exact le_refl _
  · have e : rtol = 1 / 10 ^ 5 := rfl
    linarith

/-- **Every unitary is accepted.** -/
theorem unitary_complete {n : ℕ} {U : Matrix (Fin n) (Fin n) ℂ} (hU : U ∈ unitaryGroup (Fin n) ℂ) {tol : ℝ} (ht : 0 ≤ tol) : isUnitary (arr U) tol = .ok true := by
  obtain ⟨b, hb, hb'⟩ := isUnitary_iff U tol
  rw [hb, hb'.2]
  intro i j
  rw [show Uᴴ * U = 1 from mem_unitaryGroup_iff'.1 hU, sub_self, norm_zero]
  have : (0 : ℝ) ≤ rtol := by unfold rtol; positivity
  split_ifs <;> linarith

/-- **The tolerance is not what the documentation says**: whatever the tolerance, entries on the diagonal may be off by `10⁻⁵`. -/
theorem tolerance_counterexample : ∃ U : Matrix (Fin 1) (Fin 1) ℂ, isIdentity (arr U) (1 / 10 ^ 15) = .ok true ∧ ¬ NearOne U (1 / 10 ^ 6) := by
  refine ⟨fun _ _ => 1 + 1 / 10 ^ 5, ?_, ?_⟩
  · obtain ⟨b, hb, hb'⟩ := identity_iff (fun _ _ => 1 + 1 / 10 ^ 5 : Matrix (Fin 1) (Fin 1) ℂ) (1 / 10 ^ 15)
    rw [hb, hb'.2]
    refine ⟨fun i j h => absurd (Subsingleton.elim i j) h, fun i => ?_⟩
    rw [add_sub_cancel_left]
    norm_num
  · intro h
    have := h 0 0
    rw [Matrix.one_apply, if_pos rfl, add_sub_cancel_left] at this
    norm_num at this

/-! ## Comparing unitaries -/

theorem compare_eq {n : ℕ} {U V : Matrix (Fin n) (Fin n) ℂ} (hU : U ∈ unitaryGroup (Fin n) ℂ) (hV : V ∈ unitaryGroup (Fin n) ℂ) {tol : ℝ} (ht : 0 ≤ tol) (z : Fin n)
    (hz : (z : ℕ) = 0) : ((Uᴴ * V) z z = 0 → compareUnitary (arr U) (arr V) tol = .error .zeroDivision) ∧
    ((Uᴴ * V) z z ≠ 0 → ∃ b, compareUnitary (arr U) (arr V) tol = .ok b ∧
      (b = true ↔ ∀ i j : Fin n, ‖((Uᴴ * V) z z)⁻¹ * (Uᴴ * V) i j - (1 : Matrix (Fin n) (Fin n) ℂ) i j‖ ≤ if i = j then tol + rtol else tol)) := by
  obtain ⟨w, hw, hr, hc, he⟩ := dot_arr U V
  have hn : n ≠ 0 := fun e => by subst e; exact z.elim0
  have h0 : w.entry 0 0 = (Uᴴ * V) z z := by rw [← he z z, hz]
  have key : compareUnitary (arr U) (arr V) tol = if w.entry 0 0 = 0 then .error .zeroDivision else isIdentity (Arr.scale (w.entry 0 0)⁻¹ w) tol := by
    unfold compareUnitary
    rw [unitary_complete hU ht, unitary_complete hV ht, hw]
    change (if w.rows = 0 ∨ w.cols = 0 then _ else _) = _
    rw [if_neg (by rw [hr, hc]; simpa using hn)]
  constructor
  · intro h
    rw [key, if_pos (h0.trans h)]
  · intro h
    rw [key, if_neg (by rw [h0]; exact h)]
    obtain ⟨b, hb, hb'⟩ := isIdentity_iff (Arr.scale (w.entry 0 0)⁻¹ w) (n := n) hr hc tol
    refine ⟨b, hb, ?_⟩
    rw [hb']
    simp only [Arr.scale, he, h0]

/-- **Unitaries that differ by a phase compare equal.** -/
theorem compare_complete {n : ℕ} (hn : 0 < n) {U : Matrix (Fin n) (Fin n) ℂ} (hU : U ∈ unitaryGroup (Fin n) ℂ) {c : ℂ} (hc : ‖c‖ = 1) {tol : ℝ} (ht : 0 ≤ tol) :
    compareUnitary (arr U) (arr (c • U)) tol = .ok true := by
  have hU' : Uᴴ * U = 1 := mem_unitaryGroup_iff'.1 hU
  have hcc : (starRingEnd ℂ) c * c = 1 := by rw [← Complex.normSq_eq_conj_mul_self, Complex.normSq_eq_norm_sq, hc]; norm_num
  have hV : c • U ∈ unitaryGroup (Fin n) ℂ := by
    rw [mem_unitaryGroup_iff']
    change (c • U)ᴴ * (c • U) = 1
    rw [conjTranspose_smul, smul_mul_smul_comm, hU']
    change ((starRingEnd ℂ) c * c) • (1 : Matrix (Fin n) (Fin n) ℂ) = 1
    rw [hcc, one_smul]
  have hT : Uᴴ * (c • U) = c • 1 := by rw [mul_smul_comm, hU']
  have hc0 : c ≠ 0 := fun e => by rw [e, norm_zero] at hc; norm_num at hc
  obtain ⟨_, h2⟩ := compare_eq hU hV ht ⟨0, hn⟩ rfl
  have e0 : (Uᴴ * (c • U)) ⟨0, hn⟩ ⟨0, hn⟩ = c := by rw [hT, Matrix.smul_apply, Matrix.one_apply, if_pos rfl, smul_eq_mul, mul_one]
  obtain ⟨b, hb, hb'⟩ := h2 (by rw [e0]; exact hc0)
  rw [hb, hb'.2]
  intro i j
  rw [e0, hT, Matrix.smul_apply, smul_eq_mul, ← mul_assoc, inv_mul_cancel₀ hc0, one_mul, sub_self, norm_zero]
  have : (0 : ℝ) ≤ rtol := by unfold rtol; positivity
  split_ifs <;> linarith

theorem entry_le {n : ℕ} {U : Matrix (Fin n) (Fin n) ℂ} (hU : U ∈ unitaryGroup (Fin n) ℂ) (i j : Fin n) : ‖U i j‖ ≤ 1 := by
  have h : Uᴴ * U = 1 := mem_unitaryGroup_iff'.1 hU
  have h1 := congrFun (congrFun h j) j
  rw [Matrix.mul_apply, Matrix.one_apply, if_pos rfl] at h1
  have h2 : ∑ k, ‖U k j‖ ^ 2 = 1 := by
    have : ∀ k, (Uᴴ j k * U k j) = ((‖U k j‖ ^ 2 : ℝ) : ℂ) := by
      intro k
      rw [conjTranspose_apply]
      change (starRingEnd ℂ) (U k j) * U k j = _
      rw [← Complex.normSq_eq_conj_mul_self, Complex.normSq_eq_norm_sq]
    rw [Finset.sum_congr rfl fun k _ => this k, ← Complex.ofReal_sum] at h1
    exact_mod_cast h1
  have h3 : ‖U i j‖ ^ 2 ≤ 1 := by
    rw [← h2]
    exact Finset.single_le_sum (f := fun k => ‖U k j‖ ^ 2) (fun k _ => by positivity) (Finset.mem_univ i)
  nlinarith [norm_nonneg (U i j)]

/-- **Unitaries that compare equal differ by a phase**, up to `n` times the tolerance (plus the `10⁻⁵` that the comparison allows on the diagonal). -/
theorem compare_sound {n : ℕ} (hn : 0 < n) {U V : Matrix (Fin n) (Fin n) ℂ} (hU : U ∈ unitaryGroup (Fin n) ℂ) (hV : V ∈ unitaryGroup (Fin n) ℂ) {tol : ℝ} (ht : 0 ≤ tol)
    (h : compareUnitary (arr U) (arr V) tol = .ok true) : SamePhase U V (n * tol + 1 / 10 ^ 5 + n * tol ^ 2) := by
  obtain ⟨h1, h2⟩ := compare_eq hU hV ht ⟨0, hn⟩ rfl
  set T := Uᴴ * V with hT
  set c := T ⟨0, hn⟩ ⟨0, hn⟩ with hcdef
  have hc0 : c ≠ 0 := fun e => by
    have := h1 e
    rw [h] at this
    cases this
  obtain ⟨b, hb, hb'⟩ := h2 hc0
  rw [h] at hb
  injection hb with hb
  subst hb
  have hE := hb'.1 rfl
  have hTu : T ∈ unitaryGroup (Fin n) ℂ := mul_mem (Unitary.star_mem hU) hV
  have hcle : ‖c‖ ≤ 1 := entry_le hTu _ _
  have hcpos : 0 < ‖c‖ := norm_pos_iff.2 hc0
  -- the first column has norm one
  have hcol : ∑ k, ‖T k ⟨0, hn⟩‖ ^ 2 = 1 := by
    have h : Tᴴ * T = 1 := mem_unitaryGroup_iff'.1 hTu
    have h1 := congrFun (congrFun h ⟨0, hn⟩) ⟨0, hn⟩
    rw [Matrix.mul_apply, Matrix.one_apply, if_pos rfl] at h1
    have : ∀ k, (Tᴴ ⟨0, hn⟩ k * T k ⟨0, hn⟩) = ((‖T k ⟨0, hn⟩‖ ^ 2 : ℝ) : ℂ) := by
      intro k
      rw [conjTranspose_apply]
      change (starRingEnd ℂ) (T k ⟨0, hn⟩) * T k ⟨0, hn⟩ = _
      rw [← Complex.normSq_eq_conj_mul_self, Complex.normSq_eq_norm_sq]
    rw [Finset.sum_congr rfl fun k _ => this k, ← Complex.ofReal_sum] at h1
    exact_mod_cast h1
  have hoff : ∀ k, k ≠ ⟨0, hn⟩ → ‖T k ⟨0, hn⟩‖ ≤ tol := by
    intro k hk
    have := hE k ⟨0, hn⟩
    rw [Matrix.one_apply, if_neg hk, if_neg hk, sub_zero, norm_mul, norm_inv] at this
    have h3 : ‖T k ⟨0, hn⟩‖ ≤ tol * ‖c‖ := by
      rw [inv_mul_eq_div, div_le_iff₀ hcpos] at this
      exact this
    nlinarith
  have hnear : 1 - ‖c‖ ≤ n * tol ^ 2 := by
    have h3 : (1 : ℝ) ≤ ‖c‖ ^ 2 + n * tol ^ 2 := by
      rw [← hcol, ← Finset.add_sum_erase _ _ (Finset.mem_univ (⟨0, hn⟩ : Fin n))]
      refine add_le_add (le_refl _) ?_
      refine (Finset.sum_le_card_nsmul _ _ (tol ^ 2) fun k hk => ?_).trans ?_
      · exact pow_le_pow_left₀ (norm_nonneg _) (hoff k (Finset.ne_of_mem_erase hk)) 2
      · rw [nsmul_eq_mul]
        refine mul_le_mul_of_nonneg_right ?_ (by positivity)
        have : (Finset.univ.erase (⟨0, hn⟩ : Fin n)).card ≤ n := (Finset.card_le_univ _).trans (by simp)
        exact_mod_cast this
    nlinarith
  refine ⟨c / (‖c‖ : ℂ), by rw [norm_div, Complex.norm_real, norm_norm, div_self hcpos.ne'], fun i j => ?_⟩
  -- V = U T
  have hUT : V = U * T := by rw [hT, ← Matrix.mul_assoc, show U * Uᴴ = 1 from mem_unitaryGroup_iff.1 hU, Matrix.one_mul]
  have hVc : V i j - c * U i j = c * ∑ k, U i k * (c⁻¹ * T k j - (1 : Matrix (Fin n) (Fin n) ℂ) k j) := by
    have e1 : ∑ k, U i k * (c⁻¹ * T k j - (1 : Matrix (Fin n) (Fin n) ℂ) k j) = c⁻¹ * V i j - U i j := by
      simp only [mul_sub, Finset.sum_sub_distrib]
      congr 1
      · rw [hUT, Matrix.mul_apply, Finset.mul_sum]
        exact Finset.sum_congr rfl fun k _ => by ring
      · rw [← Matrix.mul_apply, Matrix.mul_one]
    rw [e1, mul_sub, ← mul_assoc, mul_inv_cancel₀ hc0, one_mul]
  have hb1 : ‖V i j - c * U i j‖ ≤ n * tol + 1 / 10 ^ 5 := by
    rw [hVc, norm_mul]
    have h4 : ‖∑ k, U i k * (c⁻¹ * T k j - (1 : Matrix (Fin n) (Fin n) ℂ) k j)‖ ≤ n * tol + 1 / 10 ^ 5 := by
      refine (norm_sum_le _ _).trans ((Finset.sum_le_sum (g := fun k => tol + if k = j then (1 / 10 ^ 5 : ℝ) else 0) fun k _ => ?_).trans ?_)
      · rw [norm_mul]
        have h5 := hE k j
        have h6 := entry_le hU i k
        have h7 : (if k = j then tol + rtol else tol) = tol + if k = j then (1 / 10 ^ 5 : ℝ) else 0 := by
          split_ifs
          · rfl
          · rw [add_zero]
        rw [h7] at h5
        calc ‖U i k‖ * ‖c⁻¹ * T k j - (1 : Matrix (Fin n) (Fin n) ℂ) k j‖ ≤ 1 * ‖c⁻¹ * T k j - (1 : Matrix (Fin n) (Fin n) ℂ) k j‖ :=
              mul_le_mul_of_nonneg_right h6 (norm_nonneg _)
          _ ≤ _ := by rw [one_mul]; exact h5
      · rw [Finset.sum_add_distrib, Finset.sum_const, Finset.sum_ite_eq', if_pos (Finset.mem_univ j), Finset.card_univ, Fintype.card_fin, nsmul_eq_mul]
    calc _ ≤ 1 * ‖∑ k, U i k * (c⁻¹ * T k j - (1 : Matrix (Fin n) (Fin n) ℂ) k j)‖ := mul_le_mul_of_nonneg_right hcle (norm_nonneg _)
      _ ≤ _ := by rw [one_mul]; exact h4
  have hb2 : ‖c * U i j - c / (‖c‖ : ℂ) * U i j‖ ≤ n * tol ^ 2 := by
    rw [← sub_mul, norm_mul]
    have e : ‖c - c / (‖c‖ : ℂ)‖ = 1 - ‖c‖ := by
      have : c - c / (‖c‖ : ℂ) = c * ((1 - (‖c‖⁻¹ : ℝ) : ℝ) : ℂ) := by
        rw [Complex.ofReal_sub, Complex.ofReal_one, Complex.ofReal_inv, div_eq_mul_inv]; ring
      rw [this, norm_mul, Complex.norm_real, Real.norm_eq_abs, abs_of_nonpos, mul_neg, mul_sub, mul_one, mul_inv_cancel₀ hcpos.ne']
      · ring
      · rw [sub_nonpos]; exact (one_le_inv₀ hcpos).2 hcle
    rw [e]
    calc (1 - ‖c‖) * ‖U i j‖ ≤ (1 - ‖c‖) * 1 := mul_le_mul_of_nonneg_left (entry_le hU i j) (by linarith)
      _ ≤ _ := by rw [mul_one]; exact hnear
  calc ‖V i j - c / (‖c‖ : ℂ) * U i j‖ = ‖(V i j - c * U i j) + (c * U i j - c / (‖c‖ : ℂ) * U i j)‖ := by rw [sub_add_sub_cancel]
    _ ≤ _ := (norm_add_le _ _).trans (add_le_add hb1 hb2)

/-- **What the comparison does for any two unitaries**: it fails if the first columns are orthogonal, and otherwise answers. -/
theorem compare_answers_partial {n : ℕ} (hn : 0 < n) {U V : Matrix (Fin n) (Fin n) ℂ} (hU : U ∈ unitaryGroup (Fin n) ℂ) (hV : V ∈ unitaryGroup (Fin n) ℂ) {tol : ℝ} (ht : 0 ≤ tol) :
    (∃ b, compareUnitary (arr U) (arr V) tol = .ok b) ↔ ∑ k, (starRingEnd ℂ) (U k ⟨0, hn⟩) * V k ⟨0, hn⟩ ≠ 0 := by
  obtain ⟨h1, h2⟩ := compare_eq hU hV ht ⟨0, hn⟩ rfl
  have e : (Uᴴ * V) ⟨0, hn⟩ ⟨0, hn⟩ = ∑ k, (starRingEnd ℂ) (U k ⟨0, hn⟩) * V k ⟨0, hn⟩ := by rw [Matrix.mul_apply]; rfl
  rw [← e]
  constructor
  · rintro ⟨b, hb⟩ h0
    rw [h1 h0] at hb
    cases hb
  · intro h
    obtain ⟨b, hb, _⟩ := h2 h
    exact ⟨b, hb⟩

/-- **The comparison fails instead of returning False**, for example for the identity and the X gate. -/
theorem compare_counterexample : ∃ U V : Matrix (Fin 2) (Fin 2) ℂ, U ∈ unitaryGroup (Fin 2) ℂ ∧ V ∈ unitaryGroup (Fin 2) ℂ ∧
    ∀ tol, 0 ≤ tol → compareUnitary (arr U) (arr V) tol = .error .zeroDivision := by
  have hV : (!![0, 1; 1, 0] : Matrix (Fin 2) (Fin 2) ℂ) ∈ unitaryGroup (Fin 2) ℂ := by
    rw [mem_unitaryGroup_iff']
    ext i j
    fin_cases i <;> fin_cases j <;> simp [Matrix.mul_apply, Fin.sum_univ_two, star_apply]
  refine ⟨1, !![0, 1; 1, 0], one_mem _, hV, fun tol ht => ?_⟩
  refine (compare_eq (one_mem _) hV ht 0 rfl).1 ?_
  rw [conjTranspose_one, Matrix.one_mul]
  rfl

/-! ## Non-vacuity -/

/-- The X gate compares equal to minus itself. -/
example : ∃ U : Matrix (Fin 2) (Fin 2) ℂ, U ∈ unitaryGroup (Fin 2) ℂ ∧ U ≠ (-1 : ℂ) • U ∧ compareUnitary (arr U) (arr ((-1 : ℂ) • U)) (1 / 10 ^ 15) = .ok true := by
  have hV : (!![0, 1; 1, 0] : Matrix (Fin 2) (Fin 2) ℂ) ∈ unitaryGroup (Fin 2) ℂ := by
    rw [mem_unitaryGroup_iff']
    ext i j
    fin_cases i <;> fin_cases j <;> simp [Matrix.mul_apply, Fin.sum_univ_two, star_apply]
  refine ⟨_, hV, fun h => ?_, compare_complete (by norm_num) hV (by simp) (by positivity)⟩
  have := congrFun (congrFun h 0) 1
  norm_num at this

end ZQ.UCheck
