import Verif.Props.Commutator
import Verif.Props.Sparse
import Verif.Props.QubitOp
import Verif.Spec.PauliMatrix
import Verif.Lemmas.PauliIndep

/-! # C82: norms of operators -/

namespace ZQ.FTools

open ZQ ZQ.Op PyDict
open scoped BigOperators

/-! ### The induced norm -/

section
variable {A : Type}

theorem sum_rpow_nonneg (o : Terms A) (p : ℝ) : 0 ≤ (o.map fun kv => ‖kv.2‖ ^ p).sum :=
  List.sum_nonneg fun x hx => by
    obtain ⟨kv, _, rfl⟩ := List.mem_map.1 hx
    exact Real.rpow_nonneg (norm_nonneg _) _

/-- C82: the norm scales with the operator. -/
theorem inducedNorm_smul {p : ℝ} (hp : 0 < p) (o : Terms A) (c : ℂ) : inducedNorm (smul o c) p = ‖c‖ * inducedNorm o p := by
  have e : ((smul o c).map fun kv => ‖kv.2‖ ^ p).sum = ‖c‖ ^ p * (o.map fun kv => ‖kv.2‖ ^ p).sum := by
    rw [smul, List.map_map, ← List.sum_map_mul_left]
    congr 1
    refine List.map_congr_left fun kv _ => ?_
    show ‖kv.2 * c‖ ^ p = _
    rw [norm_mul, mul_comm, Real.mul_rpow (norm_nonneg _) (norm_nonneg _)]
  rw [inducedNorm, inducedNorm, e, Real.mul_rpow (Real.rpow_nonneg (norm_nonneg _) _) (sum_rpow_nonneg o p), ← Real.rpow_mul (norm_nonneg _), mul_one_div_cancel hp.ne',
    Real.rpow_one]

/-- C82: the norm is not negative, and is zero exactly for operators with only zero coefficients. -/
theorem inducedNorm_zero {p : ℝ} (hp : 0 < p) (o : Terms A) : 0 ≤ inducedNorm o p ∧ (inducedNorm o p = 0 ↔ ∀ kv ∈ o, kv.2 = 0) := by
  refine ⟨Real.rpow_nonneg (sum_rpow_nonneg o p) _, ?_⟩
  rw [inducedNorm, Real.rpow_eq_zero (sum_rpow_nonneg o p) (one_div_ne_zero hp.ne')]
  induction o with
  | nil => simp
  | cons kv o ih =>
    have h1 : 0 ≤ ‖kv.2‖ ^ p := Real.rpow_nonneg (norm_nonneg _) _
    have h2 := sum_rpow_nonneg o p
    rw [List.map_cons, List.sum_cons, add_eq_zero_iff_of_nonneg h1 h2, ih, List.forall_mem_cons, Real.rpow_eq_zero (norm_nonneg _) hp.ne', norm_eq_zero]

/-- C82: the norm of order one is the sum of the moduli. -/
theorem inducedNorm_one (o : Terms A) : inducedNorm o 1 = (o.map fun kv => ‖kv.2‖).sum := by
  rw [inducedNorm, one_div_one, Real.rpow_one]
  simp only [Real.rpow_one]

/-- The square of the norm of order two is the sum of the squared moduli. -/
theorem inducedNorm_two_sq (o : Terms A) : inducedNorm o 2 ^ 2 = (o.map fun kv => ‖kv.2‖ ^ 2).sum := by
  have h : (o.map fun kv => ‖kv.2‖ ^ (2 : ℝ)).sum = (o.map fun kv => ‖kv.2‖ ^ 2).sum := by
    simp only [Real.rpow_ofNat]
  have h0 := sum_rpow_nonneg o 2
  rw [inducedNorm, ← Real.rpow_natCast, ← Real.rpow_mul h0, Nat.cast_ofNat, one_div_mul_cancel (by norm_num), Real.rpow_one, h]

end

/-! ### Orthogonality of Pauli strings -/

theorem tensor_inner {n : ℕ} (P Q : Fin n → Matrix Bool Bool ℂ) :
    Matrix.trace ((tensor P).conjTranspose * tensor Q) = ∏ q, Matrix.trace ((P q).conjTranspose * Q q) := by
  simp only [Matrix.trace, Matrix.diag_apply, Matrix.mul_apply, Matrix.conjTranspose_apply, tensor]
  have e : ∀ q : Fin n, (∑ a : Bool, ∑ b : Bool, star (P q b a) * Q q b a) = ∑ ab : Bool × Bool, star (P q ab.2 ab.1) * Q q ab.2 ab.1 := fun q =>
    (Fintype.sum_prod_type' fun a b => star (P q b a) * Q q b a).symm
  simp only [e]
  rw [Finset.prod_univ_sum, ← Fintype.sum_prod_type' (f := fun x y : Fin n → Bool => star (∏ q, P q (y q) (x q)) * ∏ q, Q q (y q) (x q)), Fintype.piFinset_univ]
  refine Fintype.sum_equiv (Equiv.arrowProdEquivProdArrow (Fin n) (fun _ => Bool) (fun _ => Bool)).symm _ _ fun xy => ?_
  rw [star_prod, ← Finset.prod_mul_distrib]
  rfl

theorem letter_inner (a b : Letter) : Matrix.trace ((letterMatrix a).conjTranspose * letterMatrix b) = if a = b then 2 else 0 := by
  cases a <;> cases b <;>
    simp [letterMatrix, pauliX, pauliY, pauliZ, Matrix.trace, Matrix.mul_apply, Matrix.one_apply, Complex.ext_iff] <;> norm_num

/-- Different Pauli strings on `n` qubits are orthogonal. -/
theorem string_inner {n : ℕ} {t u : Term Letter} (ht : Canonical t) (hu : Canonical u) (bt : ∀ f ∈ t, f.1 < n) (bu : ∀ f ∈ u, f.1 < n) :
    Matrix.trace ((pauliString n t).conjTranspose * pauliString n u) = if t = u then 2 ^ n else 0 := by
  rw [pauliString, pauliString, tensor_inner]
  simp only [letter_inner]
  by_cases h : t = u
  · subst h; simp
  · rw [if_neg h]
    by_contra hne
    have hne := Finset.prod_ne_zero_iff.1 hne
    refine h (canonical_ext ht hu fun q => ?_)
    by_cases hq : q < n
    · by_contra hl
      exact hne ⟨q, hq⟩ (Finset.mem_univ _) (if_neg hl)
    · rw [letterAt_of_not_mem fun hm => ?_, letterAt_of_not_mem fun hm => ?_]
      · obtain ⟨f, hf, rfl⟩ := List.mem_map.1 hm; exact hq (bu f hf)
      · obtain ⟨f, hf, rfl⟩ := List.mem_map.1 hm; exact hq (bt f hf)

/-- C82: `2^n` times the square of the norm of order two is the squared Frobenius norm of the operator's matrix on `n` qubits. -/
theorem frobenius {n : ℕ} {o : Terms Letter} (h : CanonicalOp o) (hb : Below n o) :
    Matrix.trace ((opMatrix n o).conjTranspose * opMatrix n o) = 2 ^ n * (inducedNorm o 2 ^ 2 : ℝ) := by
  have one : ∀ (t : Term Letter), Canonical t → (∀ f ∈ t, f.1 < n) → ∀ (o : Terms Letter), (∀ kv ∈ o, Canonical kv.1 ∧ ∀ f ∈ kv.1, f.1 < n) → WF o →
      Matrix.trace ((pauliString n t).conjTranspose * opMatrix n o) = 2 ^ n * coeff o t := by
    intro t ht bt o
    induction o with
    | nil => intro _ _; simp [opMatrix, coeff, get?]
    | cons kv o ih =>
      intro hk hw
      obtain ⟨u, c⟩ := kv
      have hw' : u ∉ keys o ∧ WF o := by simpa [WF, keys] using hw
      have e : opMatrix n ((u, c) :: o) = c • pauliString n u + opMatrix n o := rfl
      rw [e, Matrix.mul_add, Matrix.trace_add, Matrix.mul_smul, Matrix.trace_smul, ih (fun kv h => hk kv (List.mem_cons_of_mem _ h)) hw'.2,
        string_inner ht (hk _ List.mem_cons_self).1 bt (hk _ List.mem_cons_self).2, coeff_cons]
      by_cases htu : t = u
      · subst htu
        rw [if_pos rfl, if_pos rfl, coeff_of_not_mem hw'.1, smul_eq_mul]; ring
      · rw [if_neg htu, if_neg (Ne.symm htu), smul_zero, zero_add]
  have hk : ∀ kv ∈ o, Canonical kv.1 ∧ ∀ f ∈ kv.1, f.1 < n := fun kv hkv => ⟨h.2 kv.1 (List.mem_map_of_mem hkv), hb kv hkv⟩
  have all : ∀ o' : Terms Letter, (∀ kv ∈ o', kv ∈ o) → Matrix.trace ((opMatrix n o').conjTranspose * opMatrix n o) = 2 ^ n * ((o'.map fun kv => ‖kv.2‖ ^ 2).sum : ℝ) := by
    intro o'
    induction o' with
    | nil => intro _; simp [opMatrix]
    | cons kv o' ih =>
      intro hs
      obtain ⟨u, c⟩ := kv
      have hm := hs _ List.mem_cons_self
      have e : opMatrix n ((u, c) :: o') = c • pauliString n u + opMatrix n o' := rfl
      rw [e, Matrix.conjTranspose_add, Matrix.add_mul, Matrix.trace_add, Matrix.conjTranspose_smul, Matrix.smul_mul, Matrix.trace_smul,
        ih fun kv h => hs kv (List.mem_cons_of_mem _ h), one u (hk _ hm).1 (hk _ hm).2 o hk h.1, coeff_of_mem h.1 hm, List.map_cons, List.sum_cons]
      have : star c * c = ((‖c‖ ^ 2 : ℝ) : ℂ) := by
        rw [Complex.star_def, Complex.conj_mul']; push_cast; rfl
      rw [smul_eq_mul]
      push_cast at this ⊢
      linear_combination (2 ^ n : ℂ) * this
  rw [all o fun _ h => h, inducedNorm_two_sq]

/-- C82: renormalising divides all coefficients by the norm; the result has norm one, so the average of the squared singular values of its matrix on
any number of qubits is one. An operator whose norm is at most `1e-8` is refused with a `ZeroDivisionError`. -/
theorem renormalize_spec (o : Terms Letter) :
    (inducedNorm o 2 ≤ 1 / 10 ^ 8 → renormalize o = .error .zeroDivision) ∧
    (1 / 10 ^ 8 < inducedNorm o 2 → ∃ o', renormalize o = .ok o' ∧ keys o' = keys o ∧ (∀ t, coeff o' t = coeff o t / inducedNorm o 2) ∧ inducedNorm o' 2 = 1 ∧
      ∀ n, CanonicalOp o → Below n o → Matrix.trace ((opMatrix n o').conjTranspose * opMatrix n o') / 2 ^ n = 1) := by
  refine ⟨fun h => if_pos h, fun h => ?_⟩
  have hpos : 0 < inducedNorm o 2 := lt_trans (by norm_num) h
  have hn : inducedNorm (smul o (1 / inducedNorm o 2 : ℝ)) 2 = 1 := by
    rw [inducedNorm_smul (by norm_num), Complex.norm_real, Real.norm_of_nonneg (by positivity), one_div_mul_cancel hpos.ne']
  refine ⟨_, if_neg (not_le.2 h), keys_smul _ _, fun t => ?_, hn, fun n hc hb => ?_⟩
  · rw [coeff_smul]; push_cast; ring
  · rw [frobenius ⟨by rw [WF, keys_smul]; exact hc.1, by rw [keys_smul]; exact hc.2⟩ (fun kv hkv f hf => ?_), hn]
    · simp
    · obtain ⟨kv', h', rfl⟩ := List.mem_map.1 hkv
      exact hb kv' h' f hf

/-- C82: `is_identity` accepts an operator exactly when its only product is the empty one; for a qubit operator without zero coefficients, exactly when it
acts as a nonzero multiple of the identity. -/
theorem isIdentity_spec :
    (∀ (A : Type) [DecidableEq A] (o : Terms A), isIdentity o = true ↔ ∃ c, o = [([], c)]) ∧
    ∀ o : Terms Letter, CanonicalOp o → (∀ kv ∈ o, kv.2 ≠ 0) → (isIdentity o = true ↔ ∃ c : ℂ, c ≠ 0 ∧ action pauliAction o = c • 1) := by
  have h1 : ∀ (A : Type) [DecidableEq A] (o : Terms A), isIdentity o = true ↔ ∃ c, o = [([], c)] := by
    intro A _ o
    rw [isIdentity, decide_eq_true_eq, keys]
    constructor
    · intro h
      obtain ⟨kv, rfl, h2⟩ := List.map_eq_singleton_iff.1 h
      exact ⟨kv.2, by rw [← h2]⟩
    · rintro ⟨c, rfl⟩; rfl
  refine ⟨h1, fun o hc hz => ?_⟩
  rw [h1]
  constructor
  · rintro ⟨c, rfl⟩
    exact ⟨c, hz _ List.mem_cons_self, by rw [action_cons, action_nil, add_zero, termAction_nil]⟩
  · rintro ⟨c, hc0, ha⟩
    have hi : CanonicalOp ([([], c)] : Terms Letter) := ⟨wf_single _ _, fun t ht => by
      rw [keys, List.map_singleton, List.mem_singleton] at ht
      rw [ht]; exact ⟨List.Pairwise.nil, fun f hf => by simp at hf⟩⟩
    have hu := canonical_unique hc hi (by rw [ha, action_cons, action_nil, add_zero, termAction_nil])
    have hkeys : ∀ kv ∈ o, kv = ([], c) := by
      intro kv hkv
      have := hu kv.1
      rw [coeff_of_mem hc.1 hkv, coeff_cons] at this
      by_cases he : [] = kv.1
      · rw [if_pos he] at this
        exact Prod.ext he.symm this
      · rw [if_neg he] at this
        exact absurd this (hz kv hkv)
    have hne : o ≠ [] := by
      rintro rfl
      have := hu []
      rw [coeff_cons, if_pos rfl] at this
      exact hc0 this.symm
    refine ⟨c, ?_⟩
    cases o with
    | nil => exact absurd rfl hne
    | cons x o =>
      cases o with
      | nil => rw [hkeys x List.mem_cons_self]
      | cons y o =>
        have hw := hc.1
        rw [WF, keys, hkeys x List.mem_cons_self, hkeys y (List.mem_cons_of_mem _ List.mem_cons_self)] at hw
        simp at hw

/-- `3 X0 + 4 Z1` has norm five and meets the hypotheses. -/
example : inducedNorm ([([(0, Letter.X)], 3), ([(1, Letter.Z)], 4)] : Terms Letter) 2 = 5 ∧ Below 2 ([([(0, Letter.X)], 3), ([(1, Letter.Z)], 4)] : Terms Letter) := by
  constructor
  · have h := inducedNorm_two_sq ([([(0, Letter.X)], 3), ([(1, Letter.Z)], 4)] : Terms Letter)
    have h0 := (inducedNorm_zero (p := 2) (by norm_num) ([([(0, Letter.X)], 3), ([(1, Letter.Z)], 4)] : Terms Letter)).1
    have e : (([([(0, Letter.X)], 3), ([(1, Letter.Z)], 4)] : Terms Letter).map fun kv => ‖kv.2‖ ^ 2).sum = 25 := by norm_num
    rw [e] at h
    nlinarith
  · intro kv hkv f hf
    simp only [List.mem_cons, List.not_mem_nil, or_false] at hkv
    rcases hkv with rfl | rfl <;> simp at hf <;> subst hf <;> decide

end ZQ.FTools
