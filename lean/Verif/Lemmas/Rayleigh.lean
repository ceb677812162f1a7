import Verif.Spec.GroundState
import Mathlib.Analysis.Matrix.PosDef

/-!
# Lowest eigenvalues bound expectation values
-/

namespace ZQ.Ground

open Matrix
open scoped ComplexOrder

theorem lowest_posSemidef {ι : Type} [Fintype ι] [DecidableEq ι] {A : Matrix ι ι ℂ} (hA : A.IsHermitian) {e : ℝ}
    (h : ∀ (μ : ℝ) (w : ι → ℂ), w ≠ 0 → A *ᵥ w = (μ : ℂ) • w → e ≤ μ) : (A - (e : ℂ) • (1 : Matrix ι ι ℂ)).PosSemidef := by
  have hB : (A - (e : ℂ) • (1 : Matrix ι ι ℂ)).IsHermitian := by
    refine hA.sub ?_
    rw [Matrix.IsHermitian, conjTranspose_smul, conjTranspose_one, Complex.star_def, Complex.conj_ofReal]
  rw [hB.posSemidef_iff_eigenvalues_nonneg]
  intro j
  have h1 := hB.mulVec_eigenvectorBasis j
  have h0 : (⇑(hB.eigenvectorBasis j) : ι → ℂ) ≠ 0 := by
    intro h0
    have := hB.eigenvectorBasis.orthonormal.ne_zero j
    apply this
    ext i
    exact congrFun h0 i
  have h2 := h (hB.eigenvalues j + e) _ h0 (by
    rw [Matrix.sub_mulVec, Matrix.smul_mulVec, Matrix.one_mulVec, sub_eq_iff_eq_add] at h1
    rw [h1, Complex.ofReal_add, add_smul]
    rfl)
  show (0 : ℝ) ≤ _
  linarith

theorem lowest_le {ι : Type} [Fintype ι] [DecidableEq ι] {A : Matrix ι ι ℂ} (hA : A.IsHermitian) {e : ℝ}
    (h : ∀ (μ : ℝ) (w : ι → ℂ), w ≠ 0 → A *ᵥ w = (μ : ℂ) • w → e ≤ μ) (w : ι → ℂ) : e * (inner w w).re ≤ (inner w (A *ᵥ w)).re := by
  have hp := lowest_posSemidef hA h
  have := hp.dotProduct_mulVec_nonneg w
  rw [Matrix.sub_mulVec, Matrix.smul_mulVec, Matrix.one_mulVec, dotProduct_sub, dotProduct_smul] at this
  have h2 := (Complex.le_def.1 this).1
  rw [Complex.sub_re, smul_eq_mul, Complex.re_ofReal_mul] at h2
  unfold inner
  simp only [Complex.zero_re] at h2
  linarith

theorem exists_lowest {ι : Type} [Fintype ι] [DecidableEq ι] [Nonempty ι] {A : Matrix ι ι ℂ} (hA : A.IsHermitian) : ∃ e v, Lowest A e v := by
  obtain ⟨j, hj⟩ := Finite.exists_min hA.eigenvalues
  refine ⟨hA.eigenvalues j, ⇑(hA.eigenvectorBasis j), hA.mulVec_eigenvectorBasis j, ?_, ?_⟩
  · have := congrFun (hA.star_eigenvectorUnitary_mulVec j) j
    rw [Pi.single_eq_same] at this
    exact this
  · intro μ w hw h
    by_contra hc
    push Not at hc
    refine hw ?_
    have hU : (star (hA.eigenvectorUnitary : Matrix ι ι ℂ)) *ᵥ w = 0 := by
      funext i
      have h1 : star (⇑(hA.eigenvectorBasis i) : ι → ℂ) ⬝ᵥ (A *ᵥ w) = hA.eigenvalues i * (star (⇑(hA.eigenvectorBasis i) : ι → ℂ) ⬝ᵥ w) := by
        have h3 : star (A *ᵥ (⇑(hA.eigenvectorBasis i) : ι → ℂ)) = star (⇑(hA.eigenvectorBasis i) : ι → ℂ) ᵥ* A := by
          rw [star_mulVec, show Aᴴ = A from hA]
        rw [dotProduct_mulVec, ← h3, hA.mulVec_eigenvectorBasis i, star_smul, smul_dotProduct]
        simp
      rw [h, dotProduct_smul, smul_eq_mul] at h1
      have h2 : ((μ : ℂ) - hA.eigenvalues i) * (star (⇑(hA.eigenvectorBasis i) : ι → ℂ) ⬝ᵥ w) = 0 := by rw [sub_mul, h1, sub_self]
      rcases mul_eq_zero.1 h2 with h3 | h3
      · have := hj i
        have : μ = hA.eigenvalues i := by exact_mod_cast sub_eq_zero.1 h3
        linarith
      · exact h3
    have := congrArg (fun v => (hA.eigenvectorUnitary : Matrix ι ι ℂ) *ᵥ v) hU
    simpa [mulVec_mulVec] using this

end ZQ.Ground
