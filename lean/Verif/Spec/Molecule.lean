import Verif.Spec.UnitaryCC
import Verif.Spec.Tapering
import Verif.Spec.PolyTensor

/-!
# Specification: electrons in spatial orbitals

Orbital `p` has the modes `2 p` (spin up) and `2 p + 1` (spin down).
-/

namespace ZQ.Mol

open ZQ.Op ZQ.UCC

/-- `a†_p a†_q a_r a_s`. -/
noncomputable def pairMove (p q r s : ℕ) : Module.End ℂ State := ladderAction (p, true) * ladderAction (q, true) * ladderAction (r, false) * ladderAction (s, false)

/-- Two electrons of any spins go from the orbitals `s`, `r` to the orbitals `p`, `q`, keeping their spins. -/
noncomputable def excitePair (p q r s : ℕ) : Module.End ℂ State :=
  ∑ σ ∈ Finset.range 2, ∑ τ ∈ Finset.range 2, pairMove (2 * p + σ) (2 * q + τ) (2 * r + τ) (2 * s + σ)

/-- The electronic structure Hamiltonian of the orbitals `orb 0`, ..., `orb (m - 1)`: a constant, the one-electron integrals `h` and the two-electron integrals `g`. -/
noncomputable def electronicOn (orb : ℕ → ℕ) (m : ℕ) (c : ℝ) (h g : List ℕ → ℝ) : Module.End ℂ State :=
  (c : ℂ) • 1 + ∑ p ∈ Finset.range m, ∑ q ∈ Finset.range m, (h [p, q] : ℂ) • excite (orb p) (orb q) +
    (1 / 2 : ℂ) • ∑ p ∈ Finset.range m, ∑ q ∈ Finset.range m, ∑ r ∈ Finset.range m, ∑ s ∈ Finset.range m,
      (g [p, q, r, s] : ℂ) • excitePair (orb p) (orb q) (orb r) (orb s)

/-- The electronic structure Hamiltonian of `m` orbitals. -/
noncomputable def electronic (m : ℕ) (c : ℝ) (h g : List ℕ → ℝ) : Module.End ℂ State := electronicOn id m c h g

/-- A number below `1e-8` in magnitude is taken to be zero. -/
noncomputable def chop (x : ℝ) : ℝ := if |x| < 1 / 10 ^ 8 then 0 else x

open Classical in
/-- The projection onto the states of `m` orbitals in which all `occupied` orbitals are doubly occupied and all orbitals that are neither occupied nor active are
empty. -/
noncomputable def frozen (m : ℕ) (occupied active : List ℕ) : Module.End ℂ State where
  toFun ψ := fun s =>
    if (∀ p ∈ occupied, s (2 * p) = true ∧ s (2 * p + 1) = true) ∧ (∀ p < m, p ∉ occupied → p ∉ active → s (2 * p) = false ∧ s (2 * p + 1) = false) then ψ s else 0
  map_add' ψ φ := by
    funext s
    simp only [Pi.add_apply]
    split <;> simp
  map_smul' c ψ := by
    funext s
    simp only [Pi.smul_apply, RingHom.id_apply]
    split <;> simp

/-- The modes of a list of orbitals. -/
def modes (orbitals : List ℕ) : List ℕ := orbitals.flatMap fun p => [2 * p, 2 * p + 1]

end ZQ.Mol
