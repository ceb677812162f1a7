import Verif.Spec.Adjoint

/-!
# Specification: the Hubbard Hamiltonian

Site `i` of the `x` by `y` grid has column `i % x` and row `i / x`.
-/

namespace ZQ.Hubbard

open ZQ.Op

/-- `b` follows `a` among `0`, ..., `n - 1`; in a periodic arrangement `0` follows `n - 1`. -/
def Next (n : ℕ) (periodic : Bool) (a b : ℕ) : Prop := a + 1 = b ∨ (periodic = true ∧ a + 1 = n ∧ b = 0)

/-- `j` is to the right of `i`, or below it. -/
def Step (x y : ℕ) (periodic : Bool) (i j : ℕ) : Prop :=
  i < x * y ∧ j < x * y ∧ i ≠ j ∧ ((i / x = j / x ∧ Next x periodic (i % x) (j % x)) ∨ (i % x = j % x ∧ Next y periodic (i / x) (j / x)))

/-- Different sites of the grid are neighbours. -/
def Adjacent (x y : ℕ) (periodic : Bool) (i j : ℕ) : Prop := Step x y periodic i j ∨ Step x y periodic j i

/-- A list of the undirected edges of the grid: each edge is listed once, in one direction, which goes right or down. -/
structure IsEdgeList (x y : ℕ) (periodic : Bool) (E : List (ℕ × ℕ)) : Prop where
  once : E.Nodup
  oneDirection : ∀ i j, (i, j) ∈ E → (j, i) ∉ E
  step : ∀ i j, (i, j) ∈ E → Step x y periodic i j
  all : ∀ i j, Adjacent x y periodic i j → (i, j) ∈ E ∨ (j, i) ∈ E

/-- `c a†_i a_j` plus its hermitian conjugate. -/
noncomputable def hopping (c : ℂ) (i j : ℕ) : Module.End ℂ State :=
  c • (ladderAction (i, true) * ladderAction (j, false)) + (starRingEnd ℂ) c • (ladderAction (j, true) * ladderAction (i, false))

/-- The occupation number of mode `i`. -/
noncomputable def occupation (i : ℕ) : Module.End ℂ State := ladderAction (i, true) * ladderAction (i, false)

/-- The repulsion of two modes; with particle-hole symmetry, the occupations are reduced by 1/2. -/
noncomputable def repulsion (U : ℂ) (phs : Bool) (i j : ℕ) : Module.End ℂ State :=
  U • ((occupation i - (if phs then (1 / 2 : ℂ) else 0) • 1) * (occupation j - (if phs then (1 / 2 : ℂ) else 0) • 1))

/-- The spinful Hubbard Hamiltonian on the edges `E`: site `i` has the modes `2 i` (up) and `2 i + 1` (down). -/
noncomputable def spinful (E : List (ℕ × ℕ)) (N : ℕ) (t U mu h : ℂ) (phs : Bool) : Module.End ℂ State :=
  (E.map fun e => hopping (-t) (2 * e.1) (2 * e.2) + hopping (-t) (2 * e.1 + 1) (2 * e.2 + 1)).sum +
  ((List.range N).map fun i => repulsion U phs (2 * i) (2 * i + 1) - mu • (occupation (2 * i) + occupation (2 * i + 1)) - h • (occupation (2 * i) - occupation (2 * i + 1))).sum

/-- The spinless Hubbard Hamiltonian on the edges `E`. -/
noncomputable def spinless (E : List (ℕ × ℕ)) (N : ℕ) (t U mu : ℂ) (phs : Bool) : Module.End ℂ State :=
  (E.map fun e => hopping (-t) e.1 e.2 + repulsion U phs e.1 e.2).sum + ((List.range N).map fun i => -(mu • occupation i)).sum

/-- The number of particles in the modes of `S`. -/
def particles (S : Finset ℕ) (s : ℕ → Bool) : ℕ := (S.filter fun k => s k = true).card

end ZQ.Hubbard
