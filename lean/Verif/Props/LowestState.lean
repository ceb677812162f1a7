import Verif.Model.LowestState
import Verif.Props.GroundState
import Verif.Props.Spectrum

/-!
# C134: three ways to the ground state energy
-/

namespace ZQ.Ground

open ZQ ZQ.Op ZQ.Sparse ZQ.Expect ZQ.Spectrum Matrix Bits

/-! ### Specification -/

/-- Specification of the external eigensolver: for a Hermitian matrix with at least two rows it returns eigenvalues and, as columns, unit eigenvectors, in some order; a lowest eigenvalue is among them. -/
def Finds (solver : Mat ℂ → Except Err Eigen) : Prop := ∀ A : Mat ℂ, 2 ≤ A.rows → A.cols = A.rows → (square A).IsHermitian →
  ∃ E, solver A = .ok E ∧ E.vecs.rows = A.rows ∧ E.vecs.cols = E.vals.length ∧
    (∀ i < E.vals.length, square A *ᵥ (fun r => E.vecs.e r i) = ((E.vals.getD i 0 : ℝ) : ℂ) • (fun r : Fin A.rows => E.vecs.e r i) ∧ inner (fun r : Fin A.rows => E.vecs.e r i) (fun r => E.vecs.e r i) = 1) ∧
    ∃ i < E.vals.length, ∀ (μ : ℝ) (w : Fin A.rows → ℂ), w ≠ 0 → square A *ᵥ w = (μ : ℂ) • w → E.vals.getD i 0 ≤ μ

/-! ### Auxiliary facts -/

theorem argsort_first {vals : List ℝ} (h : 0 < vals.length) : ∃ i l, argsort vals = i :: l ∧ i < vals.length ∧ ∀ j < vals.length, vals.getD i 0 ≤ vals.getD j 0 := by
  classical
  have hperm : (argsort vals).Perm (List.range vals.length) := List.perm_insertionSort _ _
  have hsort : (argsort vals).Pairwise fun i j => vals.getD i 0 ≤ vals.getD j 0 := by
    haveI : Std.Total fun i j : ℕ => vals.getD i 0 ≤ vals.getD j 0 := ⟨fun _ _ => le_total _ _⟩
    haveI : IsTrans ℕ fun i j => vals.getD i 0 ≤ vals.getD j 0 := ⟨fun _ _ _ => le_trans⟩
    exact List.pairwise_insertionSort _ _
  cases e : argsort vals with
  | nil =>
    have := hperm.length_eq
    rw [e, List.length_nil, List.length_range] at this
    omega
  | cons i l =>
    rw [e] at hperm hsort
    refine ⟨i, l, rfl, List.mem_range.1 (hperm.mem_iff.1 List.mem_cons_self), fun j hj => ?_⟩
    rcases List.mem_cons.1 (hperm.mem_iff.2 (List.mem_range.2 hj)) with rfl | h
    · exact le_rfl
    · exact (List.pairwise_cons.1 hsort).1 j h

theorem sum_index {n : ℕ} {N : ℕ} (hN : N = 2 ^ n) (f : ℕ → ℂ) : ∑ i : Fin N, f i = ∑ x : Fin n → Bool, f (basisIndex x) := by
  subst hN
  exact (Equiv.sum_comp (basisEquiv n) fun i : Fin (2 ^ n) => f i).symm

/-- A vector over the rows and the same vector over the basis states. -/
theorem lowest_onBits {n : ℕ} {M : Mat ℂ} (hr : M.rows = 2 ^ n) {e : ℝ} {v : ℕ → ℂ} (h : Lowest (square M) e fun i => v i) : Lowest (M.onBits n) e fun x => v (basisIndex x) := by
  obtain ⟨h1, h2, h3⟩ := h
  refine ⟨?_, ?_, ?_⟩
  · funext x
    have := congrFun h1 ⟨basisIndex x, by rw [hr]; exact basisIndex_lt x⟩
    show ∑ y, M.e (basisIndex x) (basisIndex y) * v (basisIndex y) = (e : ℂ) * v (basisIndex x)
    rw [← sum_index hr fun j => M.e (basisIndex x) j * v j]
    exact this
  · rw [← h2]
    exact (sum_index hr fun i => star (v i) * v i).symm
  · intro μ w hw hA
    refine h3 μ (fun i => w (bitsOf n i)) (fun h0 => hw ?_) ?_
    · funext x
      have := congrFun h0 ⟨basisIndex x, by rw [hr]; exact basisIndex_lt x⟩
      have hb : bitsOf n (basisIndex x) = x := basisIndex_injective (basisIndex_bitsOf n _ (basisIndex_lt x))
      simpa [hb] using this
    · funext i
      have hi : (i : ℕ) < 2 ^ n := hr ▸ i.2
      have := congrFun hA (bitsOf n i)
      show ∑ j : Fin M.rows, M.e i j * w (bitsOf n j) = (μ : ℂ) * w (bitsOf n i)
      rw [sum_index hr fun j => M.e i j * w (bitsOf n j)]
      have e2 : (M.onBits n *ᵥ w) (bitsOf n i) = ∑ y, M.e i (basisIndex y) * w y := by
        show ∑ y, M.e (basisIndex (bitsOf n i)) (basisIndex y) * w y = _
        rw [basisIndex_bitsOf n i hi]
      rw [e2] at this
      refine (Finset.sum_congr rfl fun y _ => ?_).trans this
      rw [show bitsOf n (basisIndex y) = y from basisIndex_injective (basisIndex_bitsOf n _ (basisIndex_lt y))]

/-! ### C134 -/

/-- C134. `get_ground_state` of a Hermitian matrix on at least one qubit: a lowest eigenvalue and a unit eigenvector; no state has a lower energy. -/
theorem getGroundState_spec {eigsh : Mat ℂ → Option (List ℂ) → Except Err Eigen} {guess : Option (List ℂ)} (hE : Finds fun A => eigsh A guess) {n : ℕ} (hn : 0 < n) {M : Mat ℂ} (hr : M.rows = 2 ^ n)
    (hc : M.cols = 2 ^ n) (hM : (M.onBits n).IsHermitian) :
    ∃ e wf, getGroundState eigsh M guess = .ok (e, wf) ∧ wf.length = 2 ^ n ∧ Lowest (M.onBits n) e (stateOn n wf) ∧
      ∀ φ, e * (inner φ φ).re ≤ (inner φ (M.onBits n *ᵥ φ)).re := by
  have h2 : 2 ≤ M.rows := by rw [hr]; exact Nat.one_lt_two_pow hn.ne'
  obtain ⟨E, s1, s2, s3, s4, j, hj, s5⟩ := hE M h2 (hc.trans hr.symm) (square_hermitian hr hM)
  obtain ⟨i, l, a1, a2, a3⟩ := argsort_first (show 0 < E.vals.length by omega)
  have hL : Lowest (square M) (E.vals.getD i 0) fun r => E.vecs.e r i := ⟨(s4 i a2).1, (s4 i a2).2, fun μ w hw hA => (a3 j hj).trans (s5 μ w hw hA)⟩
  have hL' := lowest_onBits (v := fun r => E.vecs.e r i) hr hL
  refine ⟨E.vals.getD i 0, (List.range E.vecs.rows).map fun r => E.vecs.e r i, ?_, ?_, ?_, ?_⟩
  · unfold getGroundState
    rw [show eigsh M guess = .ok E from s1]
    show (match argsort E.vals with | [] => _ | i :: _ => _) = _
    rw [a1]
    show (if i < E.vecs.cols then _ else _) = _
    rw [if_pos (by rw [s3]; exact a2)]
  · rw [List.length_map, List.length_range, s2, hr]
  · have : stateOn n ((List.range E.vecs.rows).map fun r => E.vecs.e r i) = fun x => E.vecs.e (basisIndex x) i := by
      funext x
      unfold stateOn
      have hx : basisIndex x < E.vecs.rows := by rw [s2, hr]; exact basisIndex_lt x
      rw [List.getD_eq_getElem?_getD, List.getElem?_map, List.getElem?_range hx]
      rfl
    rw [this]
    exact hL'
  · exact lowest_le hM hL'.2.2

/-- C134. The lowest energies at the particle numbers: none is below the ground state energy, and if the matrix conserves the number of particles, one of them is the ground state energy. -/
theorem ground_energy_sectors {eigh eigsh : Mat ℂ → Eigen} (h1 : Solves eigh) (h2 : Solves eigsh) {n : ℕ} {M : Mat ℂ} (hr : M.rows = 2 ^ n) (hc : M.cols = 2 ^ n) (hM : (M.onBits n).IsHermitian)
    {solver : Mat ℂ → Option (List ℂ) → Except Err Eigen} {guess : Option (List ℂ)} (hE : Finds fun A => solver A guess) (hn : 0 < n) :
    ∃ e wf, getGroundState solver M guess = .ok (e, wf) ∧ (∀ k ≤ n, ∃ e' wf', groundStateAt eigh eigsh M k = .ok (e', wf') ∧ e ≤ e') ∧
      (Conserves (M.onBits n) → ∃ k ≤ n, ∃ wf', groundStateAt eigh eigsh M k = .ok (e, wf')) := by
  obtain ⟨e, wf, g1, -, g2, g3⟩ := getGroundState_spec hE hn hr hc hM
  have key : ∀ k ≤ n, ∃ e' wf', groundStateAt eigh eigsh M k = .ok (e', wf') ∧ e ≤ e' ∧ ∀ φ, HasParticles k φ → e' * (inner φ φ).re ≤ (inner φ (M.onBits n *ᵥ φ)).re := by
    intro k hk
    obtain ⟨e', wf', a1, -, a2, -⟩ := groundStateAt_spec h1 h2 hk hr hc hM
    refine ⟨e', wf', a1, ?_, a2.lowest⟩
    have := g3 (stateOn n wf')
    rw [a2.unit, a2.energy] at this
    simpa using this
  refine ⟨e, wf, g1, fun k hk => ?_, fun hcons => ?_⟩
  · obtain ⟨e', wf', a1, a2, -⟩ := key k hk
    exact ⟨e', wf', a1, a2⟩
  · obtain ⟨p1, p2, p3⟩ := g2
    generalize stateOn n wf = ψ at p1 p2
    have hne : ∃ x, ψ x ≠ 0 := by
      by_contra h
      push Not at h
      have h0 : ψ = 0 := funext h
      rw [h0] at p2
      simp [inner] at p2
    obtain ⟨x, hx⟩ := hne
    have hk : occupied x ≤ n := by
      unfold occupied
      exact (Finset.card_le_univ _).trans (by simp)
    obtain ⟨e', wf', a1, a2, a3⟩ := key (occupied x) hk
    refine ⟨occupied x, hk, wf', ?_⟩
    let φ : (Fin n → Bool) → ℂ := fun y => if occupied y = occupied x then ψ y else 0
    have hφ : HasParticles (occupied x) φ := by
      intro y hy
      by_contra h
      exact hy (if_neg h)
    have heig : M.onBits n *ᵥ φ = (e : ℂ) • φ := by
      funext y
      show ∑ z, M.onBits n y z * φ z = (e : ℂ) * φ y
      by_cases hy : occupied y = occupied x
      · rw [show φ y = ψ y from if_pos hy]
        refine (Finset.sum_congr rfl fun z _ => ?_).trans (congrFun p1 y)
        show M.onBits n y z * φ z = M.onBits n y z * ψ z
        by_cases hz : M.onBits n y z = 0
        · rw [hz, zero_mul, zero_mul]
        · rw [show φ z = ψ z from if_pos ((hcons y z hz).symm.trans hy)]
      · rw [show φ y = 0 from if_neg hy, mul_zero]
        refine Finset.sum_eq_zero fun z _ => ?_
        by_cases hz : M.onBits n y z = 0
        · rw [hz, zero_mul]
        · rw [show φ z = 0 from if_neg fun h => hy ((hcons y z hz).trans h), mul_zero]
    have hle := a3 φ hφ
    have hpos : 0 < (inner φ φ).re := by
      have e1 : (inner φ φ).re = ∑ y, Complex.normSq (φ y) := by
        unfold inner dotProduct
        rw [Complex.re_sum]
        refine Finset.sum_congr rfl fun y _ => ?_
        simp [Complex.normSq_apply]
      rw [e1]
      refine Finset.sum_pos' (fun y _ => Complex.normSq_nonneg _) ⟨x, Finset.mem_univ _, ?_⟩
      rw [show φ x = ψ x from if_pos rfl]
      exact Complex.normSq_pos.2 hx
    have e2 : (inner φ (M.onBits n *ᵥ φ)).re = e * (inner φ φ).re := by
      rw [heig]
      unfold inner
      rw [dotProduct_smul, smul_eq_mul, Complex.re_ofReal_mul]
    rw [e2] at hle
    have : e' ≤ e := le_of_mul_le_mul_right hle hpos
    rw [a1, le_antisymm this a2]

/-- The first entry of the spectrum. -/
theorem IsSpectrum.first {n : ℕ} {A : Matrix (Fin n → Bool) (Fin n → Bool) ℂ} (hA : A.IsHermitian) {L : List ℂ} (hL : IsSpectrum A L) {e : ℝ} {v : (Fin n → Bool) → ℂ} (h : Lowest A e v) :
    L.head? = some (e : ℂ) := by
  have hroot : ∀ μ : ℂ, μ ∈ L ↔ ∃ w, w ≠ 0 ∧ A *ᵥ w = μ • w := by
    intro μ
    have h1 : μ ∈ L ↔ μ ∈ A.charpoly.roots := by rw [← hL.roots]; rfl
    rw [h1, Polynomial.mem_roots (Matrix.charpoly_monic A).ne_zero, ← Matrix.mem_spectrum_iff_isRoot_charpoly, ← Matrix.spectrum_toLin', ← Module.End.hasEigenvalue_iff_mem_spectrum]
    constructor
    · intro hv
      obtain ⟨w, hw⟩ := hv.exists_hasEigenvector
      exact ⟨w, hw.2, by simpa using hw.apply_eq_smul⟩
    · rintro ⟨w, hw, e⟩
      exact Module.End.hasEigenvalue_of_hasEigenvector ⟨Module.End.mem_eigenspace_iff.2 (by simpa using e), hw⟩
  have hv : v ≠ 0 := by
    rintro rfl
    have := h.2.1
    simp [inner] at this
  have hmem : (e : ℂ) ∈ L := (hroot _).2 ⟨v, hv, h.1⟩
  obtain ⟨r1, r2⟩ := hL.real hA
  cases L with
  | nil => cases hmem
  | cons a l =>
    show some a = _
    congr 1
    have him := r1 a List.mem_cons_self
    obtain ⟨w, hw, ha⟩ := (hroot a).1 List.mem_cons_self
    have har : ((a.re : ℝ) : ℂ) = a := Complex.ext rfl (by simp [him])
    have hle : e ≤ a.re := h.2.2 a.re w hw (by rw [har]; exact ha)
    have hge : a.re ≤ e := by
      rcases List.mem_cons.1 hmem with h | h
      · rw [← h]; exact le_of_eq (Complex.ofReal_re e)
      · exact (List.pairwise_cons.1 r2).1 _ h
    rw [← har, le_antisymm hge hle]

/-- C134. The spectrum starts with the ground state energy. -/
theorem ground_energy_spectrum {eigvalsh : Mat ℂ → List ℝ} {eigvals : Mat ℂ → List ℂ} (h1 : SolvesH eigvalsh) (h2 : SolvesG eigvals) {n : ℕ} {M : Mat ℂ} (hr : M.rows = 2 ^ n) (hc : M.cols = 2 ^ n)
    (hM : (M.onBits n).IsHermitian) {solver : Mat ℂ → Option (List ℂ) → Except Err Eigen} {guess : Option (List ℂ)} (hE : Finds fun A => solver A guess) (hn : 0 < n) :
    ∃ e wf, getGroundState solver M guess = .ok (e, wf) ∧ (sparseEigenspectrum eigvalsh eigvals M).head? = some (e : ℂ) := by
  obtain ⟨e, wf, g1, -, g2, -⟩ := getGroundState_spec hE hn hr hc hM
  exact ⟨e, wf, g1, IsSpectrum.first hM (sparseEigenspectrum_spec h1 h2 hr hc (Or.inl hM)) g2⟩

/-- C134. Transforming an operator to qubits keeps the ground state energy: for a Hermitian operator on the modes below `n`, its sparse matrix and those of its Jordan-Wigner and its Bravyi-Kitaev transform on
`n` qubits have the same ground state energy, which is the first entry of the three spectra. The coefficients of the operator are multiples of a step, so that no coefficient of the transforms is lost in
the comparison with `1e-8`. -/
theorem ground_energy_transforms {eigvalsh : Mat ℂ → List ℝ} {eigvals : Mat ℂ → List ℂ} (h1 : SolvesH eigvalsh) (h2 : SolvesG eigvals) {solver : Mat ℂ → Option (List ℂ) → Except Err Eigen}
    {guess : Option (List ℂ)} (hE : Finds fun A => solver A guess) (o : Terms Bool) {n : ℕ} (hn : 0 < n) (hle : countFermion o ≤ n) (δ : ℝ) (hδ : 1 / 10 ^ 8 ≤ δ)
    (hg : ∀ kv ∈ o, kv.2 ∈ Grid (2 ^ kv.1.length * δ)) (hH : (matrixOf n (action ladderAction o)).IsHermitian) :
    ∃ q e L M₁ M₂ M₃ w₁ w₂ w₃, bravyiKitaev o (some n) = .ok q ∧ getSparseOperator (.fermion o) (some n) = .ok M₁ ∧ getSparseOperator (.qubit (jordanWigner o)) (some n) = .ok M₂ ∧
      getSparseOperator (.qubit q) (some n) = .ok M₃ ∧ getGroundState solver M₁ guess = .ok (e, w₁) ∧ getGroundState solver M₂ guess = .ok (e, w₂) ∧ getGroundState solver M₃ guess = .ok (e, w₃) ∧
      eigenspectrum eigvalsh eigvals (.fermion o) (some n) = .ok L ∧ eigenspectrum eigvalsh eigvals (.qubit (jordanWigner o)) (some n) = .ok L ∧
      eigenspectrum eigvalsh eigvals (.qubit q) (some n) = .ok L ∧ L.head? = some (e : ℂ) := by
  obtain ⟨q, L, q1, q2, q3, l1, l2, l3⟩ := eigenspectrum_transforms_partial h1 h2 o n hle δ hδ hg (Or.inl hH)
  obtain ⟨q', b1, b2, b3⟩ := bravyiKitaev_action o (some n) hle δ hδ hg
  rw [q1] at b1
  rw [Option.getD_some] at b3
  cases b1
  have hj := jordanWigner_below hle
  have hq := bravyiKitaev_below hle q1
  have ej : opMatrix n (jordanWigner o) = matrixOf n (action ladderAction o) := by
    rw [opMatrix_eq_matrixOf (jordanWigner_error o).1 hj, jordanWigner_action o δ hδ hg]
  have eq' : opMatrix n q = matrixOf n (action pauliAction q) := opMatrix_eq_matrixOf b2 hq
  have hQ : (opMatrix n q).IsHermitian := by
    rw [eq']
    refine Matrix.IsHermitian.ext fun x y => ?_
    obtain ⟨x, rfl⟩ := (encodeBits_bijective n).2 x
    obtain ⟨y, rfl⟩ := (encodeBits_bijective n).2 y
    rw [matrixOf_encode b3, matrixOf_encode b3]
    exact hH.apply x y
  obtain ⟨M₁, m1, m2, m3, m4⟩ := jordanWignerSparse_spec o (some n) n rfl hle
  have e1 : M₁.onBits n = matrixOf n (action ladderAction o) := by
    ext x y; exact m4 x y
  obtain ⟨M₂, r1, r2, r3, r4⟩ := qubitOperatorSparse_spec (jordanWigner_error o).1 (some n) n rfl (Expect.countQubit_le _ n hj)
  obtain ⟨M₃, s1, s2, s3, s4⟩ := qubitOperatorSparse_spec b2 (some n) n rfl (Expect.countQubit_le _ n hq)
  have key : ∀ M : Mat ℂ, M.rows = 2 ^ n → M.cols = 2 ^ n → (M.onBits n).IsHermitian → sparseEigenspectrum eigvalsh eigvals M = L → ∃ e w, getGroundState solver M guess = .ok (e, w) ∧ L.head? = some (e : ℂ) := by
    intro M hr hc hM hL
    obtain ⟨e, w, g1, g2⟩ := ground_energy_spectrum h1 h2 hr hc hM hE hn
    exact ⟨e, w, g1, hL ▸ g2⟩
  have u1 : sparseEigenspectrum eigvalsh eigvals M₁ = L := by
    have := l1
    change (jordanWignerSparse o (some n) >>= _) = _ at this
    rw [m1] at this
    exact Except.ok.inj this
  have u2 : sparseEigenspectrum eigvalsh eigvals M₂ = L := by
    have := l2
    change (qubitOperatorSparse (jordanWigner o) (some n) >>= _) = _ at this
    rw [r1] at this
    exact Except.ok.inj this
  have u3 : sparseEigenspectrum eigvalsh eigvals M₃ = L := by
    have := l3
    change (qubitOperatorSparse q (some n) >>= _) = _ at this
    rw [s1] at this
    exact Except.ok.inj this
  obtain ⟨x, w₁, g1, g1'⟩ := key M₁ m2 m3 (e1 ▸ hH) u1
  obtain ⟨y, w₂, g2, g2'⟩ := key M₂ r2 r3 (by rw [r4, ej]; exact hH) u2
  obtain ⟨z, w₃, g3, g3'⟩ := key M₃ s2 s3 (by rw [s4]; exact hQ) u3
  obtain rfl : x = y := Complex.ofReal_injective (Option.some.inj (g1'.symm.trans g2'))
  obtain rfl : x = z := Complex.ofReal_injective (Option.some.inj (g1'.symm.trans g3'))
  exact ⟨q, x, L, M₁, M₂, M₃, w₁, w₂, w₃, q1, m1, r1, s1, g1, g2, g3, l1, l2, l3, g1'⟩

/-- An exception of the eigensolver is passed on: scipy refuses sparse matrices with one row, so operators without qubits have no ground state here. -/
theorem getGroundState_error {eigsh : Mat ℂ → Option (List ℂ) → Except Err Eigen} {M : Mat ℂ} {guess : Option (List ℂ)} {e : Err} (h : eigsh M guess = .error e) : getGroundState eigsh M guess = .error e := by
  unfold getGroundState
  rw [h]
  rfl

/-- Non-vacuity: there are such solvers. -/
example : ∃ solver : Mat ℂ → Option (List ℂ) → Except Err Eigen, ∀ guess, Finds fun A => solver A guess := by
  classical
  refine ⟨fun A _ => if h : 0 < A.rows ∧ (square A).IsHermitian then
      haveI : Nonempty (Fin A.rows) := ⟨⟨0, h.1⟩⟩
      .ok ⟨[(exists_lowest h.2).choose], ⟨A.rows, 1, fun i _ => if hi : i < A.rows then (exists_lowest h.2).choose_spec.choose ⟨i, hi⟩ else 0⟩⟩
    else .error .typeError, fun _ A h0 hc hA => ?_⟩
  have h : 0 < A.rows ∧ (square A).IsHermitian := ⟨by omega, hA⟩
  haveI : Nonempty (Fin A.rows) := ⟨⟨0, h.1⟩⟩
  have hs := (exists_lowest h.2).choose_spec.choose_spec
  dsimp only
  rw [dif_pos h]
  refine ⟨_, rfl, rfl, rfl, ?_, 0, by simp, ?_⟩
  · intro i hi
    have : i = 0 := by simpa using hi
    subst this
    exact ⟨by simpa using hs.1, by simpa using hs.2.1⟩
  · simpa using hs.2.2

/-- Non-vacuity: hopping between two of three modes. -/
example : (matrixOf 3 (action ladderAction [([(0, true), (1, false)], 1), ([(1, true), (0, false)], 1)])).IsHermitian ∧
    ∀ kv ∈ ([([(0, true), (1, false)], 1), ([(1, true), (0, false)], 1)] : Terms Bool), kv.2 ∈ Grid (2 ^ kv.1.length * (1 / 4)) := by
  constructor
  · have a1 := (isAdjoint_term_fermion [(0, true), (1, false)]).add (isAdjoint_term_fermion [(1, true), (0, false)])
    have a2 : action ladderAction [([(0, true), (1, false)], 1), ([(1, true), (0, false)], 1)] =
        termAction ladderAction [(0, true), (1, false)] + termAction ladderAction [(1, true), (0, false)] := by
      rw [action_cons, action_cons, action_nil, add_zero, one_smul, one_smul]
    have a3 : conjTerm [(0, true), (1, false)] = [(1, true), (0, false)] := rfl
    have a4 : conjTerm [(1, true), (0, false)] = [(0, true), (1, false)] := rfl
    rw [a3, a4, add_comm (termAction ladderAction [(1, true), (0, false)])] at a1
    rw [a2]
    exact Matrix.IsHermitian.ext fun x y => (a1 (pad x) (pad y)).symm
  · intro kv hkv
    simp only [List.mem_cons, List.not_mem_nil, or_false] at hkv
    rcases hkv with rfl | rfl <;> exact ⟨1, 0, by norm_num⟩

end ZQ.Ground
