import Verif.Model.Spectrum
import Verif.Props.Sparse
import Verif.Props.Rdm
import Verif.Props.Expectation
import Verif.Props.BravyiKitaev
import Verif.Props.TensorConversion
import Verif.Props.GroundState
import Verif.Lemmas.FenwickSets
import Mathlib.Analysis.Matrix.Spectrum
import Mathlib.LinearAlgebra.Matrix.Charpoly.Basic
import Mathlib.Analysis.Complex.Polynomial.Basic

/-!
# Matrices and spectra of operators (C94)
-/

namespace ZQ.Spectrum

open ZQ ZQ.Op ZQ.Sparse ZQ.PolyT Matrix ZQ.PyDict ZQ.Ground

/-! ## Specification -/

/-- The Hermitian matrix with the lower triangle of `A`: what `numpy.linalg.eigvalsh` reads. -/
def lower {d : ℕ} (A : Matrix (Fin d) (Fin d) ℂ) : Matrix (Fin d) (Fin d) ℂ :=
  fun i j => if j < i then A i j else if i < j then star (A j i) else ((A i i).re : ℂ)

/-- What `numpy.linalg.eigvalsh` returns: the eigenvalues, with multiplicity, of the Hermitian matrix with the given lower triangle. -/
def SolvesH (eigvalsh : Mat ℂ → List ℝ) : Prop := ∀ A : Mat ℂ, A.cols = A.rows →
  (((eigvalsh A).map Complex.ofReal : List ℂ) : Multiset ℂ) = (lower (square A)).charpoly.roots

/-- What `numpy.linalg.eigvals` returns: the eigenvalues with multiplicity, in some order. -/
def SolvesG (eigvals : Mat ℂ → List ℂ) : Prop := ∀ A : Mat ℂ, A.cols = A.rows → ((eigvals A : List ℂ) : Multiset ℂ) = (square A).charpoly.roots

/-- The matrix is Hermitian, or differs from its adjoint by at least the tolerance somewhere. -/
def Decided {ι : Type} (A : Matrix ι ι ℂ) : Prop := A.IsHermitian ∨ ∃ x y, 1 / 10 ^ 8 ≤ ‖A x y - star (A y x)‖

/-- `L` is the spectrum of `A`: all eigenvalues with multiplicity, in increasing order. -/
structure IsSpectrum {ι : Type} [Fintype ι] [DecidableEq ι] (A : Matrix ι ι ℂ) (L : List ℂ) : Prop where
  roots : (L : Multiset ℂ) = A.charpoly.roots
  sorted : L.Pairwise LexLe

theorem lower_hermitian {d : ℕ} (A : Matrix (Fin d) (Fin d) ℂ) : (lower A).IsHermitian := by
  refine Matrix.IsHermitian.ext fun i j => ?_
  unfold lower
  rcases lt_trichotomy i j with h | h | h
  · rw [if_pos h, if_neg (lt_asymm h), if_pos h]
  · subst h; simp
  · rw [if_neg (lt_asymm h), if_pos h, if_pos h, star_star]

theorem lower_eq {d : ℕ} {A : Matrix (Fin d) (Fin d) ℂ} (h : A.IsHermitian) : lower A = A := by
  ext i j
  unfold lower
  rcases lt_trichotomy i j with hij | hij | hij
  · rw [if_neg (lt_asymm hij), if_pos hij]; exact h.apply i j
  · subst hij
    rw [if_neg (lt_irrefl _), if_neg (lt_irrefl _)]
    exact Complex.conj_eq_iff_re.1 (h.apply i i)
  · rw [if_pos hij]

/-- There are such routines. -/
theorem exists_routines : ∃ eigvalsh eigvals, SolvesH eigvalsh ∧ SolvesG eigvals := by
  classical
  refine ⟨fun A => ((Finset.univ : Finset (Fin A.rows)).toList.map fun i => (lower_hermitian (square A)).eigenvalues i), fun A => (square A).charpoly.roots.toList, fun A _ => ?_, fun A _ => ?_⟩
  · rw [(lower_hermitian (square A)).roots_charpoly_eq_eigenvalues, List.map_map]
    have : ((Finset.univ : Finset (Fin A.rows)).toList : Multiset (Fin A.rows)) = Finset.univ.val := Finset.coe_toList _
    rw [← this, Multiset.map_coe]
    rfl
  · exact Multiset.coe_toList _

/-! ## The order -/

theorem lexLe_total (a b : ℂ) : LexLe a b ∨ LexLe b a := by
  rcases lt_trichotomy a.re b.re with h | h | h
  · exact Or.inl (Or.inl h)
  · rcases le_total a.im b.im with h' | h'
    · exact Or.inl (Or.inr ⟨h, h'⟩)
    · exact Or.inr (Or.inr ⟨h.symm, h'⟩)
  · exact Or.inr (Or.inl h)

theorem lexLe_trans {a b c : ℂ} (h1 : LexLe a b) (h2 : LexLe b c) : LexLe a c := by
  rcases h1 with h1 | ⟨h1, h1'⟩ <;> rcases h2 with h2 | ⟨h2, h2'⟩
  · exact Or.inl (h1.trans h2)
  · exact Or.inl (h2 ▸ h1)
  · exact Or.inl (h1 ▸ h2)
  · exact Or.inr ⟨h1.trans h2, h1'.trans h2'⟩

theorem lexLe_antisymm {a b : ℂ} (h1 : LexLe a b) (h2 : LexLe b a) : a = b := by
  rcases h1 with h1 | ⟨h1, h1'⟩ <;> rcases h2 with h2 | ⟨h2, h2'⟩
  · exact absurd (h1.trans h2) (lt_irrefl _)
  · exact absurd (h2 ▸ h1) (lt_irrefl _)
  · exact absurd (h1 ▸ h2) (lt_irrefl _)
  · exact Complex.ext h1 (le_antisymm h1' h2')

/-- A matrix has one spectrum. -/
theorem IsSpectrum.unique {ι κ : Type} [Fintype ι] [DecidableEq ι] [Fintype κ] [DecidableEq κ] {A : Matrix ι ι ℂ} {B : Matrix κ κ ℂ} (h : A.charpoly = B.charpoly) {L L' : List ℂ}
    (hL : IsSpectrum A L) (hL' : IsSpectrum B L') : L = L' := by
  refine List.Perm.eq_of_pairwise (fun a b _ _ => lexLe_antisymm) hL.sorted hL'.sorted (Multiset.coe_eq_coe.1 ?_)
  rw [hL.roots, hL'.roots, h]

/-- The spectrum has as many entries as the matrix has rows. -/
theorem IsSpectrum.length {ι : Type} [Fintype ι] [DecidableEq ι] {A : Matrix ι ι ℂ} {L : List ℂ} (h : IsSpectrum A L) : L.length = Fintype.card ι := by
  have h1 : L.length = (L : Multiset ℂ).card := rfl
  rw [h1, h.roots, IsAlgClosed.card_roots_eq_natDegree, Matrix.charpoly_natDegree_eq_dim]

/-- The spectrum of a Hermitian matrix is real and increasing. -/
theorem IsSpectrum.real {ι : Type} [Fintype ι] [DecidableEq ι] {A : Matrix ι ι ℂ} {L : List ℂ} (h : IsSpectrum A L) (hA : A.IsHermitian) :
    (∀ z ∈ L, z.im = 0) ∧ L.Pairwise fun a b => a.re ≤ b.re := by
  refine ⟨fun z hz => ?_, h.sorted.imp fun h => h.elim le_of_lt fun h => h.1.le⟩
  have : z ∈ (L : Multiset ℂ) := hz
  rw [h.roots, hA.roots_charpoly_eq_eigenvalues, Multiset.mem_map] at this
  obtain ⟨i, -, rfl⟩ := this
  exact Complex.ofReal_im _

/-! ## The matrix -/

/-- The basis states of `n` qubits by their index. -/
noncomputable def basisEquiv (n : ℕ) : (Fin n → Bool) ≃ Fin (2 ^ n) :=
  Equiv.ofBijective (fun x => ⟨basisIndex x, basisIndex_lt x⟩) ⟨fun x y h => basisIndex_injective (congrArg Fin.val h),
    fun i => ⟨bitsOf n i, Fin.ext (basisIndex_bitsOf n i i.2)⟩⟩

theorem charpoly_square {n : ℕ} {M : Mat ℂ} (hr : M.rows = 2 ^ n) : (square M).charpoly = (M.onBits n).charpoly := by
  rw [← charpoly_reindex ((finCongr hr).trans (basisEquiv n).symm)]
  congr 1

theorem square_hermitian {n : ℕ} {M : Mat ℂ} (hr : M.rows = 2 ^ n) (h : (M.onBits n).IsHermitian) : (square M).IsHermitian := by
  refine Matrix.IsHermitian.ext fun i j => ?_
  have := h.apply (bitsOf n i) (bitsOf n j)
  unfold Mat.onBits at this
  rwa [basisIndex_bitsOf n i (hr ▸ i.2), basisIndex_bitsOf n j (hr ▸ j.2)] at this

theorem foldl_max_ge (l : List ℝ) (x : ℝ) : x ≤ l.foldl max x := by
  induction l generalizing x with
  | nil => exact le_rfl
  | cons a l ih => exact (le_max_left x a).trans (ih _)

theorem foldl_max_le {l : List ℝ} {x : ℝ} {y : ℝ} (h : y = x ∨ y ∈ l) : y ≤ l.foldl max x := by
  induction l generalizing x with
  | nil =>
    rcases h with h | h
    · exact h.le
    · cases h
  | cons a l ih =>
    rcases h with rfl | h
    · exact foldl_max_ge (a :: l) y
    · rcases List.mem_cons.1 h with rfl | h
      · exact (le_max_right x y).trans (foldl_max_ge l _)
      · exact ih (Or.inr h)

/-- A Hermitian matrix is recognised, and so is one that differs from its adjoint by at least the tolerance. -/
theorem isHermitianSparse_iff {n : ℕ} {M : Mat ℂ} (hr : M.rows = 2 ^ n) (hc : M.cols = 2 ^ n) (h : Decided (M.onBits n)) :
    isHermitianSparse M = true ↔ (M.onBits n).IsHermitian := by
  classical
  unfold isHermitianSparse
  rw [decide_eq_true_iff]
  constructor
  · intro hd
    rcases h with h | ⟨x, y, h⟩
    · exact h
    · exfalso
      refine not_lt.2 h (lt_of_le_of_lt ?_ hd)
      have hne : M.e (basisIndex x) (basisIndex y) - star (M.e (basisIndex y) (basisIndex x)) ≠ 0 := by
        intro h0
        have : ‖M.onBits n x y - star (M.onBits n y x)‖ = 0 := by
          show ‖M.e (basisIndex x) (basisIndex y) - star (M.e (basisIndex y) (basisIndex x))‖ = 0
          rw [h0, norm_zero]
        rw [this] at h
        norm_num at h
      have hmem : ‖M.onBits n x y - star (M.onBits n y x)‖ ∈ (cscData ⟨M.rows, M.cols, fun i j => M.e i j - star (M.e j i)⟩).map fun z => ‖z‖ := by
        refine List.mem_map.2 ⟨M.e (basisIndex x) (basisIndex y) - star (M.e (basisIndex y) (basisIndex x)), ?_, rfl⟩
        unfold cscData
        refine List.mem_flatMap.2 ⟨basisIndex y, List.mem_range.2 (by rw [hc]; exact basisIndex_lt y), List.mem_map.2 ⟨basisIndex x, ?_, rfl⟩⟩
        exact List.mem_filter.2 ⟨List.mem_range.2 (by rw [hr]; exact basisIndex_lt x), decide_eq_true hne⟩
      unfold discrepancy
      generalize (cscData ⟨M.rows, M.cols, fun i j => M.e i j - star (M.e j i)⟩).map (fun z => ‖z‖) = l at hmem
      cases l with
      | nil => cases hmem
      | cons a l => exact foldl_max_le (List.mem_cons.1 hmem)
  · intro hA
    have : cscData ⟨M.rows, M.cols, fun i j => M.e i j - star (M.e j i)⟩ = [] := by
      unfold cscData
      rw [List.flatMap_eq_nil_iff]
      intro c hcm
      rw [List.map_eq_nil_iff, List.filter_eq_nil_iff]
      intro r hrm
      have hr' : r < 2 ^ n := hr ▸ List.mem_range.1 hrm
      have hc' : c < 2 ^ n := hc ▸ List.mem_range.1 hcm
      have := hA.apply (bitsOf n r) (bitsOf n c)
      unfold Mat.onBits at this
      rw [basisIndex_bitsOf n r hr', basisIndex_bitsOf n c hc'] at this
      simp [this]
    unfold discrepancy
    rw [this]
    norm_num

/-- **The eigenspectrum** of a matrix that is Hermitian, or clearly not, is its spectrum. -/
theorem sparseEigenspectrum_spec {eigvalsh : Mat ℂ → List ℝ} {eigvals : Mat ℂ → List ℂ} (h1 : SolvesH eigvalsh) (h2 : SolvesG eigvals) {n : ℕ} {M : Mat ℂ} (hr : M.rows = 2 ^ n)
    (hc : M.cols = 2 ^ n) (h : Decided (M.onBits n)) : IsSpectrum (M.onBits n) (sparseEigenspectrum eigvalsh eigvals M) := by
  classical
  unfold sparseEigenspectrum
  constructor
  · have hp : ∀ l : List ℂ, ((l.insertionSort LexLe : List ℂ) : Multiset ℂ) = l := fun l => Multiset.coe_eq_coe.2 (List.perm_insertionSort _ _)
    rw [hp, ← charpoly_square hr]
    by_cases hA : isHermitianSparse M = true
    · rw [if_pos hA, h1 M (hc.trans hr.symm), lower_eq (square_hermitian hr ((isHermitianSparse_iff hr hc h).1 hA))]
    · rw [if_neg hA]
      exact h2 M (hc.trans hr.symm)
  · haveI : Std.Total LexLe := ⟨lexLe_total⟩
    haveI : IsTrans ℂ LexLe := ⟨fun _ _ _ => lexLe_trans⟩
    exact List.pairwise_insertionSort _ _

/-! ## Operators -/

theorem jordanWigner_below {o : Terms Bool} {n : ℕ} (hn : countFermion o ≤ n) : Below n (jordanWigner o) := fun kv hkv =>
  foldl_add_keys (fun t => ∀ f ∈ t, f.1 < n) o (fun kv => jwTerm kv.1 kv.2) [] wf_nil (fun t ht => absurd ht List.not_mem_nil)
    (fun kv hkv => ⟨(jwTerm_spec kv.1 kv.2).1.1, Rdm.jwTerm_modes kv.1 (fun f hf => lt_of_lt_of_le (countFermion_bound o kv hkv f hf) hn) kv.2⟩) kv.1
    (List.mem_map_of_mem hkv)

theorem lettersOn_lt {a : Letter} {S : Finset ℕ} {n : ℕ} (h : ∀ i ∈ S, i < n) : ∀ f ∈ lettersOn a S, f.1 < n := by
  intro f hf
  obtain ⟨i, hi, rfl⟩ := List.mem_map.1 hf
  exact h i ((Finset.mem_sort _).1 hi)

theorem bkLadder_modes {n : ℕ} (f : ℕ × Bool) (hf : f.1 < n) : ∀ t ∈ keys (bkLadder n f), ∀ g ∈ t, g.1 < n := by
  have hu : ∀ i ∈ insert f.1 (updateSet f.1 n), i < n := by
    intro i hi
    rcases Finset.mem_insert.1 hi with rfl | h
    · exact hf
    · exact updateSet_lt hf h
  have hs : ∀ g ∈ bkSumFactors f.1 n, g.1 < n := by
    intro g hg
    rcases List.mem_append.1 hg with h | h
    · exact lettersOn_lt hu g h
    · exact lettersOn_lt (fun i hi => (paritySet_lt _ _ hi).trans hf) g h
  have hd : ∀ g ∈ bkDiffFactors f.1 n, g.1 < n := by
    intro g hg
    rcases List.mem_append.1 hg with h | h
    · rcases List.mem_append.1 h with h | h
      · rw [List.mem_singleton.1 h]; exact hf
      · exact lettersOn_lt (fun i hi => hu i (Finset.mem_sdiff.1 hi).1) g h
    · refine lettersOn_lt (fun i hi => ?_) g h
      rcases Finset.mem_symmDiff.1 (Finset.mem_sdiff.1 hi).1 with ⟨h, _⟩ | ⟨h, _⟩
      · exact (paritySet_lt _ _ h).trans hf
      · exact lt_of_le_of_lt (occupationSet_le _ _ h) hf
  intro t ht
  have hk : t = (qubit.simplify (bkSumFactors f.1 n) (1 / 2)).2 ∨ t = (qubit.simplify (bkDiffFactors f.1 n) (-(1 / 2 * Complex.I))).2 := by
    rw [bkLadder] at ht
    by_cases h : f.2 = true
    · rw [if_pos h] at ht
      exact (mem_keys_add (wf_single _ _) (wf_single _ _) ht).imp List.mem_singleton.1 List.mem_singleton.1
    · rw [if_neg h, sub_eq, neg_eq] at ht
      exact (mem_keys_add (wf_single _ _) (wf_single _ _) ht).imp List.mem_singleton.1 List.mem_singleton.1
  rcases hk with rfl | rfl
  · exact Rdm.qubit_modes _ _ hs
  · exact Rdm.qubit_modes _ _ hd

theorem bkTerm_modes {n : ℕ} (t : Term Bool) (ht : ∀ f ∈ t, f.1 < n) (c : ℂ) : ∀ u ∈ keys (bkTerm n t c), ∀ f ∈ u, f.1 < n := by
  have key : ∀ (t : Term Bool) (acc : Terms Letter), (∀ f ∈ t, f.1 < n) → (∀ u ∈ keys acc, ∀ f ∈ u, f.1 < n) →
      ∀ u ∈ keys (t.foldl (fun acc f => mul qubit acc (bkLadder n f)) acc), ∀ f ∈ u, f.1 < n := by
    intro t
    induction t with
    | nil => intro acc _ h; exact h
    | cons g t ih =>
      intro acc h hacc
      exact ih _ (fun f hf => h f (List.mem_cons_of_mem _ hf)) (Rdm.mul_modes qubit Rdm.qubit_modes hacc (bkLadder_modes g (h g List.mem_cons_self)))
  refine key t _ ht ?_
  intro u hu f hf
  have : u = [] := List.mem_singleton.1 hu
  rw [this] at hf
  cases hf

theorem bravyiKitaev_below {o : Terms Bool} {q : Terms Letter} {n : ℕ} (hn : countFermion o ≤ n) (h : bravyiKitaev o (some n) = .ok q) : Below n q := by
  have hb : ∀ kv ∈ o, ∀ f ∈ kv.1, f.1 < n := fun kv hkv f hf => lt_of_lt_of_le (countFermion_bound o kv hkv f hf) hn
  unfold bravyiKitaev at h
  dsimp only [Option.getD_some] at h
  rw [if_neg (not_lt.2 hn)] at h
  cases h
  exact fun kv hkv => foldl_add_keys (fun t => ∀ f ∈ t, f.1 < n) o (fun kv => bkTerm n kv.1 kv.2) [] wf_nil (fun t ht => absurd ht List.not_mem_nil)
    (fun kv hkv => ⟨(bkTerm_spec n kv.1 kv.2 (hb kv hkv)).1.1, bkTerm_modes kv.1 (hb kv hkv) kv.2⟩) kv.1 (List.mem_map_of_mem hkv)

/-! ## The encoding of basis states -/

/-- The encoding of the basis states of `n` qubits. -/
def encodeBits (n : ℕ) (x : Fin n → Bool) : Fin n → Bool := fun i => encode n (pad x) i

theorem pad_encodeBits {n : ℕ} (x : Fin n → Bool) : pad (encodeBits n x) = encode n (pad x) := by
  funext q
  by_cases h : q < n
  · rw [pad, dif_pos h]; rfl
  · rw [pad, dif_neg h, encode, if_neg h, pad, dif_neg h]

theorem encodeBits_bijective (n : ℕ) : Function.Bijective (encodeBits n) := by
  refine Finite.injective_iff_bijective.1 fun x y h => ?_
  have : encode n (pad x) = encode n (pad y) := by rw [← pad_encodeBits, ← pad_encodeBits, h]
  have h2 := (encode_bijective n).1 this
  funext i
  have := congrFun h2 i
  rwa [pad, dif_pos i.2, pad, dif_pos i.2] at this

theorem matrixOf_encode {n : ℕ} {Q A : Module.End ℂ State} (h : decodeState n * Q = A * decodeState n) (x y : Fin n → Bool) :
    matrixOf n Q (encodeBits n x) (encodeBits n y) = matrixOf n A x y := by
  have h1 := congrFun (LinearMap.congr_fun h (basisState (pad (encodeBits n y)))) (pad x)
  have h2 : decodeState n (basisState (pad (encodeBits n y))) = basisState (pad y) := by
    funext s
    show basisState (pad (encodeBits n y)) (encode n s) = _
    rw [pad_encodeBits, basisState, basisState]
    have := (encode_bijective n).1.eq_iff (a := s) (b := pad y)
    by_cases hs : s = pad y
    · rw [if_pos hs, if_pos (this.2 hs)]
    · rw [if_neg hs, if_neg fun h => hs (this.1 h)]
  rw [Module.End.mul_apply, Module.End.mul_apply, h2] at h1
  rw [matrixOf, matrixOf, ← h1, pad_encodeBits x]
  rfl

theorem charpoly_encode {n : ℕ} {Q A : Module.End ℂ State} (h : decodeState n * Q = A * decodeState n) : (matrixOf n Q).charpoly = (matrixOf n A).charpoly := by
  rw [← charpoly_reindex (Equiv.ofBijective _ (encodeBits_bijective n)) (matrixOf n A)]
  congr 1
  ext x y
  obtain ⟨x, rfl⟩ := (encodeBits_bijective n).2 x
  obtain ⟨y, rfl⟩ := (encodeBits_bijective n).2 y
  rw [matrixOf_encode h, reindex_apply, submatrix_apply]
  congr 1 <;> exact ((Equiv.ofBijective _ (encodeBits_bijective n)).symm_apply_apply _).symm

theorem decided_encode {n : ℕ} {Q A : Module.End ℂ State} (h : decodeState n * Q = A * decodeState n) (hA : Decided (matrixOf n A)) : Decided (matrixOf n Q) := by
  rcases hA with hA | ⟨x, y, hA⟩
  · refine Or.inl (Matrix.IsHermitian.ext fun x y => ?_)
    obtain ⟨x, rfl⟩ := (encodeBits_bijective n).2 x
    obtain ⟨y, rfl⟩ := (encodeBits_bijective n).2 y
    rw [matrixOf_encode h, matrixOf_encode h]
    exact hA.apply x y
  · refine Or.inr ⟨encodeBits n x, encodeBits n y, ?_⟩
    rw [matrixOf_encode h, matrixOf_encode h]
    exact hA

/-! ## Spectra of operators -/

section
variable {eigvalsh : Mat ℂ → List ℝ} {eigvals : Mat ℂ → List ℂ}

/-- **Fermionic operators.** -/
theorem eigenspectrum_fermion (h1 : SolvesH eigvalsh) (h2 : SolvesG eigvals) (o : Terms Bool) (nQubits : Option ℕ) (n : ℕ) (hn : nQubits.getD (countFermion o) = n)
    (hle : countFermion o ≤ n) (h : Decided (matrixOf n (action ladderAction o))) :
    ∃ L, eigenspectrum eigvalsh eigvals (.fermion o) nQubits = .ok L ∧ IsSpectrum (matrixOf n (action ladderAction o)) L := by
  obtain ⟨M, m1, m2, m3, m4⟩ := jordanWignerSparse_spec o nQubits n hn hle
  have e : M.onBits n = matrixOf n (action ladderAction o) := by
    ext x y; exact m4 x y
  refine ⟨sparseEigenspectrum eigvalsh eigvals M, ?_, e ▸ sparseEigenspectrum_spec h1 h2 m2 m3 (e.symm ▸ h)⟩
  show (jordanWignerSparse o nQubits >>= _) = _
  rw [m1]; rfl

/-- **Qubit operators.** -/
theorem eigenspectrum_qubit (h1 : SolvesH eigvalsh) (h2 : SolvesG eigvals) {o : Terms Letter} (ho : CanonicalOp o) (nQubits : Option ℕ) (n : ℕ) (hn : nQubits.getD (countQubit o) = n)
    (hle : countQubit o ≤ n) (h : Decided (opMatrix n o)) :
    ∃ L, eigenspectrum eigvalsh eigvals (.qubit o) nQubits = .ok L ∧ IsSpectrum (opMatrix n o) L := by
  obtain ⟨M, m1, m2, m3, m4⟩ := qubitOperatorSparse_spec ho nQubits n hn hle
  refine ⟨sparseEigenspectrum eigvalsh eigvals M, ?_, m4 ▸ sparseEigenspectrum_spec h1 h2 m2 m3 (m4.symm ▸ h)⟩
  show (qubitOperatorSparse o nQubits >>= _) = _
  rw [m1]; rfl

/-- **Transforming an operator does not change its spectrum**: an operator on the modes below `n`, its Jordan-Wigner transform and its Bravyi-Kitaev transform on `n` qubits have
the same eigenvalues with the same multiplicities, and `eigenspectrum` returns the same list for all three. -/
theorem eigenspectrum_transforms_partial (h1 : SolvesH eigvalsh) (h2 : SolvesG eigvals) (o : Terms Bool) (n : ℕ) (hn : countFermion o ≤ n) (δ : ℝ) (hδ : 1 / 10 ^ 8 ≤ δ)
    (hg : ∀ kv ∈ o, kv.2 ∈ Grid (2 ^ kv.1.length * δ)) (h : Decided (matrixOf n (action ladderAction o))) :
    ∃ q L, bravyiKitaev o (some n) = .ok q ∧ IsSpectrum (matrixOf n (action ladderAction o)) L ∧ L.length = 2 ^ n ∧
      eigenspectrum eigvalsh eigvals (.fermion o) (some n) = .ok L ∧ eigenspectrum eigvalsh eigvals (.qubit (jordanWigner o)) (some n) = .ok L ∧
      eigenspectrum eigvalsh eigvals (.qubit q) (some n) = .ok L := by
  obtain ⟨q, q1, q2, q3⟩ := bravyiKitaev_action o (some n) hn δ hδ hg
  obtain ⟨L, l1, l2⟩ := eigenspectrum_fermion h1 h2 o (some n) n rfl hn h
  have hj := jordanWigner_below hn
  have hq := bravyiKitaev_below hn q1
  have ej : opMatrix n (jordanWigner o) = matrixOf n (action ladderAction o) := by
    rw [opMatrix_eq_matrixOf (jordanWigner_error o).1 hj, jordanWigner_action o δ hδ hg]
  have eq' : opMatrix n q = matrixOf n (action pauliAction q) := opMatrix_eq_matrixOf q2 hq
  obtain ⟨L1, a1, a2⟩ := eigenspectrum_qubit h1 h2 (jordanWigner_error o).1 (some n) n rfl (Expect.countQubit_le _ n hj) (ej ▸ h)
  obtain ⟨L2, b1, b2⟩ := eigenspectrum_qubit h1 h2 q2 (some n) n rfl (Expect.countQubit_le _ n hq) (eq' ▸ decided_encode q3 h)
  refine ⟨q, L, q1, l2, ?_, l1, ?_, ?_⟩
  · rw [l2.length, Fintype.card_fun, Fintype.card_bool, Fintype.card_fin]
  · rw [a1, a2.unique (by rw [ej]) l2]
  · rw [b1, b2.unique (by rw [eq']; exact charpoly_encode q3) l2]

/-- **The matrix of an operator is that of its Jordan-Wigner transform**, on any number of qubits that covers its modes. -/
theorem getSparseOperator_jordanWigner_partial (o : Terms Bool) (n : ℕ) (hn : countFermion o ≤ n) (δ : ℝ) (hδ : 1 / 10 ^ 8 ≤ δ) (hg : ∀ kv ∈ o, kv.2 ∈ Grid (2 ^ kv.1.length * δ)) :
    ∃ M M', getSparseOperator (.fermion o) (some n) = .ok M ∧ getSparseOperator (.qubit (jordanWigner o)) (some n) = .ok M' ∧
      M.rows = 2 ^ n ∧ M.cols = 2 ^ n ∧ M'.rows = 2 ^ n ∧ M'.cols = 2 ^ n ∧ ∀ i < 2 ^ n, ∀ j < 2 ^ n, M.e i j = M'.e i j := by
  obtain ⟨M, M', a, b, c, d, e⟩ := jordanWignerSparse_eq o δ hδ hg n hn (Expect.countQubit_le _ n (jordanWigner_below hn))
  obtain ⟨M2, a', r, t, -⟩ := jordanWignerSparse_spec o (some n) n rfl hn
  rw [a] at a'
  cases a'
  exact ⟨M, M', a, b, r, t, c ▸ r, d ▸ t, e⟩

/-- The mode `m` occurs in a product with a coefficient that is not zero. -/
def Occurs (T : PolyTensor) (m : ℕ) : Prop := ∃ t : Term Bool, (∀ f ∈ t, f.1 < T.n) ∧ termValue T t ≠ 0 ∧ ∃ f ∈ t, f.1 = m

theorem countFermion_attained (o : Terms Bool) : countFermion o = 0 ∨ ∃ kv ∈ o, ∃ f ∈ kv.1, f.1 + 1 = countFermion o := by
  have inner : ∀ (t : Term Bool) (k : ℕ), t.foldl (fun n f => if f.1 + 1 > n then f.1 + 1 else n) k = k ∨
      ∃ f ∈ t, f.1 + 1 = t.foldl (fun n f => if f.1 + 1 > n then f.1 + 1 else n) k := by
    intro t
    induction t with
    | nil => exact fun k => Or.inl rfl
    | cons g t ih =>
      intro k
      rw [List.foldl_cons]
      rcases ih (if g.1 + 1 > k then g.1 + 1 else k) with h | ⟨f, hf, h⟩
      · rw [h]
        split_ifs
        · exact Or.inr ⟨g, List.mem_cons_self, rfl⟩
        · exact Or.inl rfl
      · exact Or.inr ⟨f, List.mem_cons_of_mem _ hf, h⟩
  have key : ∀ (o : Terms Bool) (k : ℕ), o.foldl (fun n kv => kv.1.foldl (fun n f => if f.1 + 1 > n then f.1 + 1 else n) n) k = k ∨
      ∃ kv ∈ o, ∃ f ∈ kv.1, f.1 + 1 = o.foldl (fun n kv => kv.1.foldl (fun n f => if f.1 + 1 > n then f.1 + 1 else n) n) k := by
    intro o
    induction o with
    | nil => exact fun k => Or.inl rfl
    | cons kv o ih =>
      intro k
      rw [List.foldl_cons]
      rcases ih (kv.1.foldl (fun n f => if f.1 + 1 > n then f.1 + 1 else n) k) with h | ⟨kv', hkv, h⟩
      · rw [h]
        rcases inner kv.1 k with h | ⟨f, hf, h⟩
        · exact Or.inl h
        · exact Or.inr ⟨kv, List.mem_cons_self, f, hf, h⟩
      · exact Or.inr ⟨kv', List.mem_cons_of_mem _ hkv, h⟩
  exact key o 0

/-- **Tensors of coefficients.**  The number of qubits given is ignored: the spectrum is that of the operator on the modes up to the last one that occurs. -/
theorem eigenspectrum_tensor (h1 : SolvesH eigvalsh) (h2 : SolvesG eigvals) {T : PolyTensor} (hT : Valid T)
    (hgap : ∀ t : Term Bool, (∀ f ∈ t, f.1 < T.n) → termValue T t = 0 ∨ 1 / 10 ^ 8 ≤ ‖termValue T t‖) :
    ∃ n, (∀ m, Occurs T m → m < n) ∧ (n = 0 ∨ Occurs T (n - 1)) ∧ n ≤ T.n ∧
      (Decided (matrixOf n (polyAction T)) → ∀ nQubits, ∃ L, eigenspectrum eigvalsh eigvals (.tensor T) nQubits = .ok L ∧ IsSpectrum (matrixOf n (polyAction T)) L ∧ L.length = 2 ^ n) := by
  obtain ⟨o, o1, o2, o3, o4, o5⟩ := toFermion_spec hT
  have hocc : ∀ kv ∈ o, ∀ f ∈ kv.1, Occurs T f.1 := by
    intro kv hkv f hf
    rw [toFermion_eq hT] at o1
    cases o1
    obtain ⟨hkv, -⟩ := List.mem_filter.1 hkv
    obtain ⟨t, ht, rfl⟩ := List.mem_map.1 hkv
    rcases mem_iter.1 ht with ⟨rfl, -⟩ | ⟨-, h, h'⟩
    · cases hf
    · exact ⟨t, h, h', f, hf, rfl⟩
  have hlast : countFermion o = 0 ∨ Occurs T (countFermion o - 1) := by
    rcases countFermion_attained o with h | ⟨kv, hkv, f, hf, h⟩
    · exact Or.inl h
    · refine Or.inr ?_
      rw [← h, Nat.add_sub_cancel]
      exact hocc kv hkv f hf
  refine ⟨countFermion o, ?_, hlast, ?_, fun hd nQubits => ?_⟩
  · rintro m ⟨t, ht, hv, f, hf, rfl⟩
    have hc : coeff o t ≠ 0 := by
      rw [o3 t ht, if_neg (not_lt.2 ((hgap t ht).resolve_left hv))]
      exact hv
    have hk : t ∈ keys o := by
      by_contra hk
      exact hc (coeff_of_not_mem hk)
    obtain ⟨kv, hkv, rfl⟩ := List.mem_map.1 hk
    exact countFermion_bound o kv hkv f hf
  · rcases hlast with h | ⟨t, ht, -, f, hf, h⟩
    · omega
    · have := ht f hf
      omega
  · have e := o5 hgap
    rw [← e] at hd ⊢
    obtain ⟨L, l1, l2⟩ := eigenspectrum_fermion h1 h2 o none (countFermion o) rfl le_rfl hd
    refine ⟨L, ?_, l2, ?_⟩
    · have : getSparseOperator (.tensor T) nQubits = getSparseOperator (.fermion o) none := by
        show (toFermion T >>= _) = _
        rw [o1]; rfl
      unfold eigenspectrum at l1 ⊢
      rw [this, l1]
    · rw [l2.length, Fintype.card_fun, Fintype.card_bool, Fintype.card_fin]

/-- The number of qubits is ignored and modes without a coefficient are left out: the spectrum of a constant on two modes has one entry, also when two qubits are asked for. -/
theorem eigenspectrum_tensor_counterexample (h1 : SolvesH eigvalsh) (h2 : SolvesG eigvals) :
    ∃ L, eigenspectrum eigvalsh eigvals (.tensor (interaction 2 1 (fun _ => 0) fun _ => 0)) (some 2) = .ok L ∧ L.length = 1 := by
  have hT : Valid (interaction 2 1 (fun _ => 0) fun _ => 0) := by simp [Valid, interaction, keys]
  have hv : ∀ t : Term Bool, t ≠ [] → termValue (interaction 2 1 (fun _ => 0) fun _ => 0) t = 0 := by
    intro t ht
    have hk : t.map Prod.snd ≠ [] := fun h => ht (List.map_eq_nil_iff.1 h)
    by_cases hm : t.map Prod.snd ∈ keys (interaction 2 1 (fun _ => 0) fun _ => 0).tensors
    · obtain ⟨kv, hkv, e⟩ := List.mem_map.1 hm
      rw [termValue, ← e, value_of_mem hT hkv]
      simp only [interaction, List.mem_cons, List.not_mem_nil, or_false] at hkv
      rcases hkv with rfl | rfl | rfl
      · exact absurd e.symm hk
      · rfl
      · rfl
    · exact value_of_not_mem hm _
  obtain ⟨n, n1, n2, n3, n4⟩ := eigenspectrum_tensor h1 h2 hT (by
    intro t _
    by_cases ht : t = []
    · subst ht
      right
      show 1 / 10 ^ 8 ≤ ‖(1 : ℂ)‖
      norm_num
    · exact Or.inl (hv t ht))
  have hn : n = 0 := by
    rcases n2 with h | ⟨t, -, h, f, hf, -⟩
    · exact h
    · exact absurd (hv t (List.ne_nil_of_mem hf)) h
  subst hn
  obtain ⟨L, l1, -, l2⟩ := n4 (Or.inl (Matrix.IsHermitian.ext fun x y => by
    have : polyAction (interaction 2 1 (fun _ => 0) fun _ => 0) = 1 := by
      show tensorAction 2 [] _ + (tensorAction 2 _ _ + (tensorAction 2 _ _ + 0)) = 1
      rw [tensorAction_zero, tensorAction_zero, tensorAction_const]
      simp
    rw [this, matrixOf_one]
    exact Matrix.isHermitian_one.apply x y)) (some 2)
  exact ⟨L, l1, l2⟩

/-- An operator that is within the tolerance of a Hermitian one is treated as Hermitian, and its spectrum is wrong by that much: the constant `1e-9 i` gets the eigenvalue 0. -/
theorem eigenspectrum_near_counterexample (h1 : SolvesH eigvalsh) :
    eigenspectrum eigvalsh eigvals (.qubit [([], Complex.I / 10 ^ 9)]) none = .ok [0] ∧ ¬ IsSpectrum (opMatrix 0 [([], Complex.I / 10 ^ 9)]) [0] := by
  have ho : CanonicalOp [(([] : Term Letter), Complex.I / 10 ^ 9)] := by
    refine ⟨wf_single _ _, fun t ht => ?_⟩
    rw [List.mem_singleton.1 ht]
    exact canonical_nil
  obtain ⟨M, m1, m2, m3, m4⟩ := qubitOperatorSparse_spec ho none 0 rfl le_rfl
  have hM : opMatrix 0 [(([] : Term Letter), Complex.I / 10 ^ 9)] = (Complex.I / 10 ^ 9) • 1 := by
    rw [opMatrix_eq_matrixOf ho (fun kv hkv f hf => by rw [List.mem_singleton.1 hkv] at hf; cases hf), action_cons, action_nil, add_zero, termAction_nil, matrixOf_smul, matrixOf_one]
  have hi : ∀ x : Fin 0 → Bool, basisIndex x = 0 := fun x => by have := basisIndex_lt x; omega
  have he : M.e 0 0 = Complex.I / 10 ^ 9 := by
    have := congrFun (congrFun (m4.trans hM) default) default
    rw [Mat.onBits, hi] at this
    rw [this]
    simp
  have hne : Complex.I / 10 ^ 9 - star (Complex.I / 10 ^ 9) = 2 * Complex.I / 10 ^ 9 := by
    simp
    ring
  have hcsc : cscData ⟨M.rows, M.cols, fun i j => M.e i j - star (M.e j i)⟩ = [2 * Complex.I / 10 ^ 9] := by
    unfold cscData
    dsimp only
    rw [m2, m3]
    simp only [pow_zero, List.range_one, List.flatMap_cons, List.flatMap_nil, List.append_nil]
    rw [List.filter_cons_of_pos]
    · simp only [List.filter_nil, List.map_cons, List.map_nil, he, hne]
    · refine decide_eq_true ?_
      show M.e 0 0 - star (M.e 0 0) ≠ 0
      rw [he, hne]
      simp
  have hH : isHermitianSparse M = true := by
    unfold isHermitianSparse discrepancy
    rw [hcsc]
    simp
    norm_num
  have hl : lower (square M) = 0 := by
    ext i j
    have hi : (i : ℕ) = 0 := by have := lt_of_lt_of_eq i.2 m2; omega
    have hj : (j : ℕ) = 0 := by have := lt_of_lt_of_eq j.2 m2; omega
    have hij : i = j := Fin.ext (hi.trans hj.symm)
    subst hij
    have : square M i i = Complex.I / 10 ^ 9 := by
      show M.e i i = _
      rw [hi, he]
    unfold lower
    rw [if_neg (lt_irrefl _), if_neg (lt_irrefl _), this]
    have e : ((10 : ℂ)) ^ 9 = ((10 ^ 9 : ℝ) : ℂ) := by push_cast; rfl
    rw [e, Complex.div_ofReal_re, Complex.I_re, zero_div]
    rfl
  have hr := h1 M (m3.trans m2.symm)
  rw [hl, Matrix.charpoly_zero, Fintype.card_fin, m2, pow_zero, pow_one, Polynomial.roots_X] at hr
  have hr' : (eigvalsh M).map Complex.ofReal = [0] := Multiset.coe_eq_singleton.1 hr
  constructor
  · show (qubitOperatorSparse [([], Complex.I / 10 ^ 9)] none >>= _) = _
    rw [m1]
    show Except.ok (sparseEigenspectrum eigvalsh eigvals M) = _
    unfold sparseEigenspectrum
    rw [if_pos hH, hr']
    rfl
  · intro h
    have h0 : (0 : ℂ) ∈ (opMatrix 0 [(([] : Term Letter), Complex.I / 10 ^ 9)]).charpoly.roots := by
      rw [← h.roots]
      exact List.mem_singleton.2 rfl
    have := Polynomial.isRoot_of_mem_roots h0
    rw [Polynomial.IsRoot, Matrix.eval_charpoly, hM, Matrix.det_unique] at this
    simp at this

/-- Other objects are refused. -/
theorem eigenspectrum_other (nQubits : Option ℕ) : eigenspectrum eigvalsh eigvals .other nQubits = .error .typeError := rfl

/-- Too few qubits are refused. -/
theorem eigenspectrum_small (o : Terms Letter) (n : ℕ) (hn : n < countQubit o) : eigenspectrum eigvalsh eigvals (.qubit o) (some n) = .error .valueError := by
  show (qubitOperatorSparse o (some n) >>= _) = _
  rw [qubitOperatorSparse_rejects o n hn]; rfl

theorem eigenspectrum_small_fermion (o : Terms Bool) (n : ℕ) (h : n < countFermion o) : eigenspectrum eigvalsh eigvals (.fermion o) (some n) = .error .indexError := by
  show (jordanWignerSparse o (some n) >>= _) = _
  rw [jordanWignerSparse_rejects o n ?_]; rfl
  rcases countFermion_attained o with h' | ⟨kv, hkv, f, hf, h'⟩
  · omega
  · exact ⟨kv, hkv, f, hf, by omega⟩

/-- The hypotheses are met: a hopping term between two modes on three qubits. -/
example (h1 : SolvesH eigvalsh) (h2 : SolvesG eigvals) :
    ∃ q L, bravyiKitaev [([(0, true), (1, false)], 1), ([(1, true), (0, false)], 1)] (some 3) = .ok q ∧ L.length = 2 ^ 3 ∧ (∀ z ∈ L, z.im = 0) ∧
      eigenspectrum eigvalsh eigvals (.fermion [([(0, true), (1, false)], 1), ([(1, true), (0, false)], 1)]) (some 3) = .ok L ∧
      eigenspectrum eigvalsh eigvals (.qubit q) (some 3) = .ok L := by
  have hH : (matrixOf 3 (action ladderAction [([(0, true), (1, false)], 1), ([(1, true), (0, false)], 1)])).IsHermitian := by
    have a1 := (isAdjoint_term_fermion [(0, true), (1, false)]).add (isAdjoint_term_fermion [(1, true), (0, false)])
    have a2 : action ladderAction [([(0, true), (1, false)], 1), ([(1, true), (0, false)], 1)] =
        termAction ladderAction [(0, true), (1, false)] + termAction ladderAction [(1, true), (0, false)] := by
      rw [action_cons, action_cons, action_nil, add_zero, one_smul, one_smul]
    have a3 : conjTerm [(0, true), (1, false)] = [(1, true), (0, false)] := rfl
    have a4 : conjTerm [(1, true), (0, false)] = [(0, true), (1, false)] := rfl
    rw [a3, a4, add_comm (termAction ladderAction [(1, true), (0, false)])] at a1
    rw [a2]
    exact Matrix.IsHermitian.ext fun x y => (a1 (pad x) (pad y)).symm
  obtain ⟨q, L, a, b, c, d, -, e⟩ := eigenspectrum_transforms_partial h1 h2 [([(0, true), (1, false)], 1), ([(1, true), (0, false)], 1)] 3 (by decide) (1 / 4) (by norm_num)
    (by
      intro kv hkv
      simp only [List.mem_cons, List.not_mem_nil, or_false] at hkv
      rcases hkv with rfl | rfl <;> exact ⟨1, 0, by norm_num⟩) (Or.inl hH)
  exact ⟨q, L, a, c, (b.real hH).1, d, e⟩

end

end ZQ.Spectrum
