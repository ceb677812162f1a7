import Verif.Model.GroundState
import Verif.Spec.GroundState
import Verif.Lemmas.Rayleigh
import Verif.Props.Expectation
import Verif.Props.Rdm
import Verif.Props.NumberConserving

/-!
# Ground states with a given number of particles, and their reduced density matrices (C93)
-/

namespace ZQ.Ground

open ZQ ZQ.Op ZQ.Sparse ZQ.Expect ZQ.PolyT ZQ.Rdm ZQ.FTools Matrix Bits

/-! ## The eigensolvers -/

/-- The entries of a square matrix. -/
def square (A : Mat ℂ) : Matrix (Fin A.rows) (Fin A.rows) ℂ := fun i j => A.e i j

/-- Specification of the external eigensolvers: for a Hermitian matrix with at least one row, the first eigenvalue and the first column are a lowest eigenvalue and
a unit eigenvector. -/
def Solves (solver : Mat ℂ → Eigen) : Prop := ∀ A : Mat ℂ, 0 < A.rows → A.cols = A.rows → (square A).IsHermitian →
  (solver A).vecs.rows = A.rows ∧ 0 < (solver A).vecs.cols ∧ ∃ e es, (solver A).vals = e :: es ∧ Lowest (square A) e fun i => (solver A).vecs.e i 0

/-- There are such solvers: the specification can be met. -/
theorem exists_solver : ∃ solver, Solves solver ∧ ∀ A : Mat ℂ, A.rows = 0 → (solver A).vecs.cols = 0 := by
  classical
  refine ⟨fun A => if h : 0 < A.rows ∧ (square A).IsHermitian then
      haveI : Nonempty (Fin A.rows) := ⟨⟨0, h.1⟩⟩
      ⟨[(exists_lowest h.2).choose], ⟨A.rows, 1, fun i _ => if hi : i < A.rows then (exists_lowest h.2).choose_spec.choose ⟨i, hi⟩ else 0⟩⟩
    else ⟨[], ⟨0, 0, fun _ _ => 0⟩⟩, ?_, ?_⟩
  · intro A h0 hc hA
    have h : 0 < A.rows ∧ (square A).IsHermitian := ⟨h0, hA⟩
    dsimp only
    rw [dif_pos h]
    haveI : Nonempty (Fin A.rows) := ⟨⟨0, h.1⟩⟩
    refine ⟨rfl, Nat.one_pos, _, _, rfl, ?_⟩
    have := (exists_lowest h.2).choose_spec.choose_spec
    simpa using this
  · intro A h0
    simp [h0]

/-! ## The sector -/

theorem fold_set (f : ℕ → ℂ) : ∀ (sel : List ℕ) (k : ℕ) (l : List ℂ), sel.Nodup → (∀ i ∈ sel, i < l.length) →
    ((sel.zipIdx k).foldl (fun l ia => l.set ia.1 (f ia.2)) l).length = l.length ∧
    (∀ a (h : a < sel.length), ((sel.zipIdx k).foldl (fun l ia => l.set ia.1 (f ia.2)) l).getD sel[a] 0 = f (k + a)) ∧
    ∀ i ∉ sel, ((sel.zipIdx k).foldl (fun l ia => l.set ia.1 (f ia.2)) l).getD i 0 = l.getD i 0 := by
  intro sel
  induction sel with
  | nil => intro k l _ _; exact ⟨rfl, fun a h => absurd h (Nat.not_lt_zero _), fun i _ => rfl⟩
  | cons j sel ih =>
    intro k l hn hl
    rw [List.nodup_cons] at hn
    obtain ⟨h1, h2, h3⟩ := ih (k + 1) (l.set j (f k)) hn.2 fun i hi => by
      rw [List.length_set]; exact hl i (List.mem_cons_of_mem _ hi)
    rw [List.zipIdx_cons, List.foldl_cons]
    refine ⟨h1.trans List.length_set, fun a h => ?_, fun i hi => ?_⟩
    · cases a with
      | zero =>
        rw [List.getElem_cons_zero, h3 j hn.1, List.getD_eq_getElem?_getD, List.getElem?_set_self (hl j List.mem_cons_self)]; rfl
      | succ a =>
        rw [List.getElem_cons_succ, h2 a (by simpa using h)]
        congr 1; omega
    · rw [List.mem_cons, not_or] at hi
      rw [h3 i hi.2, List.getD_eq_getElem?_getD, List.getElem?_set_ne (Ne.symm hi.1), ← List.getD_eq_getElem?_getD]

/-- The basis states of the sector, in the order of `jw_number_indices`. -/
def sectorBits (n : ℕ) (sel : List ℕ) (a : Fin sel.length) : Fin n → Bool := bitsOf n sel[a]

section sector

variable {n k : ℕ} {sel : List ℕ}

theorem occupied_eq (x : Fin n → Bool) : occupied x = popcount (basisIndex x) := (popcount_basisIndex x).symm

theorem sectorBits_index (hm : ∀ i, i ∈ sel ↔ i < 2 ^ n ∧ popcount i = k) (a : Fin sel.length) : basisIndex (sectorBits n sel a) = sel[a] :=
  basisIndex_bitsOf n _ ((hm _).1 (List.getElem_mem _)).1

theorem sectorBits_occupied (hm : ∀ i, i ∈ sel ↔ i < 2 ^ n ∧ popcount i = k) (a : Fin sel.length) : occupied (sectorBits n sel a) = k := by
  rw [occupied_eq, sectorBits_index hm]
  exact ((hm _).1 (List.getElem_mem _)).2

theorem sectorBits_inj (hn : sel.Nodup) (hm : ∀ i, i ∈ sel ↔ i < 2 ^ n ∧ popcount i = k) : Function.Injective (sectorBits n sel) := by
  intro a b h
  have := congrArg basisIndex h
  rw [sectorBits_index hm, sectorBits_index hm] at this
  exact Fin.ext ((List.Nodup.getElem_inj_iff hn).1 this)

theorem sectorBits_surj (hm : ∀ i, i ∈ sel ↔ i < 2 ^ n ∧ popcount i = k) {x : Fin n → Bool} (hx : occupied x = k) : ∃ a, sectorBits n sel a = x := by
  rw [occupied_eq] at hx
  obtain ⟨a, ha, h⟩ := List.getElem_of_mem ((hm _).2 ⟨basisIndex_lt x, hx⟩)
  exact ⟨⟨a, ha⟩, basisIndex_injective ((sectorBits_index hm _).trans h)⟩

theorem sum_sector (hn : sel.Nodup) (hm : ∀ i, i ∈ sel ↔ i < 2 ^ n ∧ popcount i = k) {M : Type} [AddCommMonoid M] (f : (Fin n → Bool) → M)
    (hf : ∀ x, occupied x ≠ k → f x = 0) : ∑ x, f x = ∑ a, f (sectorBits n sel a) := by
  refine (Finset.sum_of_injOn (sectorBits n sel) (sectorBits_inj hn hm).injOn (fun _ _ => Finset.mem_coe.2 (Finset.mem_univ _)) (fun x _ hx => hf x fun h => hx ?_)
    fun _ _ => rfl).symm
  obtain ⟨a, ha⟩ := sectorBits_surj hm h
  exact ⟨a, Finset.mem_coe.2 (Finset.mem_univ _), ha⟩

theorem inner_sector (hn : sel.Nodup) (hm : ∀ i, i ∈ sel ↔ i < 2 ^ n ∧ popcount i = k) {φ : (Fin n → Bool) → ℂ} (hφ : HasParticles k φ) (ψ : (Fin n → Bool) → ℂ) :
    inner φ ψ = inner (fun a => φ (sectorBits n sel a)) fun a => ψ (sectorBits n sel a) := by
  refine sum_sector hn hm (fun x => star (φ x) * ψ x) fun x hx => ?_
  have : φ x = 0 := by by_contra h; exact hx (hφ x h)
  rw [this, star_zero, zero_mul]

theorem mulVec_sector (hn : sel.Nodup) (hm : ∀ i, i ∈ sel ↔ i < 2 ^ n ∧ popcount i = k) {φ : (Fin n → Bool) → ℂ} (hφ : HasParticles k φ)
    (A : Matrix (Fin n → Bool) (Fin n → Bool) ℂ) (x : Fin n → Bool) : (A *ᵥ φ) x = ∑ b, A x (sectorBits n sel b) * φ (sectorBits n sel b) := by
  refine sum_sector hn hm (fun y => A x y * φ y) fun y hy => ?_
  have : φ y = 0 := by by_contra h; exact hy (hφ y h)
  rw [this, mul_zero]

end sector

/-- **The ground state with a given number of particles**: for a Hermitian matrix of `n` qubits and `k ≤ n` particles, the result is a normalised state with `k`
particles together with its energy, and no state with `k` particles has a lower energy.  If the matrix conserves the number of particles it is an eigenstate. -/
theorem groundStateAt_spec {eigh eigsh : Mat ℂ → Eigen} (h1 : Solves eigh) (h2 : Solves eigsh) {n k : ℕ} (hk : k ≤ n) {M : Mat ℂ} (hr : M.rows = 2 ^ n) (hc : M.cols = 2 ^ n)
    (hM : (M.onBits n).IsHermitian) :
    ∃ e wf, groundStateAt eigh eigsh M k = .ok (e, wf) ∧ wf.length = 2 ^ n ∧ GroundState (M.onBits n) k e (stateOn n wf) ∧
      (Conserves (M.onBits n) → M.onBits n *ᵥ stateOn n wf = (e : ℂ) • stateOn n wf) := by
  obtain ⟨R, sel, r1, r2, r3, r4, r5⟩ := jwNumberRestrict_spec M k n hr hc
  obtain ⟨sel', s1, s2, s3, s4⟩ := jwNumberIndices_spec k n
  obtain rfl : sel = sel' := by rw [r2] at s1; injection s1
  have hpos : 0 < R.rows := by rw [r3]; exact Nat.choose_pos hk
  have hlen : sel.length = R.rows := by rw [s4, r3]
  have hentry : ∀ a b : Fin sel.length, R.e a b = M.onBits n (sectorBits n sel a) (sectorBits n sel b) := fun a b => by
    rw [r5 a b a.2 b.2, Mat.onBits, sectorBits_index s3, sectorBits_index s3]; rfl
  have hR : (square R).IsHermitian := by
    refine Matrix.IsHermitian.ext fun i j => ?_
    have e1 := hentry ⟨i, by rw [hlen]; exact i.2⟩ ⟨j, by rw [hlen]; exact j.2⟩
    have e2 := hentry ⟨j, by rw [hlen]; exact j.2⟩ ⟨i, by rw [hlen]; exact i.2⟩
    show star (R.e j i) = R.e i j
    rw [show R.e i j = _ from e1, show R.e j i = _ from e2]
    exact hM.apply _ _
  generalize hE : (if (R.rows : ℤ) - 1 ≤ 1 then eigh R else eigsh R) = E
  have hsol : E.vecs.rows = R.rows ∧ 0 < E.vecs.cols ∧ ∃ e es, E.vals = e :: es ∧ Lowest (square R) e fun i => E.vecs.e i 0 := by
    rw [← hE]
    split_ifs
    · exact h1 R hpos (r4.trans r3.symm) hR
    · exact h2 R hpos (r4.trans r3.symm) hR
  obtain ⟨v1, v2, e, es, v3, v4⟩ := hsol
  have hwf : groundStateAt eigh eigsh M k = .ok (e, expandState n sel E.vecs) := by
    unfold groundStateAt
    dsimp only
    rw [hr, Nat.log2_two_pow, r1]
    show (if (if (R.rows : ℤ) - 1 ≤ 1 then eigh R else eigsh R).vecs.cols = 0 then _ else _) = _
    rw [hE, if_neg (by omega), r2]
    show (if sel.length ≠ E.vecs.rows then _ else _) = _
    rw [if_neg (by rw [v1, hlen]; simp), v3]
  have hfold := fold_set (fun a => E.vecs.e a 0) sel 0 (List.replicate (2 ^ n) 0) s2 fun i hi => by
    rw [List.length_replicate]; exact ((s3 i).1 hi).1
  change (expandState n sel E.vecs).length = _ ∧ (∀ a (h : a < sel.length), (expandState n sel E.vecs).getD sel[a] 0 = _) ∧
    ∀ i ∉ sel, (expandState n sel E.vecs).getD i 0 = _ at hfold
  obtain ⟨f1, f2, f3⟩ := hfold
  generalize expandState n sel E.vecs = wf at *
  have hψ : ∀ a : Fin sel.length, stateOn n wf (sectorBits n sel a) = E.vecs.e a 0 := fun a => by
    rw [stateOn, sectorBits_index s3]
    have := f2 a a.2
    rw [Nat.zero_add] at this
    exact this
  have hpart : HasParticles k (stateOn n wf) := by
    intro x hx
    by_contra hc
    refine hx ?_
    rw [stateOn, f3 _ fun h => hc ?_]
    · simp [List.getD_eq_getElem?_getD, List.getElem?_replicate, basisIndex_lt]
    · rw [occupied_eq]; exact ((s3 _).1 h).2
  have hcast : ∀ {T : Type} [AddCommMonoid T] (f : ℕ → T), ∑ a : Fin sel.length, f a = ∑ a : Fin R.rows, f a := by
    intro T _ f
    rw [hlen]
  have hRv : ∀ a : Fin sel.length, ∑ b : Fin sel.length, R.e a b * E.vecs.e b 0 = e * E.vecs.e a 0 := by
    intro a
    rw [hcast fun b => R.e a b * E.vecs.e b 0]
    exact congrFun v4.1 ⟨a, hlen ▸ a.2⟩
  have hbra : ∀ φ, HasParticles k φ → inner φ (M.onBits n *ᵥ φ) = ∑ a : Fin sel.length, star (φ (sectorBits n sel a)) *
      ∑ b : Fin sel.length, R.e a b * φ (sectorBits n sel b) := by
    intro φ hφ
    rw [inner_sector s2 s3 hφ]
    unfold inner dotProduct
    refine Finset.sum_congr rfl fun a _ => congrArg (star (φ (sectorBits n sel a)) * ·) ?_
    refine (mulVec_sector s2 s3 hφ _ _).trans ?_
    exact Finset.sum_congr rfl fun b _ => by rw [hentry]
  have hunit : inner (stateOn n wf) (stateOn n wf) = 1 := by
    rw [inner_sector s2 s3 hpart, ← v4.2.1]
    simp only [hψ]
    exact hcast fun a => star (E.vecs.e a 0) * E.vecs.e a 0
  refine ⟨e, wf, hwf, f1.trans List.length_replicate, ⟨hpart, hunit, ?_, ?_⟩, ?_⟩
  · rw [hbra _ hpart]
    simp only [hψ, hRv]
    have : ∑ a : Fin sel.length, star (E.vecs.e a 0) * ((e : ℂ) * E.vecs.e a 0) = e * inner (stateOn n wf) (stateOn n wf) := by
      rw [inner_sector s2 s3 hpart]
      unfold inner dotProduct
      rw [Finset.mul_sum]
      refine Finset.sum_congr rfl fun a _ => ?_
      rw [Pi.star_apply, hψ]; dsimp only; rw [hψ]; ring
    rw [this, hunit, mul_one]
  · intro φ hφ
    have := lowest_le hR v4.2.2 fun i => if h : i.1 < sel.length then φ (sectorBits n sel ⟨i, h⟩) else 0
    have e1 : inner (fun i : Fin R.rows => if h : i.1 < sel.length then φ (sectorBits n sel ⟨i, h⟩) else 0)
        (fun i : Fin R.rows => if h : i.1 < sel.length then φ (sectorBits n sel ⟨i, h⟩) else 0) = inner φ φ := by
      rw [inner_sector s2 s3 hφ]
      refine (hcast fun i => star (if h : i < sel.length then φ (sectorBits n sel ⟨i, h⟩) else 0) * (if h : i < sel.length then φ (sectorBits n sel ⟨i, h⟩) else 0)).symm.trans ?_
      refine Finset.sum_congr rfl fun a _ => ?_
      rw [dif_pos a.2]; rfl
    have e2 : inner (fun i : Fin R.rows => if h : i.1 < sel.length then φ (sectorBits n sel ⟨i, h⟩) else 0)
        (square R *ᵥ fun i : Fin R.rows => if h : i.1 < sel.length then φ (sectorBits n sel ⟨i, h⟩) else 0) = inner φ (M.onBits n *ᵥ φ) := by
      rw [hbra φ hφ]
      refine (hcast fun i => star (if h : i < sel.length then φ (sectorBits n sel ⟨i, h⟩) else 0) *
        ∑ j : Fin R.rows, R.e i j * (if h : j.1 < sel.length then φ (sectorBits n sel ⟨j, h⟩) else 0)).symm.trans ?_
      refine Finset.sum_congr rfl fun a _ => ?_
      rw [dif_pos a.2]
      refine congrArg (star (φ (sectorBits n sel a)) * ·) ?_
      refine (hcast fun j => R.e a j * (if h : j < sel.length then φ (sectorBits n sel ⟨j, h⟩) else 0)).symm.trans ?_
      exact Finset.sum_congr rfl fun b _ => by rw [dif_pos b.2]
    rwa [e1, e2] at this
  · intro hcons
    funext x
    rw [mulVec_sector s2 s3 hpart, Pi.smul_apply, smul_eq_mul]
    by_cases hx : occupied x = k
    · obtain ⟨a, rfl⟩ := sectorBits_surj s3 hx
      rw [hψ, ← hRv a]
      exact Finset.sum_congr rfl fun b _ => by rw [hentry, hψ]
    · have : stateOn n wf x = 0 := by by_contra h; exact hx (hpart x h)
      rw [this, mul_zero]
      refine Finset.sum_eq_zero fun b _ => ?_
      have : M.onBits n x (sectorBits n sel b) = 0 := by
        by_contra h
        exact hx ((hcons _ _ h).trans (sectorBits_occupied s3 b))
      rw [this, zero_mul]

/-- More particles than modes raise `IndexError`: there is no such state. -/
theorem groundStateAt_none {eigh : Mat ℂ → Eigen} (h : ∀ A : Mat ℂ, A.rows = 0 → (eigh A).vecs.cols = 0) (eigsh : Mat ℂ → Eigen) {n k : ℕ} (hk : n < k) {M : Mat ℂ}
    (hr : M.rows = 2 ^ n) (hc : M.cols = 2 ^ n) : groundStateAt eigh eigsh M k = .error .indexError := by
  obtain ⟨R, sel, r1, r2, r3, r4, r5⟩ := jwNumberRestrict_spec M k n hr hc
  unfold groundStateAt
  dsimp only
  rw [hr, Nat.log2_two_pow, r1]
  show (if (if (R.rows : ℤ) - 1 ≤ 1 then eigh R else eigsh R).vecs.cols = 0 then _ else _) = _
  have h0 : R.rows = 0 := by rw [r3, Nat.choose_eq_zero_of_lt hk]
  rw [if_pos (c := (R.rows : ℤ) - 1 ≤ 1) (by rw [h0]; simp), if_pos (h R h0)]

/-- A negative number of particles raises `ValueError`. -/
theorem groundStateAt_negative (eigh eigsh : Mat ℂ → Eigen) (M : Mat ℂ) {k : ℤ} (hk : k < 0) : groundStateAt eigh eigsh M k = .error .valueError := by
  unfold groundStateAt jwNumberRestrict
  dsimp only
  rw [jwNumberIndices_negative k _ hk]
  rfl

end ZQ.Ground
