import Verif.Model.Sparse
import Verif.Lemmas.ActOn
import Verif.Lemmas.Tensor
import Verif.Lemmas.PauliIndep
import Verif.Spec.Elements

/-! Auxiliary facts about Kronecker products of one-qubit matrices and lists of triplets. -/

namespace ZQ.Sparse

open ZQ ZQ.Op Bits
open scoped BigOperators

/-- Index of the basis state given by the first `n` bits of `s`. -/
def nidx : ℕ → (ℕ → Bool) → ℕ
  | 0, _ => 0
  | n + 1, s => 2 * nidx n s + (s n).toNat

theorem nidx_eq_pyInt2 (n : ℕ) (s : ℕ → Bool) : nidx n s = pyInt2 ((List.range n).map fun q => (s q).toNat) := by
  induction n with
  | zero => rfl
  | succ n ih => rw [List.range_succ, List.map_append, List.map_singleton, pyInt2_append, ← ih, nidx]

theorem nidx_eq_basisIndex (n : ℕ) (s : ℕ → Bool) : nidx n s = basisIndex (fun q : Fin n => s q) := by
  rw [basisIndex_eq_pyInt2, nidx_eq_pyInt2]
  congr 1
  apply List.ext_getElem
  · simp
  · intro i h1 h2; simp

theorem pad_apply {n : ℕ} (x : Fin n → Bool) (q : Fin n) : pad x q = x q := by rw [pad, dif_pos q.2]

theorem basisIndex_eq_nidx {n : ℕ} (x : Fin n → Bool) : basisIndex x = nidx n (pad x) := by
  rw [nidx_eq_basisIndex]; congr 1; funext q; rw [pad_apply]

theorem nidx_lt (n : ℕ) (s : ℕ → Bool) : nidx n s < 2 ^ n := by rw [nidx_eq_basisIndex]; exact basisIndex_lt _

theorem nidx_inj {n : ℕ} {s t : ℕ → Bool} : nidx n s = nidx n t ↔ ∀ q < n, s q = t q := by
  rw [nidx_eq_basisIndex, nidx_eq_basisIndex]
  constructor
  · intro h q hq
    exact congrFun (basisIndex_injective h) ⟨q, hq⟩
  · intro h; congr 1; funext q; exact h q q.2

theorem nidx_surj {n i : ℕ} (h : i < 2 ^ n) : ∃ s, nidx n s = i :=
  ⟨pad (bitsOf n i), by rw [← basisIndex_eq_nidx, basisIndex_bitsOf n i h]⟩

theorem nidx_add (a b : ℕ) (s : ℕ → Bool) : nidx (a + b) s = nidx a s * 2 ^ b + nidx b (fun q => s (a + q)) := by
  induction b with
  | zero => simp [nidx]
  | succ b ih =>
    rw [← Nat.add_assoc, nidx, ih, nidx, pow_succ]; ring

/-- The matrix `M` on `n` qubits is `c` times the tensor product of the one-qubit matrices `L 0, L 1, ...`. -/
def IsTensor (M : Mat ℂ) (n : ℕ) (c : ℂ) (L : ℕ → Matrix Bool Bool ℂ) : Prop :=
  M.rows = 2 ^ n ∧ M.cols = 2 ^ n ∧ ∀ s t, M.e (nidx n s) (nidx n t) = c * ∏ q ∈ Finset.range n, L q (s q) (t q)

theorem IsTensor.kron {A B : Mat ℂ} {a b : ℕ} {c d : ℂ} {L L' : ℕ → Matrix Bool Bool ℂ} (hA : IsTensor A a c L) (hB : IsTensor B b d L') :
    IsTensor (Mat.kron A B) (a + b) (c * d) (fun q => if q < a then L q else L' (q - a)) := by
  obtain ⟨a1, a2, a3⟩ := hA
  obtain ⟨b1, b2, b3⟩ := hB
  refine ⟨by rw [Mat.kron, pow_add, ← a1, ← b1], by rw [Mat.kron, pow_add, ← a2, ← b2], fun s t => ?_⟩
  have key : ∀ s : ℕ → Bool, nidx (a + b) s / 2 ^ b = nidx a s ∧ nidx (a + b) s % 2 ^ b = nidx b (fun q => s (a + q)) := by
    intro s
    have hl := nidx_lt b (fun q => s (a + q))
    rw [nidx_add]
    constructor
    · rw [Nat.mul_comm, Nat.mul_add_div (by positivity), Nat.div_eq_of_lt hl, Nat.add_zero]
    · rw [Nat.mul_comm, Nat.mul_add_mod, Nat.mod_eq_of_lt hl]
  show A.e (nidx (a + b) s / B.rows) (nidx (a + b) t / B.cols) * B.e (nidx (a + b) s % B.rows) (nidx (a + b) t % B.cols) = _
  rw [b1, b2, (key s).1, (key t).1, (key s).2, (key t).2, a3, b3, Finset.prod_range_add]
  rw [Finset.prod_congr rfl (fun q hq => by rw [if_pos (Finset.mem_range.1 hq)] :
    ∀ q ∈ Finset.range a, (if q < a then L q else L' (q - a)) (s q) (t q) = L q (s q) (t q))]
  rw [Finset.prod_congr rfl (fun q _ => by rw [if_neg (by omega), Nat.add_sub_cancel_left] :
    ∀ q ∈ Finset.range b, (if a + q < a then L (a + q) else L' (a + q - a)) (s (a + q)) (t (a + q)) = L' q (s (a + q)) (t (a + q)))]
  ring

theorem IsTensor.congr {M : Mat ℂ} {n : ℕ} {c : ℂ} {L L' : ℕ → Matrix Bool Bool ℂ} (h : IsTensor M n c L) (hl : ∀ q < n, L q = L' q) :
    IsTensor M n c L' :=
  ⟨h.1, h.2.1, fun s t => by
    rw [h.2.2]; congr 1
    exact Finset.prod_congr rfl fun q hq => by rw [hl q (Finset.mem_range.1 hq)]⟩

theorem isTensor_scalar (c : ℂ) (L : ℕ → Matrix Bool Bool ℂ) : IsTensor (scalar c) 0 c L :=
  ⟨rfl, rfl, fun s t => by simp [scalar]⟩

theorem isTensor_eye (k : ℕ) : IsTensor (Mat.eye (2 ^ k)) k 1 (fun _ => 1) := by
  refine ⟨rfl, rfl, fun s t => ?_⟩
  show (if nidx k s = nidx k t then (1 : ℂ) else 0) = _
  rw [one_mul]
  by_cases h : nidx k s = nidx k t
  · rw [if_pos h]
    rw [nidx_inj] at h
    exact (Finset.prod_eq_one fun q hq => by rw [h q (Finset.mem_range.1 hq)]; exact Matrix.one_apply_eq _).symm
  · rw [if_neg h]
    rw [nidx_inj] at h
    push Not at h
    obtain ⟨q, hq, hne⟩ := h
    exact (Finset.prod_eq_zero (Finset.mem_range.2 hq) (Matrix.one_apply_ne (i := s q) (j := t q) hne)).symm

theorem isTensor_two {M : Mat ℂ} {L : Matrix Bool Bool ℂ} (h1 : M.rows = 2) (h2 : M.cols = 2)
    (h : ∀ a b : Bool, M.e a.toNat b.toNat = L a b) : IsTensor M 1 1 (fun _ => L) :=
  ⟨h1, h2, fun s t => by
    rw [Finset.prod_range_one, one_mul]
    show M.e (2 * 0 + _) (2 * 0 + _) = _
    rw [Nat.mul_zero, Nat.zero_add, Nat.zero_add, h]⟩

theorem isTensor_pauli (a : Letter) : IsTensor (pauliMat a) 1 1 (fun _ => letterMatrix a) := by
  apply isTensor_two
  · cases a <;> rfl
  · cases a <;> rfl
  · intro x y
    cases a <;> cases x <;> cases y <;> simp [pauliMat, Mat.ofRows, letterMatrix, pauliX, pauliY, pauliZ]

/-- The one-qubit ladder matrix: `|1><0|` raises, `|0><1|` lowers. -/
def ladderOne (raise : Bool) : Matrix Bool Bool ℂ := fun a b => if a = raise ∧ b = !raise then 1 else 0

theorem isTensor_ladder (b : Bool) : IsTensor (ladderMat b) 1 1 (fun _ => ladderOne b) := by
  apply isTensor_two rfl rfl
  intro x y
  cases b <;> cases x <;> cases y <;> simp [ladderMat, pauliMat, Mat.ofRows, ladderOne] <;> norm_num

/-! ### triplets -/

theorem sum_filter_map {α : Type} (l : List α) (p : α → Bool) (g : α → ℂ) :
    ((l.filter p).map g).sum = (l.map fun a => if p a then g a else 0).sum := by
  induction l with
  | nil => rfl
  | cons a l ih =>
    rw [List.filter_cons, List.map_cons, List.sum_cons, ← ih]
    cases h : p a
    · simp
    · simp

theorem sum_range_ite {n : ℕ} (k : ℕ) (g : ℕ → ℂ) : ((List.range n).map fun r => if r = k then g r else 0).sum = if k < n then g k else 0 := by
  induction n with
  | zero => simp
  | succ n ih =>
    rw [List.range_succ, List.map_append, List.sum_append, ih, List.map_singleton, List.sum_singleton]
    by_cases h1 : k < n
    · rw [if_pos h1, if_neg (show ¬ n = k by omega), if_pos (show k < n + 1 by omega), add_zero]
    · rw [if_neg h1, zero_add]
      by_cases h2 : n = k
      · rw [if_pos h2, if_pos (show k < n + 1 by omega), h2]
      · rw [if_neg h2, if_neg (show ¬ k < n + 1 by omega)]

/-- The stored triplets of a matrix in column order. -/
noncomputable def triplets (M : Mat ℂ) : List (ℂ × ℕ × ℕ) :=
  (List.range M.cols).flatMap fun c => ((List.range M.rows).filter fun r => decide (M.e r c ≠ 0)).map fun r => (M.e r c, r, c)

theorem triplets_data (M : Mat ℂ) : (triplets M).map Prod.fst = cscData M := by
  rw [triplets, List.map_flatMap]; simp only [List.map_map]; rfl

theorem triplets_coo (M : Mat ℂ) : (triplets M).map Prod.snd = cooNonzero M := by
  rw [triplets, List.map_flatMap]; simp only [List.map_map]; rfl

theorem sum_flatMap {α : Type} (l : List α) (g : α → List ℂ) : (l.flatMap g).sum = (l.map fun a => (g a).sum).sum := by
  induction l with
  | nil => rfl
  | cons a l ih => rw [List.flatMap_cons, List.sum_append, ih]; rfl

theorem triplets_sum (M : Mat ℂ) {i j : ℕ} (hi : i < M.rows) (hj : j < M.cols) :
    (((triplets M).filter fun v => decide (v.2 = (i, j))).map Prod.fst).sum = M.e i j := by
  rw [sum_filter_map, triplets, List.map_flatMap, sum_flatMap]
  have h1 : ∀ c, ((((List.range M.rows).filter fun r => decide (M.e r c ≠ 0)).map fun r => (M.e r c, r, c)).map
      fun a : ℂ × ℕ × ℕ => if decide (a.2 = (i, j)) = true then a.1 else 0).sum = if c = j then M.e i c else 0 := by
    intro c
    rw [List.map_map, sum_filter_map]
    have : (fun r => if decide (M.e r c ≠ 0) = true then
          ((fun a : ℂ × ℕ × ℕ => if decide (a.2 = (i, j)) = true then a.1 else 0) ∘ fun r => (M.e r c, r, c)) r else 0)
        = fun r => if r = i then (if c = j then M.e r c else 0) else 0 := by
      funext r
      simp only [Function.comp_apply, decide_eq_true_eq, Prod.mk.injEq]
      by_cases hr : r = i
      · by_cases hc : c = j
        · simp [hr, hc]; exact fun h => h.symm
        · simp [hr, hc]
      · simp [hr]
    rw [this, sum_range_ite i (fun r => if c = j then M.e r c else 0), if_pos hi]
  simp only [h1]
  rw [sum_range_ite j (fun c => M.e i c), if_pos hj]

theorem mem_cooNonzero {M : Mat ℂ} {p : ℕ × ℕ} (h : p ∈ cooNonzero M) : p.1 < M.rows ∧ p.2 < M.cols := by
  obtain ⟨c, hc, h⟩ := List.mem_flatMap.1 h
  obtain ⟨r, hr, rfl⟩ := List.mem_map.1 h
  exact ⟨List.mem_range.1 (List.mem_filter.1 hr).1, List.mem_range.1 hc⟩

/-- The nonzero pattern is symmetric. -/
def SymPattern (M : Mat ℂ) : Prop := M.rows = M.cols ∧ ∀ r < M.rows, ∀ c < M.rows, M.e r c ≠ 0 ↔ M.e c r ≠ 0

theorem cscNonzero_swap {M : Mat ℂ} (h : SymPattern M) : (cscNonzero M).map Prod.swap = cooNonzero M := by
  rw [cscNonzero, cooNonzero, List.map_flatMap, h.1]
  apply List.flatMap_congr
  intro k hk
  rw [List.map_map]
  have : (List.range M.cols).filter (fun c => decide (M.e k c ≠ 0)) = (List.range M.cols).filter fun c => decide (M.e c k ≠ 0) := by
    apply List.filter_congr
    intro c hc
    have := h.2 k (h.1 ▸ List.mem_range.1 hk) c (h.1 ▸ List.mem_range.1 hc)
    simp only [decide_eq_decide]; exact this
  rw [this]; rfl

theorem ofTriplets_spec (N : ℕ) (ms : List (Mat ℂ)) (hm : ∀ m ∈ ms, m.rows = N ∧ m.cols = N) :
    ∃ R, ofTriplets N (ms.flatMap cscData) (ms.flatMap fun m => (cooNonzero m).map Prod.fst) (ms.flatMap fun m => (cooNonzero m).map Prod.snd) = .ok R ∧
      R.rows = N ∧ R.cols = N ∧ ∀ i < N, ∀ j < N, R.e i j = (ms.map fun m => m.e i j).sum := by
  have hv : ms.flatMap cscData = (ms.flatMap triplets).map Prod.fst := by rw [List.map_flatMap]; simp only [triplets_data]
  have hr : (ms.flatMap fun m => (cooNonzero m).map Prod.fst) = (ms.flatMap triplets).map fun v => v.2.1 := by
    rw [List.map_flatMap]; simp only [← triplets_coo, List.map_map]; rfl
  have hc : (ms.flatMap fun m => (cooNonzero m).map Prod.snd) = (ms.flatMap triplets).map fun v => v.2.2 := by
    rw [List.map_flatMap]; simp only [← triplets_coo, List.map_map]; rfl
  have hz : (ms.flatMap cscData).zip ((ms.flatMap fun m => (cooNonzero m).map Prod.fst).zip (ms.flatMap fun m => (cooNonzero m).map Prod.snd))
      = ms.flatMap triplets := by
    rw [hv, hr, hc, List.zip_map', List.zip_map']
    show List.map (fun x : ℂ × ℕ × ℕ => x) _ = _
    exact List.map_id' _
  rw [ofTriplets, if_neg (by rw [hv, hr, hc]; simp), if_neg]
  · refine ⟨_, rfl, rfl, rfl, fun i hi j hj => ?_⟩
    show ((((ms.flatMap cscData).zip ((ms.flatMap fun m => (cooNonzero m).map Prod.fst).zip (ms.flatMap fun m => (cooNonzero m).map Prod.snd))).filter
      fun v => decide (v.2 = (i, j))).map Prod.fst).sum = _
    rw [hz, List.filter_flatMap, List.map_flatMap, sum_flatMap]
    congr 1
    apply List.map_congr_left
    intro m hmm
    exact triplets_sum m ((hm m hmm).1 ▸ hi) ((hm m hmm).2 ▸ hj)
  · rw [not_not]
    constructor
    · intro r h
      obtain ⟨m, hmm, h⟩ := List.mem_flatMap.1 h
      obtain ⟨p, hp, rfl⟩ := List.mem_map.1 h
      exact (hm m hmm).1 ▸ (mem_cooNonzero hp).1
    · intro r h
      obtain ⟨m, hmm, h⟩ := List.mem_flatMap.1 h
      obtain ⟨p, hp, rfl⟩ := List.mem_map.1 h
      exact (hm m hmm).2 ▸ (mem_cooNonzero hp).2

end ZQ.Sparse
