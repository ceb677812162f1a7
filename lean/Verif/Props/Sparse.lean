import Verif.Lemmas.Sparse
import Verif.Lemmas.ExceptList
import Verif.Props.ReverseJW
import Verif.Props.BravyiKitaev
import Verif.Props.JordanWigner
import Verif.Spec.Bits
import Mathlib.Data.Nat.BitIndices

/-! C64: sparse matrices of qubit operators.  C71: sparse matrices of fermion operators.  C60: number-sector indices and configuration states. -/

namespace ZQ.Sparse

open ZQ ZQ.Op Bits
open scoped BigOperators

/-! ## C64 -/

theorem factorLoop_spec (t : Term Letter) (tf : ℕ) (m : Mat ℂ) (acc : List (Mat ℂ)) (c : ℂ) (L : ℕ → Matrix Bool Bool ℂ)
    (hs : (t.map Prod.fst).Pairwise (· < ·)) (hge : ∀ f ∈ t, tf ≤ f.1) (hm : IsTensor (acc.foldl Mat.kron m) tf c L) :
    ∃ acc' tf', factorLoop t tf (m :: acc) = (m :: acc', tf') ∧ tf ≤ tf' ∧ (∀ n, tf ≤ n → (∀ f ∈ t, f.1 < n) → tf' ≤ n) ∧
      (∀ f ∈ t, f.1 < tf') ∧ IsTensor (acc'.foldl Mat.kron m) tf' c (fun q => if q < tf then L q else letterMatrix (letterAt t q)) := by
  induction t generalizing tf acc L with
  | nil =>
    exact ⟨acc, tf, rfl, le_rfl, fun n h _ => h, (by simp), hm.congr fun q hq => by rw [if_pos hq]⟩
  | cons f t ih =>
    obtain ⟨p, a⟩ := f
    have hs' : (p :: t.map Prod.fst).Pairwise (· < ·) := hs
    have hp := List.pairwise_cons.1 hs'
    have htp : tf ≤ p := hge (p, a) (List.mem_cons_self ..)
    have step : ∃ acc1, ((if p > tf then m :: acc ++ [Mat.eye (2 ^ (p - tf))] else m :: acc) ++ [pauliMat a]) = m :: acc1 ∧
        IsTensor (acc1.foldl Mat.kron m) (p + 1) c (fun q => if q < tf then L q else if q = p then letterMatrix a else 1) := by
      by_cases hlt : p > tf
      · refine ⟨acc ++ [Mat.eye (2 ^ (p - tf))] ++ [pauliMat a], by rw [if_pos hlt]; rfl, ?_⟩
        rw [List.foldl_append, List.foldl_append]
        have h1 := (hm.kron (isTensor_eye (p - tf))).kron (isTensor_pauli a)
        have e : tf + (p - tf) + 1 = p + 1 := by omega
        rw [e, mul_one, mul_one] at h1
        refine h1.congr fun q hq => ?_
        by_cases h2 : q < tf
        · rw [if_pos (by omega), if_pos h2, if_pos h2]
        · by_cases h3 : q = p
          · rw [if_neg (by omega), if_neg h2, if_pos h3]
          · rw [if_pos (by omega), if_neg h2, if_neg h2, if_neg h3]
      · have e : tf = p := by omega
        refine ⟨acc ++ [pauliMat a], by rw [if_neg hlt]; rfl, ?_⟩
        rw [List.foldl_append]
        have h1 := hm.kron (isTensor_pauli a)
        rw [e, mul_one] at h1
        refine h1.congr fun q hq => ?_
        by_cases h2 : q < p
        · rw [if_pos h2, e, if_pos h2]
        · rw [if_neg h2, e, if_neg h2, if_pos (by omega)]
    obtain ⟨acc1, h1, h2⟩ := step
    obtain ⟨acc', tf', h3, h4, h5, h6, h7⟩ := ih (p + 1) acc1 _ hp.2 (fun f hf => hp.1 f.1 (List.mem_map_of_mem hf)) h2
    refine ⟨acc', tf', ?_, by omega, fun n _ hb => ?_, ?_, h7.congr fun q hq => ?_⟩
    · show factorLoop t (p + 1) ((if p > tf then m :: acc ++ [Mat.eye (2 ^ (p - tf))] else m :: acc) ++ [pauliMat a]) = _
      rw [h1, h3]
    · exact h5 n (hb (p, a) (List.mem_cons_self ..)) fun f hf => hb f (List.mem_cons_of_mem _ hf)
    · intro f hf
      rcases List.mem_cons.1 hf with rfl | hf
      · exact h4
      · exact h6 f hf
    · by_cases hq1 : q < tf
      · rw [if_pos (by omega), if_pos hq1, if_pos hq1]
      · by_cases hq2 : q < p + 1
        · rw [if_pos hq2, if_neg hq1, if_neg hq1]
          by_cases hq3 : q = p
          · rw [if_pos hq3]
            rw [letterAt, if_pos hq3.symm]
          · rw [if_neg hq3, letterAt, if_neg (fun h => hq3 h.symm), letterAt_of_not_mem]
            · rfl
            · intro hmem
              have := hp.1 q hmem
              omega
        · rw [if_neg hq2, if_neg hq1, letterAt, if_neg (show ¬ p = q by omega)]

theorem termMatrix_spec (n : ℕ) {t : Term Letter} (ht : Canonical t) (hb : ∀ f ∈ t, f.1 < n) (c : ℂ) :
    ∃ M, termMatrix n t c = .ok M ∧ IsTensor M n c (fun q => letterMatrix (letterAt t q)) := by
  obtain ⟨acc', tf', h1, _, h3, h4, h5⟩ := factorLoop_spec t 0 (scalar c) [] c (fun _ => 1) ht.1 (fun _ _ => Nat.zero_le _) (isTensor_scalar c _)
  have htf := h3 n (Nat.zero_le _) hb
  have h6 : IsTensor (acc'.foldl Mat.kron (scalar c)) tf' c (fun q => letterMatrix (letterAt t q)) := h5.congr fun q _ => by
    rw [if_neg (Nat.not_lt_zero q)]
  rw [termMatrix, h1]
  by_cases hc : tf' < n ∨ t = []
  · rw [if_pos hc]
    refine ⟨(acc' ++ [Mat.eye (2 ^ (n - tf'))]).foldl Mat.kron (scalar c), rfl, ?_⟩
    rw [List.foldl_append]
    have h7 := h6.kron (isTensor_eye (n - tf'))
    rw [mul_one, Nat.add_sub_cancel' htf] at h7
    refine h7.congr fun q hq => ?_
    by_cases hq1 : q < tf'
    · rw [if_pos hq1]
    · rw [if_neg hq1, letterAt_of_not_mem]
      · rfl
      · intro hm
        obtain ⟨f, hf, rfl⟩ := List.mem_map.1 hm
        exact hq1 (h4 f hf)
  · rw [if_neg hc]
    have : tf' = n := by
      have := not_or.1 hc
      omega
    exact ⟨_, rfl, this ▸ h6⟩

theorem IsTensor.onBits {M : Mat ℂ} {n : ℕ} {c : ℂ} {L : ℕ → Matrix Bool Bool ℂ} (h : IsTensor M n c L) :
    M.onBits n = c • tensor fun q : Fin n => L q := by
  ext x y
  rw [Mat.onBits, basisIndex_eq_nidx, basisIndex_eq_nidx, h.2.2, Matrix.smul_apply, tensor, Finset.prod_range]
  simp only [pad_apply]; rfl

theorem letter_symm (a : Letter) (x y : Bool) : letterMatrix a x y ≠ 0 ↔ letterMatrix a y x ≠ 0 := by
  cases a <;> cases x <;> cases y <;> simp [letterMatrix, pauliX, pauliY, pauliZ]

theorem symPattern_of_tensor {M : Mat ℂ} {n : ℕ} {c : ℂ} {l : ℕ → Letter} (h : IsTensor M n c (fun q => letterMatrix (l q))) : SymPattern M := by
  refine ⟨by rw [h.1, h.2.1], fun r hr k hk => ?_⟩
  rw [h.1] at hr hk
  obtain ⟨s, rfl⟩ := nidx_surj hr
  obtain ⟨t, rfl⟩ := nidx_surj hk
  rw [h.2.2, h.2.2, mul_ne_zero_iff, mul_ne_zero_iff, Finset.prod_ne_zero_iff, Finset.prod_ne_zero_iff]
  exact and_congr_right' (forall_congr' fun q => imp_congr_right fun _ => letter_symm (l q) (s q) (t q))

/-- C64: `qubit_operator_sparse(op, n)` is a `2^n × 2^n` matrix whose entries, in the basis with qubit 0 most significant, are those of the
linear combination of tensor products of Pauli matrices; without `n` the number of qubits of the operator is used. -/
theorem qubitOperatorSparse_spec {o : Terms Letter} (h : CanonicalOp o) (nQubits : Option ℕ) (n : ℕ) (hn : nQubits.getD (countQubit o) = n)
    (hle : countQubit o ≤ n) :
    ∃ M, qubitOperatorSparse o nQubits = .ok M ∧ M.rows = 2 ^ n ∧ M.cols = 2 ^ n ∧ M.onBits n = opMatrix n o := by
  have hb : ∀ kv ∈ o, ∀ f ∈ kv.1, f.1 < n := fun kv hkv f hf => lt_of_lt_of_le (countQubit_bound h kv hkv f hf) hle
  have key : ∀ o' : Terms Letter, (∀ kv ∈ o', kv ∈ o) → ∃ ms : List (Mat ℂ), o'.mapM (fun kv => termMatrix n kv.1 kv.2) = .ok ms ∧
      (∀ m ∈ ms, m.rows = 2 ^ n ∧ m.cols = 2 ^ n ∧ SymPattern m) ∧ (ms.map fun m => m.onBits n).sum = opMatrix n o' := by
    intro o' ho'
    induction o' with
    | nil => exact ⟨[], rfl, (by simp), rfl⟩
    | cons kv o' ih =>
      obtain ⟨ms, h1, h2, h3⟩ := ih fun kv hkv => ho' kv (List.mem_cons_of_mem _ hkv)
      have hkv := ho' kv (List.mem_cons_self ..)
      obtain ⟨M, g1, g2⟩ := termMatrix_spec n (h.2 kv.1 (List.mem_map_of_mem hkv)) (hb kv hkv) kv.2
      refine ⟨M :: ms, ?_, ?_, ?_⟩
      · rw [List.mapM_cons, g1, h1]; rfl
      · intro m hm
        rcases List.mem_cons.1 hm with rfl | hm
        · exact ⟨g2.1, g2.2.1, symPattern_of_tensor g2⟩
        · exact h2 m hm
      · rw [List.map_cons, List.sum_cons, h3, g2.onBits]; rfl
  obtain ⟨ms, h1, h2, h3⟩ := key o fun _ hkv => hkv
  have hrow : (ms.flatMap fun m => (cscNonzero m).map Prod.snd) = ms.flatMap fun m => (cooNonzero m).map Prod.fst := by
    apply List.flatMap_congr
    intro m hm
    rw [← cscNonzero_swap (h2 m hm).2.2, List.map_map]; rfl
  have hcol : (ms.flatMap fun m => (cscNonzero m).map Prod.fst) = ms.flatMap fun m => (cooNonzero m).map Prod.snd := by
    apply List.flatMap_congr
    intro m hm
    rw [← cscNonzero_swap (h2 m hm).2.2, List.map_map]; rfl
  obtain ⟨R, r1, r2, r3, r4⟩ := ofTriplets_spec (2 ^ n) ms fun m hm => ⟨(h2 m hm).1, (h2 m hm).2.1⟩
  refine ⟨R, ?_, r2, r3, ?_⟩
  · rw [qubitOperatorSparse, hn]
    show (if n < countQubit o then _ else _) = _
    rw [if_neg (by omega), h1]
    show ofTriplets _ _ _ _ = _
    rw [hrow, hcol, r1]
  · rw [← h3]
    ext x y
    rw [Mat.onBits, r4 _ (basisIndex_lt x) _ (basisIndex_lt y)]
    have : ∀ ms : List (Mat ℂ), (ms.map fun m => m.onBits n).sum x y = (ms.map fun m => m.e (basisIndex x) (basisIndex y)).sum := by
      intro ms
      induction ms with
      | nil => rfl
      | cons m ms ih => rw [List.map_cons, List.sum_cons, Matrix.add_apply, ih]; rfl
    rw [this]

/-- C64: too few qubits raise `ValueError`. -/
theorem qubitOperatorSparse_rejects (o : Terms Letter) (n : ℕ) (hn : n < countQubit o) : qubitOperatorSparse o (some n) = .error .valueError :=
  if_pos hn

/-! ### matrix elements of the action -/

theorem pad_injective {n : ℕ} : Function.Injective (pad : (Fin n → Bool) → ℕ → Bool) := fun x y h => by
  funext q; rw [← pad_apply x, ← pad_apply y, h]

theorem pad_update {n : ℕ} (x : Fin n → Bool) (q : Fin n) (b : Bool) : Function.update (pad x) (q : ℕ) b = pad (Function.update x q b) := by
  funext p
  by_cases hp : p = q
  · rw [hp, Function.update_self, pad_apply, Function.update_self]
  · rw [Function.update_of_ne hp]
    by_cases h : p < n
    · rw [pad, pad, dif_pos h, dif_pos h, Function.update_of_ne (fun h => hp (congrArg Fin.val h))]
    · rw [pad, pad, dif_neg h, dif_neg h]

theorem matrixOf_one (n : ℕ) : matrixOf n 1 = 1 := by
  ext x y
  rw [matrixOf, Module.End.one_apply, basisState]
  by_cases h : x = y
  · rw [if_pos (by rw [h]), h, Matrix.one_apply_eq]
  · rw [if_neg (fun hp => h (pad_injective hp)), Matrix.one_apply_ne h]

theorem matrixOf_add (n : ℕ) (A B : Module.End ℂ State) : matrixOf n (A + B) = matrixOf n A + matrixOf n B := rfl

theorem matrixOf_smul (n : ℕ) (c : ℂ) (A : Module.End ℂ State) : matrixOf n (c • A) = c • matrixOf n A := rfl

theorem matrixOf_zero (n : ℕ) : matrixOf n 0 = 0 := rfl

/-- If the values of `A ψ` on the register are given by the matrix `L`, then `A * B` has the matrix `L` times that of `B`. -/
theorem matrixOf_mul {n : ℕ} {A : Module.End ℂ State} {L : Matrix (Fin n → Bool) (Fin n → Bool) ℂ}
    (h : ∀ (ψ : State) x, A ψ (pad x) = ∑ z, L x z * ψ (pad z)) (B : Module.End ℂ State) : matrixOf n (A * B) = L * matrixOf n B := by
  ext x y
  rw [matrixOf, Module.End.mul_apply, h, Matrix.mul_apply]; rfl

theorem sum_tensor_single {n : ℕ} (D : Fin n → Matrix Bool Bool ℂ) (p : Fin n) (hD : ∀ q, q ≠ p → ∀ a b, a ≠ b → D q a b = 0)
    (g : (Fin n → Bool) → ℂ) (x : Fin n → Bool) :
    ∑ z, tensor D x z * g z = ∑ b : Bool, tensor D x (Function.update x p b) * g (Function.update x p b) := by
  have hinj : Function.Injective (fun b : Bool => Function.update x p b) := fun a b h => by
    have := congrFun h p
    simpa using this
  rw [← Finset.sum_subset (Finset.subset_univ (Finset.univ.map ⟨fun b : Bool => Function.update x p b, hinj⟩)), Finset.sum_map]
  · rfl
  · intro z _ hz
    have : ∃ q, q ≠ p ∧ x q ≠ z q := by
      by_contra hno
      push Not at hno
      apply hz
      rw [Finset.mem_map]
      refine ⟨z p, Finset.mem_univ _, ?_⟩
      funext q
      by_cases hq : q = p
      · subst hq; show Function.update x q (z q) q = z q; rw [Function.update_self]
      · show Function.update x p (z p) q = z q
        rw [Function.update_of_ne hq, hno q hq]
    obtain ⟨q, hq, hne⟩ := this
    rw [tensor, Finset.prod_eq_zero (Finset.mem_univ q) (hD q hq _ _ hne), zero_mul]

theorem atQubit_pad {n : ℕ} (M : Matrix Bool Bool ℂ) (q : Fin n) (ψ : State) (x : Fin n → Bool) :
    atQubit M q ψ (pad x) = ∑ z, tensor (Function.update (fun _ => 1) q M) x z * ψ (pad z) := by
  rw [sum_tensor_single _ q, Fintype.sum_bool, atQubit_apply, pad_update, pad_update, pad_apply, add_comm]
  · have ht : ∀ b, tensor (Function.update (fun _ => 1) q M) x (Function.update x q b) = M (x q) b := by
      intro b
      rw [tensor, Finset.prod_eq_single q]
      · rw [Function.update_self, Function.update_self]
      · intro p _ hp
        rw [Function.update_of_ne hp, Function.update_of_ne hp, Matrix.one_apply_eq]
      · intro h; exact absurd (Finset.mem_univ q) h
    rw [ht, ht]
  · intro p hp a b hab
    rw [Function.update_of_ne hp, Matrix.one_apply_ne hab]

/-- The matrix of a Pauli string on the register is the matrix of its action. -/
theorem pauliString_eq_matrixOf {n : ℕ} {t : Term Letter} (ht : Canonical t) (hb : ∀ f ∈ t, f.1 < n) :
    pauliString n t = matrixOf n (termAction pauliAction t) := by
  induction t with
  | nil =>
    rw [termAction_nil, matrixOf_one, ← tensor_one]; rfl
  | cons f t ih =>
    obtain ⟨q, a⟩ := f
    have hq := hb (q, a) (List.mem_cons_self ..)
    rw [termAction_cons, matrixOf_mul (A := pauliAction (q, a)) (atQubit_pad (letterMatrix a) ⟨q, hq⟩),
      ← ih ht.tail fun f hf => hb f (List.mem_cons_of_mem _ hf), pauliString, pauliString, tensor_mul]
    congr 1
    funext p
    by_cases hp : p = ⟨q, hq⟩
    · rw [hp, Function.update_self, letterAt, if_pos rfl, letterAt_of_not_mem]
      · show _ = letterMatrix a * 1
        rw [mul_one]
      · exact (List.nodup_cons.1 (show (q :: t.map Prod.fst).Nodup from ht.nodup)).1
    · rw [Function.update_of_ne hp, one_mul, letterAt, if_neg (fun h => hp (Fin.ext h.symm))]

/-- C64: the entries are the matrix elements of the operator's action. -/
theorem opMatrix_eq_matrixOf {n : ℕ} {o : Terms Letter} (h : CanonicalOp o) (hb : Below n o) : opMatrix n o = matrixOf n (action pauliAction o) := by
  have : ∀ o' : Terms Letter, (∀ kv ∈ o', kv ∈ o) → opMatrix n o' = matrixOf n (action pauliAction o') := by
    intro o' ho'
    induction o' with
    | nil => rfl
    | cons kv o' ih =>
      have hkv := ho' kv (List.mem_cons_self ..)
      show kv.2 • pauliString n kv.1 + opMatrix n o' = _
      rw [ih fun kv hkv => ho' kv (List.mem_cons_of_mem _ hkv), action_cons, matrixOf_add, matrixOf_smul,
        pauliString_eq_matrixOf (h.2 kv.1 (List.mem_map_of_mem hkv)) (hb kv hkv)]
  exact this o fun _ h => h

/-- C64: each entry of the sparse matrix is the matrix element of the operator. -/
theorem qubitOperatorSparse_elements {o : Terms Letter} (h : CanonicalOp o) (n : ℕ) (hle : countQubit o ≤ n) :
    ∃ M, qubitOperatorSparse o (some n) = .ok M ∧ M.rows = 2 ^ n ∧ M.cols = 2 ^ n ∧
      ∀ x y : Fin n → Bool, M.e (basisIndex x) (basisIndex y) = action pauliAction o (basisState (pad y)) (pad x) := by
  obtain ⟨M, h1, h2, h3, h4⟩ := qubitOperatorSparse_spec h (some n) n rfl hle
  refine ⟨M, h1, h2, h3, fun x y => ?_⟩
  have := congrFun (congrFun h4 x) y
  rw [opMatrix_eq_matrixOf h fun kv hkv f hf => lt_of_lt_of_le (countQubit_bound h kv hkv f hf) hle] at this
  exact this

/-! ## C71 -/

/-- The matrix of a ladder operator on the register. -/
def ladderTensor (n : ℕ) (f : ℕ × Bool) : Matrix (Fin n → Bool) (Fin n → Bool) ℂ :=
  tensor fun q => if (q : ℕ) < f.1 then pauliZ else if (q : ℕ) = f.1 then ladderOne f.2 else 1

theorem ladder_pad {n : ℕ} (f : ℕ × Bool) (hf : f.1 < n) (ψ : State) (x : Fin n → Bool) :
    ladderAction f ψ (pad x) = ∑ z, ladderTensor n f x z * ψ (pad z) := by
  obtain ⟨p, b⟩ := f
  set P : Fin n := ⟨p, hf⟩ with hP
  have hu : ∀ c, tensor (fun q : Fin n => if (q : ℕ) < p then pauliZ else if (q : ℕ) = p then ladderOne b else 1) x (Function.update x P c)
      = if x P = b ∧ c = !b then (-1 : ℂ) ^ occupiedBefore (pad x) p else 0 := by
    intro c
    rw [tensor]
    have h1 : ∀ q : Fin n, (if (q : ℕ) < p then pauliZ else if (q : ℕ) = p then ladderOne b else 1) (x q) (Function.update x P c q)
        = (if (q : ℕ) < p then (if x q then (-1 : ℂ) else 1) else 1) * (if q = P then ladderOne b (x P) c else 1) := by
      intro q
      by_cases h2 : (q : ℕ) < p
      · have h3 : q ≠ P := fun h => by rw [h] at h2; exact absurd h2 (lt_irrefl _)
        rw [if_pos h2, if_pos h2, if_neg h3, Function.update_of_ne h3, mul_one, pauliZ, if_pos rfl]
      · rw [if_neg h2, if_neg h2, one_mul]
        by_cases h3 : q = P
        · rw [if_pos (by rw [h3]), if_pos h3, h3, Function.update_self]
        · rw [if_neg (fun h => h3 (Fin.ext h)), if_neg h3, Function.update_of_ne h3, Matrix.one_apply_eq]
    rw [Finset.prod_congr rfl fun q _ => h1 q, Finset.prod_mul_distrib, Finset.prod_ite_eq' Finset.univ P, if_pos (Finset.mem_univ _)]
    have h2 : ∏ q : Fin n, (if (q : ℕ) < p then (if x q then (-1 : ℂ) else 1) else 1) = (-1 : ℂ) ^ occupiedBefore (pad x) p := by
      have h3 : ∏ q : Fin n, (if (q : ℕ) < p then (if x q then (-1 : ℂ) else 1) else 1)
          = ∏ q ∈ Finset.range n, (if q < p then (if pad x q then (-1 : ℂ) else 1) else 1) := by
        rw [Finset.prod_range]
        exact Finset.prod_congr rfl fun q _ => by rw [pad_apply]
      rw [h3, Finset.prod_ite, Finset.prod_const_one, mul_one]
      have h4 : (Finset.range n).filter (fun q => q < p) = Finset.range p := by
        ext q; simp only [Finset.mem_filter, Finset.mem_range]; omega
      rw [h4, occupiedBefore]
      have h5 : ∀ m, ∏ q ∈ Finset.range m, (if pad x q then (-1 : ℂ) else 1) = (-1) ^ ((List.range m).filter fun q => pad x q).length := by
        intro m
        induction m with
        | zero => rfl
        | succ m ih =>
          rw [Finset.prod_range_succ, ih, List.range_succ, List.filter_append, List.length_append, pow_add]
          cases h : pad x m <;> simp [h]
      exact h5 p
    rw [h2, ladderOne]
    by_cases h6 : x P = b ∧ c = !b
    · rw [if_pos h6, if_pos h6, mul_one]
    · rw [if_neg h6, if_neg h6, mul_zero]
  rw [ladderTensor, sum_tensor_single _ P]
  · show (if pad x p = b then (-1 : ℂ) ^ occupiedBefore (pad x) p * ψ (Function.update (pad x) p (!b)) else 0) = _
    rw [Fintype.sum_bool]
    simp only [hu]
    have hx : pad x p = x P := pad_apply x P
    have hup : Function.update (pad x) p (!b) = pad (Function.update x P (!b)) := pad_update x P _
    rw [hx, hup]
    by_cases hb : x P = b
    · cases b <;> simp [hb]
    · simp [hb]
  · intro q hq c d hcd
    have hq' : ¬ (q : ℕ) = p := fun h => hq (Fin.ext h)
    by_cases h2 : (q : ℕ) < p
    · show (if (q : ℕ) < p then pauliZ else if (q : ℕ) = p then ladderOne b else 1) c d = 0
      rw [if_pos h2, pauliZ, if_neg hcd]
    · show (if (q : ℕ) < p then pauliZ else if (q : ℕ) = p then ladderOne b else 1) c d = 0
      rw [if_neg h2, if_neg hq', Matrix.one_apply_ne hcd]

theorem ladderSparse_spec (n : ℕ) (f : ℕ × Bool) (hf : f.1 < n) :
    ∃ M, ladderSparse n f.1 f.2 = .ok M ∧ M.rows = 2 ^ n ∧ M.cols = 2 ^ n ∧ M.onBits n = ladderTensor n f := by
  obtain ⟨p, b⟩ := f
  have hz : ∀ (k : ℕ) (m : Mat ℂ) (a : ℕ) (L : ℕ → Matrix Bool Bool ℂ), IsTensor m a 1 L →
      IsTensor ((List.replicate k (pauliMat .Z)).foldl Mat.kron m) (a + k) 1 (fun q => if q < a then L q else pauliZ) := by
    intro k
    induction k with
    | zero => intro m a L h; exact h.congr fun q hq => by rw [if_pos (by omega)]
    | succ k ih =>
      intro m a L h
      rw [List.replicate_succ, List.foldl_cons]
      have h1 := h.kron (isTensor_pauli .Z)
      rw [mul_one] at h1
      have h2 := ih _ _ _ h1
      rw [show a + 1 + k = a + (k + 1) by omega] at h2
      refine h2.congr fun q hq => ?_
      by_cases hq1 : q < a
      · rw [if_pos (by omega), if_pos hq1, if_pos hq1]
      · by_cases hq2 : q < a + 1
        · rw [if_pos hq2, if_neg hq1, if_neg hq1]; rfl
        · rw [if_neg hq2, if_neg hq1]
  have main : ∃ M, ladderSparse n p b = .ok M ∧
      IsTensor M n 1 (fun q => if q < p then pauliZ else if q = p then ladderOne b else 1) := by
    have he := isTensor_eye (n - p - 1)
    cases p with
    | zero =>
      refine ⟨_, rfl, ?_⟩
      have h1 := (isTensor_ladder b).kron he
      rw [mul_one, show 1 + (n - 0 - 1) = n by have := hf; simp only at this; omega] at h1
      refine h1.congr fun q hq => ?_
      by_cases hq0 : q = 0
      · rw [if_pos (by omega), if_neg (by omega), if_pos hq0]
      · rw [if_neg (by omega), if_neg (by omega), if_neg hq0]
    | succ p =>
      refine ⟨(List.replicate p (pauliMat .Z) ++ [ladderMat b] ++ [Mat.eye (2 ^ (n - (p + 1) - 1))]).foldl Mat.kron (pauliMat .Z), rfl, ?_⟩
      rw [List.foldl_append, List.foldl_append]
      have h1 := ((hz p _ _ _ (isTensor_pauli .Z)).kron (isTensor_ladder b)).kron he
      rw [mul_one, mul_one, show 1 + p + 1 + (n - (p + 1) - 1) = n by have := hf; simp only at this; omega] at h1
      refine h1.congr fun q hq => ?_
      by_cases hq1 : q < p + 1
      · rw [if_pos (by omega), if_pos (by omega), if_pos hq1]
        by_cases hq2 : q < 1
        · rw [if_pos hq2]; rfl
        · rw [if_neg hq2]
      · by_cases hq2 : q = p + 1
        · rw [if_pos (by omega), if_neg (by omega), if_neg hq1, if_pos hq2]
        · rw [if_neg (by omega), if_neg hq1, if_neg hq2]
  obtain ⟨M, h1, h2⟩ := main
  refine ⟨M, h1, h2.1, h2.2.1, ?_⟩
  rw [h2.onBits, one_smul]; rfl

theorem ladderLoop_spec (n : ℕ) (t : Term Bool) (m : Mat ℂ) (hm : m.rows = 2 ^ n ∧ m.cols = 2 ^ n) (hb : ∀ f ∈ t, f.1 < n) :
    ∃ M, ladderLoop n t m = .ok M ∧ M.rows = 2 ^ n ∧ M.cols = 2 ^ n ∧ M.onBits n = m.onBits n * matrixOf n (termAction ladderAction t) := by
  induction t generalizing m with
  | nil => exact ⟨m, rfl, hm.1, hm.2, by rw [termAction_nil, matrixOf_one, mul_one]⟩
  | cons f t ih =>
    have hf := hb f (List.mem_cons_self ..)
    obtain ⟨l, l1, l2, l3, l4⟩ := ladderSparse_spec n f hf
    obtain ⟨M, h1, h2, h3, h4⟩ := ih (m.mul l) ⟨hm.1, l3⟩ fun f hf => hb f (List.mem_cons_of_mem _ hf)
    refine ⟨M, ?_, h2, h3, ?_⟩
    · rw [ladderLoop, if_pos hf, l1]; exact h1
    · rw [h4, onBits_mul _ _ _ hm.2, l4, termAction_cons, matrixOf_mul (ladder_pad f hf), mul_assoc]

/-- C71: `jordan_wigner_sparse(op, n)` is the `2^n × 2^n` matrix of the fermion operator in the occupation-number basis, mode 0 most
significant; without `n` the number of modes of the operator is used. -/
theorem jordanWignerSparse_spec (o : Terms Bool) (nQubits : Option ℕ) (n : ℕ) (hn : nQubits.getD (countFermion o) = n) (hle : countFermion o ≤ n) :
    ∃ M, jordanWignerSparse o nQubits = .ok M ∧ M.rows = 2 ^ n ∧ M.cols = 2 ^ n ∧
      ∀ x y : Fin n → Bool, M.e (basisIndex x) (basisIndex y) = action ladderAction o (basisState (pad y)) (pad x) := by
  have hb : ∀ kv ∈ o, ∀ f ∈ kv.1, f.1 < n := fun kv hkv f hf => lt_of_lt_of_le (countFermion_bound o kv hkv f hf) hle
  have key : ∀ o' : Terms Bool, (∀ kv ∈ o', kv ∈ o) → ∃ ms : List (ℂ × Mat ℂ),
      o'.mapM (fun kv => (ladderLoop n kv.1 (Mat.smul kv.2 (Mat.eye (2 ^ n)))).map fun m => (kv.2, m)) = .ok ms ∧
      (∀ m ∈ ms, m.2.rows = 2 ^ n ∧ m.2.cols = 2 ^ n) ∧
      (((ms.filter fun cm => decide (cm.1 ≠ 0)).map Prod.snd).map fun m => m.onBits n).sum = matrixOf n (action ladderAction o') := by
    intro o' ho'
    induction o' with
    | nil => exact ⟨[], rfl, (by simp), rfl⟩
    | cons kv o' ih =>
      obtain ⟨ms, h1, h2, h3⟩ := ih fun kv hkv => ho' kv (List.mem_cons_of_mem _ hkv)
      have hkv := ho' kv (List.mem_cons_self ..)
      obtain ⟨M, g1, g2, g3, g4⟩ := ladderLoop_spec n kv.1 (Mat.smul kv.2 (Mat.eye (2 ^ n))) ⟨rfl, rfl⟩ (hb kv hkv)
      refine ⟨(kv.2, M) :: ms, ?_, ?_, ?_⟩
      · rw [List.mapM_cons, g1, h1]; rfl
      · intro m hm
        rcases List.mem_cons.1 hm with rfl | hm
        · exact ⟨g2, g3⟩
        · exact h2 m hm
      · rw [action_cons, matrixOf_add, matrixOf_smul]
        rw [onBits_smul, onBits_eye, smul_mul_assoc, one_mul] at g4
        by_cases hc : kv.2 = 0
        · rw [List.filter_cons_of_neg (by simp [hc]), h3, hc, zero_smul, zero_add]
        · rw [List.filter_cons_of_pos (by simp [hc]), List.map_cons, List.map_cons, List.sum_cons, h3, ← g4]
  obtain ⟨ms, h1, h2, h3⟩ := key o fun _ hkv => hkv
  obtain ⟨R, r1, r2, r3, r4⟩ := ofTriplets_spec (2 ^ n) ((ms.filter fun cm : ℂ × Mat ℂ => decide (cm.1 ≠ 0)).map Prod.snd) fun m hm => by
    obtain ⟨cm, hcm, rfl⟩ := List.mem_map.1 hm
    exact h2 cm (List.mem_filter.1 hcm).1
  refine ⟨R, ?_, r2, r3, fun x y => ?_⟩
  · rw [jordanWignerSparse, hn]
    show (do
      let ms ← o.mapM fun kv : Term Bool × ℂ => (ladderLoop n kv.1 (Mat.smul kv.2 (Mat.eye (2 ^ n)))).map fun m => (kv.2, m)
      ofTriplets (2 ^ n) (((ms.filter fun cm : ℂ × Mat ℂ => decide (cm.1 ≠ 0)).map Prod.snd).flatMap cscData)
        (((ms.filter fun cm : ℂ × Mat ℂ => decide (cm.1 ≠ 0)).map Prod.snd).flatMap fun m => (cooNonzero m).map Prod.fst)
        (((ms.filter fun cm : ℂ × Mat ℂ => decide (cm.1 ≠ 0)).map Prod.snd).flatMap fun m => (cooNonzero m).map Prod.snd)) = _
    rw [h1]; exact r1
  · rw [r4 _ (basisIndex_lt x) _ (basisIndex_lt y)]
    have : ∀ ms : List (Mat ℂ), (ms.map fun m => m.onBits n).sum x y = (ms.map fun m => m.e (basisIndex x) (basisIndex y)).sum := by
      intro ms
      induction ms with
      | nil => rfl
      | cons m ms ih => rw [List.map_cons, List.sum_cons, Matrix.add_apply, ih]; rfl
    rw [← this, h3]; rfl

theorem ladderLoop_error (n : ℕ) (t : Term Bool) (m : Mat ℂ) (hb : ∃ f ∈ t, n ≤ f.1) : ladderLoop n t m = .error .indexError := by
  induction t generalizing m with
  | nil => obtain ⟨f, hf, _⟩ := hb; cases hf
  | cons f t ih =>
    by_cases hf : f.1 < n
    · obtain ⟨l, l1, _⟩ := ladderSparse_spec n f hf
      rw [ladderLoop, if_pos hf, l1]
      obtain ⟨g, hg, hgn⟩ := hb
      rcases List.mem_cons.1 hg with rfl | hg
      · omega
      · exact ih (m.mul l) ⟨g, hg, hgn⟩
    · rw [ladderLoop, if_neg hf]

/-- C71: an operator with a mode outside the register raises `IndexError`. -/
theorem jordanWignerSparse_rejects (o : Terms Bool) (n : ℕ) (h : ∃ kv ∈ o, ∃ f ∈ kv.1, n ≤ f.1) :
    jordanWignerSparse o (some n) = .error .indexError := by
  have key : ∀ o' : Terms Bool, (∃ kv ∈ o', ∃ f ∈ kv.1, n ≤ f.1) →
      o'.mapM (fun kv => (ladderLoop n kv.1 (Mat.smul kv.2 (Mat.eye (2 ^ n)))).map fun m => (kv.2, m)) = .error .indexError := by
    intro o'
    induction o' with
    | nil => rintro ⟨kv, hkv, _⟩; cases hkv
    | cons kv o' ih =>
      intro h
      rw [List.mapM_cons]
      by_cases hkv : ∃ f ∈ kv.1, n ≤ f.1
      · rw [ladderLoop_error n kv.1 _ hkv]; rfl
      · push Not at hkv
        obtain ⟨M, g1, _⟩ := ladderLoop_spec n kv.1 (Mat.smul kv.2 (Mat.eye (2 ^ n))) ⟨rfl, rfl⟩ hkv
        obtain ⟨kv', hm, f, hf, hfn⟩ := h
        rcases List.mem_cons.1 hm with rfl | hm
        · exact absurd (hkv f hf) (by omega)
        · rw [g1, ih ⟨kv', hm, f, hf, hfn⟩]; rfl
  rw [jordanWignerSparse]
  show (do
      let ms ← o.mapM fun kv : Term Bool × ℂ => (ladderLoop n kv.1 (Mat.smul kv.2 (Mat.eye (2 ^ n)))).map fun m => (kv.2, m)
      ofTriplets (2 ^ n) (((ms.filter fun cm : ℂ × Mat ℂ => decide (cm.1 ≠ 0)).map Prod.snd).flatMap cscData)
        (((ms.filter fun cm : ℂ × Mat ℂ => decide (cm.1 ≠ 0)).map Prod.snd).flatMap fun m => (cooNonzero m).map Prod.fst)
        (((ms.filter fun cm : ℂ × Mat ℂ => decide (cm.1 ≠ 0)).map Prod.snd).flatMap fun m => (cooNonzero m).map Prod.snd)) = _
  rw [key o h]; rfl

/-- C71: the sparse matrix of a fermion operator is the sparse matrix of its Jordan-Wigner transform (coefficients on the grid of C46, so that
nothing is dropped as small). -/
theorem jordanWignerSparse_eq (o : Terms Bool) (δ : ℝ) (hδ : 1 / 10 ^ 8 ≤ δ) (hg : ∀ kv ∈ o, kv.2 ∈ Grid (2 ^ kv.1.length * δ))
    (n : ℕ) (h1 : countFermion o ≤ n) (h2 : countQubit (jordanWigner o) ≤ n) :
    ∃ M M', jordanWignerSparse o (some n) = .ok M ∧ qubitOperatorSparse (jordanWigner o) (some n) = .ok M' ∧
      M.rows = M'.rows ∧ M.cols = M'.cols ∧ ∀ i < 2 ^ n, ∀ j < 2 ^ n, M.e i j = M'.e i j := by
  obtain ⟨M, a1, a2, a3, a4⟩ := jordanWignerSparse_spec o (some n) n rfl h1
  obtain ⟨M', b1, b2, b3, b4⟩ := qubitOperatorSparse_elements (jordanWigner_error o).1 n h2
  refine ⟨M, M', a1, b1, by rw [a2, b2], by rw [a3, b3], fun i hi j hj => ?_⟩
  have := a4 (bitsOf n i) (bitsOf n j)
  rw [← jordanWigner_action o δ hδ hg, ← b4] at this
  rwa [basisIndex_bitsOf n i hi, basisIndex_bitsOf n j hj] at this

/-! ## C60 -/

theorem mem_combinations {α : Type} (l : List α) (k : ℕ) (c : List α) : c ∈ combinations l k ↔ c.Sublist l ∧ c.length = k := by
  induction l generalizing k c with
  | nil =>
    cases k with
    | zero => simp [combinations]
    | succ k =>
      simp only [combinations, List.not_mem_nil, List.sublist_nil, false_iff]
      rintro ⟨rfl, h⟩
      simp at h
  | cons a l ih =>
    cases k with
    | zero =>
      simp only [combinations, List.mem_singleton]
      constructor
      · rintro rfl; exact ⟨List.nil_sublist _, rfl⟩
      · rintro ⟨_, h⟩; exact List.length_eq_zero_iff.1 h
    | succ k =>
      simp only [combinations, List.mem_append, List.mem_map, ih]
      constructor
      · rintro (⟨d, ⟨h1, h2⟩, rfl⟩ | ⟨h1, h2⟩)
        · exact ⟨h1.cons_cons a, by simp [h2]⟩
        · exact ⟨h1.cons a, h2⟩
      · rintro ⟨h1, h2⟩
        cases h1 with
        | cons _ h => exact Or.inr ⟨h, h2⟩
        | cons_cons _ h => exact Or.inl ⟨_, ⟨h, by simpa using h2⟩, rfl⟩

theorem nodup_combinations {α : Type} {l : List α} (h : l.Nodup) (k : ℕ) : (combinations l k).Nodup := by
  induction l generalizing k with
  | nil => cases k <;> simp [combinations]
  | cons a l ih =>
    have hn := List.nodup_cons.1 h
    cases k with
    | zero => simp [combinations]
    | succ k =>
      rw [combinations, List.nodup_append]
      refine ⟨(ih hn.2 k).map fun x y h => by simpa using h, ih hn.2 (k + 1), ?_⟩
      intro x hx y hy hxy
      obtain ⟨d, _, rfl⟩ := List.mem_map.1 hx
      rw [mem_combinations] at hy
      exact hn.1 (hy.1.subset (hxy ▸ List.mem_cons_self ..))

theorem length_combinations {α : Type} (l : List α) (k : ℕ) : (combinations l k).length = l.length.choose k := by
  induction l generalizing k with
  | nil => cases k <;> simp [combinations]
  | cons a l ih =>
    cases k with
    | zero => simp [combinations]
    | succ k => simp [combinations, ih, Nat.choose_succ_succ]

theorem popcount_eq_bitIndices (n : ℕ) : popcount n = n.bitIndices.length := by
  induction n using Nat.strongRecOn with
  | ind n ih =>
    rcases Nat.eq_zero_or_pos n with rfl | h
    · simp
    · rw [popcount_eq, ih (n / 2) (by omega)]
      rcases Nat.mod_two_eq_zero_or_one n with h0 | h0
      · conv_rhs => rw [show n = 2 * (n / 2) by omega]
        rw [Nat.bitIndices_two_mul, List.length_map, h0, Nat.zero_add]
      · conv_rhs => rw [show n = 2 * (n / 2) + 1 by omega]
        rw [Nat.bitIndices_two_mul_add_one, List.length_cons, List.length_map, h0, Nat.add_comm]

theorem sublist_range_iff (c : List ℕ) (n : ℕ) : c.Sublist (List.range n) ↔ c.Pairwise (· < ·) ∧ ∀ i ∈ c, i < n := by
  constructor
  · intro h
    exact ⟨List.Pairwise.sublist h List.pairwise_lt_range, fun i hi => List.mem_range.1 (h.subset hi)⟩
  · rintro ⟨h1, h2⟩
    have h3 : c.Pairwise (· ≤ ·) := h1.imp le_of_lt
    have h4 : (List.range n).Pairwise (· ≤ ·) := List.pairwise_lt_range.imp le_of_lt
    have h5 : c.Subperm (List.range n) := List.subperm_of_subset (h1.imp ne_of_lt) fun i hi => List.mem_range.2 (h2 i hi)
    exact List.sublist_of_subperm_of_pairwise h5 h3 h4

theorem lt_two_pow_iff_bitIndices (i n : ℕ) : i < 2 ^ n ↔ ∀ j ∈ i.bitIndices, j < n := by
  constructor
  · intro h j hj
    exact (Nat.pow_lt_pow_iff_right (by norm_num)).1 (lt_of_le_of_lt (Nat.two_pow_le_of_mem_bitIndices hj) h)
  · intro h
    apply Nat.lt_pow_two_of_testBit
    intro j hj
    by_contra hne
    have : j ∈ i.bitIndices := by rw [Nat.mem_bitIndices]; simpa using hne
    have := h j this
    omega

/-- C60: `jw_number_indices(k, n)` lists exactly the basis indices below `2^n` with `k` one bits, each once; there are `n choose k`. A negative
`k` raises `ValueError`. -/
theorem jwNumberIndices_spec (k n : ℕ) :
    ∃ l, jwNumberIndices k n = .ok l ∧ l.Nodup ∧ (∀ i, i ∈ l ↔ i < 2 ^ n ∧ popcount i = k) ∧ l.length = n.choose k := by
  refine ⟨_, by rw [jwNumberIndices, if_neg (by omega)], ?_, fun i => ?_, by rw [List.length_map, length_combinations]; simp⟩
  · refine List.Nodup.map_on ?_ (nodup_combinations List.nodup_range _)
    intro x hx y hy h
    rw [mem_combinations, sublist_range_iff] at hx hy
    rw [← Nat.bitIndices_sum_map_two_pow hx.1.1.sortedLT, h, Nat.bitIndices_sum_map_two_pow hy.1.1.sortedLT]
  · rw [List.mem_map, popcount_eq_bitIndices, lt_two_pow_iff_bitIndices]
    constructor
    · rintro ⟨c, hc, rfl⟩
      rw [mem_combinations, sublist_range_iff] at hc
      rw [Nat.bitIndices_sum_map_two_pow hc.1.1.sortedLT]
      exact ⟨hc.1.2, by simpa using hc.2⟩
    · rintro ⟨h1, h2⟩
      refine ⟨i.bitIndices, ?_, Nat.sum_map_two_pow_bitIndices i⟩
      rw [mem_combinations, sublist_range_iff]
      exact ⟨⟨Nat.bitIndices_sorted.pairwise, h1⟩, by simpa using h2⟩

/-- C60: a negative particle number raises `ValueError`. -/
theorem jwNumberIndices_negative (k : ℤ) (n : ℕ) (h : k < 0) : jwNumberIndices k n = .error .valueError := if_pos h

/-- The basis states of the number sector, in terms of occupations. -/
theorem popcount_basisIndex {n : ℕ} (x : Fin n → Bool) : popcount (basisIndex x) = (Finset.univ.filter fun q => x q = true).card := by
  have key : ∀ (m : ℕ) (s : ℕ → Bool), popcount (nidx m s) = ((Finset.range m).filter fun q => s q = true).card := by
    intro m s
    induction m with
    | zero => simp [nidx]
    | succ m ih =>
      rw [popcount_eq, nidx, Finset.range_add_one, Finset.filter_insert]
      have e1 : (2 * nidx m s + (s m).toNat) / 2 = nidx m s := by cases s m <;> simp <;> omega
      have e2 : (2 * nidx m s + (s m).toNat) % 2 = (s m).toNat := by cases s m <;> simp [Nat.add_mod]
      rw [e1, e2, ih]
      cases h : s m
      · simp
      · simp [Nat.add_comm]
  rw [basisIndex_eq_nidx, key]
  symm
  apply Finset.card_bij (fun (q : Fin n) _ => (q : ℕ))
  · intro q hq
    simp only [Finset.mem_filter, Finset.mem_univ, true_and, Finset.mem_range] at hq ⊢
    exact ⟨q.2, by rw [pad_apply]; exact hq⟩
  · intro a _ b _ h; exact Fin.ext h
  · intro q hq
    simp only [Finset.mem_filter, Finset.mem_range] at hq
    refine ⟨⟨q, hq.1⟩, ?_, rfl⟩
    simp only [Finset.mem_filter, Finset.mem_univ, true_and]
    have := hq.2
    rwa [pad, dif_pos hq.1] at this

/-- C60: `jw_configuration_state` sets exactly the basis state in which the given modes are occupied. -/
theorem jwConfigurationState_spec (occ : List ℕ) (n : ℕ) (hn : occ.Nodup) (hb : ∀ i ∈ occ, i < n) :
    ∃ v, jwConfigurationState occ n = .ok v ∧ v.dim = 2 ^ n ∧
      ∀ x : Fin n → Bool, v.e (basisIndex x) = if ∀ q : Fin n, x q = true ↔ (q : ℕ) ∈ occ then 1 else 0 := by
  have hidx : (occ.map fun i => 2 ^ (n - 1 - i)).sum = basisIndex fun q : Fin n => decide ((q : ℕ) ∈ occ) := by
    rw [basisIndex]
    have h1 : (occ.map fun i => 2 ^ (n - 1 - i)).sum = ∑ i ∈ occ.toFinset, 2 ^ (n - 1 - i) := (List.sum_toFinset _ hn).symm
    have h2 : ∑ q : Fin n, (if decide ((q : ℕ) ∈ occ) = true then 2 ^ (n - 1 - (q : ℕ)) else 0)
        = ∑ q ∈ Finset.range n, if decide (q ∈ occ) = true then 2 ^ (n - 1 - q) else 0 :=
      (Finset.sum_range fun q => if decide (q ∈ occ) = true then 2 ^ (n - 1 - q) else 0).symm
    rw [h1, h2, ← Finset.sum_filter]
    apply Finset.sum_congr _ fun _ _ => rfl
    ext q
    simp only [List.mem_toFinset, Finset.mem_filter, Finset.mem_range, decide_eq_true_eq]
    exact ⟨fun h => ⟨hb q h, h⟩, fun h => h.2⟩
  refine ⟨⟨2 ^ n, fun i => if i = (occ.map fun i => 2 ^ (n - 1 - i)).sum then 1 else 0⟩, ?_, rfl, fun x => ?_⟩
  · rw [jwConfigurationState, if_neg (not_not.2 hb)]
    show (if _ then _ else _) = _
    rw [if_pos (by rw [hidx]; exact basisIndex_lt _)]
  · show (if basisIndex x = _ then _ else _) = _
    rw [hidx]
    by_cases h : ∀ q : Fin n, x q = true ↔ (q : ℕ) ∈ occ
    · rw [if_pos h, if_pos]
      congr 1; funext q
      rw [Bool.eq_iff_iff, h q, decide_eq_true_eq]
    · rw [if_neg h, if_neg]
      intro he
      apply h
      intro q
      rw [basisIndex_injective he, decide_eq_true_eq]

/-- C60: a mode outside the register raises `IndexError`. -/
theorem jwConfigurationState_rejects (occ : List ℕ) (n : ℕ) (h : ∃ i ∈ occ, n ≤ i) : jwConfigurationState occ n = .error .indexError := by
  rw [jwConfigurationState, if_pos]
  intro hb
  obtain ⟨i, hi, hin⟩ := h
  exact absurd (hb i hi) (by omega)

/-- C60: the Hartree-Fock state occupies the first modes. -/
theorem jwHartreeFockState_spec (k n : ℕ) (h : k ≤ n) :
    ∃ v, jwHartreeFockState k n = .ok v ∧ v.dim = 2 ^ n ∧
      ∀ x : Fin n → Bool, v.e (basisIndex x) = if ∀ q : Fin n, x q = true ↔ (q : ℕ) < k then 1 else 0 := by
  obtain ⟨v, h1, h2, h3⟩ := jwConfigurationState_spec (List.range k) n List.nodup_range fun i hi => lt_of_lt_of_le (List.mem_range.1 hi) h
  exact ⟨v, h1, h2, fun x => by rw [h3]; simp only [List.mem_range]⟩

/-- C60: the restriction to a number sector keeps exactly the entries between basis states of the sector. -/
theorem jwNumberRestrict_spec (M : Mat ℂ) (k n : ℕ) (h1 : M.rows = 2 ^ n) (h2 : M.cols = 2 ^ n) :
    ∃ R sel, jwNumberRestrict M k n = .ok R ∧ jwNumberIndices k n = .ok sel ∧ R.rows = n.choose k ∧ R.cols = n.choose k ∧
      ∀ a b (ha : a < sel.length) (hb : b < sel.length), R.e a b = M.e sel[a] sel[b] := by
  obtain ⟨sel, s1, s2, s3, s4⟩ := jwNumberIndices_spec k n
  refine ⟨⟨sel.length, sel.length, fun a b => M.e (sel.getD a 0) (sel.getD b 0)⟩, sel, ?_, s1, s4, s4, ?_⟩
  · rw [jwNumberRestrict, s1]
    show (if ∀ i ∈ sel, i < M.rows ∧ i < M.cols then _ else _) = _
    rw [if_pos]
    intro i hi
    rw [h1, h2]
    exact ⟨((s3 i).1 hi).1, ((s3 i).1 hi).1⟩
  · intro a b ha hb
    show M.e (sel.getD a 0) (sel.getD b 0) = _
    rw [List.getD_eq_getElem _ _ ha, List.getD_eq_getElem _ _ hb]

/-! ### concrete cases -/

/-- An operator with a gap, a `Y`, and a constant meets the hypotheses of C64 on four qubits. -/
example : CanonicalOp [([(0, .Y), (2, .Z)], 2), ([], -1)] ∧ countQubit [([(0, .Y), (2, .Z)], 2), ([], -1)] ≤ 4 := by
  refine ⟨⟨by simp [WF, PyDict.keys], ?_⟩, by decide +kernel⟩
  intro t ht
  simp only [PyDict.keys, List.map_cons, List.map_nil, List.mem_cons, List.not_mem_nil, or_false] at ht
  rcases ht with rfl | rfl
  · exact ⟨by simp, by simp⟩
  · exact ⟨by simp, by simp⟩

example : countFermion [([(3, true), (1, false)], 2), ([], 5)] = 4 := by decide +kernel

example : jwNumberIndices 2 4 = .ok [3, 5, 9, 6, 10, 12] := by decide +kernel

example : [0, 2].Nodup ∧ ∀ i ∈ [0, 2], i < 3 := by decide

end ZQ.Sparse
