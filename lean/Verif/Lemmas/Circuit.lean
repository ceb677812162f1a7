import Verif.Spec.Circuit
import Verif.Lemmas.GateStruct

/-! Helpers about circuits. -/

namespace ZQ.Circuits

open Gates Matrix

theorem GateOp.lifted_spec {n : ℕ} {op : GateOp} (h : op.Valid n) (ρ : String → ℂ) :
    ∃ L, op.liftedMatrix ρ n = .ok L ∧ L.rows = 2 ^ n ∧ L.cols = 2 ^ n ∧ L.onBits n = op.operator n ρ := by
  obtain ⟨h0, h1, h2, h3, h4⟩ := h
  have hs := Gate.shape h4 ρ
  rw [← h3] at hs
  obtain ⟨L, e, r, c, s⟩ := liftMatrix_onBits (op.gate.matrix ρ)
    (fun i : Fin op.qubits.length => (⟨op.qubits[i], h2 _ (List.getElem_mem _)⟩ : Fin n))
    (List.length_pos_iff.2 h0)
    (by
      intro a b hab
      have := (Fin.mk.injEq _ _ _ _).mp hab
      exact Fin.ext ((List.Nodup.getElem_inj_iff h1).1 this)) hs.1 hs.2
  refine ⟨L, ?_, r, c, ?_⟩
  · unfold GateOp.liftedMatrix
    have : (List.ofFn fun i : Fin op.qubits.length =>
        ((⟨op.qubits[i], h2 _ (List.getElem_mem _)⟩ : Fin n) : ℕ)) = op.qubits := by
      exact List.ofFn_getElem
    rw [← e, this]
  · rw [s]
    unfold GateOp.operator
    rw [dif_pos h2]

theorem foldl_mul_spec {n : ℕ} (rest : List (Mat ℂ)) (a : Mat ℂ) (ha : a.rows = 2 ^ n ∧ a.cols = 2 ^ n)
    (hr : ∀ m ∈ rest, m.rows = 2 ^ n ∧ m.cols = 2 ^ n) :
    (rest.foldl Mat.mul a).rows = 2 ^ n ∧ (rest.foldl Mat.mul a).cols = 2 ^ n ∧
      (rest.foldl Mat.mul a).onBits n = a.onBits n * (rest.map fun m => m.onBits n).prod := by
  induction rest generalizing a with
  | nil => exact ⟨ha.1, ha.2, by simp⟩
  | cons b rest ih =>
    have hb := hr b (by simp)
    obtain ⟨h1, h2, h3⟩ := ih (a.mul b) ⟨ha.1, hb.2⟩ (fun m hm => hr m (by simp [hm]))
    refine ⟨h1, h2, ?_⟩
    rw [List.foldl_cons, h3, onBits_mul a b n ha.2, List.map_cons, List.prod_cons, mul_assoc]

theorem mapM_lifted {n : ℕ} (ρ : String → ℂ) (ops : List GateOp) (h : ∀ op ∈ ops, op.Valid n) :
    ∃ Ls : List (Mat ℂ), ops.mapM (fun op => op.liftedMatrix ρ n) = Except.ok Ls ∧ Ls.length = ops.length ∧
      (∀ m ∈ Ls, m.rows = 2 ^ n ∧ m.cols = 2 ^ n) ∧ Ls.map (fun m => m.onBits n) = ops.map (GateOp.operator n ρ) := by
  induction ops with
  | nil => exact ⟨[], rfl, rfl, by simp, rfl⟩
  | cons op ops ih =>
    obtain ⟨L, e, r, c, s⟩ := GateOp.lifted_spec (h op (by simp)) ρ
    obtain ⟨Ls, e2, l2, sh2, m2⟩ := ih (fun o ho => h o (by simp [ho]))
    refine ⟨L :: Ls, ?_, by simp [l2], ?_, by simp [s, m2]⟩
    · rw [List.mapM_cons, e, e2]; rfl
    · intro m hm
      rcases List.mem_cons.1 hm with rfl | hm
      · exact ⟨r, c⟩
      · exact sh2 m hm

theorem toUnitary_ok (c : Circuit) (ρ : String → ℂ) (hne : c.ops ≠ []) (h : ∀ op ∈ c.ops, op.Valid c.n) :
    ∃ U, c.toUnitary ρ = .ok U ∧ U.rows = 2 ^ c.n ∧ U.cols = 2 ^ c.n ∧
      U.onBits c.n = (c.ops.reverse.map (GateOp.operator c.n ρ)).prod := by
  obtain ⟨Ls, e, l, sh, m⟩ := mapM_lifted (n := c.n) ρ c.ops.reverse (fun op hop => h op (List.mem_reverse.1 hop))
  cases Ls with
  | nil =>
    exfalso
    apply hne
    rw [List.length_nil] at l
    have := List.length_eq_zero_iff.1 l.symm
    simpa using this
  | cons a rest =>
    obtain ⟨h1, h2, h3⟩ := foldl_mul_spec (n := c.n) rest a (sh a (by simp)) (fun m hm => sh m (by simp [hm]))
    refine ⟨rest.foldl Mat.mul a, ?_, h1, h2, ?_⟩
    · unfold Circuit.toUnitary
      rw [e]; rfl
    · rw [h3, ← m, List.map_cons, List.prod_cons]

theorem mulVec_onBits (A : Mat ℂ) (v : Vec ℂ) (n : ℕ) (hc : A.cols = 2 ^ n) :
    (A.mulVec v).onBits n = A.onBits n *ᵥ v.onBits n := by
  funext x
  simp only [Vec.onBits, Mat.mulVec, Matrix.mulVec, dotProduct, hc, Mat.onBits]
  exact sum_range_eq_sum_bits n _

theorem apply_spec {n : ℕ} (op : GateOp) (h : op.Valid n) (ρ : String → ℂ) (v : Vec ℂ) (hv : v.dim = 2 ^ n) :
    ∃ w, op.apply ρ v = .ok w ∧ w.dim = 2 ^ n ∧ w.onBits n = op.operator n ρ *ᵥ v.onBits n := by
  obtain ⟨L, e, r, c, s⟩ := GateOp.lifted_spec h ρ
  refine ⟨L.mulVec v, ?_, r, ?_⟩
  · unfold GateOp.apply
    have hlog : Nat.log2 v.dim = n := by rw [hv, Nat.log2_two_pow]
    rw [hlog, if_neg (by rw [hv]; positivity), if_neg (by rw [hv]; simp), e]
    rfl
  · rw [mulVec_onBits _ _ _ c, s]

theorem make_natCast_pos (ops : List GateOp) (n : ℕ) (hn : n ≠ 0) : Circuit.make ops (some (n : ℚ)) = .ok ⟨ops, n⟩ := by
  unfold Circuit.make
  have h1 : (n : ℚ) ≠ 0 := by exact_mod_cast hn
  have h2 : pyInt (n : ℚ) = n := by
    unfold pyInt
    rw [if_pos (by positivity)]
    simp
  simp only [h2]
  rw [if_pos h1, if_neg (by simp), if_neg (by omega)]
  simp

theorem make_natCast (ops : List GateOp) (n : ℕ) (h : n = 0 → ops = []) : Circuit.make ops (some (n : ℚ)) = .ok ⟨ops, n⟩ := by
  by_cases hn : n = 0
  · subst hn
    rw [h rfl]
    simp [Circuit.make, sizeByOperations, Except.map]
  · exact make_natCast_pos ops n hn

/-- `free_symbols` on the flattened symbol list. -/
theorem freeSymbols_eq (c : Circuit) : c.freeSymbols = (c.ops.flatMap GateOp.freeSymbols).foldl Circuit.addSymbol [] := by
  unfold Circuit.freeSymbols
  rw [List.foldl_flatMap]

theorem addSymbol_spec (flat : List String) :
    (flat.foldl Circuit.addSymbol []).Nodup ∧ (∀ s, s ∈ flat.foldl Circuit.addSymbol [] ↔ s ∈ flat) ∧
      (flat.foldl Circuit.addSymbol []).Pairwise (fun s t => flat.idxOf s < flat.idxOf t) := by
  induction flat using List.reverseRecOn with
  | nil => simp
  | append_singleton l a ih =>
    obtain ⟨h1, h2, h3⟩ := ih
    rw [List.foldl_append, List.foldl_cons, List.foldl_nil]
    have hpw : (l.foldl Circuit.addSymbol []).Pairwise (fun s t => (l ++ [a]).idxOf s < (l ++ [a]).idxOf t) := by
      refine List.Pairwise.imp_of_mem ?_ h3
      intro s t hs ht hst
      rw [List.idxOf_append_of_mem ((h2 s).1 hs), List.idxOf_append_of_mem ((h2 t).1 ht)]
      exact hst
    generalize l.foldl Circuit.addSymbol [] = acc at *
    unfold Circuit.addSymbol
    split
    · rename_i hmem
      refine ⟨h1, ?_, hpw⟩
      intro s
      rw [h2 s, List.mem_append, List.mem_singleton]
      constructor
      · exact Or.inl
      · rintro (h | rfl)
        · exact h
        · exact (h2 s).1 hmem
    · rename_i hmem
      refine ⟨?_, ?_, ?_⟩
      · rw [List.nodup_append]
        refine ⟨h1, by simp, ?_⟩
        intro x hx y hy hxy
        rw [List.mem_singleton] at hy
        subst hy; subst hxy
        exact hmem hx
      · intro s
        rw [List.mem_append, List.mem_append, List.mem_singleton]
        exact or_congr (h2 s) Iff.rfl
      · rw [List.pairwise_append]
        refine ⟨hpw, by simp, ?_⟩
        intro s hs t ht
        rw [List.mem_singleton] at ht
        subst ht
        have hs' := (h2 s).1 hs
        have hna : t ∉ l := fun h => hmem ((h2 t).2 h)
        rw [List.idxOf_append_of_mem hs', List.idxOf_append_of_notMem hna]
        have := List.idxOf_lt_length_of_mem hs'
        omega

/-- Runs produced by `groupby`. -/
theorem groupby_spec {α β : Type} [DecidableEq β] (key : α → β) (l : List α) :
    ((groupby key l).flatMap Prod.snd = l) ∧
    (∀ kg ∈ groupby key l, kg.2 ≠ [] ∧ ∀ a ∈ kg.2, key a = kg.1) ∧
    (groupby key l).IsChain (fun x y => x.1 ≠ y.1) := by
  induction l with
  | nil => simp [groupby]
  | cons a l ih =>
    obtain ⟨h1, h2, h3⟩ := ih
    unfold groupby
    cases hg : groupby key l with
    | nil =>
      rw [hg] at h1
      simp only [List.flatMap_nil] at h1
      subst h1
      simp
    | cons kg rest =>
      obtain ⟨k, g⟩ := kg
      rw [hg] at h1 h2 h3
      simp only
      split
      · rename_i hk
        refine ⟨?_, ?_, ?_⟩
        · rw [← h1]; simp
        · intro kg' hkg'
          rcases List.mem_cons.1 hkg' with rfl | h
          · refine ⟨by simp, ?_⟩
            intro b hb
            rcases List.mem_cons.1 hb with rfl | hb
            · exact hk
            · exact (h2 (k, g) (by simp)).2 b hb
          · exact h2 kg' (by simp [h])
        · cases rest with
          | nil => simp
          | cons y rest =>
            rw [List.isChain_cons_cons] at h3 ⊢
            exact h3
      · rename_i hk
        refine ⟨?_, ?_, ?_⟩
        · rw [← h1]; simp
        · intro kg' hkg'
          rcases List.mem_cons.1 hkg' with rfl | h
          · simp
          · exact h2 kg' h
        · rw [List.isChain_cons_cons]
          exact ⟨hk, h3⟩

end ZQ.Circuits
