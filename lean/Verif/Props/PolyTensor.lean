import Verif.Lemmas.PolyTensor
import Verif.Props.SymOp
import Verif.Props.NormalOrder

/-! C53: arithmetic of polynomial tensors. -/

namespace ZQ.PolyT

open ZQ ZQ.Op ZQ.PyDict
open scoped BigOperators

theorem end_neg_smul (c : ℂ) (A : Module.End ℂ State) : (-c) • A = -(c • A) := by
  apply LinearMap.ext; intro ψ
  rw [LinearMap.smul_apply, LinearMap.neg_apply, LinearMap.smul_apply, neg_smul]

theorem end_sub_smul (c d : ℂ) (A : Module.End ℂ State) : (c - d) • A = c • A - d • A := by
  apply LinearMap.ext; intro ψ
  rw [LinearMap.smul_apply, LinearMap.sub_apply, LinearMap.smul_apply, LinearMap.smul_apply, sub_smul]

theorem end_one_smul (A : Module.End ℂ State) : (1 : ℂ) • A = A := by
  apply LinearMap.ext; intro ψ
  rw [LinearMap.smul_apply, one_smul]

/-- Two arrays combined where both are stored. -/
def combine (g : Tensor → Tensor → Tensor) : Option Tensor → Option Tensor → Option Tensor
  | some t, some u => some (g t u)
  | some t, none => some t
  | none, u => u

theorem foldl_step (st : PyDict Key Tensor → Key × Tensor → PyDict Key Tensor) (g : Tensor → Tensor → Tensor)
    (hst : ∀ d kv, st d kv = match get? d kv.1 with
      | some t => set d kv.1 (g t kv.2)
      | none => set d kv.1 kv.2) :
    ∀ (l d : PyDict Key Tensor), (keys l).Nodup → (keys d).Nodup →
      (keys (l.foldl st d)).Nodup ∧ ∀ k, get? (l.foldl st d) k = combine g (get? d k) (get? l k) := by
  intro l
  induction l with
  | nil => intro d _ hd; exact ⟨hd, fun k => by rw [List.foldl_nil]; cases get? d k <;> rfl⟩
  | cons kv l ih =>
    intro d hl hd
    rw [keys, List.map_cons, List.nodup_cons] at hl
    rw [List.foldl_cons]
    have hn : (keys (st d kv)).Nodup := by
      rw [hst]; split <;> exact nodup_set hd _ _
    have hg : ∀ k, get? (st d kv) k = if kv.1 = k then combine g (get? d kv.1) (some kv.2) else get? d k := by
      intro k
      rw [hst]
      cases h : get? d kv.1 with
      | some t => show get? (set d kv.1 (g t kv.2)) k = _; rw [get?_set]; rfl
      | none => show get? (set d kv.1 kv.2) k = _; rw [get?_set]; rfl
    obtain ⟨h1, h2⟩ := ih (st d kv) hl.2 hn
    refine ⟨h1, fun k => ?_⟩
    rw [h2 k, hg k]
    obtain ⟨k', t'⟩ := kv
    show _ = combine g (get? d k) (if k' = k then some t' else get? l k)
    by_cases hk : k' = k
    · subst hk
      rw [if_pos rfl, if_pos rfl, (get?_eq_none_iff l k').2 hl.1]
      cases get? d k' <;> rfl
    · rw [if_neg hk, if_neg hk]

/-- C53: the sum of two tensors of the same dimension adds coefficients, arrays that are missing in one operand counting as zero. -/
theorem iadd_spec {T U : PolyTensor} (hT : Valid T) (hU : Valid U) (hn : T.n = U.n) :
    ∃ R, iadd T U = .ok R ∧ Valid R ∧ R.n = T.n ∧ (∀ k, k ∈ keys R.tensors ↔ k ∈ keys T.tensors ∨ k ∈ keys U.tensors) ∧
      (∀ k i, value R k i = value T k i + value U k i) ∧ polyAction R = polyAction T + polyAction U := by
  obtain ⟨h1, h2⟩ := foldl_step iaddStep (fun t u i => t i + u i) (fun d kv => rfl) U.tensors T.tensors hU hT
  have hval : ∀ k i, value ⟨T.n, U.tensors.foldl iaddStep T.tensors⟩ k i = value T k i + value U k i := by
    intro k i
    rw [value, value, value, h2 k]
    cases get? T.tensors k <;> cases get? U.tensors k <;> simp [combine]
  have hk : ∀ k, k ∈ keys (U.tensors.foldl iaddStep T.tensors) ↔ k ∈ keys T.tensors ∨ k ∈ keys U.tensors := by
    intro k
    rw [mem_keys_iff, mem_keys_iff, mem_keys_iff]
    simp only [h2 k]
    cases get? T.tensors k <;> cases get? U.tensors k <;> simp [combine]
  refine ⟨⟨T.n, U.tensors.foldl iaddStep T.tensors⟩, if_neg (not_not.2 hn), h1, rfl, hk, hval, ?_⟩
  have hR : Valid ⟨T.n, U.tensors.foldl iaddStep T.tensors⟩ := h1
  rw [polyAction_eq hR ((keys T.tensors).toFinset ∪ (keys U.tensors).toFinset) (fun k h => by
      have := (hk k).1 h
      simpa using this),
    polyAction_eq hT ((keys T.tensors).toFinset ∪ (keys U.tensors).toFinset) (fun k h => by simp [h]),
    polyAction_eq hU ((keys T.tensors).toFinset ∪ (keys U.tensors).toFinset) (fun k h => by simp [h]), ← Finset.sum_add_distrib]
  refine Finset.sum_congr rfl fun k _ => ?_
  rw [← hn, ← tensorAction_add]
  exact tensorAction_congr fun i _ => hval k i

/-- C53: adding or subtracting tensors of different dimension is rejected. -/
theorem iadd_rejects {T U : PolyTensor} (hn : T.n ≠ U.n) : iadd T U = .error .typeError ∧ isub T U = .error .typeError ∧ imulTensor T U = .error .typeError := by
  refine ⟨?_, ?_, ?_⟩
  · rw [iadd, if_pos hn]
  · rw [isub, if_pos hn]
  · rw [imulTensor, if_pos hn]

/-- C53 (partial): what `-=` does.  The difference is right wherever the left operand stores an array; an array stored only by the right
operand is taken over without changing its sign.  The full claim (`value R k i = value T k i - value U k i` for every key) is refuted by
`isub_counterexample`. -/
theorem isub_partial {T U : PolyTensor} (hT : Valid T) (hU : Valid U) (hn : T.n = U.n) :
    ∃ R, isub T U = .ok R ∧ Valid R ∧ R.n = T.n ∧ (∀ k, k ∈ keys R.tensors ↔ k ∈ keys T.tensors ∨ k ∈ keys U.tensors) ∧
      (∀ k ∈ keys T.tensors, ∀ i, value R k i = value T k i - value U k i) ∧ (∀ k, k ∉ keys T.tensors → ∀ i, value R k i = value U k i) ∧
      ((∀ k ∈ keys U.tensors, k ∈ keys T.tensors) → polyAction R = polyAction T - polyAction U) := by
  obtain ⟨h1, h2⟩ := foldl_step isubStep (fun t u i => t i - u i) (fun d kv => rfl) U.tensors T.tensors hU hT
  have hval : ∀ k ∈ keys T.tensors, ∀ i, value ⟨T.n, U.tensors.foldl isubStep T.tensors⟩ k i = value T k i - value U k i := by
    intro k hk i
    obtain ⟨t, ht⟩ := (mem_keys_iff _ _).1 hk
    rw [value, value, value, h2 k, ht]
    cases get? U.tensors k <;> simp [combine]
  have hk : ∀ k, k ∈ keys (U.tensors.foldl isubStep T.tensors) ↔ k ∈ keys T.tensors ∨ k ∈ keys U.tensors := by
    intro k
    rw [mem_keys_iff, mem_keys_iff, mem_keys_iff]
    simp only [h2 k]
    cases get? T.tensors k <;> cases get? U.tensors k <;> simp [combine]
  refine ⟨⟨T.n, U.tensors.foldl isubStep T.tensors⟩, if_neg (not_not.2 hn), h1, rfl, hk, hval, ?_, ?_⟩
  · intro k hk i
    rw [value, value, h2 k, (get?_eq_none_iff _ _).2 hk]; rfl
  · intro hsub
    have hR : Valid ⟨T.n, U.tensors.foldl isubStep T.tensors⟩ := h1
    rw [polyAction_eq hR (keys T.tensors).toFinset (fun k h => by
        rcases (hk k).1 h with h | h
        · simpa using h
        · simpa using hsub k h),
      polyAction_eq hT (keys T.tensors).toFinset (fun k h => by simpa using h),
      polyAction_eq hU (keys T.tensors).toFinset (fun k h => by simpa using hsub k h), ← Finset.sum_sub_distrib]
    refine Finset.sum_congr rfl fun k hkm => ?_
    have : tensorAction T.n k (value ⟨T.n, U.tensors.foldl isubStep T.tensors⟩ k) = tensorAction T.n k fun i => value T k i + (-1) * value U k i :=
      tensorAction_congr fun i _ => by rw [hval k (List.mem_toFinset.1 hkm) i]; ring
    show tensorAction T.n k (value ⟨T.n, U.tensors.foldl isubStep T.tensors⟩ k) = _
    rw [this, tensorAction_add, tensorAction_smul, ← hn, end_neg_smul, end_one_smul, sub_eq_add_neg]

/-- C53: the unchanged code gives `a - b` with the coefficient of `a†_0 a_0` equal to `+1` although `a` has none and `b` has `1`. -/
theorem isub_counterexample : ∃ T U R : PolyTensor, Valid T ∧ Valid U ∧ T.n = U.n ∧ isub T U = .ok R ∧
    value T [true, false] [0, 0] = 0 ∧ value U [true, false] [0, 0] = 1 ∧ value R [true, false] [0, 0] = 1 := by
  refine ⟨⟨1, [([true, true, false, false], fun _ => 0)]⟩, ⟨1, [([true, false], fun _ => 1)]⟩,
    ⟨1, [([true, true, false, false], fun _ => 0), ([true, false], fun _ => 1)]⟩, ?_, ?_, rfl, ?_, ?_, ?_, ?_⟩
  · show (keys [_]).Nodup; exact List.nodup_singleton _
  · show (keys [_]).Nodup; exact List.nodup_singleton _
  · rw [isub, if_neg (by simp)]; rfl
  · rfl
  · rfl
  · rfl

theorem get?_map (f : Key → Tensor → Tensor) (d : PyDict Key Tensor) (k : Key) : get? (d.map fun kv => (kv.1, f kv.1 kv.2)) k = (get? d k).map (f k) := by
  induction d with
  | nil => rfl
  | cons kv d ih =>
    obtain ⟨k', t⟩ := kv
    rw [List.map_cons]
    show (if k' = k then some (f k' t) else get? (d.map fun kv => (kv.1, f kv.1 kv.2)) k) = (if k' = k then some t else get? d k).map (f k)
    by_cases h : k' = k
    · subst h; rw [if_pos rfl, if_pos rfl]; rfl
    · rw [if_neg h, if_neg h, ih]

theorem keys_map (f : Key → Tensor → Tensor) (d : PyDict Key Tensor) : keys (d.map fun kv => (kv.1, f kv.1 kv.2)) = keys d := by
  rw [keys, keys, List.map_map]; rfl

theorem value_map (T : PolyTensor) (f : Key → Tensor → Tensor) (n : ℕ) (k : Key) (i : List ℕ) :
    value ⟨n, T.tensors.map fun kv => (kv.1, f kv.1 kv.2)⟩ k i = ((get? T.tensors k).map fun t => f k t i).getD 0 := by
  rw [value, get?_map, Option.map_map]; rfl

theorem polyAction_map {T : PolyTensor} (f : Tensor → Tensor) (c : ℂ) (hf : ∀ t i, f t i = c * t i) :
    polyAction ⟨T.n, T.tensors.map fun kv => (kv.1, f kv.2)⟩ = c • polyAction T := by
  rw [polyAction, polyAction, List.map_map, List.smul_sum, List.map_map]
  congr 1
  apply List.map_congr_left
  intro kv _
  show tensorAction T.n kv.1 (f kv.2) = c • tensorAction T.n kv.1 kv.2
  rw [← tensorAction_smul]
  exact tensorAction_congr fun i _ => hf _ _

/-- C53: multiplication by a number. -/
theorem imulScalar_spec (T : PolyTensor) (c : ℂ) :
    (Valid T → Valid (imulScalar T c)) ∧ (imulScalar T c).n = T.n ∧ (∀ k i, value (imulScalar T c) k i = value T k i * c) ∧ polyAction (imulScalar T c) = c • polyAction T := by
  refine ⟨fun h => ?_, rfl, fun k i => ?_, ?_⟩
  · rw [Valid, imulScalar, keys_map fun _ t i => t i * c]; exact h
  · rw [imulScalar, value_map T fun _ t i => t i * c, value]
    cases get? T.tensors k <;> simp
  · exact polyAction_map (T := T) (fun t i => t i * c) c fun t i => mul_comm _ _

/-- C53: division by a number different from zero. -/
theorem idivScalar_spec (T : PolyTensor) {c : ℂ} (hc : c ≠ 0) :
    ∃ R, idivScalar T c = .ok R ∧ (Valid T → Valid R) ∧ R.n = T.n ∧ (∀ k i, value R k i = value T k i / c) ∧ c • polyAction R = polyAction T := by
  refine ⟨_, if_neg hc, fun h => ?_, rfl, fun k i => ?_, ?_⟩
  · rw [Valid, keys_map fun _ t i => t i / c]; exact h
  · rw [value_map T fun _ t i => t i / c, value]
    cases get? T.tensors k <;> simp
  · rw [polyAction_map (T := T) (fun t i => t i / c) (1 / c) fun t i => by ring, smul_smul, mul_one_div_cancel hc, end_one_smul]

/-- C53: negation. -/
theorem neg_spec (T : PolyTensor) (h : ∃ k ∈ keys T.tensors, k ≠ []) :
    ∃ R, neg T = .ok R ∧ (Valid T → Valid R) ∧ R.n = T.n ∧ (∀ k i, value R k i = -value T k i) ∧ polyAction R = -polyAction T := by
  have hm : ¬ (mapTensors T fun x => -x).all (fun kv => decide (kv.1 = [])) = true := by
    rw [List.all_eq_true]
    intro hall
    obtain ⟨k, hk, hne⟩ := h
    obtain ⟨kv, hkv, rfl⟩ := List.mem_map.1 hk
    exact hne (of_decide_eq_true (hall (kv.1, fun i => -kv.2 i) (List.mem_map.2 ⟨kv, hkv, rfl⟩)))
  refine ⟨_, if_neg hm, fun h => ?_, rfl, fun k i => ?_, ?_⟩
  · rw [Valid, mapTensors, keys_map fun _ t i => -t i]; exact h
  · rw [mapTensors, value_map T fun _ t i => -t i, value]
    cases get? T.tensors k <;> simp
  · rw [mapTensors, polyAction_map (T := T) (fun t i => -t i) (-1) fun t i => by ring, end_neg_smul, end_one_smul]

/-- C53: the element-wise product of two tensors. -/
theorem imulTensor_spec {T U : PolyTensor} (hn : T.n = U.n) :
    ∃ R, imulTensor T U = .ok R ∧ (Valid T → Valid R) ∧ R.n = T.n ∧ ∀ k i, value R k i = value T k i * value U k i := by
  refine ⟨_, if_neg (not_not.2 hn), fun h => ?_, rfl, fun k i => ?_⟩
  · rw [Valid, keys_map (mulEntry U)]; exact h
  · rw [value_map T (mulEntry U), value, value]
    simp only [mulEntry]
    cases get? T.tensors k <;> cases get? U.tensors k <;> simp

theorem termAction_zip_nil (i : List ℕ) : termAction ladderAction (i.zip ([] : Key)) = 1 := by
  rw [List.zip_nil_right]; rfl

theorem tensorAction_const (n : ℕ) (t : Tensor) : tensorAction n [] t = t [] • 1 := by
  rw [tensorAction_eq]
  show ([t [] • termAction ladderAction ([] : Term Bool)] : List _).sum = _
  rw [List.sum_singleton]; rfl

/-- C53: the constant is the coefficient of the empty product, and assigning it changes nothing else. -/
theorem setConstant_spec {T : PolyTensor} (h : Valid T) (c : ℂ) :
    Valid (setConstant T c) ∧ (setConstant T c).n = T.n ∧ value (setConstant T c) [] [] = c ∧ (∀ k i, k ≠ [] → value (setConstant T c) k i = value T k i) ∧
      constant T = value T [] [] ∧ polyAction (setConstant T c) = polyAction T + (c - constant T) • 1 := by
  have hval : value (setConstant T c) [] [] = c := by rw [setConstant, value, get?_set, if_pos rfl]; rfl
  have hoth : ∀ k i, k ≠ [] → value (setConstant T c) k i = value T k i := fun k i hk => by
    rw [setConstant, value, get?_set, if_neg (Ne.symm hk)]; rfl
  have hv : Valid (setConstant T c) := nodup_set h _ _
  refine ⟨hv, rfl, hval, hoth, rfl, ?_⟩
  have hK : ∀ k ∈ keys (setConstant T c).tensors, k ∈ insert [] (keys T.tensors).toFinset := fun k hk => by
    rw [setConstant, mem_keys_iff] at hk
    simp only [get?_set] at hk
    by_cases hke : k = []
    · simp [hke]
    · rw [if_neg (Ne.symm hke)] at hk
      simpa [hke] using (mem_keys_iff _ _).2 hk
  rw [polyAction_eq hv _ hK, polyAction_eq h (insert [] (keys T.tensors).toFinset) (fun k hk => by simp [hk]),
    ← Finset.add_sum_erase _ _ (Finset.mem_insert_self _ _), ← Finset.add_sum_erase (a := []) _ _ (Finset.mem_insert_self _ _),
    tensorAction_const, tensorAction_const, hval]
  have hs : ∑ k ∈ (insert [] (keys T.tensors).toFinset).erase [], tensorAction (setConstant T c).n k (value (setConstant T c) k) =
      ∑ k ∈ (insert [] (keys T.tensors).toFinset).erase [], tensorAction T.n k (value T k) := by
    refine Finset.sum_congr rfl fun k hk => ?_
    exact tensorAction_congr fun i _ => hoth k i (Finset.mem_erase.1 hk).1
  rw [hs, end_sub_smul, show constant T = value T [] [] from rfl]
  abel

/-- C53: adding, subtracting a number, and subtracting from a number. -/
theorem scalar_spec {T : PolyTensor} (h : Valid T) (c : ℂ) :
    polyAction (iaddScalar T c) = polyAction T + c • 1 ∧ polyAction (isubScalar T c) = polyAction T - c • 1 ∧ polyAction (rsubScalar T c) = c • 1 - polyAction T ∧
    (∀ k i, k ≠ [] → value (iaddScalar T c) k i = value T k i ∧ value (isubScalar T c) k i = value T k i ∧ value (rsubScalar T c) k i = -value T k i) ∧
    value (iaddScalar T c) [] [] = value T [] [] + c ∧ value (isubScalar T c) [] [] = value T [] [] - c ∧ value (rsubScalar T c) [] [] = c - value T [] [] := by
  have hm := imulScalar_spec T (-1)
  have hmv := hm.1 h
  have hc : constant (imulScalar T (-1)) = -constant T := by
    show value (imulScalar T (-1)) [] [] = -value T [] []
    rw [hm.2.2.1]; ring
  refine ⟨?_, ?_, ?_, ?_, ?_, ?_, ?_⟩
  · rw [iaddScalar, (setConstant_spec h _).2.2.2.2.2, add_sub_cancel_left]
  · rw [isubScalar, (setConstant_spec h _).2.2.2.2.2, sub_sub_cancel_left, end_neg_smul, sub_eq_add_neg]
  · rw [rsubScalar, iaddScalar, (setConstant_spec hmv _).2.2.2.2.2, add_sub_cancel_left, hm.2.2.2, end_neg_smul, end_one_smul]; abel
  · intro k i hk
    refine ⟨(setConstant_spec h _).2.2.2.1 k i hk, (setConstant_spec h _).2.2.2.1 k i hk, ?_⟩
    rw [rsubScalar, iaddScalar, (setConstant_spec hmv _).2.2.2.1 k i hk, hm.2.2.1]; ring
  · exact (setConstant_spec h _).2.2.1
  · exact (setConstant_spec h _).2.2.1
  · rw [rsubScalar, iaddScalar, (setConstant_spec hmv _).2.2.1, hc]
    show -value T [] [] + c = _
    ring

/-- Two tensors with different keys meet the hypotheses of the arithmetic theorems. -/
example : ∃ T U : PolyTensor, Valid T ∧ Valid U ∧ T.n = U.n ∧ (∃ k ∈ keys T.tensors, k ≠ []) ∧ (∃ k ∈ keys U.tensors, k ∉ keys T.tensors) ∧
    value T [true, false] [0, 1] = 1 ∧ value U [true, true, false, false] [0, 1, 0, 1] = 2 :=
  ⟨⟨2, [([true, false], fun _ => 1)]⟩, ⟨2, [([], fun _ => 3), ([true, true, false, false], fun _ => 2)]⟩,
    (by show ([[true, false]] : List Key).Nodup; decide), (by show ([[], [true, true, false, false]] : List Key).Nodup; decide), rfl,
    ⟨_, List.mem_singleton.2 rfl, by decide⟩, ⟨[], by simp [keys], by simp [keys]⟩, rfl, rfl⟩

end ZQ.PolyT
