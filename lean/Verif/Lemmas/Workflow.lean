import Verif.Model.Workflow
import Verif.Lemmas.InteractionOp
import Verif.Props.Files

/-! Arrays of interaction operators, and what steps save. -/

namespace ZQ.Workflow

open ZQ ZQ.Op ZQ.PolyT ZQ.Files ZQ.ArraySerde ZQ.Results

/-! ### Arrays -/

theorem place_from (n : ℕ) (idx : List ℕ) (a : ℕ) : idx.foldl (fun a i => a * n + i) a = a * n ^ idx.length + place n idx := by
  induction idx generalizing a with
  | nil => simp [place]
  | cons i idx ih =>
    have h : place n (i :: idx) = (0 * n + i) * n ^ idx.length + place n idx := by rw [place, List.foldl_cons, ih]
    rw [List.foldl_cons, ih, h, List.length_cons, pow_succ]
    ring

theorem place_cons (n i : ℕ) (idx : List ℕ) : place n (i :: idx) = i * n ^ idx.length + place n idx := by
  rw [place, List.foldl_cons, place_from]; simp

theorem length_allIndices (n d : ℕ) : (allIndices n d).length = n ^ d := by
  induction d with
  | zero => rfl
  | succ d ih => rw [allIndices, List.length_flatMap]; simp [ih, pow_succ, mul_comm]

theorem getElem?_flatMap {α β : Type} (f : α → List β) (N : ℕ) (hf : ∀ x, (f x).length = N) {j : ℕ} (hj : j < N) :
    ∀ (l : List α) (i : ℕ), (l.flatMap f)[i * N + j]? = (l[i]?).bind fun x => (f x)[j]?
  | [], i => by simp
  | x :: l, 0 => by
    rw [List.flatMap_cons, zero_mul, zero_add, List.getElem?_append_left (by rw [hf]; exact hj)]; rfl
  | x :: l, i + 1 => by
    rw [List.flatMap_cons, List.getElem?_append_right (by rw [hf, Nat.succ_mul]; omega), hf, List.getElem?_cons_succ, ← getElem?_flatMap f N hf hj l i]
    congr 1
    rw [Nat.succ_mul]; omega

theorem place_lt {n : ℕ} : ∀ {idx : List ℕ}, (∀ i ∈ idx, i < n) → place n idx < n ^ idx.length
  | [], _ => by simp [place]
  | i :: idx, h => by
    rw [place_cons, List.length_cons, pow_succ]
    have h1 := h i (by simp)
    have h2 := place_lt (n := n) (idx := idx) fun j hj => h j (by simp [hj])
    calc i * n ^ idx.length + place n idx < i * n ^ idx.length + n ^ idx.length := by omega
      _ = (i + 1) * n ^ idx.length := by ring
      _ ≤ n ^ idx.length * n := by rw [mul_comm]; exact Nat.mul_le_mul_left _ h1

theorem allIndices_place {n : ℕ} : ∀ {idx : List ℕ}, (∀ i ∈ idx, i < n) → (allIndices n idx.length)[place n idx]? = some idx
  | [], _ => rfl
  | i :: idx, h => by
    have h1 := h i (by simp)
    have h2 : ∀ j ∈ idx, j < n := fun j hj => h j (by simp [hj])
    have ih := allIndices_place h2
    rw [place_cons, List.length_cons, allIndices, getElem?_flatMap _ (n ^ idx.length) (fun x => by rw [List.length_map, length_allIndices]) (place_lt h2),
      List.getElem?_range h1]
    show (List.map (fun x => i :: x) (allIndices n idx.length))[place n idx]? = _
    rw [List.getElem?_map, ih]; rfl

/-- The entries of an array that is made from entries. -/
theorem entries_arrayFrom {n d : ℕ} (t : Tensor) (b : Bool) {idx : List ℕ} (h : InRange n d idx) : entries n (arrayFrom n d t b) idx = t idx := by
  obtain ⟨rfl, hi⟩ := h
  rw [entries, arrayFrom, List.getD_eq_getElem?_getD, List.getElem?_map, allIndices_place hi]; rfl

theorem entries_back (n : ℕ) (a : NDArray) : entries n (back a) = entries n a := rfl

theorem arrayFrom_fine {n d : ℕ} (hn : 0 < n) (t : Tensor) : Fine (arrayFrom n d t true) := by
  refine ⟨⟨?_, fun h => by cases h⟩, fun k hk => ?_⟩
  · rw [arrayFrom, List.length_map, length_allIndices, List.prod_replicate]
  · have := List.eq_of_mem_replicate (List.dropLast_subset _ hk)
    omega

/-! ### Saving -/

/-- A save function, inside a step: the file holds the object afterwards, and nothing else changes. -/
theorem save_spec (fs : FS) (name : String) (a : Artefact) (h : Plain (record a)) :
    ∃ fs', save fs name a = .ok fs' ∧ Holds fs' name.toList a ∧ ∀ p, p ≠ name.toList → fs' p = fs p := by
  obtain ⟨h1, h2⟩ := saveTo_holds fs (.str name.toList) a (p := name.toList) rfl h
  refine ⟨(saveTo fs (.str name.toList) a).1, ?_, ⟨_, h, h2⟩, fun p hp => saveTo_other fs _ a fun e => hp (Eq.symm e)⟩
  rw [save]
  cases hs : saveTo fs (.str name.toList) a with
  | mk f e => rw [hs] at h1; obtain rfl : e = none := h1; rfl

theorem plain_timing (x : ℝ) : Plain (record (.timing x)) := plain_dict (by
  simp only [List.mem_cons, List.not_mem_nil, or_false, forall_eq_or_imp, forall_eq]
  exact ⟨plain_txt _, plain_num _⟩)

theorem plain_wavefunction (amps : List ℂ) : Plain (record (.wavefunction amps)) := plain_dict (by
  simp only [List.mem_cons, List.not_mem_nil, or_false, forall_eq_or_imp, forall_eq]
  exact ⟨plain_txt _, plain_array _⟩)

theorem plain_rdm (one two : NDArray) : Plain (record (.rdm one two)) := plain_dict (by
  simp only [List.mem_cons, List.not_mem_nil, or_false, forall_eq_or_imp, forall_eq]
  exact ⟨plain_txt _, plain_array _, plain_array _⟩)

theorem plain_qubitOps (os : List ((Term Letter → Bool) × Terms Letter)) : Plain (record (.qubitOps os)) := plain_dict (by
  simp only [List.mem_cons, List.not_mem_nil, or_false, forall_eq_or_imp, forall_eq]
  refine ⟨plain_txt _, plain_list fun x hx => ?_⟩
  obtain ⟨d, _, rfl⟩ := List.mem_map.1 hx
  exact plain_op d)

theorem plain_expectation (e : ExpectationValues) : Plain (record (.expectation e)) := plain_dict (by
  intro kv hkv
  simp only [List.mem_append, List.mem_cons, List.not_mem_nil, or_false] at hkv
  rcases hkv with ((rfl | rfl | rfl) | hkv) | hkv
  · exact plain_txt _
  · exact plain_list (by simp)
  · exact plain_array _
  · exact plain_arraysField _ _ kv hkv
  · exact plain_arraysField _ _ kv hkv)

/-! ### Operators in files -/

theorem kept_spec {δ : ℝ} (hδ : 1 / 10 ^ 8 ≤ δ) {o : Terms Letter} (ho : CanonicalOp o) (hg : OnGrid δ o) :
    CanonicalOp (OpSerde.kept o) ∧ action pauliAction (OpSerde.kept o) = action pauliAction o ∧ (∀ kv ∈ OpSerde.kept o, 1 / 10 ^ 8 ≤ ‖kv.2‖) ∧
      ∀ kv ∈ OpSerde.kept o, kv ∈ o := by
  have hδ0 : 0 ≤ δ := le_trans (by norm_num) hδ
  refine ⟨⟨ho.1.sublist (List.Sublist.map _ List.filter_sublist), fun t ht => ho.2 t ?_⟩, ?_, fun kv hkv => ?_, fun kv hkv => (List.mem_filter.1 hkv).1⟩
  · obtain ⟨kv, hkv, rfl⟩ := List.mem_map.1 ht
    exact List.mem_map_of_mem (List.mem_filter.1 hkv).1
  · have hz : ∀ kv ∈ o, ¬ ‖kv.2‖ < 1 / 10 ^ 8 ∨ kv.2 = 0 := fun kv hkv => by
      by_cases h0 : kv.2 = 0
      · exact Or.inr h0
      · refine Or.inl (not_lt.2 (hδ.trans (Grid.norm_ge hδ0 ?_ h0)))
        rw [← coeff_of_mem ho.1 hkv]; exact hg kv.1
    have key : ∀ o' : Terms Letter, (∀ kv ∈ o', ¬ ‖kv.2‖ < 1 / 10 ^ 8 ∨ kv.2 = 0) → action pauliAction (OpSerde.kept o') = action pauliAction o' := by
      intro o'
      induction o' with
      | nil => intro _; rfl
      | cons kv o' ih =>
        intro h
        have ih := ih fun kv' h' => h kv' (by simp [h'])
        rw [OpSerde.kept] at ih ⊢
        rw [List.filter_cons]
        split
        · rw [action_cons, action_cons, ih]
        · next hc =>
          rw [action_cons, ih]
          rcases h kv (by simp) with h1 | h1
          · exact absurd (decide_eq_true h1) hc
          · rw [h1, zero_smul, zero_add]
    exact key o hz
  · exact not_lt.1 (of_decide_eq_true (List.mem_filter.1 hkv).2)

end ZQ.Workflow
