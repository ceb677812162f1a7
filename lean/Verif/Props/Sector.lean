import Verif.Spec.Sector
import Verif.Props.Sparse
import Verif.Props.Tapering
import Verif.Lemmas.NormalClosed
import Verif.Lemmas.ExceptList
import Verif.Props.NumberConserving
import Mathlib.Data.List.Sort
import Mathlib.Data.Finset.Card

/-! # C91: sparse matrices in a symmetry sector -/

namespace ZQ.Sector

open ZQ ZQ.Op PyDict

/-! ### Determinants and sets of occupied modes -/

theorem mem_occupied {d : Det} {i : ℕ} : i ∈ occupied d ↔ d.getD i false = true := by
  rw [occupied, Finset.mem_filter, Finset.mem_range]
  refine ⟨fun h => h.2, fun h => ⟨?_, h⟩⟩
  by_contra hi
  rw [List.getD_eq_default _ _ (by omega)] at h
  cases h

theorem occupied_lt {d : Det} {i : ℕ} (h : i ∈ occupied d) : i < d.length := by
  rw [occupied, Finset.mem_filter, Finset.mem_range] at h; exact h.1

theorem det_ext {d e : Det} (h1 : d.length = e.length) (h2 : occupied d = occupied e) : d = e := by
  refine List.ext_getElem h1 fun i hd he => ?_
  have h := Finset.ext_iff.1 h2 i
  rw [mem_occupied, mem_occupied, List.getD_eq_getElem _ _ hd, List.getD_eq_getElem _ _ he] at h
  exact Bool.eq_iff_iff.2 h

theorem length_setAll (d : Det) (l : List ℕ) (v : Bool) : (setAll d l v).length = d.length := by
  induction l generalizing d with
  | nil => rfl
  | cons i l ih => rw [setAll, List.foldl_cons]; exact (ih _).trans (by simp)

theorem getD_set (d : Det) (i j : ℕ) (v : Bool) : (d.set i v).getD j false = if i = j ∧ j < d.length then v else d.getD j false := by
  simp only [List.getD_eq_getElem?_getD, List.getElem?_set]
  by_cases h : i = j
  · subst h
    by_cases h' : i < d.length
    · simp [h']
    · simp [h', List.getElem?_eq_none (Nat.le_of_not_lt h')]
  · simp [h]

theorem getD_setAll (d : Det) (l : List ℕ) (v : Bool) (j : ℕ) : (setAll d l v).getD j false = if j ∈ l ∧ j < d.length then v else d.getD j false := by
  induction l generalizing d with
  | nil => simp [setAll]
  | cons i l ih =>
    have := ih (d.set i v)
    rw [setAll, List.foldl_cons]
    refine this.trans ?_
    rw [getD_set, List.length_set]
    by_cases h1 : j ∈ l <;> by_cases h2 : i = j <;> by_cases h3 : j < d.length <;> simp [h1, h2, h3, eq_comm]
    all_goals (intro h; exact absurd h.symm h2)

theorem mem_setAll_false (d : Det) (l : List ℕ) (j : ℕ) : j ∈ occupied (setAll d l false) ↔ j ∈ occupied d ∧ j ∉ l := by
  rw [mem_occupied, mem_occupied, getD_setAll]
  by_cases h : j ∈ l ∧ j < d.length
  · rw [if_pos h]; simp [h.1]
  · rw [if_neg h]
    refine ⟨fun hd => ⟨hd, fun hl => h ⟨hl, ?_⟩⟩, fun hd => hd.1⟩
    exact occupied_lt (mem_occupied.2 hd)

theorem mem_setAll_true (d : Det) (l : List ℕ) (hl : ∀ i ∈ l, i < d.length) (j : ℕ) : j ∈ occupied (setAll d l true) ↔ j ∈ occupied d ∨ j ∈ l := by
  rw [mem_occupied, mem_occupied, getD_setAll]
  by_cases h : j ∈ l
  · rw [if_pos ⟨h, hl j h⟩]; simp [h]
  · rw [if_neg fun e => h e.1]; simp [h]

/-! ### The list of basis states -/

theorem mem_whereIs {b : Bool} {d : Det} {i : ℕ} : i ∈ whereIs b d ↔ d[i]? = some b := by
  rw [whereIs, List.mem_filter, List.mem_range, decide_eq_true_iff]
  refine ⟨fun h => h.2, fun h => ⟨?_, h⟩⟩
  by_contra hi
  rw [List.getElem?_eq_none (Nat.le_of_not_lt hi)] at h
  cases h

theorem nodup_whereIs (b : Bool) (d : Det) : (whereIs b d).Nodup := List.nodup_range.filter _

theorem mem_whereIs_true {d : Det} {i : ℕ} : i ∈ whereIs true d ↔ i ∈ occupied d := by
  rw [mem_whereIs, mem_occupied, List.getD_eq_getElem?_getD]
  cases h : d[i]? <;> simp

theorem mem_whereIs_false {d : Det} {i : ℕ} : i ∈ whereIs false d ↔ i < d.length ∧ i ∉ occupied d := by
  rw [mem_whereIs, mem_occupied, List.getD_eq_getElem?_getD]
  by_cases hi : i < d.length
  · simp [hi]
  · simp [hi, List.getElem?_eq_none (Nat.le_of_not_lt hi)]

theorem filter_mem_sublist {α : Type} [DecidableEq α] {l o : List α} (h : o.Sublist l) (hn : l.Nodup) : l.filter (fun x => decide (x ∈ o)) = o := by
  induction h with
  | slnil => rfl
  | cons a h ih =>
    rw [List.nodup_cons] at hn
    rw [List.filter_cons, if_neg (by simpa using fun e => hn.1 (h.subset e))]
    exact ih hn.2
  | cons_cons a h ih =>
    rw [List.nodup_cons] at hn
    rw [List.filter_cons, if_pos (by simp)]
    congr 1
    refine (List.filter_congr fun x hx => ?_).trans (ih hn.2)
    have : x ≠ a := fun e => hn.1 (e ▸ hx)
    simp [this]

theorem sublist_eq {α : Type} [DecidableEq α] {l o o' : List α} (h : o.Sublist l) (h' : o'.Sublist l) (hn : l.Nodup) (he : ∀ x, x ∈ o ↔ x ∈ o') : o = o' := by
  rw [← filter_mem_sublist h hn, ← filter_mem_sublist h' hn]
  exact List.filter_congr fun x _ => by simp [he x]

/-- The occupied modes after one excitation. -/
theorem mem_excited {ref : Det} {o u : List ℕ} (ho : ∀ i ∈ o, i ∈ occupied ref) (hu : ∀ i ∈ u, i < ref.length ∧ i ∉ occupied ref) (j : ℕ) :
    j ∈ occupied (setAll (setAll ref o false) u true) ↔ (j ∈ occupied ref ∧ j ∉ o) ∨ j ∈ u := by
  rw [mem_setAll_true _ _ (fun i hi => by rw [length_setAll]; exact (hu i hi).1), mem_setAll_false]

theorem card_toList {l : List ℕ} (hn : l.Nodup) {S : Finset ℕ} (h : ∀ i, i ∈ l ↔ i ∈ S) : S.card = l.length := by
  rw [← List.toFinset_card_of_nodup hn]
  congr 1
  ext i
  rw [List.mem_toFinset, h]

/-- C91, all determinants at a fixed excitation rank, each once. -/
theorem order_spec (ref : Det) (k : ℕ) : (iterateOrder ref k).Nodup ∧
    ∀ d, d ∈ iterateOrder ref k ↔ d.length = ref.length ∧ (occupied ref \ occupied d).card = k ∧ (occupied d \ occupied ref).card = k := by
  have hsub : ∀ {o u : List ℕ}, o.Sublist (whereIs true ref) → u.Sublist (whereIs false ref) →
      (∀ i, i ∈ o ↔ i ∈ occupied ref \ occupied (setAll (setAll ref o false) u true)) ∧
      ∀ i, i ∈ u ↔ i ∈ occupied (setAll (setAll ref o false) u true) \ occupied ref := by
    intro o u ho hu
    have ho' : ∀ i ∈ o, i ∈ occupied ref := fun i hi => mem_whereIs_true.1 (ho.subset hi)
    have hu' : ∀ i ∈ u, i < ref.length ∧ i ∉ occupied ref := fun i hi => mem_whereIs_false.1 (hu.subset hi)
    constructor
    · intro i
      rw [Finset.mem_sdiff, mem_excited ho' hu']
      constructor
      · intro hi
        refine ⟨ho' i hi, ?_⟩
        rintro (h | h)
        · exact h.2 hi
        · exact (hu' i h).2 (ho' i hi)
      · rintro ⟨h1, h2⟩
        by_contra hi
        exact h2 (Or.inl ⟨h1, hi⟩)
    · intro i
      rw [Finset.mem_sdiff, mem_excited ho' hu']
      constructor
      · intro hi; exact ⟨Or.inr hi, (hu' i hi).2⟩
      · rintro ⟨h | h, h2⟩
        · exact absurd h.1 h2
        · exact h
  refine ⟨?_, fun d => ?_⟩
  · rw [iterateOrder, List.nodup_flatMap]
    refine ⟨fun o ho => ?_, ?_⟩
    · rw [Sparse.mem_combinations] at ho
      refine List.Nodup.map_on ?_ (Sparse.nodup_combinations (nodup_whereIs false ref) k)
      intro u hu u' hu' he
      rw [Sparse.mem_combinations] at hu hu'
      refine sublist_eq hu.1 hu'.1 (nodup_whereIs false ref) fun x => ?_
      rw [(hsub ho.1 hu.1).2, (hsub ho.1 hu'.1).2, he]
    · refine (Sparse.nodup_combinations (nodup_whereIs true ref) k).imp_of_mem ?_
      intro o o' ho ho' hne d hd hd'
      rw [Sparse.mem_combinations] at ho ho'
      obtain ⟨u, hu, rfl⟩ := List.mem_map.1 hd
      obtain ⟨u', hu', he⟩ := List.mem_map.1 hd'
      rw [Sparse.mem_combinations] at hu hu'
      refine hne (sublist_eq ho.1 ho'.1 (nodup_whereIs true ref) fun x => ?_)
      rw [(hsub ho.1 hu.1).1, (hsub ho'.1 hu'.1).1, he]
  · rw [iterateOrder]
    constructor
    · intro hd
      obtain ⟨o, ho, hd⟩ := List.mem_flatMap.1 hd
      obtain ⟨u, hu, rfl⟩ := List.mem_map.1 hd
      rw [Sparse.mem_combinations] at ho hu
      obtain ⟨h1, h2⟩ := hsub ho.1 hu.1
      refine ⟨by rw [length_setAll, length_setAll], ?_, ?_⟩
      · rw [card_toList ((nodup_whereIs true ref).sublist ho.1) h1, ho.2]
      · rw [card_toList ((nodup_whereIs false ref).sublist hu.1) h2, hu.2]
    · rintro ⟨hl, h1, h2⟩
      have m1 : ∀ i, i ∈ (whereIs true ref).filter (fun i => decide (i ∉ occupied d)) ↔ i ∈ occupied ref \ occupied d := by
        intro i; rw [List.mem_filter, mem_whereIs_true, decide_eq_true_iff, Finset.mem_sdiff]
      have m2 : ∀ i, i ∈ (whereIs false ref).filter (fun i => decide (i ∈ occupied d)) ↔ i ∈ occupied d \ occupied ref := by
        intro i
        rw [List.mem_filter, mem_whereIs_false, decide_eq_true_iff, Finset.mem_sdiff]
        exact ⟨fun h => ⟨h.2, h.1.2⟩, fun h => ⟨⟨hl ▸ occupied_lt h.1, h.2⟩, h.1⟩⟩
      refine List.mem_flatMap.2 ⟨(whereIs true ref).filter fun i => decide (i ∉ occupied d), ?_, List.mem_map.2
        ⟨(whereIs false ref).filter fun i => decide (i ∈ occupied d), ?_, ?_⟩⟩
      · rw [Sparse.mem_combinations]
        exact ⟨List.filter_sublist, by rw [← card_toList ((nodup_whereIs true ref).filter _) m1, h1]⟩
      · rw [Sparse.mem_combinations]
        exact ⟨List.filter_sublist, by rw [← card_toList ((nodup_whereIs false ref).filter _) m2, h2]⟩
      · refine det_ext (by rw [length_setAll, length_setAll, hl]) (Finset.ext fun j => ?_)
        rw [mem_excited (fun i hi => mem_whereIs_true.1 (List.mem_of_mem_filter hi)) (fun i hi => mem_whereIs_false.1 (List.mem_of_mem_filter hi)), m1, m2,
          Finset.mem_sdiff, Finset.mem_sdiff]
        tauto

theorem mem_alphaIndices {b : Bool} {ref : Det} {i : ℕ} : i ∈ alphaIndices b ref ↔ i % 2 = 0 ∧ i < ref.length ∧ ref.getD i false = b := by
  rw [alphaIndices, List.mem_map]
  have hk : ∀ k, k ∈ whereIs b (evens ref) ↔ 2 * k < ref.length ∧ ref.getD (2 * k) false = b := by
    intro k
    rw [mem_whereIs, evens, List.getElem?_map]
    by_cases h : k < (ref.length + 1) / 2
    · rw [List.getElem?_range h, Option.map_some, Option.some_inj]
      exact ⟨fun e => ⟨by omega, e⟩, fun e => e.2⟩
    · rw [List.getElem?_eq_none (by rw [List.length_range]; omega)]
      simp only [Option.map_none, reduceCtorEq, false_iff]
      intro e; omega
  constructor
  · rintro ⟨k, h, rfl⟩
    rw [hk] at h
    rw [Nat.mul_comm k 2]
    exact ⟨by omega, h⟩
  · rintro ⟨h1, h2⟩
    refine ⟨i / 2, (hk _).2 ?_, by omega⟩
    rwa [show 2 * (i / 2) = i by omega]

theorem mem_betaIndices {b : Bool} {ref : Det} {i : ℕ} : i ∈ betaIndices b ref ↔ i % 2 = 1 ∧ i < ref.length ∧ ref.getD i false = b := by
  rw [betaIndices, List.mem_map]
  have hk : ∀ k, k ∈ whereIs b (odds ref) ↔ 2 * k + 1 < ref.length ∧ ref.getD (2 * k + 1) false = b := by
    intro k
    rw [mem_whereIs, odds, List.getElem?_map]
    by_cases h : k < ref.length / 2
    · rw [List.getElem?_range h, Option.map_some, Option.some_inj]
      exact ⟨fun e => ⟨by omega, e⟩, fun e => e.2⟩
    · rw [List.getElem?_eq_none (by rw [List.length_range]; omega)]
      simp only [Option.map_none, reduceCtorEq, false_iff]
      intro e; omega
  constructor
  · rintro ⟨k, h, rfl⟩
    rw [hk] at h
    rw [Nat.mul_comm k 2]
    exact ⟨by omega, h⟩
  · rintro ⟨h1, h2⟩
    refine ⟨i / 2, (hk _).2 ?_, by omega⟩
    rwa [show 2 * (i / 2) + 1 = i by omega]

theorem nodup_alphaIndices (b : Bool) (ref : Det) : (alphaIndices b ref).Nodup :=
  (nodup_whereIs b _).map fun x y h => by simpa using h

theorem nodup_betaIndices (b : Bool) (ref : Det) : (betaIndices b ref).Nodup :=
  (nodup_whereIs b _).map fun x y h => by simpa using h

theorem nodup_flatMap_of {α β : Type} {l : List α} {f : α → List β} (hl : l.Nodup) (hf : ∀ x ∈ l, (f x).Nodup)
    (hr : ∀ x ∈ l, ∀ y ∈ l, ∀ d, d ∈ f x → d ∈ f y → x = y) : (l.flatMap f).Nodup := by
  rw [List.nodup_flatMap]
  exact ⟨hf, hl.imp_of_mem fun hx hy hne d hd hd' => hne (hr _ hx _ hy d hd hd')⟩

/-- The modes of one spin that are occupied in the first and not in the second determinant. -/
def moved (k : ℕ) (d e : Det) : Finset ℕ := (occupied d \ occupied e).filter fun i => i % 2 = k

theorem mem_moved {k : ℕ} {d e : Det} {i : ℕ} : i ∈ moved k d e ↔ (i ∈ occupied d ∧ i ∉ occupied e) ∧ i % 2 = k := by
  rw [moved, Finset.mem_filter, Finset.mem_sdiff]

theorem spin_sub {ref : Det} {ao au bo bu : List ℕ} (h1 : ao.Sublist (alphaIndices true ref)) (h2 : au.Sublist (alphaIndices false ref))
    (h3 : bo.Sublist (betaIndices true ref)) (h4 : bu.Sublist (betaIndices false ref)) :
    let d := setAll (setAll (setAll (setAll ref ao false) au true) bo false) bu true
    d.length = ref.length ∧ (∀ i, i ∈ ao ↔ i ∈ moved 0 ref d) ∧ (∀ i, i ∈ au ↔ i ∈ moved 0 d ref) ∧ (∀ i, i ∈ bo ↔ i ∈ moved 1 ref d) ∧
      ∀ i, i ∈ bu ↔ i ∈ moved 1 d ref := by
  intro d
  have a1 : ∀ i ∈ ao, i % 2 = 0 ∧ i ∈ occupied ref := fun i hi => by
    have := mem_alphaIndices.1 (h1.subset hi); exact ⟨this.1, mem_occupied.2 this.2.2⟩
  have a2 : ∀ i ∈ au, i % 2 = 0 ∧ i < ref.length ∧ i ∉ occupied ref := fun i hi => by
    have := mem_alphaIndices.1 (h2.subset hi); exact ⟨this.1, this.2.1, fun h => by rw [mem_occupied, this.2.2] at h; cases h⟩
  have a3 : ∀ i ∈ bo, i % 2 = 1 ∧ i ∈ occupied ref := fun i hi => by
    have := mem_betaIndices.1 (h3.subset hi); exact ⟨this.1, mem_occupied.2 this.2.2⟩
  have a4 : ∀ i ∈ bu, i % 2 = 1 ∧ i < ref.length ∧ i ∉ occupied ref := fun i hi => by
    have := mem_betaIndices.1 (h4.subset hi); exact ⟨this.1, this.2.1, fun h => by rw [mem_occupied, this.2.2] at h; cases h⟩
  have hd : ∀ j, j ∈ occupied d ↔ (((j ∈ occupied ref ∧ j ∉ ao) ∨ j ∈ au) ∧ j ∉ bo) ∨ j ∈ bu := by
    intro j
    show j ∈ occupied (setAll _ bu true) ↔ _
    rw [mem_setAll_true _ _ (fun i hi => by rw [length_setAll, length_setAll, length_setAll]; exact (a4 i hi).2.1), mem_setAll_false,
      mem_setAll_true _ _ (fun i hi => by rw [length_setAll]; exact (a2 i hi).2.1), mem_setAll_false]
  refine ⟨by simp only [d, length_setAll], ?_, ?_, ?_, ?_⟩
  all_goals
    intro i
    rw [mem_moved, hd]
    have b1 := a1 i; have b2 := a2 i; have b3 := a3 i; have b4 := a4 i
    by_cases c1 : i ∈ ao <;> by_cases c2 : i ∈ au <;> by_cases c3 : i ∈ bo <;> by_cases c4 : i ∈ bu <;> by_cases c5 : i ∈ occupied ref <;>
      simp_all

/-- C91, all determinants at a fixed excitation rank for each spin, each once. -/
theorem spinOrder_spec (ref : Det) (a b : ℕ) : (iterateSpinOrder ref a b).Nodup ∧
    ∀ d, d ∈ iterateSpinOrder ref a b ↔ d.length = ref.length ∧ (moved 0 ref d).card = a ∧ (moved 0 d ref).card = a ∧
      (moved 1 ref d).card = b ∧ (moved 1 d ref).card = b := by
  refine ⟨?_, fun d => ?_⟩
  · rw [iterateSpinOrder]
    refine nodup_flatMap_of (Sparse.nodup_combinations (nodup_alphaIndices _ _) _) (fun ao hao => ?_) ?_
    · refine nodup_flatMap_of (Sparse.nodup_combinations (nodup_alphaIndices _ _) _) (fun au hau => ?_) ?_
      · refine nodup_flatMap_of (Sparse.nodup_combinations (nodup_betaIndices _ _) _) (fun bo hbo => ?_) ?_
        · refine List.Nodup.map_on ?_ (Sparse.nodup_combinations (nodup_betaIndices _ _) _)
          intro bu hbu bu' hbu' he
          rw [Sparse.mem_combinations] at hao hau hbo hbu hbu'
          refine sublist_eq hbu.1 hbu'.1 (nodup_betaIndices _ _) fun x => ?_
          rw [(spin_sub hao.1 hau.1 hbo.1 hbu.1).2.2.2.2, (spin_sub hao.1 hau.1 hbo.1 hbu'.1).2.2.2.2, he]
        · intro bo hbo bo' hbo' d hd hd'
          obtain ⟨bu, hbu, rfl⟩ := List.mem_map.1 hd
          obtain ⟨bu', hbu', he⟩ := List.mem_map.1 hd'
          rw [Sparse.mem_combinations] at hao hau hbo hbu hbo' hbu'
          refine sublist_eq hbo.1 hbo'.1 (nodup_betaIndices _ _) fun x => ?_
          rw [(spin_sub hao.1 hau.1 hbo.1 hbu.1).2.2.2.1, (spin_sub hao.1 hau.1 hbo'.1 hbu'.1).2.2.2.1, he]
      · intro au hau au' hau' d hd hd'
        obtain ⟨bo, hbo, hd⟩ := List.mem_flatMap.1 hd
        obtain ⟨bo', hbo', hd'⟩ := List.mem_flatMap.1 hd'
        obtain ⟨bu, hbu, rfl⟩ := List.mem_map.1 hd
        obtain ⟨bu', hbu', he⟩ := List.mem_map.1 hd'
        rw [Sparse.mem_combinations] at hao hau hau' hbo hbu hbo' hbu'
        refine sublist_eq hau.1 hau'.1 (nodup_alphaIndices _ _) fun x => ?_
        rw [(spin_sub hao.1 hau.1 hbo.1 hbu.1).2.2.1, (spin_sub hao.1 hau'.1 hbo'.1 hbu'.1).2.2.1, he]
    · intro ao hao ao' hao' d hd hd'
      obtain ⟨au, hau, hd⟩ := List.mem_flatMap.1 hd
      obtain ⟨au', hau', hd'⟩ := List.mem_flatMap.1 hd'
      obtain ⟨bo, hbo, hd⟩ := List.mem_flatMap.1 hd
      obtain ⟨bo', hbo', hd'⟩ := List.mem_flatMap.1 hd'
      obtain ⟨bu, hbu, rfl⟩ := List.mem_map.1 hd
      obtain ⟨bu', hbu', he⟩ := List.mem_map.1 hd'
      rw [Sparse.mem_combinations] at hao hao' hau hau' hbo hbu hbo' hbu'
      refine sublist_eq hao.1 hao'.1 (nodup_alphaIndices _ _) fun x => ?_
      rw [(spin_sub hao.1 hau.1 hbo.1 hbu.1).2.1, (spin_sub hao'.1 hau'.1 hbo'.1 hbu'.1).2.1, he]
  · rw [iterateSpinOrder]
    constructor
    · intro hd
      obtain ⟨ao, hao, hd⟩ := List.mem_flatMap.1 hd
      obtain ⟨au, hau, hd⟩ := List.mem_flatMap.1 hd
      obtain ⟨bo, hbo, hd⟩ := List.mem_flatMap.1 hd
      obtain ⟨bu, hbu, rfl⟩ := List.mem_map.1 hd
      rw [Sparse.mem_combinations] at hao hau hbo hbu
      obtain ⟨h0, h1, h2, h3, h4⟩ := spin_sub hao.1 hau.1 hbo.1 hbu.1
      exact ⟨h0, (card_toList ((nodup_alphaIndices _ _).sublist hao.1) h1).trans hao.2, (card_toList ((nodup_alphaIndices _ _).sublist hau.1) h2).trans hau.2,
        (card_toList ((nodup_betaIndices _ _).sublist hbo.1) h3).trans hbo.2, (card_toList ((nodup_betaIndices _ _).sublist hbu.1) h4).trans hbu.2⟩
    · rintro ⟨hl, h1, h2, h3, h4⟩
      have q1 : ∀ i, i ∈ (alphaIndices true ref).filter (fun i => decide (i ∉ occupied d)) ↔ i ∈ moved 0 ref d := by
        intro i
        rw [List.mem_filter, mem_alphaIndices, decide_eq_true_iff, mem_moved, ← mem_occupied]
        exact ⟨fun h => ⟨⟨h.1.2.2, h.2⟩, h.1.1⟩, fun h => ⟨⟨h.2, occupied_lt h.1.1, h.1.1⟩, h.1.2⟩⟩
      have q2 : ∀ i, i ∈ (alphaIndices false ref).filter (fun i => decide (i ∈ occupied d)) ↔ i ∈ moved 0 d ref := by
        intro i
        rw [List.mem_filter, mem_alphaIndices, decide_eq_true_iff, mem_moved, ← Bool.not_eq_true, ← mem_occupied]
        exact ⟨fun h => ⟨⟨h.2, h.1.2.2⟩, h.1.1⟩, fun h => ⟨⟨h.2, hl ▸ occupied_lt h.1.1, h.1.2⟩, h.1.1⟩⟩
      have q3 : ∀ i, i ∈ (betaIndices true ref).filter (fun i => decide (i ∉ occupied d)) ↔ i ∈ moved 1 ref d := by
        intro i
        rw [List.mem_filter, mem_betaIndices, decide_eq_true_iff, mem_moved, ← mem_occupied]
        exact ⟨fun h => ⟨⟨h.1.2.2, h.2⟩, h.1.1⟩, fun h => ⟨⟨h.2, occupied_lt h.1.1, h.1.1⟩, h.1.2⟩⟩
      have q4 : ∀ i, i ∈ (betaIndices false ref).filter (fun i => decide (i ∈ occupied d)) ↔ i ∈ moved 1 d ref := by
        intro i
        rw [List.mem_filter, mem_betaIndices, decide_eq_true_iff, mem_moved, ← Bool.not_eq_true, ← mem_occupied]
        exact ⟨fun h => ⟨⟨h.2, h.1.2.2⟩, h.1.1⟩, fun h => ⟨⟨h.2, hl ▸ occupied_lt h.1.1, h.1.2⟩, h.1.1⟩⟩
      refine List.mem_flatMap.2 ⟨(alphaIndices true ref).filter (fun i => decide (i ∉ occupied d)), ?_, List.mem_flatMap.2
        ⟨(alphaIndices false ref).filter (fun i => decide (i ∈ occupied d)), ?_, List.mem_flatMap.2
        ⟨(betaIndices true ref).filter (fun i => decide (i ∉ occupied d)), ?_, List.mem_map.2
        ⟨(betaIndices false ref).filter (fun i => decide (i ∈ occupied d)), ?_, ?_⟩⟩⟩⟩
      · rw [Sparse.mem_combinations]
        exact ⟨List.filter_sublist, (card_toList ((nodup_alphaIndices _ _).filter _) q1).symm.trans h1⟩
      · rw [Sparse.mem_combinations]
        exact ⟨List.filter_sublist, (card_toList ((nodup_alphaIndices _ _).filter _) q2).symm.trans h2⟩
      · rw [Sparse.mem_combinations]
        exact ⟨List.filter_sublist, (card_toList ((nodup_betaIndices _ _).filter _) q3).symm.trans h3⟩
      · rw [Sparse.mem_combinations]
        exact ⟨List.filter_sublist, (card_toList ((nodup_betaIndices _ _).filter _) q4).symm.trans h4⟩
      · refine det_ext (by simp only [length_setAll, hl]) (Finset.ext fun j => ?_)
        rw [mem_setAll_true _ _ (fun i hi => by rw [length_setAll, length_setAll, length_setAll]; exact (mem_betaIndices.1 (List.mem_of_mem_filter hi)).2.1),
          mem_setAll_false, mem_setAll_true _ _ (fun i hi => by rw [length_setAll]; exact (mem_alphaIndices.1 (List.mem_of_mem_filter hi)).2.1),
          mem_setAll_false, q1, q2, q3, q4, mem_moved, mem_moved, mem_moved, mem_moved]
        rcases Nat.mod_two_eq_zero_or_one j with h | h <;> simp only [h] <;> simp <;> tauto

theorem count_true (d : Det) : d.count true = (whereIs true d).length := by
  have h : d = (List.range d.length).map fun i => d.getD i false := by
    refine List.ext_getElem (by simp) fun i h1 h2 => ?_
    rw [List.getElem_map, List.getElem_range, List.getD_eq_getElem _ _ h1]
  conv_lhs => rw [h]
  rw [List.count, List.countP_map, List.countP_eq_length_filter, whereIs]
  congr 1
  refine List.filter_congr fun i hi => ?_
  rw [List.mem_range] at hi
  simp [hi]

theorem count_occupied (d : Det) : d.count true = (occupied d).card := by
  rw [count_true]
  exact (card_toList (nodup_whereIs true d) fun i => mem_whereIs_true).symm

theorem count_evens (d : Det) : (evens d).count true = ((occupied d).filter fun i => i % 2 = 0).card := by
  rw [count_true, card_toList (nodup_alphaIndices true d), alphaIndices, List.length_map]
  intro i
  rw [mem_alphaIndices, Finset.mem_filter, ← mem_occupied]
  exact ⟨fun h => ⟨h.2.2, h.1⟩, fun h => ⟨h.2, occupied_lt h.1, h.1⟩⟩

theorem count_odds (d : Det) : (odds d).count true = ((occupied d).filter fun i => i % 2 = 1).card := by
  rw [count_true, card_toList (nodup_betaIndices true d), betaIndices, List.length_map]
  intro i
  rw [mem_betaIndices, Finset.mem_filter, ← mem_occupied]
  exact ⟨fun h => ⟨h.2.2, h.1⟩, fun h => ⟨h.2, occupied_lt h.1, h.1⟩⟩

theorem card_sdiff_iff (x y : Finset ℕ) : (x \ y).card = (y \ x).card ↔ x.card = y.card := by
  have h1 := Finset.card_sdiff_add_card_inter x y
  have h2 := Finset.card_sdiff_add_card_inter y x
  rw [Finset.inter_comm] at h2
  omega

theorem moved_eq (k : ℕ) (d e : Det) : moved k d e = ((occupied d).filter fun i => i % 2 = k) \ (occupied e).filter fun i => i % 2 = k := by
  ext i
  rw [mem_moved, Finset.mem_sdiff, Finset.mem_filter, Finset.mem_filter]
  tauto

theorem card_parity (S : Finset ℕ) : S.card = (S.filter fun i => i % 2 = 0).card + (S.filter fun i => i % 2 = 1).card := by
  rw [← Finset.card_filter_add_card_filter_not (s := S) (p := fun i => i % 2 = 0)]
  congr 2
  exact Finset.filter_congr fun i _ => by omega

/-- C91, the basis: every determinant of the sector, each once, the reference first. -/
theorem basis_spec (ref : Det) (level : ℤ) (spin : Bool) : (iterateBasis ref level spin).Nodup ∧
    (∀ d, d ∈ iterateBasis ref level spin ↔ InSector ref level spin d) ∧ (0 ≤ level → (iterateBasis ref level spin).head? = some ref) := by
  cases spin with
  | false =>
    have he : iterateBasis ref level false = (List.range (level + 1).toNat).flatMap (iterateOrder ref) := rfl
    rw [he]
    refine ⟨nodup_flatMap_of List.nodup_range (fun k _ => (order_spec ref k).1) ?_, fun d => ?_, fun h => ?_⟩
    · intro k _ k' _ d hd hd'
      rw [(order_spec ref _).2] at hd hd'
      omega
    · rw [List.mem_flatMap, InSector]
      constructor
      · rintro ⟨k, hk, hd⟩
        rw [List.mem_range] at hk
        obtain ⟨h1, h2, h3⟩ := ((order_spec ref k).2 d).1 hd
        exact ⟨h1, ((card_sdiff_iff _ _).1 (h2.trans h3.symm)).symm, by omega, by simp⟩
      · rintro ⟨h1, h2, h3, _⟩
        exact ⟨(occupied ref \ occupied d).card, List.mem_range.2 (by omega), ((order_spec ref _).2 d).2 ⟨h1, rfl, (card_sdiff_iff _ _).2 h2⟩⟩
    · obtain ⟨m, hm⟩ : ∃ m, (level + 1).toNat = m + 1 := ⟨level.toNat, by omega⟩
      rw [hm, List.range_succ_eq_map, List.flatMap_cons]
      simp [iterateOrder, Sparse.combinations, setAll]
  | true =>
    have he : iterateBasis ref level true = (List.range (level + 1).toNat).flatMap fun order : ℕ =>
        (List.range ((min ((evens ref).count true : ℤ) level) + 1).toNat).flatMap fun alpha : ℕ =>
          if (order : ℤ) - (alpha : ℤ) < 0 ∨ (order : ℤ) - (alpha : ℤ) > min ((odds ref).count true : ℤ) level then []
          else iterateSpinOrder ref alpha ((order : ℤ) - (alpha : ℤ)).toNat := rfl
    rw [he]
    have hin : ∀ (order alpha : ℕ) d, d ∈ (if (order : ℤ) - (alpha : ℤ) < 0 ∨ (order : ℤ) - (alpha : ℤ) > min ((odds ref).count true : ℤ) level then []
        else iterateSpinOrder ref alpha ((order : ℤ) - (alpha : ℤ)).toNat) ↔ (moved 0 ref d).card + (moved 1 ref d).card = order ∧
          ((moved 1 ref d).card : ℤ) ≤ min ((odds ref).count true : ℤ) level ∧ d.length = ref.length ∧
          (moved 0 ref d).card = alpha ∧ (moved 0 d ref).card = alpha ∧ (moved 1 ref d).card = (moved 1 d ref).card := by
      intro order alpha d
      split_ifs with h
      · simp only [List.not_mem_nil, false_iff]
        omega
      · rw [(spinOrder_spec ref alpha _).2]
        omega
    refine ⟨nodup_flatMap_of List.nodup_range (fun k _ => nodup_flatMap_of List.nodup_range (fun a _ => ?_) ?_) ?_, fun d => ?_, fun h => ?_⟩
    · split_ifs
      · exact List.nodup_nil
      · exact (spinOrder_spec ref _ _).1
    · intro a _ a' _ d hd hd'
      rw [hin] at hd hd'
      omega
    · intro k _ k' _ d hd hd'
      obtain ⟨a, _, hd⟩ := List.mem_flatMap.1 hd
      obtain ⟨a', _, hd'⟩ := List.mem_flatMap.1 hd'
      rw [hin] at hd hd'
      omega
    · rw [List.mem_flatMap, InSector]
      have c0 := card_sdiff_iff ((occupied ref).filter fun i => i % 2 = 0) ((occupied d).filter fun i => i % 2 = 0)
      have c1 := card_sdiff_iff ((occupied ref).filter fun i => i % 2 = 1) ((occupied d).filter fun i => i % 2 = 1)
      rw [← moved_eq, ← moved_eq] at c0 c1
      have s0 := card_parity (occupied ref)
      have s1 := card_parity (occupied d)
      have s2 : (occupied ref \ occupied d).card = (moved 0 ref d).card + (moved 1 ref d).card := card_parity _
      have l0 : (moved 0 ref d).card ≤ ((occupied ref).filter fun i => i % 2 = 0).card := by
        rw [moved_eq]; exact Finset.card_le_card Finset.sdiff_subset
      have l1 : (moved 1 ref d).card ≤ ((occupied ref).filter fun i => i % 2 = 1).card := by
        rw [moved_eq]; exact Finset.card_le_card Finset.sdiff_subset
      rw [← count_evens] at l0
      rw [← count_odds] at l1
      constructor
      · rintro ⟨k, hk, hd⟩
        obtain ⟨a, ha, hd⟩ := List.mem_flatMap.1 hd
        rw [List.mem_range] at hk ha
        rw [hin] at hd
        refine ⟨hd.2.2.1, ?_, ?_, fun _ => ⟨?_, ?_⟩⟩
        all_goals omega
      · rintro ⟨h1, h2, h3, h4⟩
        obtain ⟨h5, h6⟩ := h4 rfl
        refine ⟨(moved 0 ref d).card + (moved 1 ref d).card, List.mem_range.2 (by omega), List.mem_flatMap.2 ⟨(moved 0 ref d).card, List.mem_range.2 (by omega), ?_⟩⟩
        rw [hin]
        omega
    · obtain ⟨m, hm⟩ : ∃ m, (level + 1).toNat = m + 1 := ⟨level.toNat, by omega⟩
      obtain ⟨m', hm'⟩ : ∃ m, (min ((evens ref).count true : ℤ) level + 1).toNat = m + 1 := ⟨(min ((evens ref).count true : ℤ) level).toNat, by omega⟩
      rw [hm, hm', List.range_succ_eq_map (n := m), List.flatMap_cons, List.range_succ_eq_map (n := m'), List.flatMap_cons]
      rw [if_neg (by omega)]
      simp [iterateSpinOrder, Sparse.combinations, setAll]

end ZQ.Sector
