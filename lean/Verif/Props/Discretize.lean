import Verif.Model.Discretize
import Verif.Lemmas.Sampling

/-! # Discretisation to a given total (C27) -/

namespace ZQ.Disc

/-- Contract of `np.argsort`: a permutation of the positions that lists the entries in non-decreasing order. -/
def IsArgsort (argsort : List ℝ → List ℕ) : Prop :=
  ∀ l, (argsort l).Perm (List.range l.length) ∧ (argsort l).Pairwise (fun i j => l.getD i 0 ≤ l.getD j 0)

/-- The share of the `i`-th value in the total. -/
noncomputable def share (values : List ℝ) (total : ℤ) (i : ℕ) : ℝ := values.getD i 0 * total / values.sum

theorem bump_getElem (l : List ℤ) (i j : ℕ) (h : j < l.length) :
    (bump l i).getD j 0 = l.getD j 0 + if i = j then 1 else 0 := by
  unfold bump
  simp only [List.getD_eq_getElem?_getD, List.getElem?_modify, List.getElem?_eq_getElem h]
  by_cases hij : i = j <;> simp [hij]

theorem bump_length (l : List ℤ) (i : ℕ) : (bump l i).length = l.length := by simp [bump]

theorem foldl_bump (is : List ℕ) (l : List ℤ) (hn : is.Nodup) :
    (is.foldl bump l).length = l.length ∧
    ∀ j, j < l.length → (is.foldl bump l).getD j 0 = l.getD j 0 + if j ∈ is then 1 else 0 := by
  induction is generalizing l with
  | nil => simp
  | cons i is ih =>
    rw [List.nodup_cons] at hn
    obtain ⟨h1, h2⟩ := ih (bump l i) hn.2
    rw [List.foldl_cons]
    refine ⟨by rw [h1, bump_length], fun j hj => ?_⟩
    rw [h2 j (by rw [bump_length]; exact hj), bump_getElem l i j hj]
    by_cases hij : i = j
    · subst hij; simp [hn.1]
    · have : j ≠ i := Ne.symm hij
      simp [hij, this]

theorem bump_sum (l : List ℤ) (i : ℕ) (h : i < l.length) : (bump l i).sum = l.sum + 1 := by
  unfold bump
  induction l generalizing i with
  | nil => simp at h
  | cons a l ih =>
    cases i with
    | zero => simp; ring
    | succ i =>
      simp only [List.length_cons] at h
      simp only [List.modify_succ_cons, List.sum_cons, ih i (by omega)]; ring

theorem foldl_bump_sum (is : List ℕ) (l : List ℤ) (h : ∀ i ∈ is, i < l.length) :
    (is.foldl bump l).sum = l.sum + is.length := by
  induction is generalizing l with
  | nil => simp
  | cons i is ih =>
    rw [List.foldl_cons, ih (bump l i) (fun j hj => by rw [bump_length]; exact h j (by simp [hj])), bump_sum l i (h i (by simp))]
    simp; ring

theorem pyRound_int (z : ℤ) : Meas.pyRound (z : ℝ) = z := by
  unfold Meas.pyRound; simp

theorem getD_map_zero (l : List ℝ) (f : ℝ → ℝ) (hf : f 0 = 0) (i : ℕ) : (l.map f).getD i 0 = f (l.getD i 0) := by
  simp only [List.getD_eq_getElem?_getD, List.getElem?_map]
  cases l[i]? <;> simp [hf]

/-- Everything about one call: it succeeds, the sum is the total, the order of the list is kept, and the results follow the shares. -/
theorem scaleAndDiscretize_spec (argsort : List ℝ → List ℕ) (ha : IsArgsort argsort) (values : List ℝ) (hs : values.sum ≠ 0) (total : ℤ) :
    ∃ r, scaleAndDiscretize argsort values total = .ok r ∧ r.length = values.length ∧ r.sum = total ∧
      (∀ i, i < values.length → |(r.getD i 0 : ℝ) - share values total i| < 1) ∧
      (∀ i j, i < values.length → j < values.length → share values total i < share values total j → r.getD i 0 ≤ r.getD j 0) := by
  set scale := (total : ℝ) / values.sum with hscale
  set fl := values.map fun v => ⌊v * scale⌋ with hfl
  set rem := values.map fun v => v * scale - ⌊v * scale⌋ with hrem
  have hshare : ∀ i, share values total i = values.getD i 0 * scale := by
    intro i; unfold share; rw [hscale]; ring
  have hremi : ∀ i, rem.getD i 0 = values.getD i 0 * scale - ⌊values.getD i 0 * scale⌋ := by
    intro i
    rw [hrem]
    exact getD_map_zero values (fun v => v * scale - ⌊v * scale⌋) (by simp) i
  have hfli : ∀ i, fl.getD i 0 = ⌊values.getD i 0 * scale⌋ := by
    intro i
    rw [hfl]
    simp only [List.getD_eq_getElem?_getD, List.getElem?_map]
    cases values[i]? <;> simp
  have hrem0 : ∀ i, 0 ≤ rem.getD i 0 := fun i => by rw [hremi]; exact Int.fract_nonneg _
  have hrem1 : ∀ i, rem.getD i 0 < 1 := fun i => by rw [hremi]; exact Int.fract_lt_one _
  have hremlen : rem.length = values.length := by simp [hrem]
  obtain ⟨hperm, hsort⟩ := ha rem
  rw [hremlen] at hperm
  set order := (argsort rem).reverse with horder
  have hop : order.Perm (List.range values.length) := (List.reverse_perm _).trans hperm
  have hond : order.Nodup := hop.nodup_iff.2 List.nodup_range
  have hosort : order.Pairwise (fun i j => rem.getD j 0 ≤ rem.getD i 0) := by
    rw [horder, List.pairwise_reverse]; exact hsort
  have holen : order.length = values.length := by rw [hop.length_eq, List.length_range]
  -- the sum of the remainders is the integer number of missing units
  have hsumrem : (rem.sum : ℝ) = (total : ℝ) - (fl.sum : ℤ) := by
    have h1 : rem.sum = (values.map fun v => v * scale).sum - ((fl.sum : ℤ) : ℝ) := by
      rw [hrem, hfl]
      have : ∀ l : List ℝ, (l.map fun v => v * scale - ⌊v * scale⌋).sum
          = (l.map fun v => v * scale).sum - (((l.map fun v => ⌊v * scale⌋).sum : ℤ) : ℝ) := by
        intro l
        induction l with
        | nil => simp
        | cons a l ih => simp only [List.map_cons, List.sum_cons, ih]; push_cast; ring
      exact this values
    rw [h1, List.sum_map_mul_right]
    simp only [List.map_id']
    rw [hscale, mul_div_cancel₀ _ hs]
  have hsumrem' : rem.sum = ∑ i ∈ Finset.range values.length, rem.getD i 0 := by
    rw [← hremlen]
    clear hop hsort hperm horder hosort hrem0 hrem1 hremi hsumrem holen hond hremlen
    clear_value rem
    clear order hrem
    induction rem with
    | nil => simp
    | cons a l ih =>
      rw [List.length_cons, Finset.sum_range_succ', List.sum_cons, ih]
      simp [add_comm]
  set m := (Meas.pyRound ((total : ℝ) - (fl.sum : ℤ))).toNat with hm
  have hmZ : (m : ℤ) = total - fl.sum := by
    have h1 : (total : ℝ) - (fl.sum : ℤ) = ((total - fl.sum : ℤ) : ℝ) := by push_cast; ring
    rw [hm, h1, pyRound_int, Int.toNat_of_nonneg]
    have : (0 : ℝ) ≤ ((total - fl.sum : ℤ) : ℝ) := by
      rw [← h1, ← hsumrem, hsumrem']
      exact Finset.sum_nonneg fun i _ => hrem0 i
    exact_mod_cast this
  have hmR : (m : ℝ) = ∑ i ∈ Finset.range values.length, rem.getD i 0 := by
    rw [← hsumrem', hsumrem]
    have : ((m : ℤ) : ℝ) = ((total - fl.sum : ℤ) : ℝ) := by rw [hmZ]
    push_cast at this ⊢
    exact this
  have hmle : m ≤ values.length := by
    have : (m : ℝ) ≤ values.length := by
      rw [hmR]
      calc _ ≤ ∑ _i ∈ Finset.range values.length, (1 : ℝ) := Finset.sum_le_sum fun i _ => (hrem1 i).le
        _ = values.length := by simp
    exact_mod_cast this
  -- the indices that get one more
  set top := order.take m with htop
  have htopnd : top.Nodup := (List.take_sublist m order).nodup hond
  have htoplen : top.length = m := by rw [htop, List.length_take, holen]; omega
  have htoplt : ∀ i ∈ top, i < values.length := by
    intro i hi
    have := hop.mem_iff.1 (List.mem_of_mem_take hi)
    simpa using this
  have hflen : fl.length = values.length := by simp [hfl]
  -- top is upward closed
  have hclosed : ∀ i ∈ top, ∀ j, j < values.length → rem.getD i 0 < rem.getD j 0 → j ∈ top := by
    intro i hi j hj hlt
    by_contra hjt
    have hjo : j ∈ order := hop.mem_iff.2 (by simpa using hj)
    have hjd : j ∈ order.drop m := by
      rw [← List.take_append_drop m order] at hjo
      exact (List.mem_append.1 hjo).resolve_left hjt
    have hpw := hosort
    rw [← List.take_append_drop m order, List.pairwise_append] at hpw
    have := hpw.2.2 i hi j hjd
    linarith
  -- exact shares are not raised
  have hpos : ∀ i ∈ top, 0 < rem.getD i 0 := by
    intro i hi
    refine lt_of_le_of_ne (hrem0 i) fun e => ?_
    have hsub : ∀ j ∈ Finset.range values.length, j ∉ top.toFinset → rem.getD j 0 = 0 := by
      intro j hj hjt
      refine le_antisymm ?_ (hrem0 j)
      by_contra hcon
      push Not at hcon
      exact hjt (List.mem_toFinset.2 (hclosed i hi j (Finset.mem_range.1 hj) (by rw [← e]; exact hcon)))
    have hsub2 : top.toFinset ⊆ Finset.range values.length := fun j hj =>
      Finset.mem_range.2 (htoplt j (List.mem_toFinset.1 hj))
    have h1 : (m : ℝ) = ∑ j ∈ top.toFinset, rem.getD j 0 := by
      rw [hmR, ← Finset.sum_subset hsub2 hsub]
    have h2 : ∑ j ∈ top.toFinset, rem.getD j 0 < ∑ _j ∈ top.toFinset, (1 : ℝ) :=
      Finset.sum_lt_sum (fun j _ => (hrem1 j).le) ⟨i, List.mem_toFinset.2 hi, hrem1 i⟩
    rw [← h1, Finset.sum_const, List.toFinset_card_of_nodup htopnd, htoplen] at h2
    simp at h2
  obtain ⟨hlen, hget⟩ := foldl_bump top fl htopnd
  have hget' : ∀ i, i < values.length → (top.foldl bump fl).getD i 0 = ⌊values.getD i 0 * scale⌋ + if i ∈ top then 1 else 0 := by
    intro i hi
    rw [hget i (by rw [hflen]; exact hi), hfli]
  have hsum : (top.foldl bump fl).sum = total := by
    rw [foldl_bump_sum top fl (fun i hi => by rw [hflen]; exact htoplt i hi), htoplen, hmZ]; ring
  refine ⟨top.foldl bump fl, ?_, by rw [hlen, hflen], hsum, ?_, ?_⟩
  · unfold scaleAndDiscretize
    rw [if_neg hs]
    simp only []
    rw [← hscale, ← hfl, ← hrem, ← horder, ← hm, if_neg (by rw [holen]; omega), ← htop, if_pos hsum]
  · intro i hi
    rw [hget' i hi, hshare]
    have hr := hremi i
    have h0 := hrem0 i
    have h1 := hrem1 i
    by_cases ht : i ∈ top
    · have := hpos i ht
      rw [if_pos ht]; push_cast; rw [abs_lt]; constructor <;> linarith
    · rw [if_neg ht]; push_cast; rw [abs_lt]; constructor <;> linarith
  · intro i j hi hj hlt
    rw [hshare, hshare] at hlt
    rw [hget' i hi, hget' j hj]
    have hfle : ⌊values.getD i 0 * scale⌋ ≤ ⌊values.getD j 0 * scale⌋ := Int.floor_mono hlt.le
    rcases hfle.lt_or_eq with h | h
    · split_ifs <;> omega
    · by_cases ht : i ∈ top
      · have hj' : j ∈ top := by
          refine hclosed i ht j hj ?_
          rw [hremi, hremi, h]; linarith
        rw [if_pos ht, if_pos hj', h]
      · rw [if_neg ht, h]; split_ifs <;> omega

/-- For non-negative values and total every result is non-negative. -/
theorem scaleAndDiscretize_nonneg (argsort : List ℝ → List ℕ) (ha : IsArgsort argsort) (values : List ℝ) (hv : ∀ v ∈ values, 0 ≤ v)
    (total : ℤ) (ht : 0 ≤ total) (r : List ℤ) (hr : scaleAndDiscretize argsort values total = .ok r) : ∀ z ∈ r, 0 ≤ z := by
  by_cases hs : values.sum = 0
  · unfold scaleAndDiscretize at hr; rw [if_pos hs] at hr; cases hr
  obtain ⟨r', hr', hlen, -, hclose, -⟩ := scaleAndDiscretize_spec argsort ha values hs total
  rw [hr] at hr'; injection hr' with hr'; subst hr'
  intro z hz
  obtain ⟨i, hi, rfl⟩ := List.getElem_of_mem hz
  have h1 := abs_lt.1 (hclose i (by omega))
  have h2 : 0 ≤ share values total i := by
    unfold share
    refine div_nonneg (mul_nonneg ?_ (by exact_mod_cast ht)) (List.sum_nonneg hv)
    rw [List.getD_eq_getElem?_getD, List.getElem?_eq_getElem (by omega)]
    exact hv _ (List.getElem_mem _)
  have h3 : r.getD i 0 = r[i] := by rw [List.getD_eq_getElem?_getD, List.getElem?_eq_getElem hi]; rfl
  rw [h3] at h1
  have : (-1 : ℝ) < (r[i] : ℝ) := by linarith [h1.1]
  have : (-1 : ℤ) < r[i] := by exact_mod_cast this
  omega

/-- A zero sum is refused. -/
theorem scaleAndDiscretize_zero (argsort : List ℝ → List ℕ) (values : List ℝ) (hs : values.sum = 0) (total : ℤ) :
    scaleAndDiscretize argsort values total = .error .zeroDivision := by
  unfold scaleAndDiscretize; rw [if_pos hs]

/-- An ordering function that meets the contract. -/
noncomputable def sortedArgsort (l : List ℝ) : List ℕ :=
  open Classical in (List.range l.length).mergeSort fun i j => decide (l.getD i 0 ≤ l.getD j 0)

theorem sortedArgsort_spec : IsArgsort sortedArgsort := by
  intro l
  refine ⟨List.mergeSort_perm _ _, ?_⟩
  have := List.pairwise_mergeSort (le := fun i j => decide (l.getD i 0 ≤ l.getD j 0))
    (by intro a b c; simp only [decide_eq_true_eq]; exact le_trans)
    (by intro a b; simp only [Bool.or_eq_true, decide_eq_true_eq]; exact le_total _ _) (List.range l.length)
  simpa [sortedArgsort] using this

example : ∃ r, scaleAndDiscretize sortedArgsort [1, 1, 1] 100 = .ok r ∧ r.sum = 100 ∧ ∀ z ∈ r, 0 ≤ z := by
  obtain ⟨r, hr, -, hs, -⟩ := scaleAndDiscretize_spec sortedArgsort sortedArgsort_spec [1, 1, 1] (by norm_num) 100
  exact ⟨r, hr, hs, scaleAndDiscretize_nonneg sortedArgsort sortedArgsort_spec _ (by simp) 100 (by norm_num) r hr⟩

end ZQ.Disc
