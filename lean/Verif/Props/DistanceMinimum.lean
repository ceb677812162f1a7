import Verif.Props.Distribution

/-!
# C131: which distribution is nearest
-/

namespace ZQ.Dist

open ZQ ZQ.PyDict

/-! ### Auxiliary facts -/

theorem pmf_nonneg' {d : DDict} (hv : Valid d) (k : List ℤ) : 0 ≤ pmf d k := by
  refine List.sum_nonneg ?_
  intro x hx
  obtain ⟨kv, hkv, rfl⟩ := List.mem_map.1 hx
  by_cases h : kv.1 = k
  · rw [if_pos h]; exact hv.valNonneg kv hkv
  · rw [if_neg h]

theorem pmf_eq_zero {d : DDict} {k : List ℤ} (h : k ∉ outcomes d) : pmf d k = 0 := by
  refine List.sum_eq_zero ?_
  intro x hx
  obtain ⟨kv, hkv, rfl⟩ := List.mem_map.1 hx
  rw [if_neg]
  rintro rfl
  exact h (List.mem_toFinset.2 (List.mem_map_of_mem hkv))

/-- C29: the keys of both distributions, each once: an iteration order of the set of all keys. -/
theorem allKeys_enumerates (t m : DDict) (ht : (t.map Prod.fst).Nodup) (hm : (m.map Prod.fst).Nodup) : Enumerates (allKeys t m) t m := by
  refine ⟨List.nodup_append.2 ⟨ht, hm.filter _, ?_⟩, ?_⟩
  · rintro a ha b hb rfl
    simp only [List.mem_filter, decide_eq_true_eq] at hb
    exact hb.2 ha
  · ext k
    simp only [allKeys, keys, outcomes, List.mem_toFinset, List.mem_append, List.mem_filter, Finset.mem_union]
    by_cases h : k ∈ t.map Prod.fst <;> simp [h]

theorem sum_pmf (d : DDict) (s : Finset (List ℤ)) (h : outcomes d ⊆ s) : ∑ k ∈ s, pmf d k = total d := by
  induction d with
  | nil => simp [pmf, total]
  | cons kv d ih =>
    have h1 : kv.1 ∈ s := h (List.mem_toFinset.2 (by simp))
    have h2 : outcomes d ⊆ s := fun k hk => h (List.mem_toFinset.2 (by have := List.mem_toFinset.1 hk; simp at this ⊢; exact Or.inr this))
    have : ∀ k, pmf (kv :: d) k = (if kv.1 = k then kv.2 else 0) + pmf d k := fun k => rfl
    simp only [this]
    rw [Finset.sum_add_distrib, ih h2, Finset.sum_ite_eq, if_pos h1]
    rfl

theorem specNLL_on {t m : DDict} {eps : ℝ} (s : Finset (List ℤ)) (h : outcomes t ⊆ s) : specNLL t m eps = -∑ k ∈ s, pmf t k * Real.log (max eps (pmf m k)) := by
  unfold specNLL
  congr 1
  have h1 : ∑ k ∈ outcomes t, pmf t k * Real.log (max eps (pmf m k)) = ∑ k ∈ outcomes t ∪ outcomes m, pmf t k * Real.log (max eps (pmf m k)) :=
    Finset.sum_subset Finset.subset_union_left fun k _ hk => by rw [pmf_eq_zero hk, zero_mul]
  have h2 : ∑ k ∈ outcomes t, pmf t k * Real.log (max eps (pmf m k)) = ∑ k ∈ s, pmf t k * Real.log (max eps (pmf m k)) :=
    Finset.sum_subset h fun k _ hk => by rw [pmf_eq_zero hk, zero_mul]
  rw [← h1, h2]

theorem gibbs_term {a b eps : ℝ} (he : 0 < eps) (ha : 0 ≤ a) :
    a * Real.log (max eps b) - a * Real.log (max eps a) ≤ max eps b - max eps a := by
  have hM : 0 < max eps b := lt_max_of_lt_left he
  have hT : 0 < max eps a := lt_max_of_lt_left he
  have hlog : Real.log (max eps b) - Real.log (max eps a) ≤ max eps b / max eps a - 1 := by
    rw [← Real.log_div hM.ne' hT.ne']
    exact Real.log_le_sub_one_of_pos (div_pos hM hT)
  have h1 : a * Real.log (max eps b) - a * Real.log (max eps a) ≤ a * (max eps b / max eps a - 1) := by
    rw [← mul_sub]
    exact mul_le_mul_of_nonneg_left hlog ha
  refine h1.trans ?_
  rcases le_total eps a with h | h
  · rw [max_eq_right h] at hT ⊢
    rw [mul_sub, mul_div_cancel₀ _ hT.ne', mul_one]
  · rw [max_eq_left h]
    have h2 : eps ≤ max eps b := le_max_left _ _
    have h3 : 0 ≤ max eps b / eps - 1 := by rw [sub_nonneg, le_div_iff₀ he]; linarith
    calc a * (max eps b / eps - 1) ≤ eps * (max eps b / eps - 1) := mul_le_mul_of_nonneg_right h h3
      _ = max eps b - eps := by field_simp

/-! ### C131 -/

/-- C131. The clipped negative log likelihood is almost smallest for the target itself: no distribution is better than the target by more than the clipping parameter times the number of outcomes. -/
theorem nll_almost_smallest (t m : List (List ℤ × ℝ)) (ht : Valid t) (hm : Valid m) (t1 : total t = 1) (m1 : total m = 1) {eps : ℝ} (he : 0 < eps)
    (keys keys' : List (List ℤ)) (hk : Enumerates keys t m) (hk' : Enumerates keys' t t) :
    ∃ v v', clippedNLL keys t m eps = .ok v ∧ clippedNLL keys' t t eps = .ok v' ∧ v' ≤ v + eps * (outcomes t ∪ outcomes m).card := by
  refine ⟨_, _, clippedNLL_spec t m ht.distinct hm.distinct eps he keys hk, clippedNLL_spec t t ht.distinct ht.distinct eps he keys' hk', ?_⟩
  rw [specNLL_on (m := t) (outcomes t ∪ outcomes m) Finset.subset_union_left, specNLL_on (m := m) (outcomes t ∪ outcomes m) Finset.subset_union_left]
  have h : ∑ k ∈ outcomes t ∪ outcomes m, (pmf t k * Real.log (max eps (pmf m k)) - pmf t k * Real.log (max eps (pmf t k))) ≤
      ∑ k ∈ outcomes t ∪ outcomes m, (pmf m k + eps - pmf t k) := by
    refine Finset.sum_le_sum fun k _ => (gibbs_term he (pmf_nonneg' ht k)).trans ?_
    have h1 : max eps (pmf m k) ≤ pmf m k + eps := max_le (by linarith [pmf_nonneg' hm k]) (by linarith)
    have h2 := le_max_right eps (pmf t k)
    linarith
  rw [Finset.sum_sub_distrib, Finset.sum_sub_distrib, Finset.sum_add_distrib, sum_pmf m _ Finset.subset_union_right, sum_pmf t _ Finset.subset_union_left, t1, m1, Finset.sum_const,
    nsmul_eq_mul] at h
  linarith

/-- C131. It is smallest for the target itself among the distributions which give at least `epsilon` to each outcome the target can have. -/
theorem nll_smallest_partial (t m : List (List ℤ × ℝ)) (ht : Valid t) (hm : Valid m) (t1 : total t = 1) (m1 : total m = 1) {eps : ℝ} (he : 0 < eps)
    (hclip : ∀ k, 0 < pmf t k → eps ≤ pmf m k) (keys keys' : List (List ℤ)) (hk : Enumerates keys t m) (hk' : Enumerates keys' t t) :
    ∃ v v', clippedNLL keys t m eps = .ok v ∧ clippedNLL keys' t t eps = .ok v' ∧ v' ≤ v := by
  refine ⟨_, _, clippedNLL_spec t m ht.distinct hm.distinct eps he keys hk, clippedNLL_spec t t ht.distinct ht.distinct eps he keys' hk', ?_⟩
  rw [specNLL_on (m := t) (outcomes t ∪ outcomes m) Finset.subset_union_left, specNLL_on (m := m) (outcomes t ∪ outcomes m) Finset.subset_union_left]
  have h : ∑ k ∈ outcomes t ∪ outcomes m, (pmf t k * Real.log (max eps (pmf m k)) - pmf t k * Real.log (max eps (pmf t k))) ≤
      ∑ k ∈ outcomes t ∪ outcomes m, (pmf m k - pmf t k) := by
    refine Finset.sum_le_sum fun k _ => ?_
    rcases (pmf_nonneg' ht k).eq_or_lt with h0 | hpos
    · rw [← h0]; simpa using pmf_nonneg' hm k
    · refine (gibbs_term he hpos.le).trans ?_
      rw [max_eq_right (hclip k hpos)]
      have h2 := le_max_right eps (pmf t k)
      linarith
  rw [Finset.sum_sub_distrib, Finset.sum_sub_distrib, sum_pmf m _ Finset.subset_union_right, sum_pmf t _ Finset.subset_union_left, t1, m1] at h
  linarith

/-- C131. The Jensen-Shannon divergence is almost smallest for equal distributions in the same sense: the mean of its values for two equal distributions exceeds its value for the two by at most the
clipping parameter times the number of outcomes. Its value for equal distributions is their clipped entropy. -/
theorem js_almost_smallest (t m : List (List ℤ × ℝ)) (ht : Valid t) (hm : Valid m) (t1 : total t = 1) (m1 : total m = 1) {eps : ℝ} (he : 0 < eps)
    (k₁ k₂ k₃ k₄ k₅ k₆ : List (List ℤ)) (h₁ : Enumerates k₁ t m) (h₂ : Enumerates k₂ m t) (h₃ : Enumerates k₃ t t) (h₄ : Enumerates k₄ t t) (h₅ : Enumerates k₅ m m) (h₆ : Enumerates k₆ m m) :
    ∃ v a b, jensenShannon k₁ k₂ t m eps = .ok v ∧ jensenShannon k₃ k₄ t t eps = .ok a ∧ jensenShannon k₅ k₆ m m eps = .ok b ∧
      a = -∑ k ∈ outcomes t, pmf t k * Real.log (max eps (pmf t k)) ∧ (a + b) / 2 ≤ v + eps * (outcomes t ∪ outcomes m).card := by
  obtain ⟨x, x', e1, e2, e3⟩ := nll_almost_smallest t m ht hm t1 m1 he k₁ k₃ h₁ h₃
  obtain ⟨y, y', f1, f2, f3⟩ := nll_almost_smallest m t hm ht m1 t1 he k₂ k₅ h₂ h₅
  have e4 := clippedNLL_spec t t ht.distinct ht.distinct eps he k₃ h₃
  have e5 := clippedNLL_spec t t ht.distinct ht.distinct eps he k₄ h₄
  have f4 := clippedNLL_spec m m hm.distinct hm.distinct eps he k₅ h₅
  have f5 := clippedNLL_spec m m hm.distinct hm.distinct eps he k₆ h₆
  rw [e4] at e2; cases e2
  rw [f4] at f2; cases f2
  refine ⟨x / 2 + y / 2, specNLL t t eps / 2 + specNLL t t eps / 2, specNLL m m eps / 2 + specNLL m m eps / 2, ?_, ?_, ?_, ?_, ?_⟩
  · unfold jensenShannon; rw [e1, f1]; rfl
  · unfold jensenShannon; rw [e4, e5]; rfl
  · unfold jensenShannon; rw [f4, f5]; rfl
  · rw [← specNLL_on (outcomes t) subset_rfl]; ring
  · rw [Finset.union_comm] at f3
    linarith

/-- A target with a rare outcome, and the distribution without it. -/
noncomputable def rareTarget (eps : ℝ) : List (List ℤ × ℝ) := [([0], 1 - eps), ([1], eps)]

/-- See `rareTarget`. -/
def withoutRare : List (List ℤ × ℝ) := [([0], 1)]

theorem rareTarget_valid {eps : ℝ} (h0 : 0 ≤ eps) (h1 : eps ≤ 1) : Valid (rareTarget eps) ∧ total (rareTarget eps) = 1 :=
  ⟨⟨by simp [rareTarget], by simp [rareTarget], by simp [rareTarget], by simp [rareTarget], by simp [rareTarget, h0, h1]⟩, by simp [rareTarget, total]⟩

theorem withoutRare_valid : Valid withoutRare ∧ total withoutRare = 1 :=
  ⟨⟨by simp [withoutRare], by simp [withoutRare], by simp [withoutRare], by simp [withoutRare], by simp [withoutRare]⟩, by simp [withoutRare, total]⟩

/-- C131, counterexample. Neither measure is smallest for equal distributions: for each clipping parameter up to one half there is a target and a different distribution which both the clipped negative log
likelihood and the Jensen-Shannon divergence say is nearer to the target than the target itself; and the divergence of the target from itself is positive. -/
theorem nearest_counterexample {eps : ℝ} (he : 0 < eps) (he2 : eps ≤ 1 / 2) :
    ∃ t m : List (List ℤ × ℝ), Valid t ∧ Valid m ∧ total t = 1 ∧ total m = 1 ∧ (∃ k, pmf t k ≠ pmf m k) ∧
      ∀ k₁ k₂ k₃ k₄, Enumerates k₁ t m → Enumerates k₂ m t → Enumerates k₃ t t → Enumerates k₄ t t →
        (∃ v v', clippedNLL k₁ t m eps = .ok v ∧ clippedNLL k₃ t t eps = .ok v' ∧ v < v') ∧
          ∃ v v', jensenShannon k₁ k₂ t m eps = .ok v ∧ jensenShannon k₃ k₄ t t eps = .ok v' ∧ v < v' ∧ 0 < v' := by
  obtain ⟨ht, t1⟩ := rareTarget_valid he.le (by linarith)
  obtain ⟨hm, m1⟩ := withoutRare_valid
  have p0 : pmf (rareTarget eps) [0] = 1 - eps := by simp [pmf, rareTarget]
  have p1 : pmf (rareTarget eps) [1] = eps := by simp [pmf, rareTarget]
  have q0 : pmf withoutRare [0] = 1 := by simp [pmf, withoutRare]
  have q1 : pmf withoutRare [1] = 0 := by simp [pmf, withoutRare]
  have ot : outcomes (rareTarget eps) = {[0], [1]} := by simp [outcomes, rareTarget]
  have om : outcomes withoutRare ⊆ {[0], [1]} := by simp [outcomes, withoutRare]
  have hsum : ∀ f : List ℤ → ℝ, ∑ k ∈ ({[0], [1]} : Finset (List ℤ)), f k = f [0] + f [1] := fun f => Finset.sum_pair (by simp)
  have ntt : specNLL (rareTarget eps) (rareTarget eps) eps = -((1 - eps) * Real.log (1 - eps) + eps * Real.log eps) := by
    rw [specNLL_on {[0], [1]} ot.subset, hsum, p0, p1, max_self, max_eq_right (by linarith)]
  have ntm : specNLL (rareTarget eps) withoutRare eps = -(eps * Real.log eps) := by
    rw [specNLL_on {[0], [1]} ot.subset, hsum, p0, p1, q0, q1, max_eq_right (by linarith), max_eq_left he.le, Real.log_one, mul_zero, zero_add]
  have nmt : specNLL withoutRare (rareTarget eps) eps = -Real.log (1 - eps) := by
    rw [specNLL_on {[0], [1]} om, hsum, p0, p1, q0, q1, max_eq_right (by linarith), one_mul, zero_mul, add_zero]
  have l1 : Real.log (1 - eps) < 0 := Real.log_neg (by linarith) (by linarith)
  have l2 : Real.log eps < 0 := Real.log_neg he (by linarith)
  have l3 : eps * Real.log eps < 0 := mul_neg_of_pos_of_neg he l2
  have l4 : (1 - eps) * Real.log (1 - eps) < 0 := mul_neg_of_pos_of_neg (by linarith) l1
  refine ⟨rareTarget eps, withoutRare, ht, hm, t1, m1, ⟨[1], by rw [p1, q1]; exact he.ne'⟩, fun k₁ k₂ k₃ k₄ h₁ h₂ h₃ h₄ => ?_⟩
  have e1 := clippedNLL_spec _ _ ht.distinct hm.distinct eps he k₁ h₁
  have e2 := clippedNLL_spec _ _ hm.distinct ht.distinct eps he k₂ h₂
  have e3 := clippedNLL_spec _ _ ht.distinct ht.distinct eps he k₃ h₃
  have e4 := clippedNLL_spec _ _ ht.distinct ht.distinct eps he k₄ h₄
  refine ⟨⟨_, _, e1, e3, ?_⟩, specNLL (rareTarget eps) withoutRare eps / 2 + specNLL withoutRare (rareTarget eps) eps / 2,
    specNLL (rareTarget eps) (rareTarget eps) eps / 2 + specNLL (rareTarget eps) (rareTarget eps) eps / 2, ?_, ?_, ?_, ?_⟩
  · rw [ntt, ntm]; linarith
  · unfold jensenShannon; rw [e1, e2]; rfl
  · unfold jensenShannon; rw [e3, e4]; rfl
  · rw [ntt, ntm, nmt]
    nlinarith [mul_nonneg (show 0 ≤ 1 / 2 - eps by linarith) (show 0 ≤ -Real.log (1 - eps) by linarith)]
  · rw [ntt]; linarith

/-- Non-vacuity: enumerations exist. -/
example (t m : List (List ℤ × ℝ)) : Enumerates (outcomes t ∪ outcomes m).toList t m :=
  ⟨Finset.nodup_toList _, Finset.toList_toFinset _⟩

/-- Non-vacuity: two different distributions that give at least a tenth to each outcome. -/
example : ∃ t m : List (List ℤ × ℝ), Valid t ∧ Valid m ∧ total t = 1 ∧ total m = 1 ∧ (∀ k, 0 < pmf t k → 1 / 10 ≤ pmf m k) ∧ pmf t [1] ≠ pmf m [1] := by
  obtain ⟨h1, h2⟩ := rareTarget_valid (eps := 1 / 3) (by norm_num) (by norm_num)
  obtain ⟨h3, h4⟩ := rareTarget_valid (eps := 1 / 2) (by norm_num) (by norm_num)
  refine ⟨rareTarget (1 / 3), rareTarget (1 / 2), h1, h3, h2, h4, ?_, by simp [pmf, rareTarget]⟩
  intro k hk
  by_cases a : [0] = k
  · subst a; simp [pmf, rareTarget]; norm_num
  · by_cases b : [1] = k
    · subst b; simp [pmf, rareTarget]; norm_num
    · simp [pmf, rareTarget, a, b] at hk

end ZQ.Dist
