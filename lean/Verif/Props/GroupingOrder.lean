import Verif.Props.Grouping

/-!
# C38: the greedy grouping is the first fit in the order of the terms
-/

namespace ZQ.Op

open ZQ ZQ.PyDict

/-- The groups come from going through the items in their order and putting each into the first group it fits: the items of a group are in order, and an item is not in an
earlier group only because an item before it is there with which it cannot be measured. -/
def FirstFit (items : Terms Letter) (gs : List (Terms Letter)) : Prop :=
  (∀ g ∈ gs, g.Sublist items) ∧ gs.Pairwise fun g g' => ∀ t ∈ g', ∃ s ∈ g, [s, t].Sublist items ∧ ¬ CoMeasurable s.1 t.1

/-- The order in which the terms are gone through: that of the operator, or from large to small, and equally large ones as in the operator. -/
def Visits (o : Terms Letter) (sortTerms : Bool) (items : Terms Letter) : Prop :=
  items.Perm o ∧ (sortTerms = false → items = o) ∧
    (sortTerms = true → items.Pairwise (fun a b => ‖b.2‖ ≤ ‖a.2‖) ∧ ∀ a b, [a, b].Sublist o → ‖a.2‖ = ‖b.2‖ → [a, b].Sublist items)

theorem greedyOrder_visits (o : Terms Letter) (b : Bool) : Visits o b (greedyOrder o b) := by
  refine ⟨greedyOrder_perm o b, ?_, ?_⟩
  · rintro rfl; rfl
  · rintro rfl
    haveI : Std.Total (fun a b : Term Letter × ℂ => ‖b.2‖ ≤ ‖a.2‖) := ⟨fun a b => le_total _ _⟩
    haveI : IsTrans (Term Letter × ℂ) (fun a b => ‖b.2‖ ≤ ‖a.2‖) := ⟨fun _ _ _ h1 h2 => h2.trans h1⟩
    exact ⟨List.pairwise_insertionSort _ _, fun a b hs he => List.pair_sublist_insertionSort (le_of_eq he.symm) hs⟩

theorem placeTerm_mem {full : Terms Letter} {t : Term Letter} {c : ℂ} (ht : Canonical t) (hc : coeff full t = c) (hbig : ¬ ‖c‖ < 1 / 10 ^ 8) :
    ∀ gs : List (Terms Letter), (∀ g ∈ gs, t ∉ keys g) → ∀ g ∈ placeTerm full t c gs, g ∈ gs ∨ g = [(t, c)] ∨ ∃ g' ∈ gs, g = g' ++ [(t, c)] := by
  have hof : ∀ c, ofTerm qubit t c = [(t, c)] := fun c => by rw [ofTerm]; show [((qubitSimplify t c).2, (qubitSimplify t c).1)] = _; rw [qubitSimplify_of_canonical ht]
  intro gs
  induction gs with
  | nil =>
    intro _ g hg
    rw [placeTerm, hof, hc, List.mem_singleton] at hg
    exact .inr (.inl hg)
  | cons g gs ih =>
    intro hnot g' hg'
    rw [placeTerm] at hg'
    by_cases hall : (keys g).all (isComeasureable t) = true
    · rw [if_pos hall, hof, add_fresh (hnot g (by simp)) hbig] at hg'
      rcases List.mem_cons.1 hg' with rfl | h
      · exact .inr (.inr ⟨g, by simp, rfl⟩)
      · exact .inl (by simp [h])
    · rw [if_neg hall] at hg'
      rcases List.mem_cons.1 hg' with rfl | h
      · exact .inl (by simp)
      · rcases ih (fun g hg => hnot g (by simp [hg])) g' h with h | h | ⟨g2, h2, h3⟩
        · exact .inl (by simp [h])
        · exact .inr (.inl h)
        · exact .inr (.inr ⟨g2, by simp [h2], h3⟩)

theorem placeTerm_fit {full : Terms Letter} {t : Term Letter} {c : ℂ} (ht : Canonical t) (hc : coeff full t = c) (hbig : ¬ ‖c‖ < 1 / 10 ^ 8) {done : Terms Letter} :
    ∀ gs : List (Terms Letter), (∀ g ∈ gs, t ∉ keys g) → FirstFit done gs → FirstFit (done ++ [(t, c)]) (placeTerm full t c gs) := by
  have hof : ∀ c, ofTerm qubit t c = [(t, c)] := fun c => by rw [ofTerm]; show [((qubitSimplify t c).2, (qubitSimplify t c).1)] = _; rw [qubitSimplify_of_canonical ht]
  have hsub : done.Sublist (done ++ [(t, c)]) := List.sublist_append_left _ _
  intro gs hnot hfit
  refine ⟨fun g hg => ?_, ?_⟩
  · rcases placeTerm_mem ht hc hbig gs hnot g hg with h | rfl | ⟨g', h, rfl⟩
    · exact (hfit.1 g h).trans hsub
    · exact List.sublist_append_right _ _
    · exact (hfit.1 g' h).append (List.Sublist.refl _)
  · induction gs with
    | nil => rw [placeTerm]; exact List.pairwise_singleton _ _
    | cons g gs ih =>
      obtain ⟨h1, h2⟩ := List.pairwise_cons.1 hfit.2
      rw [placeTerm]
      by_cases hall : (keys g).all (isComeasureable t) = true
      · rw [if_pos hall, hof, add_fresh (hnot g (by simp)) hbig, List.pairwise_cons]
        refine ⟨fun g' hg' u hu => ?_, h2.imp fun h u hu => ?_⟩
        · obtain ⟨s, s1, s2, s3⟩ := h1 g' hg' u hu
          exact ⟨s, by simp [s1], s2.trans hsub, s3⟩
        · obtain ⟨s, s1, s2, s3⟩ := h u hu
          exact ⟨s, s1, s2.trans hsub, s3⟩
      · rw [if_neg hall, List.pairwise_cons]
        refine ⟨fun g' hg' u hu => ?_, ih (fun g hg => hnot g (by simp [hg])) ⟨fun g hg => hfit.1 g (by simp [hg]), h2⟩⟩
        have hcase : u = (t, c) ∨ ∃ g2 ∈ gs, u ∈ g2 := by
          rcases placeTerm_mem ht hc hbig gs (fun g hg => hnot g (by simp [hg])) g' hg' with h | rfl | ⟨g2, h, rfl⟩
          · exact .inr ⟨g', h, hu⟩
          · exact .inl (List.mem_singleton.1 hu)
          · rcases List.mem_append.1 hu with hu | hu
            · exact .inr ⟨g2, h, hu⟩
            · exact .inl (List.mem_singleton.1 hu)
        rcases hcase with rfl | ⟨g2, hg2, hu2⟩
        · obtain ⟨k, hk, hne⟩ : ∃ k ∈ keys g, ¬ isComeasureable t k = true := by
            by_contra hcon
            push Not at hcon
            exact hall (List.all_eq_true.2 hcon)
          obtain ⟨kv, hkv, rfl⟩ := List.mem_map.1 hk
          refine ⟨kv, hkv, ?_, fun hco => hne ((isComeasureable_iff _ _).2 (coMeasurable_comm hco))⟩
          have : [kv].Sublist done := List.singleton_sublist.2 ((hfit.1 g (by simp)).subset hkv)
          exact this.append (List.Sublist.refl [(t, c)])
        · obtain ⟨s, s1, s2, s3⟩ := h1 g2 hg2 u hu2
          exact ⟨s, s1, s2.trans hsub, s3⟩

theorem greedy_fit {full : Terms Letter} :
    ∀ (items : Terms Letter) (gs : List (Terms Letter)) (k : Option (Terms Letter)) (done : Terms Letter), WF items →
      (∀ kv ∈ items, Canonical kv.1 ∧ coeff full kv.1 = kv.2 ∧ ¬ ‖kv.2‖ < 1 / 10 ^ 8) →
      (∀ t ∈ keys items, ∀ g ∈ gs, t ∉ keys g) → FirstFit done gs → (∀ g ∈ gs, [] ∉ keys g) →
      FirstFit (done ++ items) (items.foldl (greedyStep full) (gs, k)).1 ∧ ∀ g ∈ (items.foldl (greedyStep full) (gs, k)).1, [] ∉ keys g := by
  intro items
  induction items with
  | nil => intro gs k done _ _ _ hf h0; rw [List.append_nil]; exact ⟨hf, h0⟩
  | cons kv items ih =>
    obtain ⟨t, c⟩ := kv
    intro gs k done hw hcan hnot hf hn
    have hw' : t ∉ keys items ∧ WF items := by
      rw [WF, keys, List.map_cons, List.nodup_cons] at hw; exact hw
    obtain ⟨c1, c2, c3⟩ := hcan (t, c) (by simp)
    rw [List.foldl_cons, show done ++ (t, c) :: items = (done ++ [(t, c)]) ++ items by simp]
    have hnot' : ∀ u ∈ keys items, ∀ g ∈ gs, u ∉ keys g := fun u hu => hnot u (by simp only [keys, List.map_cons, List.mem_cons]; exact .inr hu)
    by_cases h0 : t = []
    · subst h0
      rw [greedyStep, if_pos rfl]
      refine ih gs _ _ hw'.2 (fun kv hkv => hcan kv (by simp [hkv])) hnot' ⟨fun g hg => (hf.1 g hg).trans (List.sublist_append_left _ _), hf.2.imp fun h u hu => ?_⟩ hn
      obtain ⟨s, s1, s2, s3⟩ := h u hu
      exact ⟨s, s1, s2.trans (List.sublist_append_left _ _), s3⟩
    · rw [greedyStep, if_neg h0]
      have hnt := hnot t (by simp [keys])
      refine ih _ _ _ hw'.2 (fun kv hkv => hcan kv (by simp [hkv])) ?_ (placeTerm_fit c1 c2 c3 gs hnt hf) ?_
      · intro u hu g hg hug
        have hne : u ≠ t := fun e => hw'.1 (e ▸ hu)
        rcases placeTerm_mem c1 c2 c3 gs hnt g hg with h | rfl | ⟨g', h, rfl⟩
        · exact hnot' u hu g h hug
        · exact hne (by simpa [keys] using hug)
        · rw [keys, List.map_append, List.mem_append] at hug
          rcases hug with hug | hug
          · exact hnot' u hu g' h hug
          · exact hne (by simpa using hug)
      · intro g hg hug
        rcases placeTerm_mem c1 c2 c3 gs hnt g hg with h | rfl | ⟨g', h, rfl⟩
        · exact hn g h hug
        · exact h0 (by simpa [keys, eq_comm] using hug)
        · rw [keys, List.map_append, List.mem_append] at hug
          rcases hug with hug | hug
          · exact hn g' h hug
          · exact h0 (by simpa [eq_comm] using hug)

/-- C38. The groups without the constant term are the first fit of the terms, in the order of the operator or sorted by size. -/
theorem groupGreedy_first_fit {o : Terms Letter} (h : CanonicalOp o) (sortTerms : Bool) (hbig : ∀ kv ∈ o, 1 / 10 ^ 8 ≤ ‖kv.2‖) :
    ∃ items gs, Visits o sortTerms items ∧ FirstFit items gs ∧ (∀ g ∈ gs, [] ∉ keys g) ∧
      groupGreedy o sortTerms = gs ++ if [] ∈ keys o then [[([], coeff o [])]] else [] := by
  have hp := greedyOrder_perm o sortTerms
  have hw : WF (greedyOrder o sortTerms) := (hp.map Prod.fst).nodup_iff.2 h.1
  have hcan : ∀ kv ∈ greedyOrder o sortTerms, Canonical kv.1 ∧ coeff o kv.1 = kv.2 := fun kv hkv =>
    ⟨h.2 kv.1 (List.mem_map_of_mem (hp.mem_iff.1 hkv)), coeff_of_mem h.1 (hp.mem_iff.1 hkv)⟩
  obtain ⟨-, -, -, -, hk⟩ := greedy_loop (full := o) (greedyOrder o sortTerms) [] none hw hcan (by simp) (by simp)
  obtain ⟨f1, f2⟩ := greedy_fit (full := o) (greedyOrder o sortTerms) [] none [] hw
    (fun kv hkv => ⟨(hcan kv hkv).1, (hcan kv hkv).2, not_lt.2 (hbig kv (hp.mem_iff.1 hkv))⟩) (by simp) ⟨by simp, List.Pairwise.nil⟩ (by simp)
  have hkey : [] ∈ keys (greedyOrder o sortTerms) ↔ [] ∈ keys o := (hp.map Prod.fst).mem_iff
  refine ⟨_, _, greedyOrder_visits o sortTerms, f1, f2, ?_⟩
  rw [groupGreedy, hk, if_congr hkey rfl rfl]
  by_cases h0 : [] ∈ keys o
  · rw [if_pos h0, if_pos h0]
  · rw [if_neg h0, if_neg h0, List.append_nil]

/-- A greedy grouping with a choice: the second term fits the first group and the third does not. -/
example : ∃ gs, groupGreedy [([(0, .X)], 1), ([(1, .Z)], 2), ([(0, .Z)], 3)] false = gs ∧ FirstFit [([(0, .X)], 1), ([(1, .Z)], 2), ([(0, .Z)], 3)] gs := by
  have hc : CanonicalOp [([((0 : ℕ), Letter.X)], (1 : ℂ)), ([(1, .Z)], 2), ([(0, .Z)], 3)] := by
    refine ⟨by simp [WF, PyDict.keys], fun t ht => ?_⟩
    simp only [PyDict.keys, List.map_cons, List.map_nil, List.mem_cons, List.not_mem_nil, or_false] at ht
    rcases ht with rfl | rfl | rfl <;> exact ⟨by simp, by simp⟩
  obtain ⟨items, gs, v, f, -, e⟩ := groupGreedy_first_fit hc false (by
    simp only [List.mem_cons, List.not_mem_nil, or_false, forall_eq_or_imp, forall_eq]
    norm_num)
  obtain rfl := v.2.1 rfl
  refine ⟨gs, ?_, f⟩
  rw [e, if_neg (by simp [PyDict.keys]), List.append_nil]

end ZQ.Op
