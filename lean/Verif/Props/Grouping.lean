import Verif.Model.Grouping
import Verif.Spec.PauliMatrix
import Verif.Props.Reorder

/-!
# C38: greedy grouping of co-measurable terms
-/

namespace ZQ.Op

open ZQ ZQ.PyDict

theorem isComeasureable_iff (s t : Term Letter) : isComeasureable s t = true ↔ CoMeasurable s t := by
  simp only [isComeasureable, CoMeasurable, List.all_eq_true, Bool.not_eq_true', Bool.and_eq_false_iff, decide_eq_false_iff_not]
  constructor
  · intro h q a b ha hb
    rcases h (q, a) ha (q, b) hb with h | h
    · exact absurd rfl h
    · exact not_not.1 h
  · intro h f hf g hg
    by_cases hq : f.1 = g.1
    · exact .inr (not_not.2 (h g.1 f.2 g.2 (hq ▸ hf) hg))
    · exact .inl hq

theorem coMeasurable_comm {s t : Term Letter} (h : CoMeasurable s t) : CoMeasurable t s := fun q a b ha hb => (h q b a hb ha).symm

/-- All terms of a group can be measured together. -/
def CoGroup (g : Terms Letter) : Prop := ∀ s ∈ keys g, ∀ t ∈ keys g, CoMeasurable s t

/-- What one placement does to the groups. -/
theorem placeTerm_spec {full : Terms Letter} {t : Term Letter} {c : ℂ} (ht : Canonical t) (hc : coeff full t = c) :
    ∀ gs : List (Terms Letter), (∀ g ∈ gs, t ∉ keys g) → (∀ g ∈ gs, g ≠ [] ∧ CoGroup g) →
      ((placeTerm full t c gs).flatten.Perm ((t, c) :: gs.flatten) ∨ (‖c‖ < 1 / 10 ^ 8 ∧ placeTerm full t c gs = gs)) ∧
      ∀ g ∈ placeTerm full t c gs, g ≠ [] ∧ CoGroup g := by
  have hof : ∀ c, ofTerm qubit t c = [(t, c)] := fun c => by rw [ofTerm]; show [((qubitSimplify t c).2, (qubitSimplify t c).1)] = _; rw [qubitSimplify_of_canonical ht]
  have hself : CoMeasurable t t := fun q a b ha hb => (Prod.mk.inj (List.inj_on_of_nodup_map ht.nodup ha hb rfl)).2
  intro gs
  induction gs with
  | nil =>
    intro _ _
    rw [placeTerm, hof, hc]
    refine ⟨.inl (by simp), ?_⟩
    intro g hg
    rw [List.mem_singleton] at hg
    subst hg
    refine ⟨by simp, ?_⟩
    intro s hs u hu
    simp only [keys, List.map_cons, List.map_nil, List.mem_singleton] at hs hu
    subst hs; subst hu; exact hself
  | cons g gs ih =>
    intro hnot hco
    have hg := hco g (by simp)
    rw [placeTerm]
    by_cases hall : (keys g).all (isComeasureable t) = true
    · rw [if_pos hall, hof]
      have hall' : ∀ u ∈ keys g, CoMeasurable t u := fun u hu => (isComeasureable_iff t u).1 (List.all_eq_true.1 hall u hu)
      by_cases hsm : ‖c‖ < 1 / 10 ^ 8
      · rw [add_small (hnot g (by simp)) hsm]
        exact ⟨.inr ⟨hsm, rfl⟩, hco⟩
      · rw [add_fresh (hnot g (by simp)) hsm]
        refine ⟨.inl ?_, ?_⟩
        · rw [List.flatten_cons, List.flatten_cons, List.append_assoc]
          exact List.perm_middle
        · intro g' hg'
          rcases List.mem_cons.1 hg' with rfl | hg'
          · refine ⟨by simp, ?_⟩
            intro s hs u hu
            simp only [keys, List.map_append, List.map_cons, List.map_nil, List.mem_append, List.mem_singleton] at hs hu
            rcases hs with hs | rfl <;> rcases hu with hu | rfl
            · exact hg.2 s hs u hu
            · exact coMeasurable_comm (hall' s hs)
            · exact hall' u hu
            · exact hself
          · exact hco g' (by simp [hg'])
    · rw [if_neg hall]
      obtain ⟨h1, h2⟩ := ih (fun g hg => hnot g (by simp [hg])) (fun g hg => hco g (by simp [hg]))
      refine ⟨?_, ?_⟩
      · rcases h1 with h1 | ⟨h1, h1'⟩
        · left
          rw [List.flatten_cons, List.flatten_cons]
          exact (h1.append_left g).trans List.perm_middle
        · exact .inr ⟨h1, by rw [h1']⟩
      · intro g' hg'
        rcases List.mem_cons.1 hg' with rfl | hg'
        · exact hg
        · exact h2 g' hg'

/-- The non-constant part of the loop. -/
theorem greedy_loop {full : Terms Letter} :
    ∀ (items : Terms Letter) (gs : List (Terms Letter)) (k : Option (Terms Letter)), WF items → (∀ kv ∈ items, Canonical kv.1 ∧ coeff full kv.1 = kv.2) →
      (∀ t ∈ keys items, ∀ g ∈ gs, t ∉ keys g) → (∀ g ∈ gs, g ≠ [] ∧ CoGroup g) →
      ∃ dropped : Terms Letter, (∀ kv ∈ dropped, ‖kv.2‖ < 1 / 10 ^ 8) ∧
        ((items.foldl (greedyStep full) (gs, k)).1.flatten ++ dropped).Perm (gs.flatten ++ items.filter fun kv => decide (kv.1 ≠ [])) ∧
        (∀ g ∈ (items.foldl (greedyStep full) (gs, k)).1, g ≠ [] ∧ CoGroup g) ∧
        (items.foldl (greedyStep full) (gs, k)).2 = if [] ∈ keys items then some [([], coeff full [])] else k := by
  intro items
  induction items with
  | nil => intro gs k _ _ _ hco; exact ⟨[], by simp, by simp, hco, by simp [keys]⟩
  | cons kv items ih =>
    obtain ⟨t, c⟩ := kv
    intro gs k hw hcan hnot hco
    have hw' : t ∉ keys items ∧ WF items := by
      rw [WF, keys, List.map_cons, List.nodup_cons] at hw; exact hw
    have hcan' := hcan (t, c) (by simp)
    rw [List.foldl_cons]
    by_cases h0 : t = []
    · subst h0
      rw [greedyStep, if_pos rfl]
      obtain ⟨d, hd, hp, hg, hk⟩ := ih gs (some (ofTerm qubit [] c)) hw'.2 (fun kv hkv => hcan kv (by simp [hkv]))
        (fun u hu => hnot u (by simp only [keys, List.map_cons, List.mem_cons]; exact .inr hu)) hco
      refine ⟨d, hd, ?_, hg, ?_⟩
      · rw [List.filter_cons_of_neg (by simp)]; exact hp
      · rw [hk, if_neg hw'.1, if_pos (by simp [keys]), hcan'.2]
        rfl
    · rw [greedyStep, if_neg h0]
      obtain ⟨h1, h2⟩ := placeTerm_spec hcan'.1 hcan'.2 gs (hnot t (by simp [keys])) hco
      have hkeys : [] ∈ keys ((t, c) :: items) ↔ [] ∈ keys items := by
        simp only [keys, List.map_cons, List.mem_cons]
        exact ⟨fun h => h.resolve_left (fun e => h0 e.symm), .inr⟩
      rcases h1 with h1 | ⟨hsm, h1⟩
      · obtain ⟨d, hd, hp, hg, hk⟩ := ih (placeTerm full t c gs) k hw'.2 (fun kv hkv => hcan kv (by simp [hkv])) (by
            intro u hu g hg hug
            have : (u ∈ keys (placeTerm full t c gs).flatten) := by
              obtain ⟨kv, hkv, rfl⟩ := List.mem_map.1 hug
              exact List.mem_map_of_mem (List.mem_flatten.2 ⟨g, hg, hkv⟩)
            obtain ⟨kv, hkv, rfl⟩ := List.mem_map.1 this
            rcases List.mem_cons.1 (h1.mem_iff.1 hkv) with rfl | h
            · exact hw'.1 hu
            · obtain ⟨g', hg', hm⟩ := List.mem_flatten.1 h
              exact hnot kv.1 (by simp only [keys, List.map_cons, List.mem_cons]; exact .inr hu) g' hg' (List.mem_map_of_mem hm)) h2
        refine ⟨d, hd, ?_, hg, ?_⟩
        · rw [List.filter_cons_of_pos (by simpa using h0)]
          refine hp.trans ((h1.append_right _).trans ?_)
          exact List.perm_middle.symm
        · rw [hk, if_congr hkeys rfl rfl]
      · rw [h1]
        obtain ⟨d, hd, hp, hg, hk⟩ := ih gs k hw'.2 (fun kv hkv => hcan kv (by simp [hkv]))
          (fun u hu => hnot u (by simp only [keys, List.map_cons, List.mem_cons]; exact .inr hu)) hco
        refine ⟨(t, c) :: d, ?_, ?_, hg, ?_⟩
        · intro kv hkv
          rcases List.mem_cons.1 hkv with rfl | hkv
          · exact hsm
          · exact hd kv hkv
        · rw [List.filter_cons_of_pos (by simpa using h0)]
          exact List.perm_middle.trans ((hp.cons _).trans List.perm_middle.symm)
        · rw [hk, if_congr hkeys rfl rfl]

theorem greedyOrder_perm (o : Terms Letter) (b : Bool) : (greedyOrder o b).Perm o := by
  cases b
  · exact List.Perm.refl _
  · exact List.perm_insertionSort _ _

/-- C38. `group_comeasureable_terms_greedy`: the groups together contain exactly the items of the operator, each once with its coefficient, except
that items with coefficient below the tolerance of operator addition may be left out; every group is non-empty and any two of its
terms can be measured together; a constant term is alone in the last group. -/
theorem groupGreedy_spec {o : Terms Letter} (h : CanonicalOp o) (sortTerms : Bool) :
    (∃ dropped : Terms Letter, (∀ kv ∈ dropped, ‖kv.2‖ < 1 / 10 ^ 8) ∧ ((groupGreedy o sortTerms).flatten ++ dropped).Perm o) ∧
    (∀ g ∈ groupGreedy o sortTerms, g ≠ [] ∧ ∀ s ∈ keys g, ∀ t ∈ keys g, CoMeasurable s t) ∧
    ([] ∈ keys o → ∃ gs, groupGreedy o sortTerms = gs ++ [[([], coeff o [])]] ∧ ∀ g ∈ gs, [] ∉ keys g) := by
  have hp := greedyOrder_perm o sortTerms
  have hw : WF (greedyOrder o sortTerms) := (hp.map Prod.fst).nodup_iff.2 h.1
  obtain ⟨d, hd, hperm, hg, hk⟩ := greedy_loop (full := o) (greedyOrder o sortTerms) [] none hw
    (fun kv hkv => ⟨h.2 kv.1 (List.mem_map_of_mem (hp.mem_iff.1 hkv)), coeff_of_mem h.1 (hp.mem_iff.1 hkv)⟩) (by simp) (by simp)
  have hkey : [] ∈ keys (greedyOrder o sortTerms) ↔ [] ∈ keys o := (hp.map Prod.fst).mem_iff
  rw [if_congr hkey rfl rfl] at hk
  have hperm' := hperm.trans ((hp.filter _).append_left _)
  rw [List.flatten_nil, List.nil_append] at hperm'
  rw [groupGreedy]
  by_cases h0 : [] ∈ keys o
  · rw [if_pos h0] at hk
    rw [hk]
    have hmem : ([], coeff o []) ∈ o := by
      obtain ⟨kv, hkv, e⟩ := List.mem_map.1 h0
      obtain ⟨t, c⟩ := kv
      simp only at e
      subst e
      rw [coeff_of_mem h.1 hkv]; exact hkv
    have hfil : (([], coeff o []) :: o.filter fun kv => decide (kv.1 ≠ [])).Perm o := by
      have hall : ∀ kv ∈ o, kv.1 = [] → kv = ([], coeff o []) := fun kv hkv e => List.inj_on_of_nodup_map h.1 hkv hmem e
      have h2 : (o.filter fun kv => !decide (kv.1 ≠ [])) = [([], coeff o [])] := by
        have hnd : o.Nodup := List.Nodup.of_map _ h.1
        refine List.perm_singleton.1 ((List.perm_ext_iff_of_nodup (hnd.filter _) (List.nodup_singleton _)).2 ?_)
        intro kv
        simp only [List.mem_filter, List.mem_singleton, Bool.not_eq_true', decide_eq_false_iff_not, ne_eq, not_not]
        exact ⟨fun ⟨a, b⟩ => hall kv a b, fun e => e ▸ ⟨hmem, rfl⟩⟩
      have := List.filter_append_perm (fun kv : Term Letter × ℂ => decide (kv.1 ≠ [])) o
      rw [h2] at this
      exact (List.perm_append_singleton _ _).symm.trans this
    refine ⟨⟨d, hd, ?_⟩, ?_, ?_⟩
    · dsimp only
      rw [List.flatten_append, List.flatten_cons, List.flatten_nil, List.append_nil, List.append_assoc, List.singleton_append]
      exact List.perm_middle.trans ((hperm'.cons _).trans hfil)
    · intro g hgm
      rcases List.mem_append.1 hgm with hgm | hgm
      · exact hg g hgm
      · rw [List.mem_singleton] at hgm
        subst hgm
        refine ⟨by simp, ?_⟩
        intro s hs t _ q a b ha
        simp only [keys, List.map_cons, List.map_nil, List.mem_singleton] at hs
        subst hs; simp at ha
    · intro _
      refine ⟨_, rfl, ?_⟩
      intro g hgm hmem
      obtain ⟨kv, hkv, e⟩ := List.mem_map.1 hmem
      have : kv ∈ o.filter fun kv => decide (kv.1 ≠ []) := hperm'.mem_iff.1 (List.mem_append_left _ (List.mem_flatten.2 ⟨g, hgm, hkv⟩))
      rw [List.mem_filter] at this
      simp [e] at this
  · rw [if_neg h0] at hk
    rw [hk]
    refine ⟨⟨d, hd, ?_⟩, hg, fun e => absurd e h0⟩
    have : (o.filter fun kv => decide (kv.1 ≠ [])) = o := by
      rw [List.filter_eq_self]
      intro kv hkv
      simp only [ne_eq, decide_not, Bool.not_eq_true', decide_eq_false_iff_not]
      exact fun e => h0 (e ▸ List.mem_map_of_mem hkv)
    rw [this] at hperm'
    exact hperm'

/-- C38, without coefficients below the tolerance: the groups are a partition of the operator's items. -/
theorem groupGreedy_partition {o : Terms Letter} (h : CanonicalOp o) (sortTerms : Bool) (hbig : ∀ kv ∈ o, 1 / 10 ^ 8 ≤ ‖kv.2‖) :
    (groupGreedy o sortTerms).flatten.Perm o := by
  obtain ⟨⟨d, hd, hp⟩, -⟩ := groupGreedy_spec h sortTerms
  have : d = [] := by
    rw [List.eq_nil_iff_forall_not_mem]
    intro kv hkv
    exact absurd (hd kv hkv) (not_lt.2 (hbig kv (hp.mem_iff.1 (by simp [hkv]))))
  rwa [this, List.append_nil] at hp

theorem action_append {A : Type} [DecidableEq A] (ev : ℕ × A → Module.End ℂ State) (a b : Terms A) : action ev (a ++ b) = action ev a + action ev b := by
  simp [action]

theorem action_perm {A : Type} (ev : ℕ × A → Module.End ℂ State) {a b : Terms A} (h : a.Perm b) : action ev a = action ev b :=
  (h.map _).sum_eq

theorem action_flatten {A : Type} [DecidableEq A] (ev : ℕ × A → Module.End ℂ State) (gs : List (Terms A)) :
    (gs.map (action ev)).sum = action ev gs.flatten := by
  induction gs with
  | nil => rfl
  | cons g gs ih => rw [List.map_cons, List.sum_cons, ih, List.flatten_cons, action_append]

/-- C38. The groups sum to the operator, up to the left out items. -/
theorem groupGreedy_sum {o : Terms Letter} (h : CanonicalOp o) (sortTerms : Bool) :
    ∃ dropped : Terms Letter, (∀ kv ∈ dropped, kv ∈ o ∧ ‖kv.2‖ < 1 / 10 ^ 8) ∧
      ((groupGreedy o sortTerms).map (action pauliAction)).sum + action pauliAction dropped = action pauliAction o := by
  obtain ⟨⟨d, hd, hp⟩, -⟩ := groupGreedy_spec h sortTerms
  refine ⟨d, fun kv hkv => ⟨hp.mem_iff.1 (by simp [hkv]), hd kv hkv⟩, ?_⟩
  rw [action_flatten, ← action_append, action_perm _ hp]

/-- C38. Every term with a coefficient above the tolerance is in exactly one group, with its coefficient. -/
theorem groupGreedy_unique {o : Terms Letter} (h : CanonicalOp o) (sortTerms : Bool) {t : Term Letter} {c : ℂ} (hm : (t, c) ∈ o) (hc : 1 / 10 ^ 8 ≤ ‖c‖) :
    ∃ i, ∃ hi : i < (groupGreedy o sortTerms).length, (t, c) ∈ (groupGreedy o sortTerms)[i] ∧
      ∀ j, ∀ hj : j < (groupGreedy o sortTerms).length, t ∈ keys (groupGreedy o sortTerms)[j] → j = i := by
  obtain ⟨⟨d, hd, hp⟩, -⟩ := groupGreedy_spec h sortTerms
  have h1 : (t, c) ∈ (groupGreedy o sortTerms).flatten := by
    rcases List.mem_append.1 (hp.mem_iff.2 hm) with h1 | h1
    · exact h1
    · exact absurd (hd _ h1) (not_lt.2 hc)
  obtain ⟨g, hg, hmem⟩ := List.mem_flatten.1 h1
  obtain ⟨i, hi, rfl⟩ := List.getElem_of_mem hg
  refine ⟨i, hi, hmem, ?_⟩
  intro j hj hmj
  by_contra hne
  have hnd : (((groupGreedy o sortTerms).flatten ++ d).map Prod.fst).Nodup := (hp.map Prod.fst).nodup_iff.2 h.1
  rw [List.map_append] at hnd
  have hnd := (List.nodup_append.1 hnd).1
  rw [List.map_flatten, List.nodup_flatten] at hnd
  have := List.pairwise_iff_getElem.1 hnd.2
  have hti : t ∈ keys (groupGreedy o sortTerms)[i] := List.mem_map_of_mem (f := Prod.fst) hmem
  rcases lt_or_gt_of_ne hne with hlt | hlt
  · have := this j i (by simpa using hj) (by simpa using hi) hlt
    rw [List.getElem_map, List.getElem_map] at this
    exact this hmj hti
  · have := this i j (by simpa using hi) (by simpa using hj) hlt
    rw [List.getElem_map, List.getElem_map] at this
    exact this hti hmj

example : CanonicalOp [([(0, .X), (1, .Y)], 2), ([], 1), ([(0, .Z)], 3), ([(1, .Y)], -1)] := by
  refine ⟨by simp [WF, keys], ?_⟩
  intro t ht
  simp only [keys, List.map_cons, List.map_nil, List.mem_cons, List.not_mem_nil, or_false] at ht
  rcases ht with rfl | rfl | rfl | rfl <;> simp [Canonical]

end ZQ.Op
