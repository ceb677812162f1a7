import Verif.Lemmas.Measurement
import Verif.Props.Distribution

/-! Lemmas for sampling to a representing distribution. -/

namespace ZQ.PyDict

variable {α : Type} [DecidableEq α]

theorem sum_values_eq (d : PyDict α ℕ) (hd : (keys d).Nodup) (S : Finset α) (hS : ∀ k ∈ keys d, k ∈ S) :
    (values d).sum = ∑ k ∈ S, (get? d k).getD 0 := by
  induction d with
  | nil => simp [values, get?]
  | cons p d ih =>
    obtain ⟨k₀, v₀⟩ := p
    have e : keys ((k₀, v₀) :: d) = k₀ :: keys d := rfl
    rw [e] at hd hS
    rw [List.nodup_cons] at hd
    have ih := ih hd.2 (fun k hk => hS k (by simp [hk]))
    have h0 : k₀ ∈ S := hS k₀ (by simp)
    have hnone : get? d k₀ = none := (get?_eq_none_iff d k₀).2 hd.1
    have e2 : values ((k₀, v₀) :: d) = v₀ :: values d := rfl
    rw [e2, List.sum_cons, ih, ← Finset.add_sum_erase S _ h0, ← Finset.add_sum_erase S _ h0, hnone]
    have : ∑ x ∈ S.erase k₀, (get? ((k₀, v₀) :: d) x).getD 0 = ∑ x ∈ S.erase k₀, (get? d x).getD 0 := by
      refine Finset.sum_congr rfl fun x hx => ?_
      rw [get?, if_neg (Ne.symm (Finset.ne_of_mem_erase hx))]
    rw [this, get?, if_pos rfl]
    simp

theorem get?_append_of_mem {a b : PyDict α ℕ} {k : α} (h : k ∈ keys a) : get? (a ++ b) k = get? a k := by
  induction a with
  | nil => simp [keys] at h
  | cons p a ih =>
    obtain ⟨k₀, v₀⟩ := p
    rw [List.cons_append, get?, get?]
    by_cases e : k₀ = k
    · rw [if_pos e, if_pos e]
    · rw [if_neg e, if_neg e, ih]
      have e2 : keys ((k₀, v₀) :: a) = k₀ :: keys a := rfl
      rw [e2, List.mem_cons] at h
      exact h.resolve_left (Ne.symm e)

theorem get?_append_of_not_mem {a b : PyDict α ℕ} {k : α} (h : k ∉ keys a) : get? (a ++ b) k = get? b k := by
  induction a with
  | nil => rfl
  | cons p a ih =>
    obtain ⟨k₀, v₀⟩ := p
    have e2 : keys ((k₀, v₀) :: a) = k₀ :: keys a := rfl
    rw [e2, List.mem_cons, not_or] at h
    rw [List.cons_append, get?, if_neg (Ne.symm h.1), ih h.2]

theorem get?_map_val (a : PyDict α ℕ) (g : α → ℕ → ℕ) (k : α) :
    get? (a.map fun kv => (kv.1, g kv.1 kv.2)) k = (get? a k).map (g k) := by
  induction a with
  | nil => rfl
  | cons p a ih =>
    obtain ⟨k₀, v₀⟩ := p
    rw [List.map_cons, get?, get?]
    by_cases e : k₀ = k
    · subst e; simp
    · rw [if_neg e, if_neg e, ih]

theorem get?_filter_key (a : PyDict α ℕ) (p : α → Prop) [DecidablePred p] (k : α) (hk : p k) :
    get? (a.filter fun kv => p kv.1) k = get? a k := by
  induction a with
  | nil => rfl
  | cons q a ih =>
    obtain ⟨k₀, v₀⟩ := q
    rw [List.filter_cons, get?]
    by_cases e : k₀ = k
    · subst e; simp [hk, get?]
    · rw [if_neg e]
      by_cases h : p k₀
      · simp [h, get?, e, ih]
      · simp [h, ih]

theorem getD_filter_pos (a : PyDict α ℕ) (hd : (keys a).Nodup) (k : α) :
    (get? (a.filter fun kv => 0 < kv.2) k).getD 0 = (get? a k).getD 0 := by
  induction a with
  | nil => rfl
  | cons q a ih =>
    obtain ⟨k₀, v₀⟩ := q
    have e2 : keys ((k₀, v₀) :: a) = k₀ :: keys a := rfl
    rw [e2, List.nodup_cons] at hd
    rw [List.filter_cons, get?]
    by_cases e : k₀ = k
    · subst e
      by_cases hv : 0 < v₀
      · simp [hv, get?]
      · have hnone := (get?_eq_none_iff a k₀).2 hd.1
        have := ih hd.2
        simp only [hv, decide_false, Bool.false_eq_true, if_false, if_true]
        rw [this, hnone]
        simp; omega
    · rw [if_neg e]
      by_cases hv : 0 < v₀
      · simp [hv, get?, e, ih hd.2]
      · simp [hv, ih hd.2]

theorem keys_filter_sublist (a : PyDict α ℕ) (p : α × ℕ → Bool) : (keys (a.filter p)).Sublist (keys a) :=
  List.filter_sublist.map _

end ZQ.PyDict

namespace ZQ.Meas

open ZQ.PyDict

theorem counterAdd_pre_nodup (a b : PyDict Outcome ℕ) (ha : (keys a).Nodup) (hb : (keys b).Nodup) :
    (keys ((a.map fun kv => (kv.1, kv.2 + (get? b kv.1).getD 0)) ++ b.filter (fun kv => kv.1 ∉ keys a))).Nodup := by
  have e : keys ((a.map fun kv => (kv.1, kv.2 + (get? b kv.1).getD 0)) ++ b.filter (fun kv => kv.1 ∉ keys a))
      = keys a ++ keys (b.filter (fun kv => kv.1 ∉ keys a)) := by
    simp [keys, Function.comp_def]
  rw [e, List.nodup_append]
  refine ⟨ha, (keys_filter_sublist b _).nodup hb, ?_⟩
  intro x hx y hy hxy
  obtain ⟨kv, hkv, rfl⟩ := List.mem_map.1 hy
  have := (List.mem_filter.1 hkv).2
  simp only [decide_eq_true_eq] at this
  exact this (hxy ▸ hx)

theorem counterAdd_nodup (a b : PyDict Outcome ℕ) (ha : (keys a).Nodup) (hb : (keys b).Nodup) :
    (keys (counterAdd a b)).Nodup :=
  (keys_filter_sublist _ _).nodup (counterAdd_pre_nodup a b ha hb)

theorem counterAdd_getD (a b : PyDict Outcome ℕ) (ha : (keys a).Nodup) (hb : (keys b).Nodup) (k : Outcome) :
    (get? (counterAdd a b) k).getD 0 = (get? a k).getD 0 + (get? b k).getD 0 := by
  unfold counterAdd
  rw [getD_filter_pos _ (counterAdd_pre_nodup a b ha hb)]
  by_cases hk : k ∈ keys a
  · rw [get?_append_of_mem (by simpa [keys] using hk), get?_map_val a (fun k v => v + (get? b k).getD 0)]
    obtain ⟨v, hv⟩ := (mem_keys_iff a k).1 hk
    rw [hv]; rfl
  · rw [get?_append_of_not_mem (by simpa [keys] using hk), get?_filter_key b (fun k => k ∉ keys a) k hk,
      (get?_eq_none_iff a k).2 hk]
    simp

theorem counterAdd_keys (a b : PyDict Outcome ℕ) (k : Outcome) (h : k ∈ keys (counterAdd a b)) :
    k ∈ keys a ∨ k ∈ keys b := by
  have h := (keys_filter_sublist _ _).subset h
  have h : k ∈ keys a ++ keys (b.filter (fun kv => kv.1 ∉ keys a)) := by
    have e : keys ((a.map fun kv => (kv.1, kv.2 + (get? b kv.1).getD 0)) ++ b.filter (fun kv => kv.1 ∉ keys a))
        = keys a ++ keys (b.filter (fun kv => kv.1 ∉ keys a)) := by
      simp [keys, Function.comp_def]
    rwa [e] at h
  rcases List.mem_append.1 h with h | h
  · exact Or.inl h
  · exact Or.inr ((keys_filter_sublist _ _).subset h)

/-! ### Python rounding -/

theorem pyRound_cases (x : ℝ) : (pyRound x = ⌊x⌋ ∧ Int.fract x ≤ 1 / 2) ∨ (pyRound x = ⌊x⌋ + 1 ∧ 1 / 2 ≤ Int.fract x) := by
  unfold pyRound
  split_ifs with h1 h2 h3
  · exact Or.inl ⟨rfl, h1.le⟩
  · exact Or.inr ⟨rfl, h2.le⟩
  · exact Or.inl ⟨rfl, not_lt.1 h2⟩
  · exact Or.inr ⟨rfl, not_lt.1 h1⟩

/-- Distance of a number to its rounding. -/
theorem pyRound_abs (x : ℝ) : |(pyRound x : ℝ) - x| = 1 / 2 - |1 / 2 - Int.fract x| := by
  have hf := Int.floor_add_fract x
  have h0 := Int.fract_nonneg x
  have h1 := (Int.fract_lt_one x).le
  rcases pyRound_cases x with ⟨h, hc⟩ | ⟨h, hc⟩
  · rw [h, abs_of_nonneg (show (0 : ℝ) ≤ 1 / 2 - Int.fract x by linarith), abs_of_nonpos (by linarith)]
    linarith
  · rw [h, abs_of_nonpos (show 1 / 2 - Int.fract x ≤ (0 : ℝ) by linarith)]
    push_cast
    rw [abs_of_nonneg (by linarith)]
    linarith

theorem pyRound_nonneg {x : ℝ} (h : 0 ≤ x) : 0 ≤ pyRound x := by
  have : 0 ≤ ⌊x⌋ := Int.floor_nonneg.2 h
  rcases pyRound_cases x with ⟨h, -⟩ | ⟨h, -⟩ <;> omega

theorem pyRound_zero : pyRound 0 = 0 := by
  unfold pyRound; simp

theorem weight_pos {x : ℝ} (h : 0 < (1 : ℝ) / 2 - |1 / 2 - Int.fract x|) : x ≠ 0 := by
  rintro rfl
  simp at h

/-! ### Normalising constructor -/

theorem ofTuples_norm {d : Dist.DDict} (hv : Dist.Valid d) (ht : Dist.floatMin ≤ Dist.total d) :
    ∃ c : ℝ, 0 < c ∧ Dist.ofTuples d true = .ok (d.map fun kv => (kv.1, kv.2 * c)) ∧
      Dist.IsNormalized (d.map fun kv => (kv.1, kv.2 * c)) := by
  have hfm : (0 : ℝ) < Dist.floatMin := by unfold Dist.floatMin; positivity
  have hpos : 0 < Dist.total d := lt_of_lt_of_le hfm ht
  have hmap1 : d.map (fun kv => (kv.1, kv.2 * (1 : ℝ))) = d := by
    conv_rhs => rw [← List.map_id d]
    exact List.map_congr_left fun kv _ => by simp
  unfold Dist.ofTuples
  rw [if_pos ((Dist.isDistribution_iff hv.distinct).2 hv)]
  by_cases hn : Dist.IsNormalized d
  · refine ⟨1, one_pos, ?_, ?_⟩
    · rw [if_pos hn, hmap1]
    · rw [hmap1]; exact hn
  · rw [if_neg hn, if_pos rfl]
    unfold Dist.normalize
    simp only []
    rw [Dist.total_eq_norm, if_neg hpos.ne', if_neg (by rintro ⟨-, h⟩; linarith)]
    by_cases h1 : Dist.total d = 1
    · exact absurd (by unfold Dist.IsNormalized Dist.IsClose; rw [Dist.total_eq_norm, h1]; simp) hn
    · rw [if_neg h1]
      refine ⟨1 / Dist.total d, by positivity, rfl, ?_⟩
      unfold Dist.IsNormalized
      rw [Dist.total_eq_norm, Dist.total_scale, mul_one_div, div_self hpos.ne']
      unfold Dist.IsClose; simp

theorem ofTuples_ok_keys {d r : Dist.DDict} (h : Dist.ofTuples d true = .ok r) :
    ∃ c : ℝ, r = d.map fun kv => (kv.1, kv.2 * c) := by
  have hmap1 : d = d.map (fun kv => (kv.1, kv.2 * (1 : ℝ))) := by
    conv_lhs => rw [← List.map_id d]
    exact List.map_congr_left fun kv _ => by simp
  unfold Dist.ofTuples at h
  split_ifs at h with h1 h2 h3
  · injection h with h; exact ⟨1, by rw [← h]; exact hmap1⟩
  · unfold Dist.normalize at h
    simp only [] at h
    split_ifs at h
    · injection h with h; exact ⟨1, by rw [← h]; exact hmap1⟩
    · injection h with h; exact ⟨_, h.symm⟩
  · exact absurd rfl h3

/-! ### Removing samples -/

theorem removeAll_spec (L l : List Outcome) (h : ∀ k, L.count k ≤ l.count k) :
    ∃ r, L.foldlM removeOne l = .ok r ∧ (∀ k, r.count k = l.count k - L.count k) ∧ r.length + L.length = l.length := by
  induction L generalizing l with
  | nil => exact ⟨l, rfl, by simp, by simp⟩
  | cons x L ih =>
    have hx : x ∈ l := by
      have := h x
      rw [List.count_cons_self] at this
      exact List.count_pos_iff.1 (by omega)
    obtain ⟨r, h1, h2, h3⟩ := ih (l.erase x) (by
      intro k
      have := h k
      rw [List.count_cons] at this
      rw [List.count_erase]
      by_cases hk : x = k
      · subst hk; simp at this ⊢; omega
      · have hk' : (x == k) = false := by simpa using hk
        simp only [hk', if_false, Bool.false_eq_true] at this ⊢
        omega)
    refine ⟨r, ?_, ?_, ?_⟩
    · rw [List.foldlM_cons, removeOne, if_pos hx]; exact h1
    · intro k
      rw [h2 k, List.count_erase, List.count_cons]
      omega
    · have := List.length_erase_of_mem hx
      have hpos := List.length_pos_of_mem hx
      rw [List.length_cons]; omega

theorem removeAll_sound (L l r : List Outcome) (h : L.foldlM removeOne l = .ok r) : ∀ k, L.count k ≤ l.count k := by
  induction L generalizing l with
  | nil => simp
  | cons x L ih =>
    rw [List.foldlM_cons, removeOne] at h
    by_cases hx : x ∈ l
    · rw [if_pos hx] at h
      have := ih (l.erase x) h
      intro k
      have := this k
      rw [List.count_erase] at this
      rw [List.count_cons]
      by_cases hk : x = k
      · subst hk
        have hp := List.count_pos_iff.2 hx
        simp only [beq_self_eq_true, if_true] at this ⊢
        omega
      · have hk' : (x == k) = false := by simpa using hk
        simp only [hk', if_false, Bool.false_eq_true] at this ⊢
        omega
    · rw [if_neg hx] at h; cases h

theorem count_flatMap_replicate {β : Type} (d : List (Outcome × β)) (hd : (d.map Prod.fst).Nodup) (f : β → ℕ)
    (k : Outcome) (v : β) (h : (k, v) ∈ d) : (d.flatMap fun kv => List.replicate (f kv.2) kv.1).count k = f v := by
  induction d with
  | nil => simp at h
  | cons p d ih =>
    rw [List.map_cons, List.nodup_cons] at hd
    rw [List.flatMap_cons, List.count_append, List.count_replicate]
    rcases List.mem_cons.1 h with rfl | h
    · have : (d.flatMap fun kv => List.replicate (f kv.2) kv.1).count k = 0 := by
        rw [List.count_eq_zero]
        intro hm
        obtain ⟨q, hq, hm⟩ := List.mem_flatMap.1 hm
        rw [List.mem_replicate] at hm
        exact hd.1 (List.mem_map.2 ⟨q, hq, hm.2.symm⟩)
      rw [this]; simp
    · have hne : p.1 ≠ k := fun e => hd.1 (List.mem_map.2 ⟨_, h, e.symm⟩)
      rw [ih hd.2 h]; simp [hne]

theorem count_flatMap_replicate_zero {β : Type} (d : List (Outcome × β)) (f : β → ℕ)
    (k : Outcome) (h : k ∉ d.map Prod.fst) : (d.flatMap fun kv => List.replicate (f kv.2) kv.1).count k = 0 := by
  rw [List.count_eq_zero]
  intro hm
  obtain ⟨q, hq, hm⟩ := List.mem_flatMap.1 hm
  rw [List.mem_replicate] at hm
  exact h (List.mem_map.2 ⟨q, hq, hm.2.symm⟩)

theorem count_blocks (d : PyDict Outcome ℕ) (hd : (keys d).Nodup) (k : Outcome) :
    (d.flatMap fun kv => List.replicate kv.2 kv.1).count k = (get? d k).getD 0 := by
  by_cases hk : k ∈ keys d
  · obtain ⟨v, hv⟩ := (mem_keys_iff d k).1 hk
    rw [hv]
    exact count_flatMap_replicate d hd id k v (mem_of_get? hv)
  · rw [(get?_eq_none_iff d k).2 hk]
    exact count_flatMap_replicate_zero d id k hk

theorem length_blocks (d : PyDict Outcome ℕ) : (d.flatMap fun kv => List.replicate kv.2 kv.1).length = (values d).sum := by
  induction d with
  | nil => rfl
  | cons p d ih => simp only [List.flatMap_cons, List.length_append, List.length_replicate, ih, values, List.map_cons, List.sum_cons]

/-! ### The elimination loop -/

theorem getD_counter' (l : List Outcome) (k : Outcome) : (get? (counter l) k).getD 0 = l.count k := by
  rw [getD_counter]
  have : (List.instBEq : BEq (List ℤ)) = instBEqOfDecidableEq := lawful_beq_subsingleton ..
  rw [this]

theorem firstExcess_none {correct counts : PyDict Outcome ℕ} (h : firstExcess correct counts = none) (k : Outcome) :
    (get? correct k).getD 0 ≤ (get? counts k).getD 0 := by
  by_cases hk : k ∈ keys correct
  · obtain ⟨v, hv⟩ := (mem_keys_iff correct k).1 hk
    have := List.find?_eq_none.1 h (k, v) (mem_of_get? hv)
    rw [hv]
    simpa using this
  · rw [(get?_eq_none_iff correct k).2 hk]; simp

theorem firstExcess_some {correct counts : PyDict Outcome ℕ} (hd : (keys correct).Nodup) {s : Outcome} {n : ℕ}
    (h : firstExcess correct counts = some (s, n)) :
    get? correct s = some n ∧ (get? counts s).getD 0 < n := by
  have h1 := List.mem_of_find?_eq_some h
  have h2 := List.find?_some h
  exact ⟨get?_of_mem hd h1, by simpa using h2⟩

theorem counter_values_draws {choose : Chooser} {call : ℕ} {d : Dist.DDict} {n : ℕ} {l : List Outcome}
    (h : choose call d n = .ok l) : sampleFrom choose call d n = .ok (counter l) := by
  unfold sampleFrom; rw [h]; rfl

/-- What the loop returns can be removed and has the requested size. -/
theorem eliminationLoop_sound (choose : Chooser)
    (hdraw : ∀ call d n l, choose call d n = .ok l → l.length = n ∧ ∀ k ∈ l, k ∈ keys d)
    (counts : PyDict Outcome ℕ) (E : ℕ) (K : Finset Outcome) :
    ∀ (fuel call : ℕ) (correct : PyDict Outcome ℕ) (dist : Dist.DDict) (res : PyDict Outcome ℕ),
      (keys correct).Nodup → (∀ k ∈ keys correct, k ∈ K) → (∀ k ∈ keys dist, k ∈ K) → (values correct).sum = E →
      eliminationLoop choose counts fuel call correct dist = .ok res →
      (keys res).Nodup ∧ (∀ k ∈ keys res, k ∈ K) ∧ (values res).sum = E ∧
        ∀ k, (get? res k).getD 0 ≤ (get? counts k).getD 0 := by
  intro fuel
  induction fuel with
  | zero => intro call correct dist res _ _ _ _ h; rw [eliminationLoop] at h; cases h
  | succ fuel ih =>
    intro call correct dist res hn hK hdK hE h
    rw [eliminationLoop] at h
    cases hf : firstExcess correct counts with
    | none =>
      rw [hf] at h
      injection h with h
      subst h
      exact ⟨hn, hK, hE, firstExcess_none hf⟩
    | some p =>
      obtain ⟨s, n⟩ := p
      rw [hf] at h
      obtain ⟨hs, hlt⟩ := firstExcess_some hn hf
      simp only [] at h
      have hsK : s ∈ K := hK s ((mem_keys_iff correct s).2 ⟨n, hs⟩)
      set have_ := (get? counts s).getD 0 with hh
      cases ho : Dist.ofTuples (PyDict.set dist s 0) true with
      | error e => rw [ho] at h; cases h
      | ok dist' =>
        rw [ho] at h
        cases hc : choose call dist' (n - have_) with
        | error e =>
          have hsf : sampleFrom choose call dist' (n - have_) = .error e := by unfold sampleFrom; rw [hc]; rfl
          simp only [bind, Except.bind, hsf] at h
          cases h
        | ok l =>
          have hsf := counter_values_draws hc
          simp only [bind, Except.bind, hsf] at h
          obtain ⟨hl, hlk⟩ := hdraw _ _ _ _ hc
          obtain ⟨c, hd'⟩ := ofTuples_ok_keys ho
          have hkd' : ∀ k ∈ keys dist', k ∈ K := by
            intro k hk
            rw [hd'] at hk
            have : k ∈ keys (PyDict.set dist s 0) := by simpa [keys] using hk
            rw [keys_set] at this
            split_ifs at this
            · exact hdK k this
            · rcases List.mem_append.1 this with h | h
              · exact hdK k h
              · rw [List.mem_singleton.1 h]; exact hsK
          have hset : (keys (PyDict.set correct s have_)).Nodup := nodup_set hn _ _
          have hsetK : ∀ k ∈ keys (PyDict.set correct s have_), k ∈ K := by
            intro k hk
            rw [keys_set, if_pos ((mem_keys_iff correct s).2 ⟨n, hs⟩)] at hk
            exact hK k hk
          refine ih (call + 1) _ dist' res (counterAdd_nodup _ _ hset (counter_nodup _)) ?_ hkd' ?_ h
          · intro k hk
            rcases counterAdd_keys _ _ k hk with hk | hk
            · exact hsetK k hk
            · exact hkd' k (hlk k ((mem_keys_counter l k).1 hk))
          · have hKl : ∀ k ∈ keys (counter l), k ∈ K := fun k hk => hkd' k (hlk k ((mem_keys_counter l k).1 hk))
            have hKa : ∀ k ∈ keys (counterAdd (PyDict.set correct s have_) (counter l)), k ∈ K := by
              intro k hk
              rcases counterAdd_keys _ _ k hk with hk | hk
              · exact hsetK k hk
              · exact hKl k hk
            rw [sum_values_eq _ (counterAdd_nodup _ _ hset (counter_nodup _)) K hKa]
            rw [Finset.sum_congr rfl (fun k _ => counterAdd_getD _ _ hset (counter_nodup l) k), Finset.sum_add_distrib,
              ← sum_values_eq _ (counter_nodup l) K hKl, sum_counter_values, hl]
            have h1 : ∑ k ∈ K, (get? (PyDict.set correct s have_) k).getD 0 + (n - have_) = E := by
              rw [← hE, sum_values_eq correct hn K hK, ← Finset.add_sum_erase K _ hsK, ← Finset.add_sum_erase K _ hsK,
                hs, get?_set, if_pos rfl]
              have : ∑ k ∈ K.erase s, (get? (PyDict.set correct s have_) k).getD 0 = ∑ k ∈ K.erase s, (get? correct k).getD 0 := by
                refine Finset.sum_congr rfl fun k hk => ?_
                rw [get?_set, if_neg (Ne.symm (Finset.ne_of_mem_erase hk))]
              rw [this]
              simp only [Option.getD_some]
              omega
            exact h1

/-- Table over the keys `K` with the keys in `Z` switched off. -/
noncomputable def table (K : List Outcome) (w : Outcome → ℝ) (Z : Finset Outcome) (c : ℝ) : Dist.DDict :=
  K.map fun k => (k, (if k ∈ Z then 0 else w k) * c)

theorem set_table (K : List Outcome) (hK : K.Nodup) (w : Outcome → ℝ) (Z : Finset Outcome) (c : ℝ) (s : Outcome) (hs : s ∈ K) :
    PyDict.set (table K w Z c) s 0 = table K w (insert s Z) c := by
  unfold table
  induction K with
  | nil => simp at hs
  | cons k K ih =>
    rw [List.nodup_cons] at hK
    rw [List.map_cons, List.map_cons, PyDict.set]
    by_cases hk : k = s
    · subst hk
      rw [if_pos rfl]
      congr 1
      · simp
      · refine List.map_congr_left fun x hx => ?_
        have : x ≠ k := fun e => hK.1 (e ▸ hx)
        simp [this]
    · rw [if_neg hk, ih hK.2 ((List.mem_cons.1 hs).resolve_left (Ne.symm hk))]
      simp [hk]

theorem total_table (K : List Outcome) (hK : K.Nodup) (w : Outcome → ℝ) (Z : Finset Outcome) (c : ℝ) :
    Dist.total (table K w Z c) = (∑ k ∈ K.toFinset \ Z, w k) * c := by
  have h1 : Dist.total (table K w Z c) = (K.map fun k => (if k ∈ Z then 0 else w k) * c).sum := by
    simp [Dist.total, table, Function.comp_def]
  rw [h1, List.sum_map_mul_right]
  congr 1
  rw [← List.sum_toFinset _ hK, Finset.sdiff_eq_filter, Finset.sum_filter]
  refine Finset.sum_congr rfl fun k _ => ?_
  by_cases h : k ∈ Z <;> simp [h]

theorem valid_table (K : List Outcome) (hne : K ≠ []) (hK : K.Nodup) (hlen : ∀ a ∈ K, ∀ b ∈ K, a.length = b.length)
    (hnn : ∀ a ∈ K, ∀ z ∈ a, 0 ≤ z) (w : Outcome → ℝ) (hw : ∀ k, 0 ≤ w k) (Z : Finset Outcome) (c : ℝ) (hc : 0 ≤ c) :
    Dist.Valid (table K w Z c) where
  nonempty := by simpa [table] using hne
  distinct := by simpa [table, Function.comp_def] using hK
  sameLength := by
    intro a ha b hb
    obtain ⟨x, hx, rfl⟩ := List.mem_map.1 ha
    obtain ⟨y, hy, rfl⟩ := List.mem_map.1 hb
    exact hlen x hx y hy
  keyNonneg := by
    intro a ha
    obtain ⟨x, hx, rfl⟩ := List.mem_map.1 ha
    exact hnn x hx
  valNonneg := by
    intro a ha
    obtain ⟨x, hx, rfl⟩ := List.mem_map.1 ha
    refine mul_nonneg ?_ hc
    split_ifs
    · exact le_rfl
    · exact hw x

theorem pmf_table (K : List Outcome) (hK : K.Nodup) (w : Outcome → ℝ) (Z : Finset Outcome) (c : ℝ) (k : Outcome) :
    Dist.pmf (table K w Z c) k = if k ∈ K ∧ k ∉ Z then w k * c else 0 := by
  have hn : (keys (table K w Z c)).Nodup := by simpa [keys, table, Function.comp_def] using hK
  by_cases hk : k ∈ K
  · rw [← Dist.prob_eq_pmf hn, Dist.prob, get?_of_mem hn (List.mem_map.2 ⟨k, hk, rfl⟩)]
    by_cases hz : k ∈ Z <;> simp [hk, hz]
  · rw [Dist.pmf_not_mem (by simpa [keys, table, Function.comp_def] using hk)]
    simp [hk]

theorem half_ge_floatMin : Dist.floatMin ≤ 1 / 4 := by
  unfold Dist.floatMin
  have h : (4 : ℝ) ≤ 2 ^ 1022 :=
    calc (4 : ℝ) = 2 ^ 2 := by norm_num
      _ ≤ 2 ^ 1022 := pow_le_pow_right₀ (by norm_num) (by norm_num)
  exact one_div_le_one_div_of_le (by norm_num) h

theorem total_of_normalized {d : Dist.DDict} (h : Dist.IsNormalized d) (h0 : 0 ≤ Dist.total d) : 1 / 2 ≤ Dist.total d := by
  unfold Dist.IsNormalized Dist.IsClose at h
  rw [Dist.total_eq_norm, abs_of_nonneg h0, abs_one] at h
  by_contra hc
  push Not at hc
  rw [max_eq_right (show Dist.total d ≤ 1 by linarith), max_eq_left (by norm_num), abs_of_nonpos (by linarith)] at h
  linarith

/-- The loop ends without an exception, whatever is drawn. -/
theorem eliminationLoop_ok (choose : Chooser)
    (hdraw : ∀ call d n l, choose call d n = .ok l → l.length = n ∧ ∀ k ∈ l, 0 < Dist.pmf d k)
    (htot : ∀ call d n, Dist.Valid d → Dist.IsNormalized d → ∃ l, choose call d n = .ok l)
    (counts : PyDict Outcome ℕ) (E : ℕ) (K : List Outcome) (hne : K ≠ []) (hK : K.Nodup)
    (hlen : ∀ a ∈ K, ∀ b ∈ K, a.length = b.length) (hnn : ∀ a ∈ K, ∀ z ∈ a, 0 ≤ z) (w : Outcome → ℝ) (hw : ∀ k, 0 ≤ w k)
    (hw2 : ∀ k, w k ≤ 1 / 2)
    (hgap : ∀ Z ⊆ K.toFinset, ∑ k ∈ Z, (get? counts k).getD 0 < E → (1 : ℝ) / 2 ≤ ∑ k ∈ K.toFinset \ Z, w k) :
    ∀ (fuel call : ℕ) (correct : PyDict Outcome ℕ) (Z : Finset Outcome) (c : ℝ),
      (keys correct).Nodup → (∀ k ∈ keys correct, k ∈ K) → (values correct).sum = E → Z ⊆ K.toFinset →
      (∀ k ∈ Z, (get? correct k).getD 0 = (get? counts k).getD 0) → K.length + 1 ≤ fuel + Z.card → 0 < c →
      1 / 2 ≤ Dist.total (table K w Z c) →
      ∃ res, eliminationLoop choose counts fuel call correct (table K w Z c) = .ok res := by
  intro fuel
  induction fuel with
  | zero =>
    intro call correct Z c _ _ _ hZ _ hf
    have := Finset.card_le_card hZ
    rw [List.toFinset_card_of_nodup hK] at this
    omega
  | succ fuel ih =>
    intro call correct Z c hn hcK hE hZ hzc hfuel hc htotal
    rw [eliminationLoop]
    cases hf : firstExcess correct counts with
    | none => exact ⟨correct, rfl⟩
    | some p =>
      obtain ⟨s, n⟩ := p
      simp only []
      obtain ⟨hs, hlt⟩ := firstExcess_some hn hf
      have hsk : s ∈ keys correct := (mem_keys_iff correct s).2 ⟨n, hs⟩
      have hsK : s ∈ K := hcK s hsk
      have hsZ : s ∉ Z := by
        intro h
        have := hzc s h
        rw [hs] at this
        simp only [Option.getD_some] at this
        omega
      set have_ := (get? counts s).getD 0 with hh
      have hset : (keys (PyDict.set correct s have_)).Nodup := nodup_set hn _ _
      have hsetK : ∀ k ∈ keys (PyDict.set correct s have_), k ∈ K := by
        intro k hk
        rw [keys_set, if_pos hsk] at hk
        exact hcK k hk
      have hsum : ∑ k ∈ K.toFinset, (get? (PyDict.set correct s have_) k).getD 0 + (n - have_) = E := by
        have hsK' : s ∈ K.toFinset := List.mem_toFinset.2 hsK
        rw [← hE, sum_values_eq correct hn K.toFinset (fun k hk => List.mem_toFinset.2 (hcK k hk)),
          ← Finset.add_sum_erase _ _ hsK', ← Finset.add_sum_erase _ _ hsK', hs, get?_set, if_pos rfl]
        have : ∑ k ∈ K.toFinset.erase s, (get? (PyDict.set correct s have_) k).getD 0
            = ∑ k ∈ K.toFinset.erase s, (get? correct k).getD 0 := by
          refine Finset.sum_congr rfl fun k hk => ?_
          rw [get?_set, if_neg (Ne.symm (Finset.ne_of_mem_erase hk))]
        rw [this]
        simp only [Option.getD_some]
        omega
      have hZ' : insert s Z ⊆ K.toFinset := Finset.insert_subset (List.mem_toFinset.2 hsK) hZ
      have hzc' : ∀ k ∈ insert s Z, (get? (PyDict.set correct s have_) k).getD 0 = (get? counts k).getD 0 := by
        intro k hk
        rw [get?_set]
        by_cases e : s = k
        · subst e; rw [if_pos rfl]; rfl
        · rw [if_neg e]; exact hzc k ((Finset.mem_insert.1 hk).resolve_left (Ne.symm e))
      have hzsum : ∑ k ∈ insert s Z, (get? counts k).getD 0 < E := by
        rw [← Finset.sum_congr rfl hzc']
        have := Finset.sum_le_sum_of_subset (f := fun k => (get? (PyDict.set correct s have_) k).getD 0) hZ'
        omega
      have hR := hgap _ hZ' hzsum
      have hRZ : ∑ k ∈ K.toFinset \ Z, w k = w s + ∑ k ∈ K.toFinset \ insert s Z, w k := by
        have hmem : s ∈ K.toFinset \ Z := Finset.mem_sdiff.2 ⟨List.mem_toFinset.2 hsK, hsZ⟩
        rw [← Finset.add_sum_erase _ _ hmem]
        congr 2
        ext x
        simp only [Finset.mem_erase, Finset.mem_sdiff, Finset.mem_insert, not_or]
        tauto
      rw [set_table K hK w Z c s hsK]
      have hv := valid_table K hne hK hlen hnn w hw (insert s Z) c hc.le
      have ht4 : 1 / 4 ≤ Dist.total (table K w (insert s Z) c) := by
        rw [total_table K hK] at htotal ⊢
        rw [hRZ] at htotal
        have := hw2 s
        nlinarith
      obtain ⟨c', hc', ho, hnorm⟩ := ofTuples_norm hv (half_ge_floatMin.trans ht4)
      have htab : (table K w (insert s Z) c).map (fun kv => (kv.1, kv.2 * c')) = table K w (insert s Z) (c * c') := by
        unfold table
        rw [List.map_map]
        refine List.map_congr_left fun k _ => ?_
        simp only [Function.comp, mul_assoc]
      rw [htab] at ho hnorm
      have hv' := valid_table K hne hK hlen hnn w hw (insert s Z) (c * c') (mul_pos hc hc').le
      obtain ⟨l, hl⟩ := htot call _ (n - have_) hv' hnorm
      obtain ⟨hll, hlp⟩ := hdraw _ _ _ _ hl
      have hlk : ∀ k ∈ l, k ∈ K ∧ k ∉ insert s Z := by
        intro k hk
        have := hlp k hk
        rw [pmf_table K hK] at this
        by_contra hcon
        rw [if_neg hcon] at this
        exact lt_irrefl _ this
      rw [ho]
      simp only [bind, Except.bind, counter_values_draws hl]
      refine ih (call + 1) _ (insert s Z) (c * c') (counterAdd_nodup _ _ hset (counter_nodup _)) ?_ ?_ hZ' ?_ ?_ (mul_pos hc hc') ?_
      · intro k hk
        rcases counterAdd_keys _ _ k hk with hk | hk
        · exact hsetK k hk
        · exact (hlk k ((mem_keys_counter l k).1 hk)).1
      · have hKl : ∀ k ∈ keys (counter l), k ∈ K.toFinset := fun k hk =>
          List.mem_toFinset.2 (hlk k ((mem_keys_counter l k).1 hk)).1
        rw [sum_values_eq _ (counterAdd_nodup _ _ hset (counter_nodup _)) K.toFinset]
        · rw [Finset.sum_congr rfl (fun k _ => counterAdd_getD _ _ hset (counter_nodup l) k), Finset.sum_add_distrib,
            ← sum_values_eq _ (counter_nodup l) _ hKl, sum_counter_values, hll]
          exact hsum
        · intro k hk
          rcases counterAdd_keys _ _ k hk with hk | hk
          · exact List.mem_toFinset.2 (hsetK k hk)
          · exact hKl k hk
      · intro k hk
        rw [counterAdd_getD _ _ hset (counter_nodup l), hzc' k hk, getD_counter']
        have : k ∉ l := fun h => (hlk k h).2 hk
        rw [List.count_eq_zero_of_not_mem this, Nat.add_zero]
      · rw [Finset.card_insert_of_notMem hsZ]; omega
      · refine total_of_normalized hnorm ?_
        rw [total_table K hK]
        exact mul_nonneg (Finset.sum_nonneg fun k _ => hw k) (mul_pos hc hc').le

end ZQ.Meas
