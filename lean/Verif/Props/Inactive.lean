import Verif.Model.Inactive
import Verif.Props.Tapering
import Verif.Props.BKInteraction
import Verif.Props.Spectrum
import Verif.Lemmas.NormalClosed

/-!
# Removing inactive orbitals (C95)
-/

namespace ZQ.Inactive

open ZQ ZQ.Op ZQ.PolyT ZQ.PyDict ZQ.Spectrum ZQ.JWInt

/-! ## Freezing keeps the shape of the terms -/

/-- The number of creation minus the number of annihilation operators. -/
def excess (t : Term Bool) : ℤ := (t.map fun f => if f.2 then (1 : ℤ) else -1).sum

/-- As many creation as annihilation operators, at most four in all. -/
def Small (t : Term Bool) : Prop := excess t = 0 ∧ t.length ≤ 4

theorem scan_balance (same : ℕ → ℕ → Bool) (i : ℕ) (v : Bool) (c : ℂ) (t : Term Bool) :
    (t.reverse.foldl (scanStep same i) ⟨0, 0, 0, c, v, []⟩).rest.length ≤ t.length ∧
      ((t.reverse.foldl (scanStep same i) ⟨0, 0, 0, c, v, []⟩).coef = 0 ∨
        excess t = excess (t.reverse.foldl (scanStep same i) ⟨0, 0, 0, c, v, []⟩).rest +
          ((if (t.reverse.foldl (scanStep same i) ⟨0, 0, 0, c, v, []⟩).occupancy then 1 else 0) - if v then 1 else 0)) := by
  induction t with
  | nil => exact ⟨le_rfl, Or.inr (by show excess [] = excess [] + ((if v then 1 else 0) - if v then 1 else 0); rw [sub_self, add_zero])⟩
  | cons f t ih =>
    rw [List.reverse_cons, List.foldl_append]
    generalize t.reverse.foldl (scanStep same i) ⟨0, 0, 0, c, v, []⟩ = st at ih
    obtain ⟨h1, h2⟩ := ih
    show (scanStep same i st f).rest.length ≤ _ ∧ ((scanStep same i st f).coef = 0 ∨ excess _ = excess (scanStep same i st f).rest + ((if (scanStep same i st f).occupancy then 1 else 0) - _))
    have hc : ∀ u : Term Bool, excess (f :: u) = (if f.2 then 1 else -1) + excess u := fun u => by simp [excess]
    unfold scanStep
    by_cases hs : same f.1 i = true
    · rw [if_pos hs]
      refine ⟨h1.trans (by simp), ?_⟩
      dsimp only
      by_cases ho : st.occupancy = f.2
      · rw [if_pos ho]; exact Or.inl rfl
      · rw [if_neg ho]
        rcases h2 with h2 | h2
        · exact Or.inl h2
        · right
          rw [hc, h2]
          cases h : f.2 <;> cases h' : st.occupancy <;> simp [h, h'] at ho ⊢ <;> ring
    · rw [if_neg hs]
      refine ⟨by simpa using h1, ?_⟩
      dsimp only
      rcases h2 with h2 | h2
      · exact Or.inl h2
      · exact Or.inr (by rw [hc, hc, h2]; ring)

theorem freezeTerm_small {same : ℕ → ℕ → Bool} {item : ℕ × Bool} {t t' : Term Bool} {c c' : ℂ} (ht : Small t) (h : freezeTerm same item t c = some (t', c')) : Small t' := by
  obtain ⟨h1, h2⟩ := scan_balance same item.1 item.2 c t
  unfold freezeTerm at h
  dsimp only at h
  generalize t.reverse.foldl (scanStep same item.1) ⟨0, 0, 0, c, item.2, []⟩ = st at h h1 h2
  by_cases hk : (if st.nSwaps % 2 ≠ 0 then st.coef * -1 else st.coef) ≠ 0 ∧ st.occupancy = item.2
  · rw [if_pos hk] at h
    cases h
    refine ⟨?_, h1.trans ht.2⟩
    rcases h2 with h2 | h2
    · rw [h2] at hk; simp at hk
    · rw [hk.2, ht.1] at h2
      linarith
  · rw [if_neg hk] at h
    cases h

theorem freezeOne_small {same : ℕ → ℕ → Bool} {item : ℕ × Bool} {o : Terms Bool} (h : ∀ t ∈ keys o, Small t) :
    WF (freezeOne same o item) ∧ ∀ t ∈ keys (freezeOne same o item), Small t := by
  have key : ∀ (l acc : Terms Bool), (∀ t ∈ keys l, Small t) → WF acc → (∀ t ∈ keys acc, Small t) →
      WF (l.foldl (freezeAdd same item) acc) ∧ ∀ t ∈ keys (l.foldl (freezeAdd same item) acc), Small t := by
    intro l
    induction l with
    | nil => exact fun acc _ hw ha => ⟨hw, ha⟩
    | cons kv l ih =>
      intro acc hl hw ha
      rw [List.foldl_cons]
      have hl' : ∀ t ∈ keys l, Small t := fun t ht => hl t (List.mem_cons_of_mem _ ht)
      unfold freezeAdd
      cases hf : freezeTerm same item kv.1 kv.2 with
      | none => exact ih acc hl' hw ha
      | some tc =>
        obtain ⟨t, c⟩ := tc
        have ht := freezeTerm_small (hl kv.1 List.mem_cons_self) hf
        refine ih _ hl' (add_spec hw (wf_single _ _)).1 fun u hu => ?_
        rcases mem_keys_add hw (wf_single _ _) hu with h | h
        · exact ha u h
        · rw [List.mem_singleton.1 h]; exact ht
  exact key o [] h wf_nil fun t ht => absurd ht List.not_mem_nil

theorem freezeAll_small {same : ℕ → ℕ → Bool} (items : List (ℕ × Bool)) (o : Terms Bool) (hw : WF o) (h : ∀ t ∈ keys o, Small t) :
    WF (items.foldl (freezeOne same) o) ∧ ∀ t ∈ keys (items.foldl (freezeOne same) o), Small t := by
  induction items generalizing o with
  | nil => exact ⟨hw, h⟩
  | cons i items ih => exact ih _ (freezeOne_small h).1 (freezeOne_small h).2

theorem freezeAll_grid {same : ℕ → ℕ → Bool} (items : List (ℕ × Bool)) (o : Terms Bool)
    (hsame : ∀ f ∈ factors o, ∀ i ∈ items, (same f.1 i.1 = true ↔ f.1 = i.1)) {δ : ℝ} (hδ : 1 / 10 ^ 8 ≤ δ) (hg : ∀ kv ∈ o, kv.2 ∈ Grid δ) :
    ∀ kv ∈ items.foldl (freezeOne same) o, kv.2 ∈ Grid δ := by
  induction items generalizing o with
  | nil => exact hg
  | cons i items ih =>
    have st := freezeOne_stage (same := same) o i (fun f hf => hsame f hf i List.mem_cons_self)
    exact ih _ (fun f hf j hj => hsame f (st.factors f hf).1 j (List.mem_cons_of_mem _ hj)) (st.exact δ hδ hg).1

theorem flipSign_mem (occupied : List ℕ) (t : Term Bool) {c : ℂ} {δ : ℝ} (h : c ∈ Grid δ) : flipSign occupied t c ∈ Grid δ := by
  unfold flipSign
  induction occupied generalizing c with
  | nil => exact h
  | cons i l ih =>
    rw [List.foldl_cons]
    refine ih ?_
    clear ih
    induction t generalizing c with
    | nil => exact h
    | cons f t ih =>
      rw [List.foldl_cons]
      refine ih ?_
      split_ifs
      · rw [mul_neg_one]; exact (Grid δ).neg_mem h
      · exact h

theorem freezeOrbitals_small {same : ℕ → ℕ → Bool} {o : Terms Bool} (hw : WF o) (h : ∀ t ∈ keys o, Small t) (occupied : List ℕ) (unoccupied : Option (List ℕ)) :
    ∀ t ∈ keys (freezeOrbitals same o occupied unoccupied), Small t := by
  rw [freezeOrbitals_eq]
  obtain ⟨h1, h2⟩ := freezeAll_small (same := same) (occupied.map (fun i => (i, true)) ++ (unoccupied.getD []).map fun i => (i, false)) o hw h
  intro t ht
  rw [prune_eq _ (by rw [WF, keys_flipSigns]; exact h1), keys_relabelModes, keys_flipSigns] at ht
  obtain ⟨u, hu, rfl⟩ := List.mem_map.1 ht
  obtain ⟨a, b⟩ := h2 u hu
  refine ⟨?_, by rwa [List.length_map]⟩
  rw [← a, excess, excess, List.map_map]
  rfl

theorem freezeOrbitals_grid {same : ℕ → ℕ → Bool} {o : Terms Bool} (hw : WF o) (occupied : List ℕ) (unoccupied : Option (List ℕ))
    (hsame : ∀ i, i ∈ occupied ∨ i ∈ unoccupied.getD [] → ∀ a, (same a i = true ↔ a = i)) {δ : ℝ} (hδ : 1 / 10 ^ 8 ≤ δ) (hg : ∀ kv ∈ o, kv.2 ∈ Grid δ) :
    ∀ kv ∈ freezeOrbitals same o occupied unoccupied, kv.2 ∈ Grid δ := by
  rw [freezeOrbitals_eq]
  have hs : ∀ f ∈ factors o, ∀ i ∈ occupied.map (fun i => (i, true)) ++ (unoccupied.getD []).map (fun i => (i, false)), (same f.1 i.1 = true ↔ f.1 = i.1) := by
    intro f _ i hi
    refine hsame i.1 ?_ f.1
    rcases List.mem_append.1 hi with h | h
    · obtain ⟨j, hj, rfl⟩ := List.mem_map.1 h; exact Or.inl hj
    · obtain ⟨j, hj, rfl⟩ := List.mem_map.1 h; exact Or.inr hj
  have h2 := freezeAll_grid _ o hs hδ hg
  have h1 := (freezeAll_spec (same := same) _ o hw hs).1
  intro kv hkv
  rw [prune_eq _ (by rw [WF, keys_flipSigns]; exact h1)] at hkv
  obtain ⟨kv', hkv', rfl⟩ := List.mem_map.1 hkv
  obtain ⟨kv'', hkv'', rfl⟩ := List.mem_map.1 hkv'
  exact flipSign_mem _ _ (h2 kv'' hkv'')

theorem small_closed : Closed Small := by
  refine ⟨fun t u h ⟨a, b⟩ => ⟨?_, h.length_eq ▸ b⟩, fun p u ⟨a, b⟩ => ⟨?_, ?_⟩⟩
  · rw [← a]; exact ((h.map _).sum_eq).symm
  · simpa [excess] using a
  · simp only [List.length_cons] at b; omega

theorem interactionShape_of {t : Term Bool} (h : Small t) (hn : NormalTerm t) : InteractionShape t := by
  obtain ⟨h1, h2⟩ := h
  match t, h1, h2, hn with
  | [], _, _, _ => exact Or.inl rfl
  | [a], h1, _, _ =>
    exfalso
    cases h : a.2 <;> simp [excess, h] at h1
  | [a, b], h1, _, hn =>
    rw [NormalTerm, List.pairwise_cons] at hn
    have := hn.1 b List.mem_cons_self
    cases ha : a.2 <;> cases hb : b.2 <;> simp [excess, ha, hb, Before] at h1 this ⊢ <;> simp [InteractionShape, ha, hb]
  | [a, b, c], h1, _, _ =>
    exfalso
    cases ha : a.2 <;> cases hb : b.2 <;> cases hc : c.2 <;> simp [excess, ha, hb, hc] at h1
  | [a, b, c, d], h1, _, hn =>
    rw [NormalTerm, List.pairwise_cons, List.pairwise_cons, List.pairwise_cons] at hn
    have e1 := hn.1 b (by simp)
    have e2 := hn.2.1 c (by simp)
    have e3 := hn.2.2.1 d (by simp)
    cases ha : a.2 <;> cases hb : b.2 <;> cases hc : c.2 <;> cases hd : d.2 <;> simp [excess, ha, hb, hc, hd, Before] at h1 e1 e2 e3 ⊢ <;> simp [InteractionShape, ha, hb, hc, hd]
  | a :: b :: c :: d :: e :: l, _, h2, _ => simp only [List.length_cons] at h2; omega

/-! ## The operator -/

theorem toFermion_small {n : ℕ} {c : ℂ} {one two : Tensor} {o : Terms Bool} (h : toFermion (interaction n c one two) = .ok o) : ∀ t ∈ keys o, Small t := by
  have hv : Valid (interaction n c one two) := by simp [Valid, interaction, keys]
  rw [toFermion_eq hv] at h
  cases h
  intro t ht
  obtain ⟨kv, hkv, rfl⟩ := List.mem_map.1 ht
  obtain ⟨u, hu, rfl⟩ := List.mem_map.1 (List.mem_filter.1 hkv).1
  show Small u
  rcases mem_iter.1 hu with ⟨rfl, -⟩ | ⟨-, -, h⟩
  · exact ⟨rfl, by simp⟩
  · have hk : u.map Prod.snd ∈ keys (interaction n c one two).tensors := by
      by_contra hk
      exact h (value_of_not_mem hk _)
    have he : excess u = ((u.map Prod.snd).map fun b => if b then (1 : ℤ) else -1).sum := by rw [excess, List.map_map]; rfl
    have hl : u.length = (u.map Prod.snd).length := (List.length_map _).symm
    rw [Small, he, hl]
    simp only [interaction, keys, List.map_cons, List.map_nil, List.mem_cons, List.not_mem_nil, or_false] at hk
    rcases hk with hk | hk | hk <;> rw [hk] <;> decide

theorem kept_empty {kept : List ℕ} {t : ℕ → Bool} : (∀ k, kept.length ≤ k → t k = false) ↔ ∀ k, t k = true → k < kept.length := by
  constructor
  · intro h k hk
    by_contra hc
    rw [h k (not_lt.1 hc)] at hk
    cases hk
  · intro h k hk
    by_contra hc
    have := h k (by simpa using hc)
    omega

variable {same : ℕ → ℕ → Bool}

/-- **Removing inactive orbitals.**  There are kept modes, all of them active and occurring in the operator, which the result numbers `0`, ..., `m - 1`.  On states with filled core modes and
no electron in any other mode that is not kept, the operator acts on the kept modes as the result does, as long as the core modes stay filled and the others removed stay empty.
What is missing: the active modes that no longer occur are removed as well (`removeInactive_counterexample`); frozen modes above 256 (`freezeOrbitals_identity_counterexample`);
coefficients that are not multiples of some `δ ≥ 1e-8`. -/
theorem removeInactive_spec_partial (hsame : IntIdentity same) (n : ℕ) (c : ℂ) (one two : Tensor) (nActive : Option ℕ) (nCore : ℕ) (hc : 2 * nCore ≤ 257)
    (hn : nActive ≠ none → n ≤ 257) {δ : ℝ} (hδ : 1 / 10 ^ 8 ≤ δ) (hg : EntriesOn n δ c one two) :
    ∃ T kept, removeInactive same n c one two nActive nCore = .ok T ∧ T.n = kept.length ∧ keys T.tensors = [[], [true, false], [true, true, false, false]] ∧
      kept.Pairwise (· < ·) ∧ (∀ k ∈ kept, 2 * nCore ≤ k ∧ k < n ∧ (∀ a, nActive = some a → k < 2 * nCore + 2 * a) ∧ Occurs (interaction n c one two) k) ∧
      ∀ t, (∀ k, t k = true → k < kept.length) →
        (∀ t', (∀ k, t' k = true → k < kept.length) → polyAction T (basisState t) t' =
          polyAction (interaction n c one two) (basisState (place (List.range (2 * nCore)) kept t)) (place (List.range (2 * nCore)) kept t')) ∧
        ∀ s', (∀ i < 2 * nCore, s' i = true) → (∀ a, nActive = some a → ∀ i, 2 * nCore + 2 * a ≤ i → i < n → s' i = false) →
          (∀ t', (∀ k, t' k = true → k < kept.length) → s' ≠ place (List.range (2 * nCore)) kept t') →
          polyAction (interaction n c one two) (basisState (place (List.range (2 * nCore)) kept t)) s' = 0 := by
  have hv : Valid (interaction n c one two) := by simp [Valid, interaction, keys]
  have hδ0 : (0 : ℝ) < δ := lt_of_lt_of_le (by norm_num) hδ
  have hgap : ∀ t : Term Bool, (∀ f ∈ t, f.1 < n) → termValue (interaction n c one two) t = 0 ∨ 1 / 10 ^ 8 ≤ ‖termValue (interaction n c one two) t‖ := by
    intro t ht
    rcases eq_or_ne (termValue (interaction n c one two) t) 0 with h0 | h0
    · exact Or.inl h0
    · exact Or.inr (hδ.trans (Grid.norm_ge hδ0.le (termValue_grid hg ht).1 h0))
  obtain ⟨o, o1, o2, o3, o4, o5⟩ := toFermion_spec hv
  have oa := o5 hgap
  have hocc : ∀ f ∈ factors o, f.1 < n ∧ Occurs (interaction n c one two) f.1 := by
    intro f hf
    obtain ⟨t, ht, hft⟩ := mem_factors.1 hf
    have o1' := o1
    rw [toFermion_eq hv] at o1'
    cases o1'
    obtain ⟨kv, hkv, rfl⟩ := List.mem_map.1 ht
    obtain ⟨u, hu, rfl⟩ := List.mem_map.1 (List.mem_filter.1 hkv).1
    rcases mem_iter.1 hu with ⟨rfl, -⟩ | ⟨-, h, h'⟩
    · cases hft
    · exact ⟨h f hft, u, h, h', f, hft, rfl⟩
  have hog : ∀ kv ∈ o, kv.2 ∈ Grid δ := by
    intro kv hkv
    have hb : ∀ f ∈ kv.1, f.1 < n := fun f hf => (hocc f (mem_factors.2 ⟨kv.1, List.mem_map_of_mem hkv, hf⟩)).1
    have e := o3 kv.1 hb
    rw [coeff_of_mem o2 hkv] at e
    rw [e]
    split_ifs
    · exact (Grid _).zero_mem
    · exact (termValue_grid hg hb).1
  have hun : ∀ i, i ∈ unoccupiedOf n nActive nCore ↔ ∃ a, nActive = some a ∧ 2 * nCore + 2 * a ≤ i ∧ i < n := by
    intro i
    unfold unoccupiedOf
    cases nActive with
    | none => simp
    | some a =>
      dsimp only
      rw [List.mem_range'_1]
      constructor
      · intro h; exact ⟨a, rfl, by omega, by omega⟩
      · rintro ⟨b, hb, h⟩
        cases hb
        omega
  have hsm : ∀ i, i ∈ List.range (2 * nCore) ∨ i ∈ (some (unoccupiedOf n nActive nCore)).getD [] → i ≤ 256 := by
    rintro i (h | h)
    · have := List.mem_range.1 h; omega
    · obtain ⟨a, ha, h1, h2⟩ := (hun i).1 h
      have := hn (by rw [ha]; simp)
      omega
  obtain ⟨kept, k1, k2, k3, k4, k5⟩ := freezeOrbitals_spec_partial same hsame o o2 (List.range (2 * nCore)) (some (unoccupiedOf n nActive nCore)) true List.nodup_range
    (by
      intro i hi h
      obtain ⟨a, -, h1, -⟩ := (hun i).1 h
      have := List.mem_range.1 hi
      omega) hsm
  have hfg : ∀ kv ∈ freezeOrbitals same o (List.range (2 * nCore)) (some (unoccupiedOf n nActive nCore)) true, kv.2 ∈ Grid δ :=
    freezeOrbitals_grid o2 _ _ (fun i hi a => ⟨hsame.1 a i, fun e => by rw [e]; exact hsame.2 i (hsm i hi)⟩) hδ hog
  have hfs := freezeOrbitals_small (same := same) o2 (toFermion_small o1) (List.range (2 * nCore)) (some (unoccupiedOf n nActive nCore))
  have hcount : countFermion (freezeOrbitals same o (List.range (2 * nCore)) (some (unoccupiedOf n nActive nCore)) true) = kept.length := by
    refine le_antisymm (ZQ.FTools.countFermion_le fun kv hkv f hf => (k4 f.1).1 ⟨f, mem_factors.2 ⟨kv.1, List.mem_map_of_mem hkv, hf⟩, rfl⟩) ?_
    by_contra hlt
    obtain ⟨f, hf, e⟩ := (k4 (kept.length - 1)).2 (by omega)
    obtain ⟨t, ht, hft⟩ := mem_factors.1 hf
    obtain ⟨kv, hkv, rfl⟩ := List.mem_map.1 ht
    have := countFermion_bound _ kv hkv f hft
    omega
  obtain ⟨T, t1, t2, t3, t4, -⟩ := (getInteractionOperator_spec (freezeOrbitals same o (List.range (2 * nCore)) (some (unoccupiedOf n nActive nCore)) true) none).2.2 le_rfl
    fun t ht => interactionShape_of (normalOrdered_closed small_closed _ (fun kv hkv => hfs kv.1 (List.mem_map_of_mem hkv)) t ht) ((normalOrdered_ordered _).2.1 t ht)
  have ta := getInteractionOperator_action _ none T t1 δ hδ hfg
  refine ⟨T, kept, ?_, by rw [t2]; exact hcount, t4, k1, fun k hk => ?_, fun t ht => ⟨fun t' ht' => ?_, fun s' h1 h2 h3 => ?_⟩⟩
  · show (toFermion (interaction n c one two) >>= _) = _
    rw [o1]
    exact t1
  · obtain ⟨a1, a2, f, hf, rfl⟩ := k2 k hk
    obtain ⟨b1, b2⟩ := hocc f hf
    refine ⟨by simpa using a1, b1, fun a ha => ?_, b2⟩
    by_contra hlt
    exact a2 ((hun f.1).2 ⟨a, ha, not_lt.1 hlt, b1⟩)
  · rw [ta, ← oa]
    exact (((k5 t (kept_empty.2 ht)).1 t' (kept_empty.2 ht')).2 δ hδ hog).symm
  · rw [← oa]
    refine ((k5 t (kept_empty.2 ht)).2 s' (fun i hi => h1 i (List.mem_range.1 hi)) (fun i hi => ?_) fun t' ht' => h3 t' (kept_empty.1 ht')).2 δ hδ hog
    obtain ⟨a, ha, e1, e2⟩ := (hun i).1 hi
    exact h2 a ha i e1 e2

/-- The occupation with filled core modes and the occupation `t` of the modes after them. -/
def fill (nCore : ℕ) (t : ℕ → Bool) : ℕ → Bool := fun k => if k < 2 * nCore then true else t (k - 2 * nCore)

theorem eq_range'_of_sorted {l : List ℕ} (h : l.Pairwise (· < ·)) {a m : ℕ} (hl : l.length = m) (hm : ∀ k ∈ l, a ≤ k ∧ k < a + m) : l = List.range' a m := by
  refine List.Perm.eq_of_pairwise (le := (· < ·)) (fun a b _ _ h1 h2 => absurd (h1.trans h2) (lt_irrefl _)) h (by rw [← List.sortedLT_iff_pairwise]; exact List.sortedLT_range' _ _ (by decide)) ?_
  refine List.Subperm.perm_of_length_le (List.subperm_of_subset (h.imp fun h => ne_of_lt h) fun k hk => List.mem_range'_1.2 (hm k hk)) ?_
  rw [hl, List.length_range']

/-- **Removing inactive orbitals**: if no active orbital is lost, the result is the operator on the active orbitals in their order, with the core filled and the others empty. -/
theorem removeInactive_active_partial (hsame : IntIdentity same) (n : ℕ) (c : ℂ) (one two : Tensor) (a nCore : ℕ) (hc : 2 * nCore ≤ 257)
    (hn : n ≤ 257) {δ : ℝ} (hδ : 1 / 10 ^ 8 ≤ δ) (hg : EntriesOn n δ c one two) :
    ∃ T, removeInactive same n c one two (some a) nCore = .ok T ∧ T.n ≤ 2 * a ∧ (T.n = 2 * a → ∀ t t' : ℕ → Bool, (∀ k, t k = true → k < 2 * a) → (∀ k, t' k = true → k < 2 * a) →
      polyAction T (basisState t) t' = polyAction (interaction n c one two) (basisState (fill nCore t)) (fill nCore t')) := by
  obtain ⟨T, kept, h1, h2, -, h3, h4, h5⟩ := removeInactive_spec_partial hsame n c one two (some a) nCore hc (fun _ => hn) hδ hg
  have hk : ∀ k ∈ kept, 2 * nCore ≤ k ∧ k < 2 * nCore + 2 * a := fun k hk => ⟨(h4 k hk).1, (h4 k hk).2.2.1 a rfl⟩
  refine ⟨T, h1, ?_, fun hT t t' ht ht' => ?_⟩
  · rw [h2]
    have := (List.subperm_of_subset (h3.imp fun h => ne_of_lt h) fun k hkk => List.mem_range'_1.2 (hk k hkk)).length_le
    rwa [List.length_range'] at this
  · have hl := h2.symm.trans hT
    have e := eq_range'_of_sorted h3 hl hk
    have hp : ∀ t : ℕ → Bool, (∀ k, t k = true → k < 2 * a) → place (List.range (2 * nCore)) kept t = fill nCore t := by
      intro t ht
      funext k
      unfold place fill
      by_cases hk : k < 2 * nCore
      · rw [if_pos (List.mem_range.2 hk), if_pos hk]
      · rw [if_neg (fun h => hk (List.mem_range.1 h)), if_neg hk, e]
        by_cases hk' : k < 2 * nCore + 2 * a
        · rw [if_pos (List.mem_range'_1.2 ⟨not_lt.1 hk, hk'⟩)]
          congr 1
          have hx : (List.range' (2 * nCore) (2 * a))[k - 2 * nCore]'(by rw [List.length_range']; omega) = k := by
            rw [List.getElem_range']; omega
          have := List.Nodup.idxOf_getElem (List.nodup_range' (s := 2 * nCore) (n := 2 * a)) (k - 2 * nCore) (by rw [List.length_range']; omega)
          rwa [hx] at this
        · rw [if_neg (fun h => hk' (List.mem_range'_1.1 h).2)]
          by_contra hne
          have := ht _ (by simpa using Ne.symm hne)
          omega
    rw [← hl] at ht ht'
    rw [(h5 t ht).1 t' ht', hp t (hl ▸ ht), hp t' (hl ▸ ht')]

/-- Active orbitals without a coefficient are lost, and the others are renumbered: of the two modes of one active orbital only the second occurs, and the result has one mode. -/
theorem removeInactive_counterexample (hsame : IntIdentity same) :
    ∃ T, removeInactive same 2 0 (fun i => if i = [1, 1] then 1 else 0) (fun _ => 0) (some 1) 0 = .ok T ∧ T.n < 2 := by
  obtain ⟨T, kept, h1, h2, -, h3, h4, -⟩ := removeInactive_spec_partial hsame 2 0 (fun i => if i = [1, 1] then 1 else 0) (fun _ => 0) (some 1) 0 (by norm_num)
    (fun _ => by norm_num) (δ := 1) (by norm_num) ⟨(Grid _).zero_mem, fun p _ q _ => by dsimp only; split_ifs; exact ⟨1, 0, by norm_num⟩; exact (Grid _).zero_mem,
      fun p _ q _ r _ s _ => (Grid _).zero_mem⟩
  refine ⟨T, h1, ?_⟩
  have hone : ∀ k ∈ kept, k = 1 := by
    intro k hk
    obtain ⟨-, -, -, t, ht, hv, f, hf, rfl⟩ := h4 k hk
    rw [termValue_interaction] at hv
    have hm : t.map Prod.fst = [1, 1] := by
      by_contra hne
      split_ifs at hv <;> exact hv rfl
    have : f.1 ∈ t.map Prod.fst := List.mem_map_of_mem hf
    rw [hm] at this
    simpa using this
  have : kept.length ≤ 1 := by
    have := (List.subperm_of_subset (h3.imp fun h => ne_of_lt h) (l₂ := [1]) fun k hk => List.mem_singleton.2 (hone k hk)).length_le
    simpa using this
  omega

/-- The hypotheses are met: four orbitals with complex hopping, one core orbital and one active orbital. -/
example : IntIdentity (fun a b => decide (a = b)) ∧
    EntriesOn 4 1 2 (fun i => if i = [2, 3] then Complex.I else if i = [3, 2] then -Complex.I else 0) (fun i => if i = [0, 2, 2, 0] then 3 else 0) := by
  refine ⟨⟨fun a b h => of_decide_eq_true h, fun a _ => by simp⟩, ⟨2, 0, by norm_num⟩, fun p _ q _ => ?_, fun p _ q _ r _ s _ => ?_⟩
  · dsimp only
    split_ifs
    · exact ⟨0, 1, by norm_num⟩
    · exact ⟨0, -1, by norm_num⟩
    · exact (Grid _).zero_mem
  · dsimp only
    split_ifs
    · exact ⟨3, 0, by norm_num⟩
    · exact (Grid _).zero_mem

end ZQ.Inactive
