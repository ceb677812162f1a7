import Verif.Model.Chemist
import Verif.Spec.Chemist
import Verif.Lemmas.NormalClosed
import Verif.Props.NumberConserving
import Verif.Lemmas.ExceptList

/-! # C90: chemist ordering -/

namespace ZQ.Chem

open ZQ ZQ.Op ZQ.FTools PyDict

/-- Products with at most four factors, as many creation as annihilation operators. -/
def Balanced (t : Term Bool) : Prop := t.length ≤ 4 ∧ countOps t true (fun _ => true) = countOps t false fun _ => true

theorem balanced_closed : Closed Balanced := by
  constructor
  · rintro t u h ⟨h1, h2⟩
    exact ⟨h.length_eq ▸ h1, by unfold countOps at h2 ⊢; rw [← h.countP_eq, ← h.countP_eq]; exact h2⟩
  · rintro p u ⟨h1, h2⟩
    refine ⟨by simp only [List.length_cons] at h1; omega, ?_⟩
    simp [countOps, List.countP_cons] at h2 ⊢
    exact h2

/-- A balanced normal ordered product. -/
theorem balanced_normal {t : Term Bool} (hb : Balanced t) (hn : NormalTerm t) :
    t = [] ∨ (∃ p q, t = [(p, true), (q, false)]) ∨ ∃ p q r s, t = [(p, true), (q, true), (r, false), (s, false)] := by
  obtain ⟨h1, h2⟩ := hb
  rcases t with _ | ⟨⟨a, x⟩, _ | ⟨⟨b, y⟩, _ | ⟨⟨c, z⟩, _ | ⟨⟨d, w⟩, _ | ⟨e, t⟩⟩⟩⟩⟩
  · exact Or.inl rfl
  · exfalso; cases x <;> simp [countOps] at h2
  · right; left
    cases x <;> cases y <;> simp [countOps, NormalTerm, Before] at h2 hn ⊢
  · exfalso; cases x <;> cases y <;> cases z <;> simp [countOps] at h2
  · right; right
    cases x <;> cases y <;> cases z <;> cases w <;> simp [countOps, NormalTerm, Before] at h2 hn ⊢
  · simp at h1; omega

/-- What one turn of the loop adds. -/
noncomputable def piece (kv : Term Bool × ℂ) : List (Term Bool × ℂ) :=
  match kv.1 with
  | [a, b, c, d] => (if b.1 = c.1 then [([a, d], kv.2)] else []) ++ [([a, c, b, d], -kv.2)]
  | _ => [kv]

theorem chemistStep_eq (acc : Terms Bool) {kv : Term Bool × ℂ} (h : kv.1 = [] ∨ (∃ p q, kv.1 = [(p, true), (q, false)]) ∨
    ∃ p q r s, kv.1 = [(p, true), (q, true), (r, false), (s, false)]) :
    chemistStep acc kv = .ok ((piece kv).foldl (fun acc x => add acc (ofTerm fermion x.1 x.2)) acc) := by
  obtain ⟨t, c⟩ := kv
  dsimp only at h
  rcases h with rfl | ⟨p, q, rfl⟩ | ⟨p, q, r, s, rfl⟩
  · rfl
  · rfl
  · simp only [chemistStep, List.length_cons, List.length_nil, piece]
    by_cases h : q = r
    · subst h; simp
    · simp [h]

theorem foldl_flatMap_eq {α β γ : Type} (l : List α) (f : α → List β) (g : γ → β → γ) (acc : γ) :
    (l.flatMap f).foldl g acc = l.foldl (fun acc a => (f a).foldl g acc) acc := by
  induction l generalizing acc with
  | nil => rfl
  | cons a l ih => rw [List.flatMap_cons, List.foldl_append, List.foldl_cons, ih]

theorem foldlM_step {l : List (Term Bool × ℂ)} (h : ∀ kv ∈ l, kv.1 = [] ∨ (∃ p q, kv.1 = [(p, true), (q, false)]) ∨
    ∃ p q r s, kv.1 = [(p, true), (q, true), (r, false), (s, false)]) (acc : Terms Bool) :
    l.foldlM chemistStep acc = .ok ((l.flatMap piece).foldl (fun acc x => add acc (ofTerm fermion x.1 x.2)) acc) := by
  induction l generalizing acc with
  | nil => rfl
  | cons kv l ih =>
    rw [List.foldlM_cons, chemistStep_eq acc (h kv (List.mem_cons_self ..)), List.flatMap_cons, List.foldl_append]
    exact ih (fun x hx => h x (List.mem_cons_of_mem _ hx)) _

/-- The commutation behind the reordering: `a†_p a†_q a_r a_s = δ_qr a†_p a_s - a†_p a_r a†_q a_s`. -/
theorem piece_action {kv : Term Bool × ℂ} (h : kv.1 = [] ∨ (∃ p q, kv.1 = [(p, true), (q, false)]) ∨
    ∃ p q r s, kv.1 = [(p, true), (q, true), (r, false), (s, false)]) : action ladderAction (piece kv) = kv.2 • termAction ladderAction kv.1 := by
  obtain ⟨t, c⟩ := kv
  dsimp only at h
  rcases h with rfl | ⟨p, q, rfl⟩ | ⟨p, q, r, s, rfl⟩
  · simp only [piece]; rw [action_cons, action_nil, add_zero]
  · simp only [piece]; rw [action_cons, action_nil, add_zero]
  · simp only [piece]
    by_cases h : q = r
    · subst h
      have := swap_conj (l := (q, false)) (x := (q, true)) rfl rfl rfl [(p, true)] [(s, false)]
      simp only [List.cons_append, List.nil_append] at this
      rw [if_pos rfl, List.singleton_append, action_cons, action_cons, action_nil, this]
      module
    · have := swap_same (l := (q, true)) (x := (r, false)) h [(p, true)] [(s, false)]
      simp only [List.cons_append, List.nil_append] at this
      rw [if_neg h, List.nil_append, action_cons, action_nil, this]
      module

theorem piece_terms {kv : Term Bool × ℂ} (h : kv.1 = [] ∨ (∃ p q, kv.1 = [(p, true), (q, false)]) ∨
    ∃ p q r s, kv.1 = [(p, true), (q, true), (r, false), (s, false)]) : ∀ x ∈ piece kv, ChemistTerm x.1 ∧ (x.2 = kv.2 ∨ x.2 = -kv.2) := by
  obtain ⟨t, c⟩ := kv
  dsimp only at h
  rcases h with rfl | ⟨p, q, rfl⟩ | ⟨p, q, r, s, rfl⟩
  · simp [piece, ChemistTerm]
  · simp [piece, ChemistTerm]
  · simp only [piece]
    by_cases h : q = r <;> simp [h, ChemistTerm]

/-- C90: an operator whose products conserve the particle number and have at most four factors is written in chemist order: every product of the
result is empty, `a†_p a_q` or `a†_p a_q a†_r a_s`, none is repeated, and the result acts as the operator does (coefficients that are multiples of
a step not below the tolerance of `+=`). -/
theorem chemist_spec (o : Terms Bool) (h : isTwoBodyNumberConserving o false = true) :
    ∃ r, chemistOrdered o = .ok r ∧ WF r ∧ (∀ t ∈ keys r, ChemistTerm t) ∧
      ∀ δ : ℝ, 1 / 10 ^ 8 ≤ δ → (∀ kv ∈ o, kv.2 ∈ Grid δ) → OnGrid δ r ∧ action ladderAction r = action ladderAction o := by
  have hb : ∀ kv ∈ o, Balanced kv.1 := by
    intro kv hkv
    obtain ⟨h1, h2, _⟩ := (isTwoBodyNumberConserving_iff o false).1 h kv.1 (List.mem_map_of_mem hkv)
    exact ⟨by rcases h1 with h1 | h1 | h1 <;> omega, h2⟩
  have hN := normalOrdered_closed balanced_closed o hb
  obtain ⟨hw, hn, _⟩ := normalOrdered_ordered o
  have hsh : ∀ kv ∈ normalOrdered o, kv.1 = [] ∨ (∃ p q, kv.1 = [(p, true), (q, false)]) ∨
      ∃ p q r s, kv.1 = [(p, true), (q, true), (r, false), (s, false)] :=
    fun kv hkv => balanced_normal (hN _ (List.mem_map_of_mem hkv)) (hn _ (List.mem_map_of_mem hkv))
  refine ⟨_, by rw [chemistOrdered, if_pos h]; exact foldlM_step hsh [], ?_, ?_, ?_⟩
  · exact (foldl_add_error ((normalOrdered o).flatMap piece) (fun x => ofTerm fermion x.1 x.2) [] wf_nil fun x _ => wf_single _ _).1
  · refine foldl_add_keys ChemistTerm ((normalOrdered o).flatMap piece) (fun x => ofTerm fermion x.1 x.2) [] wf_nil (fun t ht => by simp [keys] at ht) ?_
    intro x hx
    obtain ⟨kv, hkv, hx⟩ := List.mem_flatMap.1 hx
    refine ⟨wf_single _ _, fun t ht => ?_⟩
    have : t = x.1 := by
      have : t ∈ keys [(x.1, x.2)] := ht
      rw [keys, List.map_singleton, List.mem_singleton] at this; exact this
    rw [this]
    exact (piece_terms (hsh kv hkv) x hx).1
  · intro δ hδ hg
    have hgo : OnGrid δ (normalOrdered o) := (foldl_add_onGrid hδ o (fun kv => normalOrderedTerm kv.1 kv.2) [] wf_nil (OnGrid.nil δ)
      (fun kv hkv => ⟨(normalOrderedTerm_spec kv.1 kv.2).1, ((normalOrderedTerm_spec kv.1 kv.2).2.2.1 δ hδ (hg kv hkv)).1⟩)).2.1
    have hgr : ∀ x ∈ (normalOrdered o).flatMap piece, x.2 ∈ Grid δ := by
      intro x hx
      obtain ⟨kv, hkv, hx⟩ := List.mem_flatMap.1 hx
      have hc : kv.2 ∈ Grid δ := by
        have := hgo kv.1
        rwa [coeff_of_mem hw hkv] at this
      rcases (piece_terms (hsh kv hkv) x hx).2 with e | e
      · rw [e]; exact hc
      · rw [e]; exact neg_mem hc
    obtain ⟨_, h2, _, h4⟩ := foldl_add_onGrid hδ ((normalOrdered o).flatMap piece) (fun x => ofTerm fermion x.1 x.2) [] wf_nil (OnGrid.nil δ)
      (fun x hx => ⟨wf_single _ _, onGrid_single (hgr x hx)⟩)
    refine ⟨h2, ?_⟩
    rw [h4, action_nil, zero_add, ← normalOrdered_action o δ hδ hg]
    have hp : ∀ l : List (Term Bool × ℂ), (∀ kv ∈ l, kv.1 = [] ∨ (∃ p q, kv.1 = [(p, true), (q, false)]) ∨
        ∃ p q r s, kv.1 = [(p, true), (q, true), (r, false), (s, false)]) →
        ((l.flatMap piece).map fun x => action ladderAction (ofTerm fermion x.1 x.2)).sum = action ladderAction l := by
      intro l hl
      induction l with
      | nil => rfl
      | cons kv l ih =>
        rw [List.flatMap_cons, List.map_append, List.sum_append, ih fun x hx => hl x (List.mem_cons_of_mem _ hx), action_cons,
          ← piece_action (hl kv (List.mem_cons_self ..))]
        congr 1
        rw [action]
        congr 1
        refine List.map_congr_left fun x _ => ?_
        show action ladderAction [(x.1, x.2)] = _
        rw [action_cons, action_nil, add_zero]
    exact hp _ hsh

/-- C90: any other operator is refused. -/
theorem chemist_error (o : Terms Bool) (h : isTwoBodyNumberConserving o false = false) : chemistOrdered o = .error .typeError := by
  rw [chemistOrdered, h]; rfl

/-- Non-vacuity: `a†_3 a†_2 a_2 a_0` conserves the particle number and needs both new terms. -/
example : ∃ r, chemistOrdered [([(3, true), (2, true), (2, false), (0, false)], 5)] = .ok r ∧ WF r ∧ (∀ t ∈ keys r, ChemistTerm t) := by
  obtain ⟨r, h1, h2, h3, _⟩ := chemist_spec [([(3, true), (2, true), (2, false), (0, false)], 5)] (by decide +kernel)
  exact ⟨r, h1, h2, h3⟩

/-- Non-vacuity: a pair creation is refused. -/
example : chemistOrdered [([(1, true), (0, true)], 1)] = .error .typeError := chemist_error _ (by decide +kernel)

end ZQ.Chem
