import Verif.Spec.PauliMatrix
import Verif.Lemmas.Pauli
import Mathlib.Tactic.LinearCombination

/-! Canonical Pauli strings are linearly independent. -/

namespace ZQ.Op

open PyDict

theorem letterAt_of_not_mem {t : Term Letter} {q : ℕ} (h : q ∉ t.map Prod.fst) : letterAt t q = .I := by
  induction t with
  | nil => rfl
  | cons f t ih =>
    simp only [List.map_cons, List.mem_cons, not_or] at h
    rw [letterAt, if_neg (fun e => h.1 e.symm), ih h.2]

theorem letterAt_of_mem {t : Term Letter} (h : (t.map Prod.fst).Nodup) {f : ℕ × Letter} (hf : f ∈ t) : letterAt t f.1 = f.2 := by
  induction t with
  | nil => simp at hf
  | cons g t ih =>
    have hn := List.nodup_cons.1 (show (g.1 :: t.map Prod.fst).Nodup from h)
    rw [letterAt]
    rcases List.mem_cons.1 hf with rfl | hf
    · rw [if_pos rfl]
    · rw [if_neg (fun e => hn.1 (by rw [e]; exact List.mem_map_of_mem hf)), ih hn.2 hf]

theorem Canonical.nodup {t : Term Letter} (h : Canonical t) : (t.map Prod.fst).Nodup := h.1.imp (fun h => ne_of_lt h)

theorem Canonical.tail {f : ℕ × Letter} {t : Term Letter} (h : Canonical (f :: t)) : Canonical t :=
  ⟨(List.pairwise_cons.1 h.1).2, fun g hg => h.2 g (List.mem_cons_of_mem _ hg)⟩

theorem mem_iff_letterAt {t : Term Letter} (h : Canonical t) (f : ℕ × Letter) : f ∈ t ↔ f.2 ≠ .I ∧ letterAt t f.1 = f.2 := by
  constructor
  · intro hf; exact ⟨h.2 f hf, letterAt_of_mem h.nodup hf⟩
  · rintro ⟨h1, h2⟩
    by_cases hm : f.1 ∈ t.map Prod.fst
    · obtain ⟨g, hg, hgf⟩ := List.mem_map.1 hm
      have := letterAt_of_mem h.nodup hg
      rw [hgf, h2] at this
      have : f = g := Prod.ext hgf.symm this
      rw [this]; exact hg
    · rw [letterAt_of_not_mem hm] at h2; exact absurd h2.symm h1

theorem canonical_ext {t u : Term Letter} (ht : Canonical t) (hu : Canonical u) (h : ∀ q, letterAt t q = letterAt u q) : t = u := by
  have hsub : ∀ f, f ∈ t ↔ f ∈ u := fun f => by rw [mem_iff_letterAt ht, mem_iff_letterAt hu, h]
  have h1 := List.pairwise_map.1 ht.1
  have h2 := List.pairwise_map.1 hu.1
  have hp : t.Perm u := by
    rw [List.perm_ext_iff_of_nodup (List.Nodup.of_map _ ht.nodup) (List.Nodup.of_map _ hu.nodup)]
    exact hsub
  exact hp.eq_of_pairwise (fun a b _ _ hab hba => absurd (lt_trans hab hba) (lt_irrefl _)) h1 h2

/-- Sign picked up when `a` is conjugated by `p`. -/
def conjSign : Letter → Letter → ℂ
  | .I, _ => 1
  | _, .I => 1
  | .X, .X => 1
  | .Y, .Y => 1
  | .Z, .Z => 1
  | _, _ => -1

theorem pauliAction_conj (q : ℕ) (p a : Letter) :
    pauliAction (q, p) * pauliAction (q, a) = conjSign p a • (pauliAction (q, a) * pauliAction (q, p)) := by
  rw [pauliAction_same, pauliAction_same, smul_smul]
  cases p <;> cases a <;> simp [pauliProduct, conjSign] <;> exact neg_smul (R := ℂ) (M := Module.End ℂ State) _ _

theorem termAction_conj {t : Term Letter} (ht : (t.map Prod.fst).Nodup) (q : ℕ) (p : Letter) :
    pauliAction (q, p) * termAction pauliAction t * pauliAction (q, p) = conjSign p (letterAt t q) • termAction pauliAction t := by
  have comm_of : ∀ t : Term Letter, q ∉ t.map Prod.fst →
      pauliAction (q, p) * termAction pauliAction t = termAction pauliAction t * pauliAction (q, p) := by
    intro t
    induction t with
    | nil => intro _; rw [termAction_nil, mul_one, one_mul]
    | cons f t ih =>
      intro h
      simp only [List.map_cons, List.mem_cons, not_or] at h
      rw [termAction_cons, ← mul_assoc, pauliAction_comm (f := (q, p)) (g := f) h.1, mul_assoc, ih h.2, mul_assoc]
  have hI : conjSign p .I = 1 := by cases p <;> rfl
  induction t with
  | nil => rw [termAction_nil, mul_one, pauliAction_sq, letterAt, hI, one_smul]
  | cons f t ih =>
    have hn := List.nodup_cons.1 (show (f.1 :: t.map Prod.fst).Nodup from ht)
    rw [termAction_cons, letterAt]
    by_cases h : f.1 = q
    · rw [if_pos h]
      have hq : q ∉ t.map Prod.fst := h ▸ hn.1
      obtain ⟨q', a⟩ := f
      dsimp only at h
      subst h
      rw [← mul_assoc, pauliAction_conj, smul_mul_assoc, smul_mul_assoc, mul_assoc, mul_assoc, ← comm_of t hq, ← mul_assoc (pauliAction (q', p)),
        pauliAction_sq, one_mul]
    · rw [if_neg h, ← mul_assoc, pauliAction_comm (f := (q, p)) (g := f) (Ne.symm h), mul_assoc, mul_assoc, ← mul_assoc (pauliAction (q, p)),
        ih hn.2, mul_smul_comm]

theorem letter_separated {a b : Letter} (h : a ≠ b) : ∃ p : Letter, conjSign p a = -conjSign p b := by
  cases a <;> cases b <;> first
    | exact absurd rfl h
    | (first
        | (refine ⟨.Z, ?_⟩; simp [conjSign]; done)
        | (refine ⟨.X, ?_⟩; simp [conjSign]; done))

theorem conjSign_sq (p a : Letter) : conjSign p a * conjSign p a = 1 := by cases p <;> cases a <;> simp [conjSign]

theorem termAction_ne_zero (t : Term Letter) : termAction pauliAction t ≠ 0 := by
  have : ∃ u, termAction pauliAction t * u = 1 := by
    induction t with
    | nil => exact ⟨1, mul_one 1⟩
    | cons f t ih =>
      obtain ⟨u, hu⟩ := ih
      exact ⟨u * pauliAction f, by rw [termAction_cons, mul_assoc, ← mul_assoc (termAction _ t), hu, one_mul, pauliAction_sq]⟩
  obtain ⟨u, hu⟩ := this
  intro h
  rw [h, zero_mul] at hu
  have := congrArg (fun f : Module.End ℂ State => f (fun _ => 1) (fun _ => false)) hu
  simp at this

/-- A linear map on operators that keeps the string `t` and kills every string of the list. -/
theorem exists_filter {t : Term Letter} (ht : Canonical t) (l : List (Term Letter)) (hl : ∀ u ∈ l, Canonical u ∧ u ≠ t) :
    ∃ (Φ : Module.End ℂ State →ₗ[ℂ] Module.End ℂ State) (w : Term Letter → ℂ),
      (∀ u, Canonical u → Φ (termAction pauliAction u) = w u • termAction pauliAction u) ∧ w t ≠ 0 ∧ ∀ u ∈ l, w u = 0 := by
  induction l with
  | nil => exact ⟨LinearMap.id, fun _ => 1, fun u _ => by rw [one_smul]; rfl, one_ne_zero, fun u h => by simp at h⟩
  | cons v l ih =>
    obtain ⟨Φ, w, h1, h2, h3⟩ := ih (fun u hu => hl u (List.mem_cons_of_mem _ hu))
    obtain ⟨hv, hvt⟩ := hl v (List.mem_cons_self ..)
    have : ∃ q, letterAt v q ≠ letterAt t q := by
      by_contra hcon
      push Not at hcon
      exact hvt (canonical_ext hv ht hcon)
    obtain ⟨q, hq⟩ := this
    obtain ⟨p, hp⟩ := letter_separated hq
    let Ψ : Module.End ℂ State →ₗ[ℂ] Module.End ℂ State :=
      LinearMap.id + conjSign p (letterAt t q) • (LinearMap.mulRight ℂ (pauliAction (q, p)) ∘ₗ LinearMap.mulLeft ℂ (pauliAction (q, p)))
    have hΨ : ∀ u, Canonical u → Ψ (termAction pauliAction u) =
        (1 + conjSign p (letterAt t q) * conjSign p (letterAt u q)) • termAction pauliAction u := by
      intro u hu
      show termAction pauliAction u + conjSign p (letterAt t q) • (pauliAction (q, p) * termAction pauliAction u * pauliAction (q, p)) = _
      rw [termAction_conj hu.nodup, smul_smul, add_smul, one_smul]
    refine ⟨Φ ∘ₗ Ψ, fun u => (1 + conjSign p (letterAt t q) * conjSign p (letterAt u q)) * w u, ?_, ?_, ?_⟩
    · intro u hu
      rw [LinearMap.comp_apply, hΨ u hu, map_smul, h1 u hu, smul_smul]
    · dsimp only
      rw [conjSign_sq]
      exact mul_ne_zero (by norm_num) h2
    · intro u hu
      dsimp only
      rcases List.mem_cons.1 hu with rfl | hu
      · have : conjSign p (letterAt t q) = -conjSign p (letterAt u q) := by rw [hp, neg_neg]
        rw [this, neg_mul, conjSign_sq]; ring
      · rw [h3 u hu, mul_zero]

theorem coeff_zero_of_action_zero {o : Terms Letter} (ho : CanonicalOp o) (h : action pauliAction o = 0) (t : Term Letter) : coeff o t = 0 := by
  by_cases ht : t ∈ keys o
  · have htc := ho.2 t ht
    obtain ⟨Φ, w, h1, h2, h3⟩ := exists_filter htc ((keys o).filter (fun u => u ≠ t)) (fun u hu => by
      have := List.mem_filter.1 hu
      exact ⟨ho.2 u this.1, by simpa using this.2⟩)
    have key : ∀ o' : Terms Letter, WF o' → (∀ u ∈ keys o', Canonical u ∧ (u ≠ t → w u = 0)) →
        Φ (action pauliAction o') = (coeff o' t * w t) • termAction pauliAction t := by
      intro o'
      induction o' with
      | nil => intro _ _; rw [action_nil, map_zero, coeff_of_not_mem (by simp [keys]), zero_mul, zero_smul]
      | cons p o' ih =>
        intro hw hk
        obtain ⟨u, c⟩ := p
        have hn := List.nodup_cons.1 (show (u :: keys o').Nodup from hw)
        have hu := hk u (by simp [keys])
        rw [action_cons, map_add, map_smul, h1 u hu.1, ih hn.2 (fun u' h' => hk u' (by simp [keys] at h' ⊢; exact Or.inr h')), coeff_cons]
        by_cases e : u = t
        · rw [if_pos e, e, coeff_of_not_mem (e ▸ hn.1), zero_mul, zero_smul, add_zero, smul_smul]
        · rw [if_neg e, hu.2 e, zero_smul, smul_zero, zero_add]
    have := key o ho.1 (fun u hu => ⟨ho.2 u hu, fun hne => h3 u (List.mem_filter.2 ⟨hu, by simpa using hne⟩)⟩)
    rw [h, map_zero] at this
    rcases smul_eq_zero.1 this.symm with h4 | h4
    · exact (mul_eq_zero.1 h4).resolve_right h2
    · exact absurd h4 (termAction_ne_zero t)
  · exact coeff_of_not_mem ht

end ZQ.Op
