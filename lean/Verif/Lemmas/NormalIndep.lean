import Verif.Props.NormalOrder
import Verif.Lemmas.Adjoint

/-! Normal ordered terms act linearly independently. -/

namespace ZQ.Op

open PyDict

theorem ladder_basis (p : ℕ) (b : Bool) (s : ℕ → Bool) :
    ladderAction (p, b) (basisState s) = if s p = !b then sgn s p • basisState (Function.update s p b) else 0 := by
  funext s'
  rw [ladder_apply]
  dsimp only
  have key : (s p = !b ∧ s' = Function.update s p b) ↔ (s' p = b ∧ Function.update s' p (!b) = s) := by
    constructor
    · rintro ⟨h1, rfl⟩
      exact ⟨Function.update_self .., by rw [Function.update_idem, ← h1, Function.update_eq_self]⟩
    · rintro ⟨h1, rfl⟩
      exact ⟨Function.update_self .., by rw [Function.update_idem, ← h1, Function.update_eq_self]⟩
  by_cases h : s p = !b
  · rw [if_pos h, Pi.smul_apply, smul_eq_mul]
    by_cases h' : s' = Function.update s p b
    · have k := key.1 ⟨h, h'⟩
      rw [if_pos k.1, k.2, h', basisState_self, basisState_self, sgn_update, if_neg (fun h => by omega)]
    · rw [basisState_ne h', mul_zero]
      split
      · rename_i h1
        rw [basisState_ne (fun e => h' (key.2 ⟨h1, e⟩).2), mul_zero]
      · rfl
  · rw [if_neg h]
    split
    · rename_i h1
      rw [basisState_ne (fun e => h (key.2 ⟨h1, e⟩).1), mul_zero]; rfl
    · rfl

/-- A product of ladder operators of one kind on different modes, applied to a basis state. -/
theorem uniform_basis (b : Bool) (l : Term Bool) (hb : ∀ f ∈ l, f.2 = b) (hn : (l.map Prod.fst).Nodup) (s : ℕ → Bool) :
    ∃ ε : ℂ, ε ≠ 0 ∧ termAction ladderAction l (basisState s)
      = if ∀ f ∈ l, s f.1 = !b then ε • basisState (fun i => if i ∈ l.map Prod.fst then b else s i) else 0 := by
  induction l with
  | nil => exact ⟨1, one_ne_zero, by rw [termAction_nil]; simp⟩
  | cons f l ih =>
    obtain ⟨p, b'⟩ := f
    have hpb : b' = b := hb (p, b') (List.mem_cons_self ..)
    subst hpb
    rw [List.map_cons, List.nodup_cons] at hn
    obtain ⟨ε, hε, e⟩ := ih (fun f hf => hb f (List.mem_cons_of_mem _ hf)) hn.2
    have hsgn : ∀ s p, sgn s p ≠ 0 := fun s p h => by have := sgn_sq s p; rw [h] at this; simp at this
    refine ⟨ε * sgn (fun i => if i ∈ l.map Prod.fst then b' else s i) p, mul_ne_zero hε (hsgn _ _), ?_⟩
    rw [termAction_cons, Module.End.mul_apply, e]
    by_cases h : ∀ f ∈ l, s f.1 = !b'
    · rw [if_pos h, map_smul, ladder_basis]
      have hp : (if p ∈ l.map Prod.fst then b' else s p) = s p := if_neg hn.1
      rw [hp]
      by_cases h2 : s p = !b'
      · rw [if_pos h2, if_pos (by
          intro f hf
          rcases List.mem_cons.1 hf with rfl | hf
          · exact h2
          · exact h f hf), smul_smul]
        congr 2
        funext i
        by_cases hi : i = p
        · subst hi; rw [Function.update_self, if_pos (by simp)]
        · rw [Function.update_of_ne hi, List.map_cons]
          simp only [List.mem_cons, hi, false_or]
      · rw [if_neg h2, smul_zero, if_neg (fun h' => h2 (h' (p, b') (List.mem_cons_self ..)))]
    · rw [if_neg h, map_zero, if_neg (fun h' => h fun f hf => h' f (List.mem_cons_of_mem _ hf))]

/-- Creation part and annihilation part of a normal ordered term. -/
theorem normal_split {t : Term Bool} (h : NormalTerm t) : t = (t.filter fun f => f.2) ++ (t.filter fun f => !f.2) := by
  induction t with
  | nil => rfl
  | cons l t ih =>
    have hc := List.pairwise_cons.1 h
    have e := ih hc.2
    cases hl : l.2 with
    | true => rw [List.filter_cons_of_pos (by simpa using hl), List.filter_cons_of_neg (by simp [hl]), List.cons_append, ← e]
    | false =>
      have hall : ∀ f ∈ t, f.2 = false := by
        intro f hf
        rcases hc.1 f hf with ⟨h1, _⟩ | ⟨h1, _⟩
        · rw [hl] at h1; cases h1
        · rw [← h1, hl]
      have h1 : t.filter (fun f => f.2) = [] := by
        rw [List.filter_eq_nil_iff]; intro f hf; rw [hall f hf]; simp
      have h2 : t.filter (fun f => !f.2) = t := by
        rw [List.filter_eq_self]; intro f hf; rw [hall f hf]; rfl
      rw [List.filter_cons_of_neg (by simp [hl]), List.filter_cons_of_pos (by simp [hl]), h1, h2]
      rfl

theorem normal_nodup_fst {t : Term Bool} (h : NormalTerm t) (b : Bool) (hb : ∀ f ∈ t, f.2 = b) : (t.map Prod.fst).Nodup := by
  rw [List.Nodup, List.pairwise_map]
  refine List.Pairwise.imp_of_mem ?_ h
  intro x y hx hy hxy e
  rcases hxy with ⟨h1, h2⟩ | ⟨_, h2⟩
  · rw [hb x hx] at h1; rw [hb y hy, h1] at h2; cases h2
  · omega

theorem normal_ext {t u : Term Bool} (ht : NormalTerm t) (hu : NormalTerm u) (h : ∀ f, f ∈ t ↔ f ∈ u) : t = u := by
  have asymm : ∀ a b : ℕ × Bool, Before a b → Before b a → a = b := by
    intro a b h1 h2
    rcases h1 with ⟨h1, h1'⟩ | ⟨h1, h1'⟩ <;> rcases h2 with ⟨h2, h2'⟩ | ⟨h2, h2'⟩
    · rw [h1'] at h2; cases h2
    · rw [h1, h1'] at h2; cases h2
    · rw [h2, h2'] at h1; cases h1
    · omega
  have nd : ∀ {t : Term Bool}, NormalTerm t → t.Nodup := by
    intro t ht
    refine List.Pairwise.imp ?_ ht
    rintro a b (⟨h1, h2⟩ | ⟨_, h2⟩) rfl
    · rw [h1] at h2; cases h2
    · omega
  have hp : t.Perm u := (List.perm_ext_iff_of_nodup (nd ht) (nd hu)).2 h
  exact hp.eq_of_pairwise (fun a b _ _ => asymm a b) ht hu

theorem action_apply' {A : Type} (ev : ℕ × A → Module.End ℂ State) (o : Terms A) (ψ : State) (s : ℕ → Bool) :
    action ev o ψ s = (o.map fun kv => kv.2 * termAction ev kv.1 ψ s).sum := by
  induction o with
  | nil => rfl
  | cons kv o ih =>
    rw [action, List.map_cons, List.sum_cons, LinearMap.add_apply, Pi.add_apply, List.map_cons, List.sum_cons, ← ih]
    rfl

theorem sum_only {A : Type} [DecidableEq A] {o : Terms A} (hw : WF o) (g : Term A → ℂ) (t : Term A) (h : ∀ kv ∈ o, kv.1 ≠ t → kv.2 * g kv.1 = 0) :
    (o.map fun kv => kv.2 * g kv.1).sum = coeff o t * g t := by
  induction o with
  | nil => rw [coeff_of_not_mem (by simp [keys])]; simp
  | cons kv o ih =>
    obtain ⟨u, c⟩ := kv
    have hn := List.nodup_cons.1 (show (u :: keys o).Nodup from hw)
    rw [List.map_cons, List.sum_cons, ih hn.2 (fun kv hkv => h kv (List.mem_cons_of_mem _ hkv)), coeff_cons]
    by_cases e : u = t
    · subst e; rw [if_pos rfl, coeff_of_not_mem hn.1]; ring
    · rw [if_neg e, h (u, c) (List.mem_cons_self ..) e, zero_add]

/-- A vanishing combination of normal ordered terms has only zero coefficients. -/
theorem normal_coeff_zero {o : Terms Bool} (hw : WF o) (hn : ∀ t ∈ keys o, NormalTerm t) (h0 : action ladderAction o = 0) (t : Term Bool) : coeff o t = 0 := by
  classical
  by_cases hk : t ∈ keys o
  swap
  · exact coeff_of_not_mem hk
  induction hcount : (t.filter fun f => !f.2).length using Nat.strong_induction_on generalizing t with
  | _ n ih =>
    have ht := hn t hk
    set A := t.filter fun f => !f.2 with hA
    set C := t.filter fun f => f.2 with hC
    set sA : ℕ → Bool := fun i => decide ((i, false) ∈ t) with hsA
    set sC : ℕ → Bool := fun i => decide ((i, true) ∈ t) with hsC
    have hzero : (o.map fun kv => kv.2 * termAction ladderAction kv.1 (basisState sA) sC).sum = 0 := by
      rw [← action_apply', h0]; rfl
    -- the action of a normal term on the chosen state
    have act : ∀ u, NormalTerm u → ∃ ε : ℂ, ε ≠ 0 ∧ termAction ladderAction u (basisState sA) sC
        = if (∀ i, (i, false) ∈ u → (i, false) ∈ t) ∧ (∀ i, (i, true) ∈ u → ((i, false) ∈ t → (i, false) ∈ u)) ∧
            (∀ i, (i, true) ∈ t ↔ (i, true) ∈ u ∨ ((i, false) ∈ t ∧ (i, false) ∉ u)) then ε else 0 := by
      intro u hu
      have hu1 : NormalTerm (u.filter fun f => f.2) := List.Pairwise.filter _ hu
      have hu2 : NormalTerm (u.filter fun f => !f.2) := List.Pairwise.filter _ hu
      have b1 : ∀ f ∈ u.filter (fun f => f.2), f.2 = true := fun f hf => by simpa using (List.mem_filter.1 hf).2
      have b2 : ∀ f ∈ u.filter (fun f => !f.2), f.2 = false := fun f hf => by simpa using (List.mem_filter.1 hf).2
      have m1 : ∀ i, i ∈ (u.filter fun f => f.2).map Prod.fst ↔ (i, true) ∈ u := by
        intro i; simp
      have m2 : ∀ i, i ∈ (u.filter fun f => !f.2).map Prod.fst ↔ (i, false) ∈ u := by
        intro i; simp
      obtain ⟨ε₂, hε₂, e₂⟩ := uniform_basis false _ b2 (normal_nodup_fst hu2 false b2) sA
      obtain ⟨ε₁, hε₁, e₁⟩ := uniform_basis true _ b1 (normal_nodup_fst hu1 true b1)
        (fun i => if i ∈ (u.filter fun f => !f.2).map Prod.fst then false else sA i)
      refine ⟨ε₂ * ε₁, mul_ne_zero hε₂ hε₁, ?_⟩
      conv_lhs => rw [normal_split hu]
      rw [termAction_append, Module.End.mul_apply, e₂]
      have c2 : (∀ f ∈ u.filter (fun f => !f.2), sA f.1 = !false) ↔ ∀ i, (i, false) ∈ u → (i, false) ∈ t := by
        constructor
        · intro h i hi
          have := h (i, false) (List.mem_filter.2 ⟨hi, rfl⟩)
          simpa [hsA] using this
        · rintro h ⟨i, b⟩ hf
          have hb := b2 _ hf
          dsimp only at hb; subst hb
          simpa [hsA] using h i (List.mem_filter.1 hf).1
      by_cases k2 : ∀ i, (i, false) ∈ u → (i, false) ∈ t
      · rw [if_pos (c2.2 k2), map_smul, e₁]
        have c1 : (∀ f ∈ u.filter (fun f => f.2), (fun i => if i ∈ (u.filter fun f => !f.2).map Prod.fst then false else sA i) f.1 = !true)
            ↔ ∀ i, (i, true) ∈ u → ((i, false) ∈ t → (i, false) ∈ u) := by
          constructor
          · intro h i hi hit
            have := h (i, true) (List.mem_filter.2 ⟨hi, rfl⟩)
            simp only [m2, hsA] at this
            by_contra hc
            rw [if_neg hc] at this
            simp [hit] at this
          · rintro h ⟨i, b⟩ hf
            have hb := b1 _ hf
            dsimp only at hb; subst hb
            simp only [m2, hsA]
            by_cases hc : (i, false) ∈ u
            · rw [if_pos hc]; rfl
            · rw [if_neg hc]
              have : (i, false) ∉ t := fun h' => hc (h i (List.mem_filter.1 hf).1 h')
              simp [this]
        by_cases k1 : ∀ i, (i, true) ∈ u → ((i, false) ∈ t → (i, false) ∈ u)
        · rw [if_pos (c1.2 k1), smul_smul, Pi.smul_apply, smul_eq_mul]
          have c3 : sC = (fun i => if i ∈ (u.filter fun f => f.2).map Prod.fst then true else
              (fun i => if i ∈ (u.filter fun f => !f.2).map Prod.fst then false else sA i) i) ↔
              ∀ i, (i, true) ∈ t ↔ (i, true) ∈ u ∨ ((i, false) ∈ t ∧ (i, false) ∉ u) := by
            rw [funext_iff]
            refine forall_congr' fun i => ?_
            simp only [m1, m2, hsC, hsA]
            by_cases x1 : (i, true) ∈ u <;> by_cases x2 : (i, false) ∈ u <;> by_cases x3 : (i, false) ∈ t <;> simp [x1, x2, x3]
          by_cases k3 : ∀ i, (i, true) ∈ t ↔ (i, true) ∈ u ∨ ((i, false) ∈ t ∧ (i, false) ∉ u)
          · rw [if_pos ⟨k2, k1, k3⟩, ← c3.2 k3, basisState_self, mul_one]
          · rw [if_neg (fun h => k3 h.2.2), basisState_ne (fun h => k3 (c3.1 h)), mul_zero]
        · rw [if_neg (fun h => k1 (c1.1 h)), if_neg (fun h => k1 h.2.1), smul_zero]; rfl
      · rw [if_neg (fun h => k2 (c2.1 h)), if_neg (fun h => k2 h.1), map_zero]; rfl
    have hothers : ∀ kv ∈ o, kv.1 ≠ t → kv.2 * termAction ladderAction kv.1 (basisState sA) sC = 0 := by
      intro kv hkv hne
      have hku : kv.1 ∈ keys o := List.mem_map_of_mem hkv
      have hu := hn kv.1 hku
      obtain ⟨ε, _, e⟩ := act kv.1 hu
      rw [e]
      by_cases hcond : (∀ i, (i, false) ∈ kv.1 → (i, false) ∈ t) ∧ (∀ i, (i, true) ∈ kv.1 → ((i, false) ∈ t → (i, false) ∈ kv.1)) ∧
            (∀ i, (i, true) ∈ t ↔ (i, true) ∈ kv.1 ∨ ((i, false) ∈ t ∧ (i, false) ∉ kv.1))
      swap
      · rw [if_neg hcond, mul_zero]
      · rw [if_pos hcond]
        obtain ⟨q1, q2, q3⟩ := hcond
        by_cases hsub : ∀ i, (i, false) ∈ t → (i, false) ∈ kv.1
        · exfalso
          apply hne
          apply normal_ext hu ht
          rintro ⟨i, b⟩
          cases b with
          | false => exact ⟨q1 i, hsub i⟩
          | true =>
            rw [q3 i]
            constructor
            · exact Or.inl
            · rintro (h | ⟨h, h'⟩)
              · exact h
              · exact absurd (hsub i h) h'
        · push Not at hsub
          obtain ⟨i, hi, hi'⟩ := hsub
          have hlt : (kv.1.filter fun f => !f.2).length < n := by
            rw [← hcount]
            have nd : ∀ {v : Term Bool}, NormalTerm v → (v.filter fun f => !f.2).Nodup := by
              intro v hv
              have hb : ∀ f ∈ v.filter (fun f => !f.2), f.2 = false := fun f hf => by simpa using (List.mem_filter.1 hf).2
              exact List.Nodup.of_map _ (normal_nodup_fst (List.Pairwise.filter _ hv) false hb)
            have hss : (i, false) :: (kv.1.filter fun f => !f.2) ⊆ A := by
              intro f hf
              rcases List.mem_cons.1 hf with rfl | hf
              · exact List.mem_filter.2 ⟨hi, rfl⟩
              · obtain ⟨j, b⟩ := f
                have hf' := List.mem_filter.1 hf
                have hb : b = false := by simpa using hf'.2
                subst hb
                exact List.mem_filter.2 ⟨q1 j hf'.1, rfl⟩
            have := (List.Nodup.subperm (List.nodup_cons.2 ⟨fun h => hi' (List.mem_filter.1 h).1, nd hu⟩) hss).length_le
            rw [List.length_cons] at this
            omega
          have := ih _ hlt kv.1 hku rfl
          rw [coeff_of_mem hw (show (kv.1, kv.2) ∈ o from hkv)] at this
          rw [this, zero_mul]
    rw [sum_only hw (fun u => termAction ladderAction u (basisState sA) sC) t hothers] at hzero
    obtain ⟨ε, hε, e⟩ := act t ht
    rw [e, if_pos ⟨fun i h => h, fun i _ h => h, fun i => ⟨Or.inl, fun h => h.elim id (fun h => absurd h.1 h.2)⟩⟩] at hzero
    exact (mul_eq_zero.1 hzero).resolve_right hε

/-- Two normal ordered operators with the same action have the same coefficients. -/
theorem normal_unique {a b : Terms Bool} (ha : WF a) (hb : WF b) (na : ∀ t ∈ keys a, NormalTerm t) (nb : ∀ t ∈ keys b, NormalTerm t)
    (h : action ladderAction a = action ladderAction b) (t : Term Bool) : coeff a t = coeff b t := by
  have wb : WF (smul b (-1)) := by rw [WF, keys_smul]; exact hb
  obtain ⟨s1, s2, s3, s4⟩ := exactAdd_spec ha wb
  have := normal_coeff_zero s1 (fun t ht => ((s4 t).1 ht).elim (na t) (fun h => nb t (by rwa [keys_smul] at h)))
    (by rw [s2, action_smul, h]; module) t
  rw [s3, coeff_smul] at this
  linear_combination this

end ZQ.Op
