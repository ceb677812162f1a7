import Verif.Lemmas.ExactSum

/-! # C46: normal ordering of fermion operators -/

namespace ZQ.Op

open PyDict

/-! ### Specification -/

/-- The factor `l` may stand before `r` in a normal ordered term: creation before annihilation, larger index first within a kind. -/
def Before (l r : ℕ × Bool) : Prop := (l.2 = true ∧ r.2 = false) ∨ (l.2 = r.2 ∧ r.1 < l.1)

/-- A normal ordered term. -/
def NormalTerm (t : Term Bool) : Prop := t.Pairwise Before

/-! ### Proofs -/

theorem Before.trans {a b c : ℕ × Bool} (h1 : Before a b) (h2 : Before b c) : Before a c := by
  rcases h1 with ⟨a1, a2⟩ | ⟨a1, a2⟩ <;> rcases h2 with ⟨b1, b2⟩ | ⟨b1, b2⟩
  · rw [a2] at b1; cases b1
  · exact Or.inl ⟨a1, b1 ▸ a2⟩
  · exact Or.inl ⟨a1.trans b1, b2⟩
  · exact Or.inr ⟨a1.trans b1, b2.trans a2⟩

/-- `is_normal_ordered` decides normal order of every term. -/
theorem isNormalOrderedTerm_iff (t : Term Bool) : isNormalOrderedTerm t = true ↔ NormalTerm t := by
  induction t with
  | nil => simp [isNormalOrderedTerm, NormalTerm]
  | cons l t ih =>
    cases t with
    | nil => simp [isNormalOrderedTerm, NormalTerm]
    | cons r t =>
      have step : isNormalOrderedTerm (l :: r :: t) = true ↔ Before l r ∧ isNormalOrderedTerm (r :: t) = true := by
        rw [isNormalOrderedTerm]
        obtain ⟨p, a⟩ := l
        obtain ⟨q, b⟩ := r
        cases a <;> cases b <;> simp [Before]
        all_goals (intro h; rfl)
      rw [step, ih]
      constructor
      · rintro ⟨h1, h2⟩
        refine List.pairwise_cons.2 ⟨fun x hx => ?_, h2⟩
        rcases List.mem_cons.1 hx with rfl | hx
        · exact h1
        · exact h1.trans ((List.pairwise_cons.1 h2).1 x hx)
      · intro h
        have := List.pairwise_cons.1 h
        exact ⟨this.1 r (List.mem_cons_self ..), this.2⟩

theorem isNormalOrdered_iff (o : Terms Bool) : isNormalOrdered o = true ↔ ∀ t ∈ keys o, NormalTerm t := by
  rw [isNormalOrdered, List.all_eq_true]
  constructor
  · intro h t ht
    obtain ⟨kv, hkv, rfl⟩ := List.mem_map.1 ht
    exact (isNormalOrderedTerm_iff _).1 (h kv hkv)
  · intro h kv hkv
    exact (isNormalOrderedTerm_iff _).2 (h kv.1 (List.mem_map_of_mem hkv))

/-- `acc` stands for the operator `M`: normal ordered, within `N` tolerances of an operator acting as `M`, and exactly `M` when `g` holds. -/
structure Rep (δ : ℝ) (g : Prop) (N : ℕ) (acc : Terms Bool) (M : Module.End ℂ State) : Prop where
  wf : WF acc
  ordered : ∀ t ∈ keys acc, NormalTerm t
  near : ∃ E : Terms Bool, WF E ∧ (∀ t ∈ keys E, NormalTerm t) ∧ action ladderAction E = M ∧ ∀ t, ‖coeff acc t - coeff E t‖ ≤ N * (1 / 10 ^ 8)
  exact : g → OnGrid δ acc ∧ action ladderAction acc = M

theorem Rep.mono {δ g N N' acc M} (h : Rep δ g N acc M) (hN : N ≤ N') : Rep δ g N' acc M := by
  obtain ⟨E, e1, e2, e3, e4⟩ := h.near
  refine ⟨h.wf, h.ordered, ⟨E, e1, e2, e3, fun t => (e4 t).trans ?_⟩, h.exact⟩
  have : (N : ℝ) ≤ N' := by exact_mod_cast hN
  exact mul_le_mul_of_nonneg_right this (by norm_num)

theorem Rep.congr {δ g N acc M M'} (h : Rep δ g N acc M) (hM : M = M') : Rep δ g N acc M' := hM ▸ h

theorem Rep.weaken {δ N acc M} {g g' : Prop} (h : Rep δ g N acc M) (hg : g' → g) : Rep δ g' N acc M :=
  ⟨h.wf, h.ordered, h.near, fun h' => h.exact (hg h')⟩

theorem Rep.nil (δ : ℝ) (g : Prop) : Rep δ g 0 [] 0 :=
  ⟨wf_nil, fun t ht => by simp [keys] at ht, ⟨[], wf_nil, fun t ht => by simp [keys] at ht, action_nil _, fun t => by simp⟩,
    fun _ => ⟨OnGrid.nil δ, action_nil _⟩⟩

theorem Rep.single {δ : ℝ} {t : Term Bool} (ht : NormalTerm t) (c : ℂ) : Rep δ (c ∈ Grid δ) 0 [(t, c)] (c • termAction ladderAction t) := by
  have hk : ∀ u ∈ keys ([(t, c)] : Terms Bool), NormalTerm u := by
    intro u hu; rw [keys, List.map_singleton, List.mem_singleton] at hu; rw [hu]; exact ht
  have ha : action ladderAction [(t, c)] = c • termAction ladderAction t := by rw [action_cons, action_nil, add_zero]
  exact ⟨wf_single t c, hk, ⟨_, wf_single t c, hk, ha, fun t => by simp⟩, fun h => ⟨onGrid_single h, ha⟩⟩

theorem Rep.add {δ : ℝ} (hδ : 1 / 10 ^ 8 ≤ δ) {g : Prop} {N₁ N₂ : ℕ} {a b : Terms Bool} {M₁ M₂ : Module.End ℂ State}
    (ha : Rep δ g N₁ a M₁) (hb : Rep δ g N₂ b M₂) : Rep δ g (N₁ + N₂ + 1) (add a b) (M₁ + M₂) := by
  obtain ⟨E, e1, e2, e3, e4⟩ := ha.near
  obtain ⟨F, f1, f2, f3, f4⟩ := hb.near
  obtain ⟨s1, s2, s3, s4⟩ := exactAdd_spec e1 f1
  refine ⟨(add_spec ha.wf hb.wf).1, fun t ht => ?_, ⟨exactAdd E F, s1, fun t ht => ?_, ?_, fun t => ?_⟩, fun h => ?_⟩
  · exact (mem_keys_add ha.wf hb.wf ht).elim (ha.ordered t) (hb.ordered t)
  · exact ((s4 t).1 ht).elim (e2 t) (f2 t)
  · rw [s2, e3, f3]
  · rw [s3]
    have h0 := add_error ha.wf hb.wf t
    have h1 := e4 t
    have h2 := f4 t
    have split : coeff (Op.add a b) t - (coeff E t + coeff F t)
        = (coeff (Op.add a b) t - (coeff a t + coeff b t)) + ((coeff a t - coeff E t) + (coeff b t - coeff F t)) := by ring
    rw [split]
    refine le_trans (norm_add_le _ _) ?_
    have := norm_add_le (coeff a t - coeff E t) (coeff b t - coeff F t)
    push_cast
    linarith
  · obtain ⟨x1, x2⟩ := ha.exact h
    obtain ⟨y1, y2⟩ := hb.exact h
    obtain ⟨_, z2, _, z4⟩ := add_onGrid hδ ha.wf hb.wf x1 y1
    exact ⟨z2, by rw [z4, x2, y2]⟩

/-- Replacing an adjacent pair inside a product. -/
theorem termAction_pair (pre post : Term Bool) (l x : ℕ × Bool) :
    termAction ladderAction (pre ++ l :: x :: post) = termAction ladderAction pre * ((ladderAction l * ladderAction x) * termAction ladderAction post) := by
  rw [termAction_append, termAction_cons, termAction_cons, mul_assoc (ladderAction l)]

theorem swap_same {l x : ℕ × Bool} (h : l.1 ≠ x.1) (pre post : Term Bool) :
    termAction ladderAction (pre ++ l :: x :: post) = -termAction ladderAction (pre ++ x :: l :: post) := by
  rw [termAction_pair, termAction_pair, ladder_anticomm h]
  apply LinearMap.ext; intro ψ
  simp only [Module.End.mul_apply, LinearMap.neg_apply, map_neg]

theorem swap_conj {l x : ℕ × Bool} (h1 : l.1 = x.1) (hx : x.2 = true) (hl : l.2 = false) (pre post : Term Bool) :
    termAction ladderAction (pre ++ l :: x :: post) = termAction ladderAction (pre ++ post) - termAction ladderAction (pre ++ x :: l :: post) := by
  obtain ⟨p, a⟩ := l
  obtain ⟨q, b⟩ := x
  dsimp only at h1 hx hl
  subst h1 hx hl
  have hs : ladderAction (p, false) * ladderAction (p, true) = 1 - ladderAction (p, true) * ladderAction (p, false) :=
    eq_sub_of_add_eq (ladder_same p false)
  rw [termAction_pair, termAction_pair, hs, sub_mul, mul_sub, one_mul, termAction_append]

theorem pair_zero (x : ℕ × Bool) (pre post : Term Bool) : termAction ladderAction (pre ++ x :: x :: post) = 0 := by
  rw [termAction_pair, ladder_sq, zero_mul, mul_zero]

/-- Outcome of the inner loop. -/
def InnerPost (δ : ℝ) (g : Prop) (N : ℕ) (M : Module.End ℂ State) (len : ℕ) (rest : Term Bool) :
    Except (Terms Bool) (Term Bool × ℂ × Terms Bool) → Prop
  | .error r => Rep δ g N r M
  | .ok (t', c', acc') => ∃ t1, t' = t1 ++ rest ∧ t1.length = len ∧ NormalTerm t1 ∧ (g → c' ∈ Grid δ) ∧
      ∃ M', Rep δ g N acc' M' ∧ M' + c' • termAction ladderAction t' = M

theorem noInner_spec {δ : ℝ} (hδ : 1 / 10 ^ 8 ≤ δ) (rec : Term Bool → ℂ → Terms Bool) (n B : ℕ)
    (hrec : ∀ u c, u.length ≤ n → Rep δ (c ∈ Grid δ) B (rec u c) (c • termAction ladderAction u)) (g : Prop) (rest : Term Bool) :
    ∀ (rpre : Term Bool) (x : ℕ × Bool) (q : Term Bool) (c : ℂ) (acc : Terms Bool) (N : ℕ) (M : Module.End ℂ State),
      rpre.length + 1 + q.length + rest.length ≤ n + 1 → (g → c ∈ Grid δ) → NormalTerm (rpre.reverse ++ q) → (∀ y ∈ q, Before x y) →
      Rep δ g N acc M →
      InnerPost δ g (N + rpre.length * (B + 1)) (M + c • termAction ladderAction (rpre.reverse ++ x :: (q ++ rest)))
        (rpre.length + 1 + q.length) rest (noInner rec rpre x (q ++ rest) c acc) := by
  intro rpre
  induction rpre with
  | nil =>
    intro x q c acc N M hlen hg hs hx hacc
    rw [noInner]
    refine ⟨x :: q, rfl, by simp; omega, List.pairwise_cons.2 ⟨hx, hs⟩, hg, M, hacc.mono (by simp), by simp⟩
  | cons l rpre ih =>
    intro x q c acc N M hlen hg hs hx hacc
    have hl : rpre.length + 1 + (q.length + 1) + rest.length ≤ n + 1 := by rw [List.length_cons] at hlen; omega
    have hlen2 : ∀ y : ℕ × Bool, rpre.length + 1 + (y :: q).length = (l :: rpre).length + 1 + q.length := by
      intro y; rw [List.length_cons, List.length_cons]; omega
    have hrev : (l :: rpre).reverse ++ x :: (q ++ rest) = rpre.reverse ++ l :: x :: (q ++ rest) := by simp
    have hs' : NormalTerm (rpre.reverse ++ l :: q) := by simpa using hs
    have hgneg : g → c * -1 ∈ Grid δ := fun h => by rw [mul_neg_one]; exact (Grid δ).neg_mem (hg h)
    have hbound : N + rpre.length * (B + 1) ≤ N + (l :: rpre).length * (B + 1) := by
      rw [List.length_cons]; gcongr; omega
    rw [noInner, hrev]
    by_cases h1 : x.2 = true ∧ l.2 = false
    · rw [if_pos h1]
      have hx' : ∀ y ∈ l :: q, Before x y := by
        intro y hy
        rcases List.mem_cons.1 hy with rfl | hy
        · exact Or.inl h1
        · exact hx y hy
      by_cases h2 : x.1 = l.1
      · rw [if_pos h2]
        have hr := (hrec (rpre.reverse ++ (q ++ rest)) (-1 * (c * -1)) (by simp; omega)).weaken
          (g' := g) (fun h => by rw [show -1 * (c * -1) = c by ring]; exact hg h)
        have hacc' := hacc.add hδ hr
        have := ih x (l :: q) (c * -1) _ _ _ hl hgneg hs' hx' hacc'
        rw [hlen2] at this
        rw [List.cons_append] at this
        have e1 : N + B + 1 + rpre.length * (B + 1) = N + (l :: rpre).length * (B + 1) := by rw [List.length_cons]; ring
        have e2 : M + (-1 * (c * -1)) • termAction ladderAction (rpre.reverse ++ (q ++ rest))
            + (c * -1) • termAction ladderAction (rpre.reverse ++ x :: l :: (q ++ rest))
            = M + c • termAction ladderAction (rpre.reverse ++ l :: x :: (q ++ rest)) := by
          rw [swap_conj h2.symm h1.1 h1.2]; module
        rw [e1, e2] at this
        exact this
      · rw [if_neg h2]
        have := ih x (l :: q) (c * -1) acc N M hl hgneg hs' hx' hacc
        rw [hlen2, List.cons_append] at this
        have e2 : M + (c * -1) • termAction ladderAction (rpre.reverse ++ x :: l :: (q ++ rest))
            = M + c • termAction ladderAction (rpre.reverse ++ l :: x :: (q ++ rest)) := by
          rw [swap_same (fun h => h2 h.symm)]; module
        rw [e2] at this
        exact innerPost_mono hbound this
    · rw [if_neg h1]
      -- the step that leaves the pair in place
      have stay : Before l x → InnerPost δ g (N + (l :: rpre).length * (B + 1))
          (M + c • termAction ladderAction (rpre.reverse ++ l :: x :: (q ++ rest)))
          ((l :: rpre).length + 1 + q.length) rest (noInner rec rpre l (x :: (q ++ rest)) c acc) := by
        intro hb
        have hp := List.pairwise_append.1 hs'
        have hlq := List.pairwise_cons.1 hp.2.1
        have := ih l (x :: q) c acc N M hl hg
          (by
            refine List.pairwise_append.2 ⟨hp.1, List.pairwise_cons.2 ⟨hx, hlq.2⟩, ?_⟩
            intro y hy z hz
            rcases List.mem_cons.1 hz with rfl | hz
            · exact (hp.2.2 y hy l (List.mem_cons_self ..)).trans hb
            · exact hp.2.2 y hy z (List.mem_cons_of_mem _ hz))
          (by
            intro y hy
            rcases List.mem_cons.1 hy with rfl | hy
            · exact hb
            · exact hlq.1 y hy) hacc
        rw [hlen2, List.cons_append] at this
        exact innerPost_mono hbound this
      by_cases h2 : x.2 = l.2
      · rw [if_pos h2]
        by_cases h3 : x.1 = l.1
        · rw [if_pos h3]
          have hxl : l = x := Prod.ext h3.symm h2.symm
          subst hxl
          show Rep _ _ _ _ _
          rw [pair_zero, smul_zero, add_zero]
          exact hacc.mono (Nat.le_add_right _ _)
        · rw [if_neg h3]
          by_cases h4 : l.1 < x.1
          · rw [if_pos h4]
            have hx' : ∀ y ∈ l :: q, Before x y := by
              intro y hy
              rcases List.mem_cons.1 hy with rfl | hy
              · exact Or.inr ⟨h2, h4⟩
              · exact hx y hy
            have := ih x (l :: q) (c * -1) acc N M hl hgneg hs' hx' hacc
            rw [hlen2, List.cons_append] at this
            have e2 : M + (c * -1) • termAction ladderAction (rpre.reverse ++ x :: l :: (q ++ rest))
                = M + c • termAction ladderAction (rpre.reverse ++ l :: x :: (q ++ rest)) := by
              rw [swap_same (fun h => h3 h.symm)]; module
            rw [e2] at this
            exact innerPost_mono hbound this
          · rw [if_neg h4]
            exact stay (Or.inr ⟨h2.symm, by omega⟩)
      · rw [if_neg h2]
        refine stay (Or.inl ?_)
        cases hx2 : x.2 <;> cases hl2 : l.2 <;> simp_all
where
  innerPost_mono {δ : ℝ} {g : Prop} {N N' : ℕ} {M : Module.End ℂ State} {len : ℕ} {rest : Term Bool} {r} (h : N ≤ N')
      (hr : InnerPost δ g N M len rest r) : InnerPost δ g N' M len rest r := by
    match r, hr with
    | .error r, hr => exact Rep.mono hr h
    | .ok (t', c', acc'), ⟨t1, a1, a2, a3, a4, M', a5, a6⟩ => exact ⟨t1, a1, a2, a3, a4, M', a5.mono h, a6⟩

theorem noOuter_spec {δ : ℝ} (hδ : 1 / 10 ^ 8 ≤ δ) (rec : Term Bool → ℂ → Terms Bool) (n B : ℕ)
    (hrec : ∀ u c, u.length ≤ n → Rep δ (c ∈ Grid δ) B (rec u c) (c • termAction ladderAction u)) (g : Prop) :
    ∀ (rest pre : Term Bool) (c : ℂ) (acc : Terms Bool) (N : ℕ) (M : Module.End ℂ State),
      pre.length + rest.length ≤ n + 1 → (g → c ∈ Grid δ) → NormalTerm pre → Rep δ g N acc M →
      Rep δ g (N + rest.length * ((n + 1) * (B + 1)) + 1) (noOuter rec (List.range' pre.length rest.length) (pre ++ rest) c acc)
        (M + c • termAction ladderAction (pre ++ rest)) := by
  intro rest
  induction rest with
  | nil =>
    intro pre c acc N M hlen hg hs hacc
    rw [List.length_nil, List.range'_zero, noOuter, List.append_nil]
    have := hacc.add hδ ((Rep.single (δ := δ) hs c).weaken hg)
    exact this.mono (by omega)
  | cons x rest ih =>
    intro pre c acc N M hlen hg hs hacc
    rw [List.length_cons, List.range'_succ, noOuter]
    have hd : (pre ++ x :: rest).drop pre.length = x :: rest := List.drop_left ..
    have ht : (pre ++ x :: rest).take pre.length = pre := List.take_left ..
    rw [hd, ht]
    dsimp only
    have h := noInner_spec hδ rec n B hrec g rest pre.reverse x [] c acc N M (by simp at hlen ⊢; omega) hg (by simpa using hs) (by simp) hacc
    rw [List.nil_append, List.reverse_reverse, List.length_reverse] at h
    have hle : pre.length * (B + 1) ≤ (n + 1) * (B + 1) := by gcongr; simp at hlen; omega
    generalize noInner rec pre.reverse x rest c acc = r at h
    match r, h with
    | .error r, h =>
      refine Rep.mono h ?_
      rw [add_mul, one_mul]
      omega
    | .ok (t', c', acc'), h =>
      obtain ⟨t1, rfl, hl, hn, hg', M', hr, hM⟩ := h
      dsimp only
      have hl' : t1.length = pre.length + 1 := by rw [hl]; simp
      have := ih t1 c' acc' _ M' (by rw [hl']; simp at hlen; omega) hg' hn hr
      rw [hl', hM] at this
      refine this.mono ?_
      rw [Nat.add_mul rest.length 1, one_mul]
      omega

/-- Number of additions that ordering a term of a given length can cause (an upper bound). -/
def additions : ℕ → ℕ
  | 0 => 1
  | n + 1 => (n + 1) * ((n + 1) * (additions n + 1)) + 1

theorem noTerm_spec {δ : ℝ} (hδ : 1 / 10 ^ 8 ≤ δ) (n : ℕ) (t : Term Bool) (c : ℂ) (ht : t.length ≤ n) :
    Rep δ (c ∈ Grid δ) (additions n) (noTerm n t c) (c • termAction ladderAction t) := by
  induction n generalizing t c with
  | zero =>
    have : t = [] := List.length_eq_zero_iff.1 (by omega)
    subst this
    rw [noTerm]
    have := (Rep.nil δ (c ∈ Grid δ)).add hδ (Rep.single (δ := δ) (t := []) List.Pairwise.nil c)
    exact (this.congr (zero_add _)).mono (by simp [additions])
  | succ n ih =>
    rw [noTerm]
    cases t with
    | nil =>
      have := noOuter_spec hδ (noTerm n) n (additions n) (fun u c h => ih u c h) (c ∈ Grid δ) [] [] c [] 0 0 (by simp) id List.Pairwise.nil (Rep.nil δ _)
      exact (this.congr (zero_add _)).mono (by simp [additions])
    | cons x t =>
      have := noOuter_spec hδ (noTerm n) n (additions n) (fun u c h => ih u c h) (c ∈ Grid δ) t [x] c [] 0 0 (by simp at ht ⊢; omega) id
        (List.pairwise_singleton ..) (Rep.nil δ _)
      rw [zero_add, zero_add] at this
      refine this.mono ?_
      rw [additions]
      have : t.length ≤ n + 1 := by simp at ht; omega
      gcongr

/-- C46: normal ordering one term.  Every resulting term is normal ordered; the result is exact when the coefficient is a Gaussian-integer multiple
of some `δ` not below the tolerance, and otherwise within `additions (length)` tolerances of an exact one. -/
theorem normalOrderedTerm_spec (t : Term Bool) (c : ℂ) :
    WF (normalOrderedTerm t c) ∧ (∀ u ∈ keys (normalOrderedTerm t c), NormalTerm u) ∧
    (∀ δ : ℝ, 1 / 10 ^ 8 ≤ δ → c ∈ Grid δ →
      OnGrid δ (normalOrderedTerm t c) ∧ action ladderAction (normalOrderedTerm t c) = c • termAction ladderAction t) ∧
    ∃ E : Terms Bool, WF E ∧ (∀ u ∈ keys E, NormalTerm u) ∧ action ladderAction E = c • termAction ladderAction t ∧
      ∀ u, ‖coeff (normalOrderedTerm t c) u - coeff E u‖ ≤ additions t.length * (1 / 10 ^ 8) := by
  have h := noTerm_spec (δ := 1) (by norm_num) t.length t c le_rfl
  exact ⟨h.wf, h.ordered, fun δ hδ hc => (noTerm_spec hδ t.length t c le_rfl).exact hc, h.near⟩

/-- C46: the result of `normal_ordered` is normal ordered, and `is_normal_ordered` says so. -/
theorem normalOrdered_ordered (o : Terms Bool) :
    WF (normalOrdered o) ∧ (∀ t ∈ keys (normalOrdered o), NormalTerm t) ∧ isNormalOrdered (normalOrdered o) = true := by
  have hf : ∀ kv ∈ o, WF (normalOrderedTerm kv.1 kv.2) ∧ ∀ t ∈ keys (normalOrderedTerm kv.1 kv.2), NormalTerm t :=
    fun kv _ => ⟨(normalOrderedTerm_spec kv.1 kv.2).1, (normalOrderedTerm_spec kv.1 kv.2).2.1⟩
  have h := foldl_add_keys NormalTerm o (fun kv => normalOrderedTerm kv.1 kv.2) [] wf_nil (fun t ht => by simp [keys] at ht) hf
  exact ⟨(foldl_add_error o (fun kv => normalOrderedTerm kv.1 kv.2) [] wf_nil (fun kv hkv => (hf kv hkv).1)).1, h, (isNormalOrdered_iff _).2 h⟩

/-- C46: the normal ordered operator acts exactly as the operator, for coefficients on a grid not finer than the tolerance. -/
theorem normalOrdered_action (o : Terms Bool) (δ : ℝ) (hδ : 1 / 10 ^ 8 ≤ δ) (hg : ∀ kv ∈ o, kv.2 ∈ Grid δ) :
    action ladderAction (normalOrdered o) = action ladderAction o := by
  obtain ⟨_, _, _, h4⟩ := foldl_add_onGrid hδ o (fun kv => normalOrderedTerm kv.1 kv.2) [] wf_nil (OnGrid.nil δ)
    (fun kv hkv => ⟨(normalOrderedTerm_spec kv.1 kv.2).1, ((normalOrderedTerm_spec kv.1 kv.2).2.2.1 δ hδ (hg kv hkv)).1⟩)
  rw [normalOrdered, h4, action_nil, zero_add, action]
  congr 1
  apply List.map_congr_left
  intro kv hkv
  exact ((normalOrderedTerm_spec kv.1 kv.2).2.2.1 δ hδ (hg kv hkv)).2

/-- C46, all operators: within an explicit number of tolerances of a normal ordered operator with exactly the right action. -/
theorem normalOrdered_error (o : Terms Bool) :
    ∃ E : Terms Bool, WF E ∧ (∀ t ∈ keys E, NormalTerm t) ∧ action ladderAction E = action ladderAction o ∧
      ∀ t, ‖coeff (normalOrdered o) t - coeff E t‖ ≤ (o.map fun kv => additions kv.1.length + 1).sum * (1 / 10 ^ 8) := by
  have key : ∀ (o acc : Terms Bool) (N : ℕ) (M : Module.End ℂ State), Rep 1 False N acc M →
      Rep 1 False (N + (o.map fun kv => additions kv.1.length + 1).sum) (o.foldl (fun acc kv => add acc (normalOrderedTerm kv.1 kv.2)) acc)
        (M + action ladderAction o) := by
    intro o
    induction o with
    | nil => intro acc N M h; simpa [action_nil] using h
    | cons kv o ih =>
      intro acc N M h
      have h1 := h.add (by norm_num) ((noTerm_spec (δ := 1) (by norm_num) kv.1.length kv.1 kv.2 le_rfl).weaken (g' := False) (fun h => h.elim))
      have := ih _ _ _ h1
      rw [List.foldl_cons, List.map_cons, List.sum_cons]
      refine (this.congr ?_).mono (by omega)
      rw [action_cons, add_assoc]
  have h := (key o [] 0 0 (Rep.nil 1 False)).near
  rw [zero_add, zero_add] at h
  exact h

/-! ### Termination: the recursion budget is never used up -/

theorem noInner_congr (r₁ r₂ : Term Bool → ℂ → Terms Bool) : ∀ (rpre : Term Bool) (x : ℕ × Bool) (post : Term Bool) (c : ℂ) (acc : Terms Bool),
    (∀ u c, u.length + 2 = rpre.length + 1 + post.length → r₁ u c = r₂ u c) →
    noInner r₁ rpre x post c acc = noInner r₂ rpre x post c acc ∧
    ∀ t' c' acc', noInner r₁ rpre x post c acc = .ok (t', c', acc') → t'.length = rpre.length + 1 + post.length := by
  intro rpre
  induction rpre with
  | nil =>
    intro x post c acc _
    refine ⟨rfl, fun t' c' acc' h => ?_⟩
    rw [noInner] at h
    injection h with h
    have : t' = x :: post := (congrArg Prod.fst h).symm
    rw [this, List.length_cons]; simp; omega
  | cons l rpre ih =>
    intro x post c acc h
    have hl : ∀ y : ℕ × Bool, rpre.length + 1 + (y :: post).length = (l :: rpre).length + 1 + post.length := by
      intro y; rw [List.length_cons, List.length_cons]; omega
    have go : ∀ y z c acc, noInner r₁ rpre y (z :: post) c acc = noInner r₂ rpre y (z :: post) c acc ∧
        ∀ t' c' acc', noInner r₁ rpre y (z :: post) c acc = .ok (t', c', acc') → t'.length = (l :: rpre).length + 1 + post.length := by
      intro y z c acc
      have := ih y (z :: post) c acc (fun u c hu => h u c (by rw [hu, hl]))
      rwa [hl] at this
    rw [noInner, noInner]
    by_cases h1 : x.2 = true ∧ l.2 = false
    · rw [if_pos h1, if_pos h1, h (rpre.reverse ++ post) _ (by simp; omega)]
      exact go _ _ _ _
    · rw [if_neg h1, if_neg h1]
      by_cases h2 : x.2 = l.2
      · rw [if_pos h2, if_pos h2]
        by_cases h3 : x.1 = l.1
        · rw [if_pos h3, if_pos h3]
          exact ⟨rfl, fun t' c' acc' h => by cases h⟩
        · rw [if_neg h3, if_neg h3]
          by_cases h4 : l.1 < x.1
          · rw [if_pos h4, if_pos h4]; exact go _ _ _ _
          · rw [if_neg h4, if_neg h4]; exact go _ _ _ _
      · rw [if_neg h2, if_neg h2]; exact go _ _ _ _

theorem noOuter_congr (r₁ r₂ : Term Bool → ℂ → Terms Bool) (n : ℕ) (h : ∀ u c, u.length + 2 = n → r₁ u c = r₂ u c) :
    ∀ (is : List ℕ) (t : Term Bool) (c : ℂ) (acc : Terms Bool), t.length = n → noOuter r₁ is t c acc = noOuter r₂ is t c acc := by
  intro is
  induction is with
  | nil => intro t c acc _; rfl
  | cons i is ih =>
    intro t c acc hn
    rw [noOuter, noOuter]
    match hd : t.drop i with
    | [] => rfl
    | x :: post =>
      dsimp only
      have hlen : (t.take i).reverse.length + 1 + post.length = n := by
        have h2 := congrArg List.length (List.take_append_drop i t)
        rw [hd, List.length_append, List.length_cons] at h2
        rw [List.length_reverse]
        omega
      obtain ⟨e1, e2⟩ := noInner_congr r₁ r₂ (t.take i).reverse x post c acc (fun u c hu => h u c (by omega))
      rw [← e1]
      match hr : noInner r₁ (t.take i).reverse x post c acc with
      | .error r => rfl
      | .ok (t', c', acc') =>
        dsimp only
        exact ih t' c' acc' (by rw [e2 t' c' acc' hr, hlen])

theorem noTerm_budget (n : ℕ) (t : Term Bool) (c : ℂ) (h : t.length ≤ n) : noTerm n t c = noTerm t.length t c := by
  induction n using Nat.strong_induction_on generalizing t c with
  | _ n ih =>
    match n, ht : t.length with
    | 0, 0 => rfl
    | 0, k + 1 => omega
    | n + 1, 0 =>
      have : t = [] := List.length_eq_zero_iff.1 ht
      subst this; rfl
    | n + 1, k + 1 =>
      rw [noTerm, noTerm]
      refine noOuter_congr _ _ t.length (fun u c hu => ?_) _ _ _ _ rfl
      rw [ih n (by omega) u c (by omega), ih k (by omega) u c (by omega)]

/-- C46, termination: the model's function, defined with a recursion budget, satisfies the recursion of the code for every term, so the code's
recursion ends after at most half the term's length of nested calls. -/
theorem normalOrderedTerm_unfold (t : Term Bool) (c : ℂ) :
    normalOrderedTerm t c = noOuter normalOrderedTerm (List.range' 1 (t.length - 1)) t c [] := by
  match ht : t.length with
  | 0 =>
    have : t = [] := List.length_eq_zero_iff.1 ht
    subst this; rfl
  | n + 1 =>
    rw [normalOrderedTerm, ht, noTerm, ht]
    exact noOuter_congr _ _ t.length (fun u c hu => noTerm_budget n u c (by omega)) _ _ _ _ rfl

/-! ### Idempotence -/

theorem noInner_fixed (rec : Term Bool → ℂ → Terms Bool) : ∀ (rpre : Term Bool) (x : ℕ × Bool) (post : Term Bool) (c : ℂ) (acc : Terms Bool),
    NormalTerm (rpre.reverse ++ x :: post) → noInner rec rpre x post c acc = .ok (rpre.reverse ++ x :: post, c, acc) := by
  intro rpre
  induction rpre with
  | nil => intro x post c acc _; rfl
  | cons l rpre ih =>
    intro x post c acc h
    have h' : NormalTerm (rpre.reverse ++ l :: x :: post) := by simpa using h
    have hb : Before l x := (List.pairwise_cons.1 (List.pairwise_append.1 h').2.1).1 x (List.mem_cons_self ..)
    rw [noInner, if_neg (by rintro ⟨a, b⟩; rcases hb with ⟨c1, _⟩ | ⟨c1, _⟩ <;> simp_all)]
    have e := ih l (x :: post) c acc h'
    have e2 : (l :: rpre).reverse ++ x :: post = rpre.reverse ++ l :: x :: post := by simp
    rw [e2]
    rcases hb with ⟨h1, h2⟩ | ⟨h1, h2⟩
    · rw [if_neg (by rw [h1, h2]; simp)]; exact e
    · rw [if_pos h1.symm, if_neg (by omega), if_neg (by omega)]; exact e

theorem noOuter_fixed (rec : Term Bool → ℂ → Terms Bool) (t : Term Bool) (ht : NormalTerm t) (c : ℂ) (acc : Terms Bool) :
    ∀ is : List ℕ, (∀ i ∈ is, i < t.length) → noOuter rec is t c acc = add acc [(t, c)] := by
  intro is
  induction is with
  | nil => intro _; rfl
  | cons i is ih =>
    intro h
    rw [noOuter]
    have hi := h i (List.mem_cons_self ..)
    rw [List.drop_eq_getElem_cons hi]
    dsimp only
    have hsplit : (t.take i).reverse.reverse ++ t[i] :: t.drop (i + 1) = t := by
      rw [List.reverse_reverse, ← List.drop_eq_getElem_cons hi, List.take_append_drop]
    rw [noInner_fixed rec _ _ _ _ _ (by rw [hsplit]; exact ht), hsplit]
    exact ih (fun j hj => h j (List.mem_cons_of_mem _ hj))

theorem normalOrderedTerm_fixed {t : Term Bool} (ht : NormalTerm t) (c : ℂ) : normalOrderedTerm t c = add [] [(t, c)] := by
  rw [normalOrderedTerm]
  cases h : t.length with
  | zero => rfl
  | succ n =>
    rw [noTerm, noOuter_fixed _ t ht]
    intro i hi
    rw [List.mem_range'_1] at hi
    omega

theorem add_fresh {A : Type} [DecidableEq A] {acc : Terms A} {t : Term A} {c : ℂ} (hn : t ∉ keys acc) (hc : ¬ ‖c‖ < 1 / 10 ^ 8) :
    add acc [(t, c)] = acc ++ [(t, c)] := by
  show addStep acc (t, c) = _
  rw [addStep]
  dsimp only
  rw [coeff_of_not_mem hn, zero_add, if_neg (show ¬ IsSmall c eqTol from hc), set_of_not_mem hn]

/-- An operator whose terms are all normal ordered and not below the tolerance is returned unchanged. -/
theorem normalOrdered_fixed {o : Terms Bool} (hw : WF o) (hn : ∀ t ∈ keys o, NormalTerm t) (hb : ∀ kv ∈ o, ¬ ‖kv.2‖ < 1 / 10 ^ 8) :
    normalOrdered o = o := by
  have key : ∀ (o acc : Terms Bool), WF (acc ++ o) → (∀ t ∈ keys o, NormalTerm t) → (∀ kv ∈ o, ¬ ‖kv.2‖ < 1 / 10 ^ 8) →
      o.foldl (fun acc kv => add acc (normalOrderedTerm kv.1 kv.2)) acc = acc ++ o := by
    intro o
    induction o with
    | nil => intro acc _ _ _; simp
    | cons kv o ih =>
      obtain ⟨t, c⟩ := kv
      intro acc hw hn hb
      have hnot : t ∉ keys acc := by
        intro h
        rw [WF, keys, List.map_append, List.nodup_append] at hw
        exact hw.2.2 t h t (by simp) rfl
      have hc := hb (t, c) (List.mem_cons_self ..)
      rw [List.foldl_cons]
      dsimp only
      rw [normalOrderedTerm_fixed (hn t (by simp [keys])), add_fresh (by simp [keys]) hc, List.nil_append, add_fresh hnot hc]
      rw [ih (acc ++ [(t, c)]) (by simpa [WF, keys] using hw) (fun u hu => hn u (by simp only [keys, List.map_cons]; exact List.mem_cons_of_mem _ hu))
        (fun kv hkv => hb kv (List.mem_cons_of_mem _ hkv))]
      simp
  exact key o [] (by simpa using hw) hn hb

/-- C46: normal ordering twice gives the same dictionary as normal ordering once, for every operator. -/
theorem normalOrdered_idempotent (o : Terms Bool) : normalOrdered (normalOrdered o) = normalOrdered o := by
  obtain ⟨h1, h2, _⟩ := normalOrdered_ordered o
  refine normalOrdered_fixed h1 h2 ?_
  have key : ∀ (o acc : Terms Bool), WF acc → NoTiny acc → NoTiny (o.foldl (fun acc kv => add acc (normalOrderedTerm kv.1 kv.2)) acc) := by
    intro o
    induction o with
    | nil => intro acc _ h; exact h
    | cons kv o ih =>
      intro acc hw h
      have hk := (normalOrderedTerm_spec kv.1 kv.2).1
      exact ih _ (add_spec hw hk).1 (noTiny_add hw hk h)
  exact key o [] wf_nil noTiny_nil

/-- Integer and Gaussian-integer coefficients meet the grid hypothesis. -/
example : ∀ kv ∈ ([([(0, false), (0, true), (1, false), (2, true)], 3), ([(1, true)], -2 * Complex.I)] : Terms Bool), kv.2 ∈ Grid 1 := by
  intro kv hkv
  simp only [List.mem_cons, List.not_mem_nil, or_false] at hkv
  rcases hkv with rfl | rfl
  · exact ⟨3, 0, by norm_num⟩
  · exact ⟨0, -2, by norm_num⟩

/-- A concrete run: `a_0 a†_0 = 1 - a†_0 a_0`. -/
example : normalOrdered [([(0, false), (0, true)], 1)] = [([], 1), ([(0, true), (0, false)], -1)] := by
  have h1 : ¬ ‖(1 : ℂ)‖ < 1 / 10 ^ 8 := by norm_num
  have h2 : ¬ ‖(-1 : ℂ)‖ < 1 / 10 ^ 8 := by norm_num
  have e : normalOrderedTerm [(0, false), (0, true)] 1 = [([], 1), ([(0, true), (0, false)], -1)] := by
    show add (add [] (noTerm 1 [] (-1 * (1 * -1)))) [([(0, true), (0, false)], 1 * -1)] = _
    rw [show (noTerm 1 [] (-1 * (1 * -1) : ℂ)) = add [] [([], 1)] by
      show add [] [([], (-1 * (1 * -1) : ℂ))] = _
      norm_num]
    rw [add_fresh (by simp [keys]) h1, List.nil_append, add_fresh (by simp [keys]) h1, List.nil_append,
      show (1 * -1 : ℂ) = -1 by norm_num, add_fresh (by simp [keys]) h2]
    rfl
  show add [] (normalOrderedTerm [(0, false), (0, true)] 1) = _
  rw [e]
  show addStep (add [] [([], 1)]) (_, -1) = _
  rw [add_fresh (by simp [keys]) h1]
  show add ([] ++ [([], 1)]) [(_, -1)] = _
  rw [add_fresh (by simp [keys]) h2]
  rfl

end ZQ.Op
