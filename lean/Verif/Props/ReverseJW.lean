import Verif.Model.ReverseJW
import Verif.Props.JordanWigner
import Verif.Props.QubitOp

/-! # C47: reverse Jordan-Wigner -/

namespace ZQ.Op

open PyDict

/-! ### Lemmas on single Pauli strings -/

theorem mul_single {A : Type} [DecidableEq A] (S : OpClass A) (u v : Term A) (a b : ℂ) :
    mul S [(u, a)] [(v, b)] = [((S.simplify (u ++ v) (a * b)).2, (S.simplify (u ++ v) (a * b)).1)] := by
  show accum [] _ _ = _
  rw [accum_eq, coeff_of_not_mem (by simp [keys]), zero_add]
  rfl

theorem simplifyLoop_norm (rest : Term Letter) : ∀ (left : ℕ × Letter) (c : ℂ) (acc : Term Letter), ‖(simplifyLoop left rest c acc).1‖ = ‖c‖ := by
  induction rest with
  | nil => intro left c acc; rfl
  | cons r rest ih =>
    intro left c acc
    rw [simplifyLoop]
    split
    · rw [ih, norm_mul]
      have : ∀ a b : Letter, ‖(pauliProduct a b).1‖ = 1 := by intro a b; cases a <;> cases b <;> simp [pauliProduct]
      rw [this, mul_one]
    · exact ih _ _ _

theorem qubitSimplify_norm (t : Term Letter) (c : ℂ) : ‖(qubitSimplify t c).1‖ = ‖c‖ := by
  rw [qubitSimplify]
  cases sortByIndex t with
  | nil => rfl
  | cons f rest => exact simplifyLoop_norm rest f c []

theorem simplifyLoop_index (rest : Term Letter) : ∀ (left : ℕ × Letter) (c : ℂ) (acc : Term Letter) (P : ℕ → Prop),
    P left.1 → (∀ f ∈ rest, P f.1) → (∀ f ∈ acc, P f.1) → ∀ f ∈ (simplifyLoop left rest c acc).2, P f.1 := by
  induction rest with
  | nil =>
    intro left c acc P h1 _ h3 f hf
    rw [simplifyLoop] at hf
    dsimp only at hf
    split at hf
    · rcases List.mem_append.1 hf with h | h
      · exact h3 f h
      · rw [List.mem_singleton.1 h]; exact h1
    · exact h3 f hf
  | cons r rest ih =>
    intro left c acc P h1 h2 h3
    have h2' : ∀ f ∈ rest, P f.1 := fun f hf => h2 f (List.mem_cons_of_mem _ hf)
    rw [simplifyLoop]
    split
    · exact ih _ _ _ P h1 h2' h3
    · refine ih _ _ _ P (h2 r (List.mem_cons_self ..)) h2' (fun f hf => ?_)
      split at hf
      · rcases List.mem_append.1 hf with h | h
        · exact h3 f h
        · rw [List.mem_singleton.1 h]; exact h1
      · exact h3 f hf

/-- Simplification introduces no new qubits. -/
theorem qubitSimplify_index {t : Term Letter} {c : ℂ} {P : ℕ → Prop} (h : ∀ f ∈ t, P f.1) : ∀ f ∈ (qubitSimplify t c).2, P f.1 := by
  have hs : ∀ f ∈ sortByIndex t, P f.1 := fun f hf => h f ((perm_sortByIndex t).mem_iff.1 hf)
  rw [qubitSimplify]
  cases hsort : sortByIndex t with
  | nil => intro f hf; simp at hf
  | cons g rest =>
    rw [hsort] at hs
    exact simplifyLoop_index rest g c [] P (hs g (List.mem_cons_self ..)) (fun f hf => hs f (List.mem_cons_of_mem _ hf)) (fun f hf => by simp at hf)

theorem qubitSimplify_action (t : Term Letter) (c : ℂ) :
    (qubitSimplify t c).1 • termAction pauliAction (qubitSimplify t c).2 = c • termAction pauliAction t := qubit_sound t c trivial

/-- Multiples of canonical Pauli strings determine the string and the factor. -/
theorem single_unique {k k' : Term Letter} {c c' : ℂ} (hk : Canonical k) (hk' : Canonical k') (hc : c ≠ 0)
    (h : c • termAction pauliAction k = c' • termAction pauliAction k') : k = k' ∧ c = c' := by
  have canon : ∀ (k : Term Letter) (c : ℂ), Canonical k → CanonicalOp [(k, c)] := by
    intro k c hk
    refine ⟨wf_single k c, fun t ht => ?_⟩
    rw [keys, List.map_singleton, List.mem_singleton] at ht
    rw [ht]; exact hk
  have hact : action pauliAction [(k, c)] = action pauliAction [(k', c')] := by
    rw [action_cons, action_cons, action_nil, add_zero, add_zero, h]
  have := canonical_unique (canon k c hk) (canon k' c' hk') hact k
  have n1 : ∀ k : Term Letter, coeff ([] : Terms Letter) k = 0 := fun k => coeff_of_not_mem (by simp [keys])
  rw [coeff_cons, coeff_cons, if_pos rfl, n1] at this
  by_cases e : k' = k
  · rw [if_pos e] at this; exact ⟨e.symm, this⟩
  · rw [if_neg e] at this; exact absurd this hc

theorem Grid.mul_unit {δ : ℝ} {z g : ℂ} (hz : z ∈ Grid 1) (hg : g ∈ Grid δ) : g * z ∈ Grid δ := by
  obtain ⟨m, n, rfl⟩ := hz
  obtain ⟨m', n', rfl⟩ := hg
  refine ⟨m' * m - n' * n, m' * n + n' * m, ?_⟩
  push_cast
  linear_combination (δ : ℂ) * n' * n * Complex.I_mul_I

/-! ### The loop -/

theorem zfold (l : List ℕ) : ∀ (k : Term Letter) (c : ℂ), Canonical k → c ≠ 0 → c ∈ Grid 1 →
    ∃ k' c', l.foldl (fun w j => mul qubit (ofTerm qubit [(j, .Z)] 1) w) [(k, c)] = [(k', c')] ∧ Canonical k' ∧ c' ≠ 0 ∧ c' ∈ Grid 1 ∧
      c' • termAction pauliAction k' = termAction pauliAction (l.reverse.map fun j => (j, .Z)) * (c • termAction pauliAction k) := by
  induction l with
  | nil => intro k c hk hc hg; exact ⟨k, c, rfl, hk, hc, hg, by rw [List.reverse_nil, List.map_nil, termAction_nil, one_mul]⟩
  | cons j l ih =>
    intro k c hk hc hg
    have hz : ofTerm qubit [(j, .Z)] 1 = [([(j, Letter.Z)], (1 : ℂ))] := by
      rw [ofTerm]
      show [((qubitSimplify _ _).2, (qubitSimplify _ _).1)] = _
      rw [qubitSimplify_of_canonical ⟨by simp, by simp⟩]
    rw [List.foldl_cons, hz, mul_single, one_mul]
    have hs : qubit.simplify = qubitSimplify := rfl
    rw [hs]
    obtain ⟨k', c', h1, h2, h3, h4, h5⟩ := ih (qubitSimplify ([(j, .Z)] ++ k) c).2 (qubitSimplify ([(j, .Z)] ++ k) c).1 (qubitSimplify_canonical _ _)
      (fun h => hc (by rw [← norm_eq_zero, ← qubitSimplify_norm ([(j, .Z)] ++ k) c, h, norm_zero])) (qubitSimplify_mem _ hg)
    refine ⟨k', c', h1, h2, h3, h4, ?_⟩
    rw [h5, qubitSimplify_action, List.reverse_cons, List.map_append, termAction_append, termAction_append]
    simp only [List.map_cons, List.map_nil, mul_assoc, mul_smul_comm]

theorem canonical_append {lo hi : Term Letter} {p : ℕ} (h1 : Canonical lo) (h2 : Canonical hi) (hlo : ∀ f ∈ lo, f.1 < p) (hhi : ∀ f ∈ hi, p ≤ f.1) :
    Canonical (lo ++ hi) := by
  refine ⟨?_, fun f hf => (List.mem_append.1 hf).elim (h1.2 f) (h2.2 f)⟩
  rw [List.map_append, List.pairwise_append]
  refine ⟨h1.1, h2.1, fun a ha b hb => ?_⟩
  obtain ⟨f, hf, rfl⟩ := List.mem_map.1 ha
  obtain ⟨g, hg, rfl⟩ := List.mem_map.1 hb
  exact lt_of_lt_of_le (hlo f hf) (hhi g hg)

theorem canonical_parts {lo hi : Term Letter} {op : ℕ × Letter} (h : Canonical (lo ++ op :: hi)) :
    Canonical lo ∧ Canonical (op :: hi) ∧ (∀ f ∈ lo, f.1 < op.1) ∧ (∀ f ∈ op :: hi, op.1 ≤ f.1) ∧ op.2 ≠ .I := by
  have hp := h.1
  rw [List.map_append, List.pairwise_append] at hp
  refine ⟨⟨hp.1, fun f hf => h.2 f (List.mem_append_left _ hf)⟩, ⟨hp.2.1, fun f hf => h.2 f (List.mem_append_right _ hf)⟩, ?_, ?_, ?_⟩
  · intro f hf
    exact hp.2.2 f.1 (List.mem_map_of_mem hf) op.1 (by simp)
  · intro f hf
    rcases List.mem_cons.1 hf with rfl | hf
    · exact le_rfl
    · have := hp.2.1
      rw [List.map_cons, List.pairwise_cons] at this
      exact le_of_lt (this.1 f.1 (List.mem_map_of_mem hf))
  · exact h.2 op (by simp)

theorem find_lower (lo hi : Term Letter) (p : ℕ) (hlo : ∀ f ∈ lo, f.1 < p) (hhi : ∀ f ∈ hi, p ≤ f.1) :
    (lo ++ hi).reverse.find? (fun f => decide (f.1 < p)) = lo.getLast? := by
  rw [List.reverse_append, List.find?_append]
  have : hi.reverse.find? (fun f => decide (f.1 < p)) = none := by
    rw [List.find?_eq_none]
    intro f hf
    have := hhi f (List.mem_reverse.1 hf)
    simp; omega
  rw [this, Option.none_or, List.getLast?_eq_head?_reverse]
  cases hr : lo.reverse with
  | nil => rfl
  | cons f r =>
    have hf : f ∈ lo := List.mem_reverse.1 (by rw [hr]; exact List.mem_cons_self ..)
    rw [List.find?_cons_of_pos (by simpa using hlo f hf)]
    rfl

theorem term_comm_pauli {f : ℕ × Letter} (u : Term Letter) (hu : ∀ g ∈ u, f.1 ≠ g.1) :
    termAction pauliAction u * pauliAction f = pauliAction f * termAction pauliAction u := by
  induction u with
  | nil => rw [termAction_nil, one_mul, mul_one]
  | cons g u ihu =>
    rw [termAction_cons, mul_assoc, ihu (fun g' hg' => hu g' (List.mem_cons_of_mem _ hg')), ← mul_assoc, ← mul_assoc,
      pauliAction_comm (f := g) (g := f) (fun e => hu g (List.mem_cons_self ..) e.symm)]

theorem add_two {A : Type} [DecidableEq A] {t u : Term A} {a b : ℂ} (h : u ≠ t) (hb : ¬ ‖b‖ < 1 / 10 ^ 8) :
    add [(t, a)] [(u, b)] = [(t, a), (u, b)] := by
  have hn : u ∉ keys ([(t, a)] : Terms A) := by simp [keys, h]
  show addStep [(t, a)] (u, b) = _
  rw [addStep]
  dsimp only
  rw [coeff_of_not_mem hn, zero_add, if_neg (show ¬ IsSmall b eqTol from hb), set_of_not_mem hn]
  rfl

theorem zPart_eq (p : ℕ) : add (ofTerm fermion [] 1) (numberMode p (-2)) = [([], 1), ([(p, true), (p, false)], -2)] :=
  add_two (t := []) (u := [(p, true), (p, false)]) (a := 1) (b := -2) (by simp) (by norm_num)

theorem zPart_action (p : ℕ) : action ladderAction [([], 1), ([(p, true), (p, false)], -2)] = pauliAction (p, .Z) := by
  apply LinearMap.ext; intro ψ; funext s
  rw [action_cons, action_cons, action_nil, add_zero, LinearMap.add_apply, LinearMap.smul_apply, LinearMap.smul_apply, Pi.add_apply,
    Pi.smul_apply, Pi.smul_apply]
  simp only [termAction_cons, termAction_nil, mul_one, Module.End.mul_apply, Module.End.one_apply, ladder_apply, pauliAction, atQubit_apply,
    letterMatrix, pauliZ, Function.update_self, sgn_update, Function.update_idem, smul_eq_mul]
  cases hs : s p
  · have hu : Function.update s p false = s := by rw [← hs, Function.update_eq_self]
    simp [hu]
  · have h2 := sgn_sq s p
    have hu : Function.update s p true = s := by rw [← hs, Function.update_eq_self]
    simp only [hu, Bool.not_true, Bool.not_false, if_true, lt_irrefl, false_and, if_false]
    simp
    linear_combination (-2 * ψ s) * h2

theorem xyPart_eq (p : ℕ) (a : Letter) :
    raisePlusLower p a = [([(p, true)], if a = .Y then Complex.I else 1), ([(p, false)], if a = .Y then -Complex.I else 1)] := by
  rw [raisePlusLower]
  by_cases h : a = .Y
  · rw [if_pos h, if_pos h, if_pos h, if_pos h]
    show add [([(p, true)], 1 * (1 * Complex.I))] [([(p, false)], 1 * (-1 * Complex.I))] = _
    rw [add_two (by simp) (by norm_num)]
    simp
  · rw [if_neg h, if_neg h, if_neg h, if_neg h]
    exact add_two (t := [(p, true)]) (u := [(p, false)]) (a := 1) (b := 1) (by simp) (by norm_num)

/-- `X_p = (a†_p + a_p) Z_0 ... Z_{p-1}` and `Y_p = i (a†_p - a_p) Z_0 ... Z_{p-1}`. -/
theorem xyPart_action (p : ℕ) (a : Letter) (ha : a = .X ∨ a = .Y) :
    action ladderAction [([(p, true)], if a = .Y then Complex.I else 1), ([(p, false)], if a = .Y then -Complex.I else 1)]
      * termAction pauliAction (zFactors p) = pauliAction (p, a) := by
  apply LinearMap.ext; intro ψ; funext s
  rw [Module.End.mul_apply, action_cons, action_cons, action_nil, add_zero, LinearMap.add_apply, LinearMap.smul_apply, LinearMap.smul_apply,
    Pi.add_apply, Pi.smul_apply, Pi.smul_apply]
  simp only [termAction_cons, termAction_nil, mul_one, Module.End.mul_apply, Module.End.one_apply, ladder_apply, pauliAction, atQubit_apply,
    allZ_action (allZ_zFactors p), zSign_zFactors, sgn_update, smul_eq_mul, lt_irrefl, false_and, if_false]
  have h2 := sgn_sq s p
  rcases ha with rfl | rfl
  · cases hs : s p <;> simp [letterMatrix, pauliX, hs] <;> linear_combination (ψ (Function.update s p _)) * h2
  · cases hs : s p <;> simp [letterMatrix, pauliY, hs]
    · linear_combination (ψ (Function.update s p true)) * h2
    · linear_combination (ψ (Function.update s p false)) * h2

/-- What the loop keeps. -/
structure RjwPost (acc r : Terms Bool) (M : Module.End ℂ State) (extra : ℕ) : Prop where
  wf : WF r
  act : action ladderAction r = action ladderAction acc * M
  grid : ∀ δ, OnGrid δ acc → OnGrid δ r
  len : ∀ m, (∀ t ∈ keys acc, t.length ≤ m) → ∀ t ∈ keys r, t.length ≤ m + extra

theorem fermion_action_mul (a b : Terms Bool) : action ladderAction (mul fermion a b) = action ladderAction a * action ladderAction b :=
  action_mul ladderAction (P := fun _ => True) (fun _ _ _ => rfl) a b (fun _ _ _ _ => trivial)

theorem RjwPost.step {acc tp : Terms Bool} (hw : WF acc) {M : Module.End ℂ State} (hact : action ladderAction tp = M)
    (hg : ∀ kv ∈ tp, kv.2 ∈ Grid 1) (hl : ∀ kv ∈ tp, kv.1.length ≤ 2) : RjwPost acc (mul fermion acc tp) M 2 := by
  refine ⟨wf_mul _ _ _, by rw [fermion_action_mul, hact], fun δ ho => ?_, fun m hm t ht => ?_⟩
  · exact coeff_mul_mem fermion (Grid δ) acc tp (fun l hl r hr => by
      refine Grid.mul_unit (hg r hr) ?_
      have := ho l.1
      rwa [coeff_of_mem hw (show (l.1, l.2) ∈ acc from hl)] at this)
  · obtain ⟨l, hl', r, hr, rfl⟩ := (mem_keys_mul _ _ _ _).1 ht
    show (l.1 ++ r.1).length ≤ _
    rw [List.length_append]
    have := hm l.1 (List.mem_map_of_mem hl')
    have := hl r hr
    omega

theorem rjwLoop_spec : ∀ (n : ℕ) (lo hi : Term Letter) (op : ℕ × Letter) (acc : Terms Bool), Canonical (lo ++ op :: hi) → op.1 < n → WF acc →
    ∃ r, rjwLoop n [(lo ++ op :: hi, 1)] op acc = .ok r ∧ RjwPost acc r (termAction pauliAction (lo ++ [op])) (2 * (op.1 + 1)) := by
  intro n
  induction n with
  | zero => intro lo hi op acc _ h; omega
  | succ n ih =>
    intro lo hi op acc hcan hn hw
    obtain ⟨c1, c2, hlo, hhi, hI⟩ := canonical_parts hcan
    -- the common tail of both cases
    have tail : ∀ (lo' : Term Letter) (tp : Terms Bool), Canonical lo' → (∀ f ∈ lo', f.1 < op.1) →
        action ladderAction tp * termAction pauliAction lo' = termAction pauliAction (lo ++ [op]) →
        (∀ kv ∈ tp, kv.2 ∈ Grid 1) → (∀ kv ∈ tp, kv.1.length ≤ 2) →
        ∃ r, (match (lo' ++ op :: hi).reverse.find? (fun f => decide (f.1 < op.1)) with
          | none => (.ok (mul fermion acc tp) : Except Err (Terms Bool))
          | some op' => rjwLoop n [(lo' ++ op :: hi, 1)] op' (mul fermion acc tp)) = .ok r ∧
          RjwPost acc r (termAction pauliAction (lo ++ [op])) (2 * (op.1 + 1)) := by
      intro lo' tp hc' hlo' hact hg hl
      rw [find_lower lo' (op :: hi) op.1 hlo' hhi]
      have hstep := RjwPost.step (acc := acc) hw (M := action ladderAction tp) rfl hg hl
      cases hlast : lo'.getLast? with
      | none =>
        have : lo' = [] := List.getLast?_eq_none_iff.1 hlast
        subst this
        rw [termAction_nil, mul_one] at hact
        refine ⟨_, rfl, hstep.wf, by rw [hstep.act, hact], hstep.grid, fun m hm t ht => ?_⟩
        have := hstep.len m hm t ht
        omega
      | some op' =>
        obtain ⟨lo'', rfl⟩ := List.getLast?_eq_some_iff.1 hlast
        have hop' : op'.1 < op.1 := hlo' op' (by simp)
        have hcan' : Canonical (lo'' ++ op' :: (op :: hi)) := by
          have := canonical_append hc' c2 hlo' hhi
          rwa [List.append_assoc] at this
        obtain ⟨r, hr, hp⟩ := ih lo'' (op :: hi) op' (mul fermion acc tp) hcan' (by omega) hstep.wf
        dsimp only
        rw [show lo'' ++ [op'] ++ op :: hi = lo'' ++ op' :: (op :: hi) by simp]
        refine ⟨r, hr, hp.wf, ?_, fun δ h => hp.grid δ (hstep.grid δ h), fun m hm t ht => ?_⟩
        · rw [hp.act, hstep.act, mul_assoc, hact]
        · have := hp.len (m + 2) (hstep.len m hm) t ht
          omega
    by_cases hZ : op.2 = .Z
    · obtain ⟨p, a⟩ := op
      dsimp only at hZ; subst hZ
      obtain ⟨r, hr, hp⟩ := tail lo [([], 1), ([(p, true), (p, false)], -2)] c1 hlo
        (by
          rw [zPart_action, termAction_append, termAction_cons, termAction_nil, mul_one]
          exact (term_comm_pauli lo (fun g hg => by have := hlo g hg; dsimp only at this ⊢; omega)).symm)
        (by
          intro kv hkv
          simp only [List.mem_cons, List.not_mem_nil, or_false] at hkv
          rcases hkv with rfl | rfl
          · exact ⟨1, 0, by simp⟩
          · exact ⟨-2, 0, by simp⟩)
        (by
          intro kv hkv
          simp only [List.mem_cons, List.not_mem_nil, or_false] at hkv
          rcases hkv with rfl | rfl <;> simp)
      refine ⟨r, ?_, hp⟩
      rw [← hr, rjwLoop, if_pos rfl, zPart_eq]
      rfl
    · have hxy : op.2 = .X ∨ op.2 = .Y := by
        cases h : op.2 with
        | I => exact absurd h hI
        | X => exact Or.inl rfl
        | Y => exact Or.inr rfl
        | Z => exact absurd h hZ
      obtain ⟨k, c, hk1, hk2, hk3, hk4, hk5⟩ := zfold (List.range op.1).reverse (lo ++ op :: hi) 1 hcan one_ne_zero ⟨1, 0, by simp⟩
      rw [List.reverse_reverse, one_smul] at hk5
      set lo1 := (qubitSimplify (zFactors op.1 ++ lo) 1).2 with hlo1
      set d := (qubitSimplify (zFactors op.1 ++ lo) 1).1 with hd
      have hlo1c : Canonical lo1 := qubitSimplify_canonical _ _
      have hlo1b : ∀ f ∈ lo1, f.1 < op.1 := by
        refine qubitSimplify_index (P := fun i => i < op.1) fun f hf => ?_
        rcases List.mem_append.1 hf with hf | hf
        · obtain ⟨i, hi, rfl⟩ := List.mem_map.1 hf
          exact List.mem_range.1 hi
        · exact hlo f hf
      have hact1 : d • termAction pauliAction lo1 = termAction pauliAction (zFactors op.1) * termAction pauliAction lo := by
        rw [hd, hlo1, qubitSimplify_action, one_smul, termAction_append]
      have hk : k = lo1 ++ op :: hi ∧ c = d := by
        refine single_unique hk2 (canonical_append hlo1c c2 hlo1b hhi) hk3 ?_
        rw [hk5, termAction_append, termAction_append, ← mul_assoc, ← smul_mul_assoc, hact1]
        rfl
      obtain ⟨rfl, rfl⟩ := hk
      obtain ⟨p, a⟩ := op
      dsimp only at hxy hZ
      obtain ⟨r, hr, hp⟩ := tail lo1 (smul (raisePlusLower p a) d) hlo1c hlo1b
        (by
          rw [xyPart_eq, action_smul, smul_mul_assoc, ← mul_smul_comm, hact1, ← mul_assoc, xyPart_action p a hxy, termAction_append, termAction_cons,
            termAction_nil, mul_one]
          exact (term_comm_pauli lo (fun g hg => by have := hlo g hg; dsimp only at this ⊢; omega)).symm)
        (by
          intro kv hkv
          rw [xyPart_eq] at hkv
          simp only [smul, List.map_cons, List.map_nil, List.mem_cons, List.not_mem_nil, or_false] at hkv
          rcases hkv with rfl | rfl
          · refine Grid.mul_unit hk4 ?_
            split
            · exact ⟨0, 1, by simp⟩
            · exact ⟨1, 0, by simp⟩
          · refine Grid.mul_unit hk4 ?_
            split
            · exact ⟨0, -1, by simp⟩
            · exact ⟨1, 0, by simp⟩)
        (by
          intro kv hkv
          rw [xyPart_eq] at hkv
          simp only [smul, List.map_cons, List.map_nil, List.mem_cons, List.not_mem_nil, or_false] at hkv
          rcases hkv with rfl | rfl <;> simp)
      refine ⟨r, ?_, hp⟩
      rw [← hr, rjwLoop, if_neg hZ]
      dsimp only at hk1
      dsimp only
      rw [hk1]
      rfl

/-- C47: one term.  The loop ends without error, the assertion holds, and the result acts as the Pauli string. -/
theorem rjwTerm_spec {t : Term Letter} (ht : Canonical t) (c : ℂ) :
    ∃ r, rjwTerm t c = .ok r ∧ WF r ∧ action ladderAction r = c • termAction pauliAction t ∧ (∀ δ, c ∈ Grid δ → OnGrid δ r) ∧
      ∀ n, (∀ f ∈ t, f.1 < n) → ∀ u ∈ keys r, u.length ≤ 2 * n := by
  have one_act : action ladderAction (ofTerm fermion [] 1) = 1 := by
    show action ladderAction [([], (1 : ℂ))] = 1
    rw [action_cons, action_nil, add_zero, termAction_nil, one_smul]
  have one_grid : OnGrid 1 (ofTerm fermion [] 1 : Terms Bool) := onGrid_single (show (1 : ℂ) ∈ Grid 1 from ⟨1, 0, by simp⟩)
  have fin : ∀ r : Terms Bool, WF r → action ladderAction r = termAction pauliAction t → OnGrid 1 r →
      (∀ n, (∀ f ∈ t, f.1 < n) → ∀ u ∈ keys r, u.length ≤ 2 * n) →
      WF (smul r c) ∧ action ladderAction (smul r c) = c • termAction pauliAction t ∧ (∀ δ, c ∈ Grid δ → OnGrid δ (smul r c)) ∧
      ∀ n, (∀ f ∈ t, f.1 < n) → ∀ u ∈ keys (smul r c), u.length ≤ 2 * n := by
    intro r h1 h2 h3 h4
    refine ⟨by rw [WF, keys_smul]; exact h1, by rw [action_smul, h2], fun δ hc u => ?_, fun n hn u hu => h4 n hn u (by rwa [keys_smul] at hu)⟩
    rw [coeff_smul, mul_comm]
    exact Grid.mul_unit (h3 u) hc
  cases hlast : t.getLast? with
  | none =>
    have : t = [] := List.getLast?_eq_none_iff.1 hlast
    subst this
    refine ⟨smul (ofTerm fermion [] 1) c, rfl, fin _ (wf_single _ _) (by rw [one_act]; rfl) one_grid ?_⟩
    intro n _ u hu
    have : u = [] := by simpa [ofTerm, keys, fermion] using hu
    rw [this]; simp
  | some op =>
    obtain ⟨lo, rfl⟩ := List.getLast?_eq_some_iff.1 hlast
    obtain ⟨r, hr, hp⟩ := rjwLoop_spec (op.1 + 1) lo [] op (ofTerm fermion [] 1) ht (by omega) (wf_single _ _)
    refine ⟨smul r c, ?_, fin r hp.wf (by rw [hp.act, one_act, one_mul]) (hp.grid 1 one_grid) ?_⟩
    · have h1 : ofTerm qubit (lo ++ [op]) 1 = [(lo ++ [op], (1 : ℂ))] := by
        rw [ofTerm]
        show [((qubitSimplify _ _).2, (qubitSimplify _ _).1)] = _
        rw [qubitSimplify_of_canonical ht]
      rw [rjwTerm, hlast]
      dsimp only
      rw [h1, hr]
      rfl
    · intro n hn u hu
      have h1 := hn op (by simp)
      have h2 := hp.len 0 (fun u hu => by
        have : u = [] := by simpa [ofTerm, keys, fermion] using hu
        rw [this]; simp) u hu
      omega

/-- Bound on all qubit indices of a canonical operator. -/
theorem countQubit_bound {o : Terms Letter} (h : CanonicalOp o) : ∀ kv ∈ o, ∀ f ∈ kv.1, f.1 < countQubit o := by
  have mono : ∀ (o : Terms Letter) (n : ℕ), n ≤ o.foldl (fun (n : ℕ) (kv : Term Letter × ℂ) => match kv.1.getLast? with
      | none => n
      | some f => if f.1 + 1 > n then f.1 + 1 else n) n := by
    intro o
    induction o with
    | nil => intro n; exact le_rfl
    | cons kv o ih =>
      intro n
      rw [List.foldl_cons]
      refine le_trans ?_ (ih _)
      split
      · exact le_rfl
      · split <;> omega
  have key : ∀ (o : Terms Letter) (n : ℕ), (∀ kv ∈ o, Canonical kv.1) → ∀ kv ∈ o, ∀ f ∈ kv.1, f.1 < o.foldl (fun (n : ℕ) (kv : Term Letter × ℂ) => match kv.1.getLast? with
      | none => n
      | some f => if f.1 + 1 > n then f.1 + 1 else n) n := by
    intro o
    induction o with
    | nil => intro n _ kv hkv; simp at hkv
    | cons kv o ih =>
      intro n hc kv' hkv' f hf
      rw [List.foldl_cons]
      rcases List.mem_cons.1 hkv' with rfl | hkv'
      · refine lt_of_lt_of_le ?_ (mono o _)
        cases hlast : kv'.1.getLast? with
        | none => rw [List.getLast?_eq_none_iff.1 hlast] at hf; simp at hf
        | some g =>
          obtain ⟨lo, e⟩ := List.getLast?_eq_some_iff.1 hlast
          have hcan := hc kv' (List.mem_cons_self ..)
          rw [e] at hcan hf
          have : f.1 ≤ g.1 := by
            rcases List.mem_append.1 hf with h | h
            · exact le_of_lt ((canonical_parts hcan).2.2.1 f h)
            · rw [List.mem_singleton.1 h]
          dsimp only
          split <;> omega
      · exact ih _ (fun kv h => hc kv (List.mem_cons_of_mem _ h)) kv' hkv' f hf
  exact key o 0 (fun kv hkv => h.2 kv.1 (List.mem_map_of_mem hkv))

/-- The transform as a fold of the term results. -/
theorem reverseJW_unfold {o : Terms Letter} (h : CanonicalOp o) (nQubits : Option ℕ) (hn : countQubit o ≤ nQubits.getD (countQubit o)) :
    ∃ f : Term Letter × ℂ → Terms Bool, (∀ kv ∈ o, rjwTerm kv.1 kv.2 = .ok (f kv)) ∧
      reverseJordanWigner o nQubits = .ok (o.foldl (fun acc kv => add acc (f kv)) []) := by
  have hex : ∀ kv : Term Letter × ℂ, ∃ r, kv ∈ o → rjwTerm kv.1 kv.2 = .ok r := by
    intro kv
    by_cases hkv : kv ∈ o
    · obtain ⟨r, hr, _⟩ := rjwTerm_spec (h.2 kv.1 (List.mem_map_of_mem hkv)) kv.2
      exact ⟨r, fun _ => hr⟩
    · exact ⟨[], fun h => absurd h hkv⟩
  choose f hf using hex
  refine ⟨f, hf, ?_⟩
  rw [reverseJordanWigner, if_neg (by omega)]
  clear hn h
  have key : ∀ (l : Terms Letter) (acc : Terms Bool), (∀ kv ∈ l, rjwTerm kv.1 kv.2 = .ok (f kv)) →
      l.foldlM (fun acc kv => do .ok (add acc (← rjwTerm kv.1 kv.2))) acc = (.ok (l.foldl (fun acc kv => add acc (f kv)) acc) : Except Err _) := by
    intro l
    induction l with
    | nil => intro acc _; rfl
    | cons kv l ih =>
      intro acc hl
      rw [List.foldlM_cons, hl kv (List.mem_cons_self ..)]
      exact ih _ (fun kv h => hl kv (List.mem_cons_of_mem _ h))
  exact key o [] hf

/-- C47: on every canonical qubit operator the transform succeeds; the result acts (bits read as occupations) exactly as the qubit operator when
the coefficients lie on a grid not finer than the tolerance. -/
theorem reverseJW_action {o : Terms Letter} (h : CanonicalOp o) (nQubits : Option ℕ) (hn : countQubit o ≤ nQubits.getD (countQubit o))
    (δ : ℝ) (hδ : 1 / 10 ^ 8 ≤ δ) (hg : ∀ kv ∈ o, kv.2 ∈ Grid δ) :
    ∃ r, reverseJordanWigner o nQubits = .ok r ∧ WF r ∧ OnGrid δ r ∧ action ladderAction r = action pauliAction o ∧
      ∀ u ∈ keys r, u.length ≤ 2 * countQubit o := by
  obtain ⟨f, hf, hr⟩ := reverseJW_unfold h nQubits hn
  have spec : ∀ kv ∈ o, WF (f kv) ∧ action ladderAction (f kv) = kv.2 • termAction pauliAction kv.1 ∧ (∀ δ, kv.2 ∈ Grid δ → OnGrid δ (f kv)) ∧
      ∀ n, (∀ g ∈ kv.1, g.1 < n) → ∀ u ∈ keys (f kv), u.length ≤ 2 * n := by
    intro kv hkv
    obtain ⟨r, hr, hs⟩ := rjwTerm_spec (h.2 kv.1 (List.mem_map_of_mem hkv)) kv.2
    have : f kv = r := Except.ok.inj ((hf kv hkv).symm.trans hr)
    rw [this]; exact hs
  obtain ⟨a1, a2, _, a4⟩ := foldl_add_onGrid hδ o f [] wf_nil (OnGrid.nil δ) (fun kv hkv => ⟨(spec kv hkv).1, (spec kv hkv).2.2.1 δ (hg kv hkv)⟩)
  refine ⟨_, hr, a1, a2, ?_, ?_⟩
  · rw [a4, action_nil, zero_add, action]
    congr 1
    exact List.map_congr_left fun kv hkv => (spec kv hkv).2.1
  · exact foldl_add_keys (fun u => u.length ≤ 2 * countQubit o) o f [] wf_nil (fun t ht => by simp [keys] at ht)
      (fun kv hkv => ⟨(spec kv hkv).1, (spec kv hkv).2.2.2 _ (countQubit_bound h kv hkv)⟩)

/-- C47, all canonical operators: the coefficients are within `1e-8` per term of an operator with exactly the right action. -/
theorem reverseJW_error {o : Terms Letter} (h : CanonicalOp o) (nQubits : Option ℕ) (hn : countQubit o ≤ nQubits.getD (countQubit o)) :
    ∃ r E, reverseJordanWigner o nQubits = .ok r ∧ WF r ∧ WF E ∧ action ladderAction E = action pauliAction o ∧
      ∀ t, ‖coeff r t - coeff E t‖ ≤ o.length * (1 / 10 ^ 8) := by
  obtain ⟨f, hf, hr⟩ := reverseJW_unfold h nQubits hn
  have spec : ∀ kv ∈ o, WF (f kv) ∧ action ladderAction (f kv) = kv.2 • termAction pauliAction kv.1 := by
    intro kv hkv
    obtain ⟨r, hr, hs⟩ := rjwTerm_spec (h.2 kv.1 (List.mem_map_of_mem hkv)) kv.2
    have : f kv = r := Except.ok.inj ((hf kv hkv).symm.trans hr)
    rw [this]; exact ⟨hs.1, hs.2.1⟩
  obtain ⟨w, err⟩ := foldl_add_error o f [] wf_nil (fun kv hkv => (spec kv hkv).1)
  obtain ⟨E, e1, _, e3, e4⟩ := exactSum_spec (fun _ => True) o f (fun kv hkv => ⟨(spec kv hkv).1, fun _ _ => trivial⟩)
  refine ⟨_, E, hr, w, e1, ?_, fun t => ?_⟩
  · rw [e3, action]
    congr 1
    exact List.map_congr_left fun kv hkv => (spec kv hkv).2
  · have := err t
    rw [coeff_of_not_mem (o := []) (by simp [keys]), zero_add] at this
    rw [e4]; exact this

/-- C47: too small a register is rejected. -/
theorem reverseJW_rejects (o : Terms Letter) (n : ℕ) (hn : n < countQubit o) : reverseJordanWigner o (some n) = .error .valueError :=
  if_pos hn

/-- C47: `jordan_wigner(reverse_jordan_wigner(q))` has the coefficients of `q`, when they lie on a grid coarse enough for the intermediate
coefficients (a factor 4 per qubit). -/
theorem jw_reverseJW {o : Terms Letter} (h : CanonicalOp o) (δ : ℝ) (hδ : 1 / 10 ^ 8 ≤ δ)
    (hg : ∀ kv ∈ o, kv.2 ∈ Grid (4 ^ countQubit o * δ)) :
    ∃ r, reverseJordanWigner o none = .ok r ∧ action pauliAction (jordanWigner r) = action pauliAction o ∧
      ∀ t, coeff (jordanWigner r) t = coeff o t := by
  have h4 : (1 : ℝ) ≤ 4 ^ countQubit o := one_le_pow₀ (by norm_num)
  have hδ0 : (0 : ℝ) ≤ δ := le_trans (by norm_num) hδ
  obtain ⟨r, h1, h2, h3, h5, h6⟩ := reverseJW_action h none le_rfl (4 ^ countQubit o * δ) (by nlinarith) hg
  have hact : action pauliAction (jordanWigner r) = action pauliAction o := by
    rw [← h5]
    refine jordanWigner_action r δ hδ fun kv hkv => ?_
    have hl := h6 kv.1 (List.mem_map_of_mem hkv)
    have hc := h3 kv.1
    rw [coeff_of_mem h2 (show (kv.1, kv.2) ∈ r from hkv)] at hc
    refine Grid.nsmul_sub (k := 2 ^ (2 * countQubit o - kv.1.length)) ?_
    have e : ((2 ^ (2 * countQubit o - kv.1.length) : ℕ) : ℝ) * (2 ^ kv.1.length * δ) = 4 ^ countQubit o * δ := by
      push_cast
      rw [← mul_assoc, ← pow_add, Nat.sub_add_cancel hl, pow_mul]
      norm_num
    rw [e]; exact hc
  exact ⟨r, h1, hact, fun t => canonical_unique (jordanWigner_error r).1 h hact t⟩

/-- Integer multiples of 16 on two qubits meet the hypothesis with `δ = 1`. -/
example : let o : Terms Letter := [([(0, .Z), (1, .Y)], 16), ([(1, .X)], -32)]
    CanonicalOp o ∧ countQubit o = 2 ∧ ∀ kv ∈ o, kv.2 ∈ Grid (4 ^ countQubit o * 1) := by
  intro o
  have hcount : countQubit o = 2 := by decide
  refine ⟨⟨by simp [o, WF, keys], ?_⟩, hcount, ?_⟩
  · intro t ht
    simp [o, keys] at ht
    rcases ht with rfl | rfl <;> exact ⟨by simp, by simp⟩
  · intro kv hkv
    rw [hcount]
    simp [o] at hkv
    rcases hkv with rfl | rfl
    · exact ⟨1, 0, by norm_num⟩
    · exact ⟨-2, 0, by norm_num⟩

end ZQ.Op
