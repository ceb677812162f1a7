import Verif.Props.Commutator
import Verif.Props.TensorConversion
import Verif.Props.Grouping

/-! # C81: particle number and spin -/

namespace ZQ.FTools

open ZQ ZQ.Op PyDict ZQ.JWInt

/-! ### What the check computes -/

theorem particles_eq (t : Term Bool) : particles t = (countOps t false fun _ => true : ℤ) - countOps t true fun _ => true := by
  induction t with
  | nil => rfl
  | cons f t ih =>
    obtain ⟨i, b⟩ := f
    simp only [particles, countOps, List.map_cons, List.sum_cons, List.countP_cons] at ih ⊢
    rw [ih]
    cases b <;> simp <;> ring

/-- Even modes are spin up. -/
def even (i : ℕ) : Bool := decide (i % 2 = 0)

/-- Odd modes are spin down. -/
def odd (i : ℕ) : Bool := decide (i % 2 = 1)

theorem spin_eq (t : Term Bool) :
    spin t = ((countOps t false even : ℤ) - countOps t true even) - ((countOps t false odd : ℤ) - countOps t true odd) := by
  induction t with
  | nil => rfl
  | cons f t ih =>
    obtain ⟨i, b⟩ := f
    simp only [spin, countOps, List.map_cons, List.sum_cons, List.countP_cons] at ih ⊢
    rw [ih]
    have hp : ((-1 : ℤ)) ^ i = if i % 2 = 0 then 1 else -1 := by
      split_ifs with h
      · exact (Nat.even_iff.2 h).neg_one_pow
      · exact (Nat.odd_iff.2 (by omega)).neg_one_pow
    rw [pow_add, hp]
    rcases Nat.mod_two_eq_zero_or_one i with h | h <;> cases b <;> simp [even, odd, h] <;> ring

theorem count_split (t : Term Bool) (b : Bool) : countOps t b (fun _ => true) = countOps t b even + countOps t b odd := by
  induction t with
  | nil => rfl
  | cons f t ih =>
    obtain ⟨i, b'⟩ := f
    simp only [countOps, List.countP_cons] at ih ⊢
    rw [ih]
    rcases Nat.mod_two_eq_zero_or_one i with h | h <;> cases b <;> cases b' <;> simp [even, odd, h] <;> ring

/-- C81: the check accepts an operator exactly when each of its products has zero, two or four factors, as many creation as annihilation operators,
and, if spin is checked, as many of each on the even and on the odd modes. -/
theorem isTwoBodyNumberConserving_iff (o : Terms Bool) (checkSpin : Bool) :
    isTwoBodyNumberConserving o checkSpin = true ↔ ∀ t ∈ keys o, (t.length = 0 ∨ t.length = 2 ∨ t.length = 4) ∧
      countOps t true (fun _ => true) = countOps t false (fun _ => true) ∧
      (checkSpin = true → countOps t true (fun i => i % 2 = 0) = countOps t false (fun i => i % 2 = 0) ∧
        countOps t true (fun i => i % 2 = 1) = countOps t false (fun i => i % 2 = 1)) := by
  rw [isTwoBodyNumberConserving, List.all_eq_true]
  refine forall₂_congr fun t _ => ?_
  have h1 := particles_eq t
  have h2 := spin_eq t
  have h3 := count_split t true
  have h4 := count_split t false
  change conservingTerm checkSpin t = true ↔ _ ∧ _ ∧ (_ → countOps t true even = countOps t false even ∧ countOps t true odd = countOps t false odd)
  rw [conservingTerm]
  generalize countOps t true (fun _ => true) = x at *
  generalize countOps t false (fun _ => true) = y at *
  generalize countOps t true even = a at *
  generalize countOps t false even = b at *
  generalize countOps t true odd = c at *
  generalize countOps t false odd = d at *
  by_cases hl : t.length = 0 ∨ t.length = 2 ∨ t.length = 4
  · rw [if_neg (not_not.2 hl)]
    by_cases hp : particles t = 0
    · rw [if_neg (not_not.2 hp)]
      cases checkSpin with
      | false => exact iff_of_true (by simp) ⟨hl, by omega, fun h => by cases h⟩
      | true =>
        by_cases hs : spin t = 0
        · exact iff_of_true (by simp [hs]) ⟨hl, by omega, fun _ => ⟨by omega, by omega⟩⟩
        · exact iff_of_false (by simp [hs]) fun h => by have := h.2.2 rfl; omega
    · rw [if_pos hp]
      exact iff_of_false (by simp) fun h => by have := h.2.1; omega
  · rw [if_pos hl]; exact iff_of_false (by simp) fun h => hl h.1

/-! ### Why it matters: conservation -/

/-- The change of the weighted occupation made by a product of ladder operators. -/
noncomputable def change (w : ℕ → ℂ) (t : Term Bool) : ℂ := (t.map fun f => if f.2 then w f.1 else - w f.1).sum

theorem occupation_ladder {n : ℕ} (w : ℕ → ℂ) {f : ℕ × Bool} (h : f.1 < n) :
    occupation n w * ladderAction f = ladderAction f * occupation n w + (if f.2 then w f.1 else - w f.1) • ladderAction f := by
  obtain ⟨p, b⟩ := f
  refine LinearMap.ext fun ψ => funext fun s => ?_
  rw [LinearMap.add_apply, LinearMap.smul_apply, Module.End.mul_apply, Module.End.mul_apply, Pi.add_apply, Pi.smul_apply, smul_eq_mul]
  show (∑ i ∈ Finset.range n, if s i then w i else 0) * ladderAction (p, b) ψ s = _
  rw [ladder_apply, ladder_apply]
  by_cases hs : s p = b
  · dsimp only
    rw [if_pos hs, if_pos hs]
    show _ = sgn s p * ((∑ i ∈ Finset.range n, if Function.update s p (!b) i then w i else 0) * ψ _) + _
    have e : (∑ i ∈ Finset.range n, if s i then w i else 0) =
        (∑ i ∈ Finset.range n, if Function.update s p (!b) i then w i else 0) + if b then w p else - w p := by
      have hp : p ∈ Finset.range n := Finset.mem_range.2 h
      rw [← Finset.add_sum_erase _ _ hp, ← Finset.add_sum_erase _ (fun i => if Function.update s p (!b) i then w i else 0) hp]
      have : ∑ i ∈ (Finset.range n).erase p, (if s i = true then w i else 0) =
          ∑ i ∈ (Finset.range n).erase p, (if Function.update s p (!b) i = true then w i else 0) :=
        Finset.sum_congr rfl fun i hi => by rw [Function.update_of_ne (Finset.ne_of_mem_erase hi)]
      rw [this, hs, Function.update_self]
      cases b <;> simp <;> ring
    rw [e]; ring
  · dsimp only
    rw [if_neg hs, if_neg hs]; ring

theorem occupation_term {n : ℕ} (w : ℕ → ℂ) {t : Term Bool} (h : ∀ f ∈ t, f.1 < n) :
    occupation n w * termAction ladderAction t = termAction ladderAction t * occupation n w + change w t • termAction ladderAction t := by
  induction t with
  | nil => rw [termAction_nil, change, List.map_nil, List.sum_nil, zero_smul, mul_one, one_mul, add_zero]
  | cons f t ih =>
    have ih := ih fun g hg => h g (List.mem_cons_of_mem _ hg)
    rw [termAction_cons, change, List.map_cons, List.sum_cons, ← mul_assoc, occupation_ladder w (h f List.mem_cons_self), add_mul, mul_assoc, ih, mul_add,
      ← mul_assoc, add_smul, add_assoc]
    congr 1
    rw [mul_smul_comm, smul_mul_assoc, add_comm]
    rfl

/-- A product commutes with the occupation operator exactly when it changes no weight or is zero. -/
theorem term_commutes_iff {n : ℕ} (w : ℕ → ℂ) {t : Term Bool} (h : ∀ f ∈ t, f.1 < n) :
    bracket (occupation n w) (termAction ladderAction t) = 0 ↔ change w t = 0 ∨ termAction ladderAction t = 0 := by
  rw [bracket, occupation_term w h, add_sub_cancel_left, smul_eq_zero]

theorem change_one (t : Term Bool) : change (fun _ => 1) t = -(particles t : ℂ) := by
  induction t with
  | nil => simp [change, particles]
  | cons f t ih =>
    simp only [change, particles, List.map_cons, List.sum_cons] at ih ⊢
    rw [ih]
    cases f.2 <;> simp <;> ring

theorem change_spin (t : Term Bool) : change (fun i => if i % 2 = 0 then 1 else -1) t = -(spin t : ℂ) := by
  induction t with
  | nil => simp [change, spin]
  | cons f t ih =>
    obtain ⟨i, b⟩ := f
    simp only [change, spin, List.map_cons, List.sum_cons] at ih ⊢
    rw [ih]
    have hp : ((-1 : ℤ)) ^ i = if i % 2 = 0 then 1 else -1 := by
      split_ifs with h
      · exact (Nat.even_iff.2 h).neg_one_pow
      · exact (Nat.odd_iff.2 (by omega)).neg_one_pow
    rw [pow_add, hp]
    rcases Nat.mod_two_eq_zero_or_one i with h | h <;> cases b <;> simp [h] <;> ring

theorem bracket_action (M : Module.End ℂ State) (o : Terms Bool) (h : ∀ t ∈ keys o, bracket M (termAction ladderAction t) = 0) : bracket M (action ladderAction o) = 0 := by
  induction o with
  | nil => rw [action_nil, bracket, mul_zero, zero_mul, sub_zero]
  | cons kv o ih =>
    have h1 := h kv.1 (by rw [keys, List.map_cons]; exact List.mem_cons_self)
    have h2 := ih fun t ht => h t (by rw [keys, List.map_cons]; exact List.mem_cons_of_mem _ ht)
    rw [bracket, sub_eq_zero] at h1 h2 ⊢
    obtain ⟨t, c⟩ := kv
    rw [action_cons, mul_add, add_mul, h2, mul_smul_comm, smul_mul_assoc, h1]

/-- C81: an accepted operator conserves the number of particles, and with the spin check also the spin, on any number of modes that covers it. -/
theorem conserving_commutes {o : Terms Bool} {checkSpin : Bool} (h : isTwoBodyNumberConserving o checkSpin = true) {n : ℕ} (hn : ∀ t ∈ keys o, ∀ f ∈ t, f.1 < n) :
    bracket (occupation n fun _ => 1) (action ladderAction o) = 0 ∧ (checkSpin = true → bracket (twiceSpin n) (action ladderAction o) = 0) := by
  have key : ∀ t ∈ keys o, particles t = 0 ∧ (checkSpin = true → spin t = 0) := by
    intro t ht
    have := List.all_eq_true.1 h t ht
    rw [conservingTerm] at this
    split_ifs at this with h1 h2 h3
    refine ⟨not_not.1 h2, fun hc => ?_⟩
    by_contra hs
    exact h3 ⟨hs, hc⟩
  refine ⟨bracket_action _ _ fun t ht => ?_, fun hc => bracket_action _ _ fun t ht => ?_⟩
  · rw [term_commutes_iff _ (hn t ht), change_one, (key t ht).1]; left; simp
  · rw [twiceSpin, term_commutes_iff _ (hn t ht), change_spin, (key t ht).2 hc]; left; simp

/-! ### The number operator -/

theorem number_items (n : ℕ) (c : ℂ) :
    numberOperator n c = ((List.range n).map fun m => ([(m, true), (m, false)], c)).filter fun kv => decide (¬ IsSmall kv.2 eqTol) := by
  have hw : WF (([] : Terms Bool) ++ (List.range n).map fun m => ([(m, true), (m, false)], c)) := by
    rw [List.nil_append, WF, keys, List.map_map]
    refine List.Nodup.map (fun a b h => ?_) List.nodup_range
    have := congrArg List.head? h
    simpa using this
  have := accumulate_singletons fermion [] _ hw (fun kv _ => rfl)
  rw [List.nil_append] at this
  rw [← this, numberOperator, getOperators, List.map_map, List.foldl_map]
  rfl

theorem number_term (m : ℕ) (ψ : State) (s : ℕ → Bool) : termAction ladderAction [(m, true), (m, false)] ψ s = (if s m then 1 else 0) * ψ s := by
  rw [termAction_cons, termAction_cons, termAction_nil, mul_one, Module.End.mul_apply, ladder_apply]
  by_cases h : s m = true
  · dsimp only
    rw [if_pos h, if_pos h, ladder_apply]
    dsimp only
    rw [Function.update_self, Bool.not_true, if_pos rfl, Function.update_idem, sgn_update, if_neg (fun e : m < m ∧ _ => absurd e.1 (lt_irrefl _)), Bool.not_false,
      ← mul_assoc, sgn_sq, ← h, Function.update_eq_self]
  · dsimp only
    rw [if_neg h, if_neg h, zero_mul]

theorem number_sum (n : ℕ) (c : ℂ) : action ladderAction ((List.range n).map fun m => ([(m, true), (m, false)], c)) = c • occupation n fun _ => 1 := by
  induction n with
  | zero =>
    rw [List.range_zero, List.map_nil, action_nil]
    refine LinearMap.ext fun ψ => funext fun s => ?_
    show (0 : ℂ) = c * ((∑ i ∈ Finset.range 0, _) * ψ s)
    simp
  | succ n ih =>
    rw [List.range_succ, List.map_append, action_append, ih, List.map_singleton, action_cons, action_nil, add_zero, ← smul_add]
    congr 1
    refine LinearMap.ext fun ψ => funext fun s => ?_
    rw [LinearMap.add_apply, Pi.add_apply, number_term]
    show (∑ i ∈ Finset.range n, _) * ψ s + _ = (∑ i ∈ Finset.range (n + 1), _) * ψ s
    rw [Finset.sum_range_succ]; ring

/-- C81: the number operator counts the particles in the first `n` modes, weighted by the coefficient, which must not be below the tolerance;
a mode's number operator says whether the mode is occupied; other parities are refused. -/
theorem number_operator_spec (n : ℕ) (c : ℂ) (parity : ℤ) :
    (parity ≠ -1 → ∀ mode, specialNumberOperator n mode c parity = .error .valueError) ∧
    (1 / 10 ^ 8 ≤ ‖c‖ → ∃ o, specialNumberOperator n none c (-1) = .ok o ∧ WF o ∧ action ladderAction o = c • occupation n fun _ => 1) ∧
    (∀ m, ∃ o, specialNumberOperator n (some m) c (-1) = .ok o ∧ WF o ∧ ∀ ψ s, action ladderAction o ψ s = if s m then c * ψ s else 0) := by
  refine ⟨fun h mode => if_neg h, fun h => ?_, fun m => ?_⟩
  · refine ⟨numberOperator n c, if_pos rfl, ?_⟩
    rw [number_items, List.filter_eq_self.2 fun kv hkv => ?_]
    · refine ⟨?_, number_sum n c⟩
      rw [WF, keys, List.map_map]
      refine List.Nodup.map (fun a b h => ?_) List.nodup_range
      have := congrArg List.head? h
      simpa using this
    · obtain ⟨m, _, rfl⟩ := List.mem_map.1 hkv
      exact decide_eq_true (not_lt.2 h)
  · refine ⟨numberMode m c, if_pos rfl, wf_single _ _, fun ψ s => ?_⟩
    show action ladderAction [([(m, true), (m, false)], c)] ψ s = _
    rw [action_cons, action_nil, add_zero, LinearMap.smul_apply, Pi.smul_apply, number_term, smul_eq_mul]
    by_cases h : s m = true
    · rw [if_pos h, if_pos h, one_mul]
    · rw [if_neg h, if_neg h, zero_mul, mul_zero]

theorem countFermion_le {o : Terms Bool} {n : ℕ} (h : ∀ kv ∈ o, ∀ f ∈ kv.1, f.1 < n) : countFermion o ≤ n := by
  have m1 : ∀ (t : Term Bool) (k : ℕ), k ≤ n → (∀ f ∈ t, f.1 < n) → t.foldl (fun (n : ℕ) (f : ℕ × Bool) => if f.1 + 1 > n then f.1 + 1 else n) k ≤ n := by
    intro t
    induction t with
    | nil => intro k hk _; exact hk
    | cons f t ih =>
      intro k hk h
      refine ih _ ?_ fun g hg => h g (List.mem_cons_of_mem _ hg)
      have := h f List.mem_cons_self
      dsimp only
      split <;> omega
  have m2 : ∀ (o : Terms Bool) (k : ℕ), k ≤ n → (∀ kv ∈ o, ∀ f ∈ kv.1, f.1 < n) →
      o.foldl (fun n kv => kv.1.foldl (fun (n : ℕ) (f : ℕ × Bool) => if f.1 + 1 > n then f.1 + 1 else n) n) k ≤ n := by
    intro o
    induction o with
    | nil => intro k hk _; exact hk
    | cons kv o ih => intro k hk h; exact ih _ (m1 _ _ hk (h kv List.mem_cons_self)) fun g hg => h g (List.mem_cons_of_mem _ hg)
  exact m2 o 0 (Nat.zero_le _) h

theorem number_minus (n : ℕ) (k : ℤ) :
    add (numberOperator n 1) (ofTerm fermion [] (-1 * (k : ℂ))) =
      (((List.range n).map fun m => ([(m, true), (m, false)], (1 : ℂ))) ++ [([], -1 * (k : ℂ))]).filter fun kv => decide (¬ IsSmall kv.2 eqTol) := by
  have hw : WF (([] : Terms Bool) ++ (((List.range n).map fun m => ([(m, true), (m, false)], (1 : ℂ))) ++ [([], -1 * (k : ℂ))])) := by
    rw [List.nil_append, WF, keys, List.map_append, List.map_map]
    refine List.Nodup.append (List.Nodup.map (fun a b h => ?_) List.nodup_range) (by simp) fun t ht ht' => ?_
    · have := congrArg List.head? h
      simpa using this
    · obtain ⟨m, _, rfl⟩ := List.mem_map.1 ht
      simp at ht'
  have := accumulate_singletons fermion [] _ hw (fun kv _ => rfl)
  rw [List.nil_append, getOperators, List.map_append, List.foldl_append, List.map_map] at this
  rw [← this, numberOperator, ← List.foldl_map (f := fun m => numberMode m 1) (g := add)]
  rfl

/-- C81: `get_fermion_number_operator` is an interaction operator on `n` modes that counts the particles minus the given number. -/
theorem fermionNumberOperator_spec (n : ℕ) (k : Option ℤ) :
    ∃ T, fermionNumberOperator n k = .ok T ∧ T.n = n ∧ ZQ.PolyT.Valid T ∧
      ∀ ψ s, ZQ.PolyT.polyAction T ψ s = ((((Finset.range n).filter fun i => s i).card : ℂ) - (k.getD 0 : ℤ)) * ψ s := by
  have main : ∀ o : Terms Bool, WF o → (∀ m < n, [(m, true), (m, false)] ∈ keys o) → (∀ kv ∈ o, ((∃ m < n, kv.1 = [(m, true), (m, false)]) ∨ kv.1 = []) ∧
      kv.2 ∈ Grid 1 ∧ ¬ ‖kv.2‖ < 1 / 10 ^ 8) → (∀ ψ s, action ladderAction o ψ s = ((((Finset.range n).filter fun i => s i).card : ℂ) - (k.getD 0 : ℤ)) * ψ s) →
      ∃ T, ZQ.PolyT.getInteractionOperator o none = .ok T ∧ T.n = n ∧ ZQ.PolyT.Valid T ∧
      ∀ ψ s, ZQ.PolyT.polyAction T ψ s = ((((Finset.range n).filter fun i => s i).card : ℂ) - (k.getD 0 : ℤ)) * ψ s := by
    intro o hw hm hk ha
    have hk' : ∀ t ∈ keys o, (∃ m < n, t = [(m, true), (m, false)]) ∨ t = [] := by
      intro t ht
      obtain ⟨kv, hkv, rfl⟩ := List.mem_map.1 ht
      exact (hk kv hkv).1
    have hno : normalOrdered o = o := normalOrdered_fixed hw
      (fun t ht => by
        rcases hk' t ht with ⟨m, _, rfl⟩ | rfl
        · simp [NormalTerm, Before]
        · simp [NormalTerm]) fun kv hkv => (hk kv hkv).2.2
    have hc : countFermion o = n := by
      refine le_antisymm (countFermion_le fun kv hkv f hf => ?_) ?_
      · rcases (hk kv hkv).1 with ⟨m, hm', e⟩ | e
        · rw [e] at hf
          simp only [List.mem_cons, List.not_mem_nil, or_false] at hf
          rcases hf with rfl | rfl <;> exact hm'
        · rw [e] at hf; simp at hf
      · by_contra hlt
        push Not at hlt
        obtain ⟨kv, hkv, e⟩ := List.mem_map.1 (hm _ hlt)
        have := countFermion_bound o kv hkv (countFermion o, true) (by rw [e]; exact List.mem_cons_self)
        exact lt_irrefl _ this
    obtain ⟨T, h1, h2, h3, _, _, h4, _⟩ := (ZQ.PolyT.getInteractionOperator_spec o none).2.2 (le_refl _) fun t ht => by
      rw [hno] at ht
      rcases hk' t ht with ⟨m, _, rfl⟩ | rfl
      · exact .inr (.inl rfl)
      · exact .inl rfl
    refine ⟨T, h1, h2.trans hc, h3, fun ψ s => ?_⟩
    rw [h4, hno, ha]
  have hocc : ∀ (ψ : State) (s : ℕ → Bool), (action ladderAction ((List.range n).map fun m => ([(m, true), (m, false)], (1 : ℂ)))) ψ s =
      (((Finset.range n).filter fun i => s i).card : ℂ) * ψ s := by
    intro ψ s
    rw [number_sum, one_smul]
    show (∑ i ∈ Finset.range n, if s i then (1 : ℂ) else 0) * ψ s = _
    rw [Finset.sum_boole]
  have h1s : ¬ IsSmall (1 : ℂ) eqTol := by rw [IsSmall, norm_one, eqTol]; norm_num
  have hfil : (((List.range n).map fun m => (([(m, true), (m, false)], (1 : ℂ)) : Term Bool × ℂ)).filter fun kv => decide (¬ IsSmall kv.2 eqTol)) =
      (List.range n).map fun m => ([(m, true), (m, false)], (1 : ℂ)) := List.filter_eq_self.2 fun kv hkv => by
    obtain ⟨m, _, rfl⟩ := List.mem_map.1 hkv
    exact decide_eq_true h1s
  have hw : WF ((List.range n).map fun m => (([(m, true), (m, false)], (1 : ℂ)) : Term Bool × ℂ)) := by
    rw [WF, keys, List.map_map]
    refine List.Nodup.map (fun a b h => ?_) List.nodup_range
    have := congrArg List.head? h
    simpa using this
  have hmem : ∀ m < n, [(m, true), (m, false)] ∈ keys ((List.range n).map fun m => (([(m, true), (m, false)], (1 : ℂ)) : Term Bool × ℂ)) := fun m hm =>
    List.mem_map.2 ⟨([(m, true), (m, false)], (1 : ℂ)), List.mem_map.2 ⟨m, List.mem_range.2 hm, rfl⟩, rfl⟩
  have hshape : ∀ kv ∈ ((List.range n).map fun m => (([(m, true), (m, false)], (1 : ℂ)) : Term Bool × ℂ)),
      ((∃ m < n, kv.1 = [(m, true), (m, false)]) ∨ kv.1 = []) ∧ kv.2 ∈ Grid 1 ∧ ¬ ‖kv.2‖ < 1 / 10 ^ 8 := by
    intro kv hkv
    obtain ⟨m, hm, rfl⟩ := List.mem_map.1 hkv
    exact ⟨.inl ⟨m, List.mem_range.1 hm, rfl⟩, one_mem_grid, h1s⟩
  cases k with
  | none =>
    rw [fermionNumberOperator]
    show ∃ T, ZQ.PolyT.getInteractionOperator (numberOperator n 1) none = .ok T ∧ _
    rw [number_items, hfil]
    exact main _ hw hmem hshape fun ψ s => by rw [hocc, Option.getD_none, Int.cast_zero, sub_zero]
  | some k =>
    rw [fermionNumberOperator]
    show ∃ T, ZQ.PolyT.getInteractionOperator (add (numberOperator n 1) (ofTerm fermion [] (-1 * (k : ℂ)))) none = .ok T ∧ _
    rw [number_minus, List.filter_append, hfil]
    by_cases hk : k = 0
    · subst hk
      have : ([(([] : Term Bool), -1 * ((0 : ℤ) : ℂ))].filter fun kv => decide (¬ IsSmall kv.2 eqTol)) = [] := by
        rw [List.filter_eq_nil_iff]
        intro kv hkv
        rw [List.mem_singleton.1 hkv]
        have : IsSmall (-1 * ((0 : ℤ) : ℂ)) eqTol := by rw [Int.cast_zero, mul_zero, IsSmall, norm_zero, eqTol]; norm_num
        exact fun h => of_decide_eq_true h this
      rw [this, List.append_nil]
      exact main _ hw hmem hshape fun ψ s => by rw [hocc, Option.getD_some, Int.cast_zero, sub_zero]
    · have hbig : ¬ IsSmall (-1 * ((k : ℤ) : ℂ)) eqTol := by
        rw [IsSmall, not_lt, neg_one_mul, norm_neg, Complex.norm_intCast, eqTol]
        have : (1 : ℝ) ≤ |(k : ℝ)| := by exact_mod_cast Int.one_le_abs hk
        exact le_trans (by norm_num) this
      have : ([(([] : Term Bool), -1 * (k : ℂ))].filter fun kv => decide (¬ IsSmall kv.2 eqTol)) = [([], -1 * (k : ℂ))] :=
        List.filter_eq_self.2 fun kv hkv => by rw [List.mem_singleton.1 hkv]; exact decide_eq_true hbig
      rw [this]
      refine main _ ?_ (fun m hm => ?_) (fun kv hkv => ?_) fun ψ s => ?_
      · rw [WF, keys, List.map_append]
        refine List.Nodup.append hw (by simp) fun t ht ht' => ?_
        obtain ⟨kv, hkv, rfl⟩ := List.mem_map.1 ht
        obtain ⟨m, _, rfl⟩ := List.mem_map.1 hkv
        simp at ht'
      · rw [keys, List.map_append]; exact List.mem_append_left _ (hmem m hm)
      · rcases List.mem_append.1 hkv with h | h
        · exact hshape kv h
        · rw [List.mem_singleton.1 h]
          exact ⟨.inr rfl, ⟨-k, 0, by simp⟩, hbig⟩
      · rw [action_append, LinearMap.add_apply, Pi.add_apply, hocc, action_cons, action_nil, add_zero, termAction_nil, LinearMap.smul_apply, Pi.smul_apply, smul_eq_mul,
          Option.getD_some]
        show _ + -1 * (k : ℂ) * ψ s = _
        ring

/-- Hopping between even modes is accepted, and so is a spin exchange without the spin check; with it, a spin flip is not. -/
example : isTwoBodyNumberConserving (hoppingOp 0 2 1) true = true ∧ isTwoBodyNumberConserving (hoppingOp 0 1 1) false = true ∧
    isTwoBodyNumberConserving (hoppingOp 0 1 1) true = false ∧ isTwoBodyNumberConserving [([(0, true)], 1)] false = false := by
  refine ⟨?_, ?_, ?_, ?_⟩ <;> decide

end ZQ.FTools
