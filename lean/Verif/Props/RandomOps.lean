import Verif.Spec.RandomOps
import Verif.Props.Reorder
import Verif.Props.OperatorSteps
import Verif.Props.Wavefunction
import Verif.Props.PauliDecomp
import Verif.Props.Ising
import Verif.Props.Wavefunction
import Mathlib.Data.Finset.Pi
import Mathlib.Data.Fintype.Pi

/-! C111: random operators and wavefunctions. -/

namespace ZQ.RandomOps

open ZQ ZQ.Op ZQ.PyDict

variable {σ : Type}

/-! ### One term -/

theorem fresh_spec {R : Rand σ} (hR : Lawful R) {n : ℕ} (hn : 0 < n) {used : List ℕ} {fuel : ℕ} {st : σ} {q : ℕ} {st' : σ} (h : fresh R n used fuel st = some (q, st')) :
    q < n ∧ q ∉ used := by
  induction fuel generalizing st with
  | zero => cases h
  | succ fuel ih =>
    rw [fresh] at h
    by_cases hu : (R.below n st).1 ∈ used
    · rw [if_pos hu] at h; exact ih h
    · rw [if_neg hu] at h
      injection h with h
      have : (R.below n st).1 = q := congrArg Prod.fst h
      rw [← this]
      exact ⟨hR.below n st hn, hu⟩

theorem factors_spec {R : Rand σ} (hR : Lawful R) (letter : σ → Letter × σ) (L : Letter → Prop) (hL : ∀ st, L (letter st).1) {n fuel : ℕ} :
    ∀ {k : ℕ} {acc : Term Letter} {st : σ} {t : Term Letter} {st' : σ}, acc.length + k ≤ n → (acc.map Prod.fst).Nodup → (∀ f ∈ acc, f.1 < n ∧ L f.2) →
      factors R letter n fuel k acc st = some (t, st') → (t.map Prod.fst).Nodup ∧ (∀ f ∈ t, f.1 < n ∧ L f.2) ∧ t.length = acc.length + k := by
  intro k
  induction k with
  | zero =>
    intro acc st t st' _ h2 h3 h
    rw [factors] at h
    injection h with h
    have : acc = t := congrArg Prod.fst h
    rw [← this]
    exact ⟨h2, h3, rfl⟩
  | succ k ih =>
    intro acc st t st' h1 h2 h3 h
    rw [factors] at h
    cases hf : fresh R n (acc.map Prod.fst) fuel st with
    | none => rw [hf] at h; cases h
    | some p =>
      obtain ⟨q, s1⟩ := p
      rw [hf] at h
      obtain ⟨hq1, hq2⟩ := fresh_spec hR (by omega) hf
      obtain ⟨r1, r2, r3⟩ := ih (acc := acc ++ [(q, (letter s1).1)]) (by rw [List.length_append, List.length_singleton]; omega) (by
        rw [List.map_append, List.nodup_append]
        refine ⟨h2, by simp, fun a ha b hb => ?_⟩
        rw [List.map_cons, List.map_nil, List.mem_singleton] at hb
        rintro rfl
        have hb' : a = q := hb
        rw [hb'] at ha
        exact hq2 ha) (by
        intro f hf'
        rcases List.mem_append.1 hf' with hf' | hf'
        · exact h3 f hf'
        · rw [List.mem_singleton.1 hf']; exact ⟨hq1, hL s1⟩) h
      refine ⟨r1, r2, ?_⟩
      rw [r3, List.length_append, List.length_singleton]
      omega

/-- The operator class turns a product of letters (of the kind `L`) on different qubits into a canonical string with the same coefficient. -/
def Sorts (S : OpClass Letter) (L : Letter → Prop) : Prop :=
  ∀ t : Term Letter, (t.map Prod.fst).Nodup → (∀ f ∈ t, L f.2) → ∃ u, S.simplify t 1 = (1, u) ∧ Canonical u ∧ u.length = t.length ∧ ∀ f, f ∈ u ↔ f ∈ t

theorem sorts_qubit : Sorts qubit fun a => a ≠ .I := by
  intro t h1 h2
  obtain ⟨h3, h4⟩ := qubitSimplify_distinct h1 h2 1
  exact ⟨sortByIndex t, h3, h4, (perm_sortByIndex t).length_eq, fun f => (perm_sortByIndex t).mem_iff⟩

theorem sorts_ising : Sorts ising fun a => a = .Z := by
  intro t h1 h2
  obtain ⟨h3, h4, h5⟩ := isingSimplify_spec t 1
  have hmem : ∀ f, f ∈ (isingSimplify t 1).2 ↔ f ∈ t := by
    intro f
    rw [h5]
    constructor
    · rintro ⟨hz, hc⟩
      have : f.1 ∈ t.map Prod.fst := by
        by_contra hn
        rw [List.count_eq_zero_of_not_mem hn] at hc
        cases hc
      obtain ⟨g, hg, he⟩ := List.mem_map.1 this
      have hgz := h2 g hg
      have : g = f := Prod.ext he (hgz.trans hz.symm)
      rwa [← this]
    · intro hf
      refine ⟨h2 f hf, ?_⟩
      rw [List.count_eq_one_of_mem h1 (List.mem_map_of_mem hf)]
  refine ⟨(isingSimplify t 1).2, Prod.ext h3 rfl, h4, ?_, hmem⟩
  have n1 : (isingSimplify t 1).2.Nodup := List.Nodup.of_map _ (h4.1.imp fun h => ne_of_lt h)
  have n2 : t.Nodup := List.Nodup.of_map _ h1
  exact ((List.perm_ext_iff_of_nodup n1 n2).2 hmem).length_eq

/-! ### All terms -/

theorem sumOf_add {o : Terms Letter} {drawn : List (Term Letter)} (h : SumOf o drawn) (u : Term Letter) : SumOf (add o [(u, 1)]) (drawn ++ [u]) := by
  obtain ⟨h1, h2, h3⟩ := h
  have hw : WF ([(u, 1)] : Terms Letter) := wf_single u 1
  obtain ⟨a1, a2, a3, a4⟩ := add_spec h1 hw
  have hu : ∀ t, t ∈ keys ([(u, 1)] : Terms Letter) ↔ t = u := fun t => by simp [keys]
  have hc : coeff ([(u, 1)] : Terms Letter) u = 1 := coeff_of_mem hw (by simp)
  have hbig : ¬ ‖coeff o u + coeff ([(u, 1)] : Terms Letter) u‖ < 1 / 10 ^ 8 := by
    rw [h3, hc, show ((drawn.count u : ℂ) + 1) = ((drawn.count u + 1 : ℕ) : ℂ) by push_cast; ring, Complex.norm_natCast, not_lt]
    push_cast
    have : (0 : ℝ) ≤ drawn.count u := Nat.cast_nonneg _
    have : (1 : ℝ) / 10 ^ 8 ≤ 1 := by norm_num
    linarith
  have hkeys : ∀ t, t ∈ keys (add o [(u, 1)]) ↔ t ∈ drawn ++ [u] := by
    intro t
    rw [a2, hu, List.mem_append, List.mem_singleton, h2]
    constructor
    · rintro (⟨h, _⟩ | ⟨_, h⟩)
      · exact Or.inr h
      · exact Or.inl h
    · intro h
      by_cases ht : t = u
      · subst ht; exact Or.inl ⟨rfl, hbig⟩
      · exact Or.inr ⟨ht, h.resolve_right ht⟩
  refine ⟨a1, hkeys, fun t => ?_⟩
  by_cases ht : t ∈ keys (add o [(u, 1)])
  · rw [a3 t ht, h3, List.count_append]
    by_cases e : t = u
    · subst e; rw [hc, List.count_singleton_self]; push_cast; ring
    · rw [coeff_of_not_mem (by rw [hu]; exact e), List.count_eq_zero_of_not_mem (l := [u]) (by simpa using e)]
      push_cast
      ring
  · rw [(a4 t ht).1, List.count_eq_zero_of_not_mem (fun h => ht ((hkeys t).2 h)), Nat.cast_zero]

theorem terms_spec {R : Rand σ} (hR : Lawful R) {S : OpClass Letter} (letter : σ → Letter × σ) (L : Letter → Prop) (hL : ∀ st, L (letter st).1) (hS : Sorts S L) {n fuel : ℕ} :
    ∀ {k : ℕ} {o : Terms Letter} {drawn : List (Term Letter)} {st : σ} {o' : Terms Letter} {st' : σ}, SumOf o drawn →
      terms R S letter n fuel k o st = some (o', st') →
      ∃ more, more.length = k ∧ (∀ t ∈ more, Canonical t ∧ t.length ≤ n ∧ ∀ f ∈ t, f.1 < n ∧ L f.2) ∧ SumOf o' (drawn ++ more) := by
  intro k
  induction k with
  | zero =>
    intro o drawn st o' st' ho h
    rw [terms] at h
    injection h with h
    have : o = o' := congrArg Prod.fst h
    refine ⟨[], rfl, by simp, ?_⟩
    rw [List.append_nil, ← this]
    exact ho
  | succ k ih =>
    intro o drawn st o' st' ho h
    rw [terms] at h
    cases hf : factors R letter n fuel (R.below (n + 1) st).1 [] (R.below (n + 1) st).2 with
    | none => rw [hf] at h; cases h
    | some p =>
      obtain ⟨t, s1⟩ := p
      rw [hf] at h
      have hb := hR.below (n + 1) st (by omega)
      obtain ⟨f1, f2, f3⟩ := factors_spec hR letter L hL (by rw [List.length_nil]; omega) (by simp) (by simp) hf
      obtain ⟨u, u1, u2, u3, u4⟩ := hS t f1 fun f hf => (f2 f hf).2
      have hadd : ofTerm S t 1 = [(u, 1)] := by rw [ofTerm, u1]
      dsimp only at h
      rw [hadd] at h
      obtain ⟨more, m1, m2, m3⟩ := ih (sumOf_add ho u) h
      refine ⟨u :: more, by rw [List.length_cons, m1], fun v hv => ?_, ?_⟩
      · rcases List.mem_cons.1 hv with rfl | hv
        · refine ⟨u2, ?_, fun f hf => f2 f ((u4 f).1 hf)⟩
          rw [u3, f3, List.length_nil, zero_add]
          omega
        · exact m2 v hv
      · rw [List.append_assoc] at m3
        exact m3

theorem sumOf_nil : SumOf [] [] := ⟨wf_nil, fun t => by simp [keys], fun t => by rw [coeff_of_not_mem (by simp [keys])]; simp⟩

/-- C111: the random qubit operator is the sum of exactly `nterms` Pauli strings on the given qubits; strings drawn more than once have the number of draws as coefficient. -/
theorem random_qubitop {R : Rand σ} (hR : Lawful R) {n k : ℕ} {seed : Option ℤ} {fuel : ℕ} {st : σ} {o : Terms Letter} {st' : σ}
    (h : createRandomQubitop R n k seed fuel st = some (o, st')) :
    ∃ drawn : List (Term Letter), drawn.length = k ∧ (∀ t ∈ drawn, Canonical t ∧ ∀ f ∈ t, f.1 < n) ∧ SumOf o drawn := by
  have hL : ∀ st, (pauli R st).1 ≠ .I := by
    intro st
    rw [pauli]
    dsimp only
    split
    · decide
    · split <;> decide
  obtain ⟨more, m1, m2, m3⟩ := terms_spec hR (pauli R) _ hL sorts_qubit sumOf_nil h
  exact ⟨more, m1, fun t ht => ⟨(m2 t ht).1, fun f hf => ((m2 t ht).2.2 f hf).1⟩, m3⟩

/-- C111: the same for Ising operators, whose strings consist of `Z`s. -/
theorem random_isingop {R : Rand σ} (hR : Lawful R) {n k : ℕ} {seed : Option ℤ} {fuel : ℕ} {st : σ} {o : Terms Letter} {st' : σ}
    (h : createRandomIsingop R n k seed fuel st = some (o, st')) :
    ∃ drawn : List (Term Letter), drawn.length = k ∧ (∀ t ∈ drawn, Canonical t ∧ ∀ f ∈ t, f.1 < n ∧ f.2 = .Z) ∧ SumOf o drawn := by
  obtain ⟨more, m1, m2, m3⟩ := terms_spec hR (fun st => (.Z, st)) _ (fun _ => rfl) sorts_ising sumOf_nil h
  exact ⟨more, m1, fun t ht => ⟨(m2 t ht).1, (m2 t ht).2.2⟩, m3⟩

/-! ### The number of terms -/

/-- C111: the operator has at most `nterms` terms, and at most `4 ^ nqubits`. -/
theorem random_qubitop_size {R : Rand σ} (hR : Lawful R) {n k : ℕ} {seed : Option ℤ} {fuel : ℕ} {st : σ} {o : Terms Letter} {st' : σ}
    (h : createRandomQubitop R n k seed fuel st = some (o, st')) : o.length ≤ k ∧ o.length ≤ 4 ^ n := by
  obtain ⟨drawn, d1, d2, w, hk, _⟩ := random_qubitop hR h
  have hlen : (keys o).length = o.length := List.length_map _
  refine ⟨?_, ?_⟩
  · rw [← hlen, ← d1]
    exact (w.subperm fun t ht => (hk t).1 ht).length_le
  · rw [← hlen, ← List.toFinset_card_of_nodup w]
    have : (keys o).toFinset ⊆ (Finset.range (4 ^ n)).image (PauliDecomp.strTerm n) := by
      intro t ht
      rw [List.mem_toFinset, hk] at ht
      obtain ⟨i, hi, e⟩ := PauliDecomp.exists_strTerm (d2 t ht).1 (d2 t ht).2
      exact Finset.mem_image.2 ⟨i, Finset.mem_range.2 hi, e⟩
    refine (Finset.card_le_card this).trans (Finset.card_image_le.trans ?_)
    rw [Finset.card_range]

/-- C111: so `nterms` is not the number of terms of the result, whatever the random numbers, when it exceeds the number of Pauli strings. -/
theorem random_qubitop_counterexample {R : Rand σ} (hR : Lawful R) {n k : ℕ} (hk : 4 ^ n < k) {seed : Option ℤ} {fuel : ℕ} {st : σ} {o : Terms Letter} {st' : σ}
    (h : createRandomQubitop R n k seed fuel st = some (o, st')) : o.length ≠ k := by
  have := (random_qubitop_size hR h).2
  omega

/-! ### Termination -/

theorem fresh_mono {R : Rand σ} {n : ℕ} {used : List ℕ} {a b : ℕ} (hab : a ≤ b) {st : σ} {r} (h : fresh R n used a st = some r) : fresh R n used b st = some r := by
  induction a generalizing b st with
  | zero => cases h
  | succ a ih =>
    obtain ⟨b, rfl⟩ : ∃ c, b = c + 1 := ⟨b - 1, by omega⟩
    rw [fresh] at h ⊢
    by_cases hu : (R.below n st).1 ∈ used
    · rw [if_pos hu] at h ⊢; exact ih (by omega) h
    · rw [if_neg hu] at h ⊢; exact h

theorem factors_mono {R : Rand σ} {letter : σ → Letter × σ} {n a b : ℕ} (hab : a ≤ b) {k : ℕ} {acc : Term Letter} {st : σ} {r} (h : factors R letter n a k acc st = some r) :
    factors R letter n b k acc st = some r := by
  induction k generalizing acc st with
  | zero => exact h
  | succ k ih =>
    rw [factors] at h ⊢
    cases hf : fresh R n (acc.map Prod.fst) a st with
    | none => rw [hf] at h; cases h
    | some p =>
      rw [hf] at h
      rw [fresh_mono hab hf]
      exact ih h

theorem terms_mono {R : Rand σ} {S : OpClass Letter} {letter : σ → Letter × σ} {n a b : ℕ} (hab : a ≤ b) {k : ℕ} {o : Terms Letter} {st : σ} {r}
    (h : terms R S letter n a k o st = some r) : terms R S letter n b k o st = some r := by
  induction k generalizing o st with
  | zero => exact h
  | succ k ih =>
    rw [terms] at h ⊢
    cases hf : factors R letter n a (R.below (n + 1) st).1 [] (R.below (n + 1) st).2 with
    | none => rw [hf] at h; cases h
    | some p =>
      rw [hf] at h
      rw [factors_mono hab hf]
      exact ih h

theorem fresh_some {R : Rand σ} {n : ℕ} {used : List ℕ} {m : ℕ} {st : σ} (h : draw R n m st ∉ used) : ∃ r, fresh R n used (m + 1) st = some r := by
  induction m generalizing st with
  | zero => exact ⟨_, by rw [fresh]; exact if_neg h⟩
  | succ m ih =>
    rw [fresh]
    by_cases hu : (R.below n st).1 ∈ used
    · rw [if_pos hu]; exact ih h
    · rw [if_neg hu]; exact ⟨_, rfl⟩

theorem unused {n : ℕ} {used : List ℕ} (h : used.length < n) : ∃ i < n, i ∉ used := by
  by_contra hc
  push Not at hc
  have : Finset.range n ⊆ used.toFinset := fun i hi => List.mem_toFinset.2 (hc i (Finset.mem_range.1 hi))
  have := (Finset.card_le_card this).trans (List.toFinset_card_le _)
  rw [Finset.card_range] at this
  omega

theorem factors_some {R : Rand σ} (hF : Fair R) {letter : σ → Letter × σ} {n k : ℕ} {acc : Term Letter} (h : acc.length + k ≤ n) (st : σ) :
    ∃ fuel r, factors R letter n fuel k acc st = some r := by
  induction k generalizing acc st with
  | zero => exact ⟨0, _, rfl⟩
  | succ k ih =>
    obtain ⟨i, hi, hi'⟩ := unused (used := acc.map Prod.fst) (n := n) (by rw [List.length_map]; omega)
    obtain ⟨m, hm⟩ := hF n st i hi
    obtain ⟨⟨q, s1⟩, hr⟩ := fresh_some (R := R) (m := m) (st := st) (hm ▸ hi')
    obtain ⟨fuel, r, h2⟩ := ih (acc := acc ++ [(q, (letter s1).1)]) (by rw [List.length_append, List.length_singleton]; omega) (letter s1).2
    refine ⟨max (m + 1) fuel, r, ?_⟩
    rw [factors, fresh_mono (le_max_left _ _) hr]
    exact factors_mono (le_max_right _ _) h2

theorem terms_some {R : Rand σ} (hR : Lawful R) (hF : Fair R) {S : OpClass Letter} {letter : σ → Letter × σ} {n k : ℕ} (o : Terms Letter) (st : σ) :
    ∃ fuel r, terms R S letter n fuel k o st = some r := by
  induction k generalizing o st with
  | zero => exact ⟨0, _, rfl⟩
  | succ k ih =>
    have hb := hR.below (n + 1) st (by omega)
    obtain ⟨f1, ⟨t, s1⟩, h1⟩ := factors_some hF (letter := letter) (n := n) (k := (R.below (n + 1) st).1) (acc := []) (by rw [List.length_nil]; omega) (R.below (n + 1) st).2
    obtain ⟨f2, r, h2⟩ := ih (add o (ofTerm S t 1)) s1
    refine ⟨max f1 f2, r, ?_⟩
    rw [terms, factors_mono (le_max_left _ _) h1]
    exact terms_mono (le_max_right _ _) h2

/-- C111: both functions end, whatever the arguments, if successive draws sooner or later give every number. -/
theorem random_terminates {R : Rand σ} (hR : Lawful R) (hF : Fair R) (n k : ℕ) (seed : Option ℤ) (st : σ) :
    ∃ bound, ∀ fuel ≥ bound, (∃ r, createRandomQubitop R n k seed fuel st = some r) ∧ ∃ r, createRandomIsingop R n k seed fuel st = some r := by
  obtain ⟨f1, r1, h1⟩ := terms_some hR hF (S := qubit) (letter := pauli R) (n := n) (k := k) [] (start R seed st)
  obtain ⟨f2, r2, h2⟩ := terms_some hR hF (S := ising) (letter := fun st => (.Z, st)) (n := n) (k := k) [] (start R seed st)
  exact ⟨max f1 f2, fun fuel hf => ⟨⟨r1, terms_mono ((le_max_left _ _).trans hf) h1⟩, ⟨r2, terms_mono ((le_max_right _ _).trans hf) h2⟩⟩⟩

/-- C111: with a seed, the result does not depend on the state of the generator before. -/
theorem random_seeded (R : Rand σ) (n k : ℕ) (s : ℤ) (fuel : ℕ) (st st' : σ) :
    createRandomQubitop R n k (some s) fuel st = createRandomQubitop R n k (some s) fuel st' ∧
    createRandomIsingop R n k (some s) fuel st = createRandomIsingop R n k (some s) fuel st' := ⟨rfl, rfl⟩

/-- A generator that counts. -/
def counting : Rand ℕ := ⟨fun s => s.toNat, fun n st => (st % n, st + 1), fun a _ st => (a, st + 1), fun _ k st => (List.range k, st + 1)⟩

theorem counting_lawful : Lawful counting :=
  ⟨fun n st hn => Nat.mod_lt _ hn, fun a b st h => ⟨le_refl a, h⟩, fun n k st h => ⟨List.length_range, List.nodup_range, fun i hi => lt_of_lt_of_le (List.mem_range.1 hi) h⟩⟩

theorem counting_fair : Fair counting := by
  have hd : ∀ n m st, draw counting n m st = (st + m) % n := by
    intro n m
    induction m with
    | zero => intro st; rfl
    | succ m ih => intro st; rw [draw, ih]; show (st + 1 + m) % n = _; congr 1; omega
  intro n st i hi
  refine ⟨i + (n - st % n), ?_⟩
  rw [hd]
  have h1 := Nat.mod_lt st (show 0 < n by omega)
  have h2 : st + (i + (n - st % n)) = i + n * (st / n + 1) := by
    have := Nat.div_add_mod st n
    have e : n * (st / n + 1) = n * (st / n) + n := by ring
    omega
  rw [h2, Nat.add_mul_mod_self_left, Nat.mod_eq_of_lt hi]

/-- The hypotheses are met: for every size there is an operator. -/
example (n k : ℕ) : ∃ fuel o st', createRandomQubitop counting n k none fuel 5 = some (o, st') ∧ o.length ≤ k := by
  obtain ⟨b, hb⟩ := random_terminates counting_lawful counting_fair n k none 5
  obtain ⟨⟨o, st'⟩, h⟩ := (hb b le_rfl).1
  exact ⟨b, o, st', h, (random_qubitop_size counting_lawful h).1⟩

/-! ### Random local Hamiltonians -/

/-- A label of `n` entries that is 1, 2 or 3 at `locality` places and 0 elsewhere. -/
def GoodLabel (n locality : ℕ) (l : List ℕ) : Prop :=
  l.length = n ∧ ∃ S ∈ Finset.powersetCard locality (Finset.range n), ∀ q < n, (q ∈ S → l.getD q 0 ∈ ({1, 2, 3} : Finset ℕ)) ∧ (q ∉ S → l.getD q 0 = 0)

theorem labelOf_spec {R : Rand σ} (hR : Lawful R) : ∀ (inds label : List ℕ) (st : σ), inds.Nodup → (∀ i ∈ inds, i < label.length) →
    (labelOf R inds label st).1.length = label.length ∧ ∀ q, (q ∈ inds → (labelOf R inds label st).1.getD q 0 ∈ ({1, 2, 3} : Finset ℕ)) ∧
      (q ∉ inds → (labelOf R inds label st).1.getD q 0 = label.getD q 0) := by
  intro inds
  induction inds with
  | nil => intro label st _ _; exact ⟨rfl, fun q => ⟨fun h => (nomatch h), fun _ => rfl⟩⟩
  | cons i inds ih =>
    intro label st hn hl
    rw [List.nodup_cons] at hn
    obtain ⟨h1, h2⟩ := ih (label.set i (1 + (R.below 3 st).1)) (R.below 3 st).2 hn.2 fun j hj => by
      rw [List.length_set]; exact hl j (List.mem_cons_of_mem _ hj)
    rw [labelOf]
    rw [List.length_set] at h1
    refine ⟨h1, fun q => ⟨fun hq => ?_, fun hq => ?_⟩⟩
    · by_cases hqi : q ∈ inds
      · exact (h2 q).1 hqi
      · have hqi' : q = i := (List.mem_cons.1 hq).resolve_right hqi
        subst hqi'
        rw [(h2 q).2 hqi, List.getD_eq_getElem?_getD, List.getElem?_set_self (hl q (List.mem_cons_self ..)), Option.getD_some]
        have := hR.below 3 st (by omega)
        simp only [Finset.mem_insert, Finset.mem_singleton]
        omega
    · rw [List.mem_cons, not_or] at hq
      rw [(h2 q).2 hq.2, List.getD_eq_getElem?_getD, List.getElem?_set_ne (Ne.symm hq.1), ← List.getD_eq_getElem?_getD]

theorem labels_spec {R : Rand σ} (hR : Lawful R) {n locality : ℕ} (hl : locality ≤ n) : ∀ (fuel missing : ℕ) (found : List (List ℕ)) (st : σ) (ls : List (List ℕ)) (st' : σ),
    found.Nodup → (∀ l ∈ found, GoodLabel n locality l) → labels R n locality fuel missing found st = some (ls, st') →
    ls.Nodup ∧ (∀ l ∈ ls, GoodLabel n locality l) ∧ ls.length = found.length + missing := by
  intro fuel
  induction fuel with
  | zero =>
    intro missing found st ls st' h1 h2 h
    cases missing with
    | zero =>
      rw [labels] at h
      injection h with h
      have : found = ls := congrArg Prod.fst h
      rw [← this]; exact ⟨h1, h2, rfl⟩
    | succ m => rw [labels] at h; cases h
  | succ fuel ih =>
    intro missing found st ls st' h1 h2 h
    cases missing with
    | zero =>
      rw [labels] at h
      injection h with h
      have : found = ls := congrArg Prod.fst h
      rw [← this]; exact ⟨h1, h2, rfl⟩
    | succ m =>
      rw [labels] at h
      set l := labelOf R ((R.sample n locality st).1.insertionSort (· ≤ ·)) (List.replicate n 0) (R.sample n locality st).2 with hdef
      by_cases hf : l.1 ∈ found
      · rw [if_pos hf] at h
        exact ih _ _ _ _ _ h1 h2 h
      · rw [if_neg hf] at h
        obtain ⟨s1, s2, s3⟩ := hR.sample n locality st hl
        have hperm := List.perm_insertionSort (· ≤ ·) (R.sample n locality st).1
        have hlab := labelOf_spec hR ((R.sample n locality st).1.insertionSort (· ≤ ·)) (List.replicate n 0) (R.sample n locality st).2 (hperm.nodup_iff.2 s2)
          (fun i hi => by rw [List.length_replicate]; exact s3 i (hperm.mem_iff.1 hi))
        have hgood : GoodLabel n locality l.1 := by
          refine ⟨by rw [hdef, hlab.1, List.length_replicate], (R.sample n locality st).1.toFinset, ?_, fun q hq => ⟨fun h => ?_, fun h => ?_⟩⟩
          · rw [Finset.mem_powersetCard]
            refine ⟨fun i hi => Finset.mem_range.2 (s3 i (List.mem_toFinset.1 hi)), by rw [List.toFinset_card_of_nodup s2, s1]⟩
          · exact (hlab.2 q).1 (hperm.mem_iff.2 (List.mem_toFinset.1 h))
          · rw [hdef, (hlab.2 q).2 (fun h' => h (List.mem_toFinset.2 (hperm.mem_iff.1 h')))]
            rw [List.getD_replicate]
            exact hq
        obtain ⟨r1, r2, r3⟩ := ih m (found ++ [l.1]) l.2 ls st' (by
          rw [List.nodup_append]
          refine ⟨h1, by simp, fun a ha b hb => ?_⟩
          rw [List.mem_singleton] at hb
          rintro rfl
          rw [hb] at ha
          exact hf ha) (by
          intro x hx
          rcases List.mem_append.1 hx with hx | hx
          · exact h2 x hx
          · rw [List.mem_singleton.1 hx]; exact hgood) h
        refine ⟨r1, r2, ?_⟩
        rw [r3, List.length_append, List.length_singleton]
        omega

/-- There are `C(n, k) 3^k` labels. -/
theorem labels_count {n locality : ℕ} {ls : List (List ℕ)} (hn : ls.Nodup) (hg : ∀ l ∈ ls, GoodLabel n locality l) : ls.length ≤ n.choose locality * 3 ^ locality := by
  classical
  let F : (S : Finset ℕ) → ((i : ℕ) → i ∈ S → ℕ) → List ℕ := fun S g => (List.range n).map fun i => if h : i ∈ S then g i h else 0
  have hsub : ls.toFinset ⊆ (Finset.powersetCard locality (Finset.range n)).biUnion fun S => (S.pi fun _ => ({1, 2, 3} : Finset ℕ)).image (F S) := by
    intro l hl
    obtain ⟨h1, S, hS, h2⟩ := hg l (List.mem_toFinset.1 hl)
    have hSn : ∀ i ∈ S, i < n := fun i hi => Finset.mem_range.1 ((Finset.mem_powersetCard.1 hS).1 hi)
    refine Finset.mem_biUnion.2 ⟨S, hS, Finset.mem_image.2 ⟨fun i _ => l.getD i 0, Finset.mem_pi.2 fun i hi => (h2 i (hSn i hi)).1 hi, ?_⟩⟩
    apply List.ext_getElem
    · simp [F, h1]
    · intro i hi1 hi2
      have hi : i < n := by rw [← h1]; exact hi2
      simp only [F, List.getElem_map, List.getElem_range]
      by_cases hiS : i ∈ S
      · rw [dif_pos hiS, List.getD_eq_getElem _ _ hi2]
      · rw [dif_neg hiS, ← (h2 i hi).2 hiS, List.getD_eq_getElem _ _ hi2]
  rw [← List.toFinset_card_of_nodup hn]
  refine (Finset.card_le_card hsub).trans ((Finset.card_biUnion_le_card_mul _ _ (3 ^ locality) fun S hS => ?_).trans (le_of_eq ?_))
  · refine Finset.card_image_le.trans (le_of_eq ?_)
    rw [Finset.card_pi, Finset.prod_const, (Finset.mem_powersetCard.1 hS).2]
    rfl
  · rw [Finset.card_powersetCard, Finset.card_range]

theorem letterAt_mem {t : Term Letter} (h : ∀ f ∈ t, f.2 ≠ .I) (q : ℕ) : letterAt t q ≠ .I ↔ q ∈ t.map Prod.fst := by
  induction t with
  | nil => simp [letterAt]
  | cons f t ih =>
    rw [letterAt, List.map_cons, List.mem_cons]
    by_cases hf : f.1 = q
    · rw [if_pos hf]; exact ⟨fun _ => Or.inl hf.symm, fun _ => h f (List.mem_cons_self ..)⟩
    · rw [if_neg hf, ih fun g hg => h g (List.mem_cons_of_mem _ hg)]
      exact ⟨Or.inr, fun h' => h'.resolve_left (Ne.symm hf)⟩

theorem GoodLabel.entries {n locality : ℕ} {l : List ℕ} (h : GoodLabel n locality l) : ∀ a ∈ l, a < 4 := by
  obtain ⟨h1, S, _, h2⟩ := h
  intro a ha
  obtain ⟨i, hi, rfl⟩ := List.getElem_of_mem ha
  have hin : i < n := by rw [← h1]; exact hi
  rw [← List.getD_eq_getElem l 0 hi]
  by_cases hiS : i ∈ S
  · have := (h2 i hin).1 hiS
    simp only [Finset.mem_insert, Finset.mem_singleton] at this
    omega
  · rw [(h2 i hin).2 hiS]; omega

theorem GoodLabel.term {n locality : ℕ} {l : List ℕ} (h : GoodLabel n locality l) :
    Canonical (PauliDecomp.labelTerm l) ∧ (PauliDecomp.labelTerm l).length = locality ∧ ∀ f ∈ PauliDecomp.labelTerm l, f.1 < n := by
  obtain ⟨t1, t2, t3⟩ := PauliDecomp.labelTerm_spec l h.entries
  obtain ⟨h1, S, hS, h2⟩ := h
  refine ⟨t1, ?_, fun f hf => by rw [← h1]; exact t2 f hf⟩
  have hnd : ((PauliDecomp.labelTerm l).map Prod.fst).Nodup := t1.1.imp fun h => ne_of_lt h
  have hS' : ((PauliDecomp.labelTerm l).map Prod.fst).toFinset = S := by
    ext q
    rw [List.mem_toFinset, ← letterAt_mem t1.2, t3]
    by_cases hq : q < n
    · by_cases hqS : q ∈ S
      · have := (h2 q hq).1 hqS
        simp only [Finset.mem_insert, Finset.mem_singleton] at this
        refine ⟨fun _ => hqS, fun _ => ?_⟩
        rcases this with e | e | e <;> rw [e] <;> decide
      · rw [(h2 q hq).2 hqS]
        exact ⟨fun h => absurd rfl h, fun h => absurd h hqS⟩
    · rw [List.getD_eq_default _ _ (by omega)]
      exact ⟨fun h => absurd rfl h, fun h => absurd (Finset.mem_range.1 ((Finset.mem_powersetCard.1 hS).1 h)) hq⟩
  rw [← (Finset.mem_powersetCard.1 hS).2, ← hS', List.toFinset_card_of_nodup hnd, List.length_map]

theorem labelTerm_inj {n locality : ℕ} {l l' : List ℕ} (h : GoodLabel n locality l) (h' : GoodLabel n locality l') (e : PauliDecomp.labelTerm l = PauliDecomp.labelTerm l') : l = l' := by
  have t := (PauliDecomp.labelTerm_spec l h.entries).2.2
  have t' := (PauliDecomp.labelTerm_spec l' h'.entries).2.2
  apply List.ext_getElem
  · rw [h.1, h'.1]
  · intro i h1 h2
    have hi := t i
    rw [e, t' i, List.getD_eq_getElem _ _ h1, List.getD_eq_getElem _ _ h2] at hi
    exact PauliDecomp.letterOf_inj (h.entries _ (List.getElem_mem _)) (h'.entries _ (List.getElem_mem _)) hi.symm

theorem foldl_add_terms : ∀ (items : List (Term Letter × ℂ)) (acc : Terms Letter), (items.map Prod.fst).Nodup → (∀ p ∈ items, p.1 ∉ keys acc) →
    (items.map fun p => [(p.1, p.2)]).foldl add acc = acc ++ items.filter fun p => !decide (‖p.2‖ < 1 / 10 ^ 8) := by
  intro items
  induction items with
  | nil => intro acc _ _; simp
  | cons p items ih =>
    intro acc hn hd
    rw [List.map_cons, List.nodup_cons] at hn
    rw [List.map_cons, List.foldl_cons, OpSteps.add_term (hd p (List.mem_cons_self ..))]
    by_cases h : ‖p.2‖ < 1 / 10 ^ 8
    · rw [if_pos h, ih acc hn.2 fun q hq => hd q (List.mem_cons_of_mem _ hq), List.filter_cons_of_neg (by simpa using h)]
    · rw [if_neg h, ih _ hn.2, List.filter_cons_of_pos (by simpa using h), List.append_assoc]
      · rfl
      · intro q hq hc
        rw [keys, List.map_append, List.mem_append] at hc
        rcases hc with hc | hc
        · exact hd q (List.mem_cons_of_mem _ hq) hc
        · simp only [List.map_cons, List.map_nil, List.mem_singleton] at hc
          exact hn.1 (hc ▸ List.mem_map_of_mem hq)

theorem coefficients_spec {R : Rand σ} (hR : Lawful R) (m : ℝ) (fixed : Bool) : ∀ (k : ℕ) (st : σ), (coefficients R m fixed k st).1.length = k ∧
    ∀ x ∈ (coefficients R m fixed k st).1, (fixed = true → x = m) ∧ (0 ≤ m → |x| ≤ m) := by
  intro k
  induction k with
  | zero => intro st; exact ⟨rfl, fun x hx => by cases hx⟩
  | succ k ih =>
    intro st
    rw [coefficients]
    by_cases hf : fixed = true
    · rw [if_pos hf]
      refine ⟨by rw [List.length_cons, (ih st).1], fun x hx => ?_⟩
      rcases List.mem_cons.1 hx with rfl | hx
      · exact ⟨fun _ => rfl, fun h => le_of_eq (abs_of_nonneg h)⟩
      · exact (ih st).2 x hx
    · rw [if_neg hf]
      refine ⟨by rw [List.length_cons, (ih _).1], fun x hx => ?_⟩
      rcases List.mem_cons.1 hx with rfl | hx
      · exact ⟨fun h => absurd h hf, fun h => abs_le.2 (hR.uniform (-m) m st (by linarith))⟩
      · exact (ih _).2 x hx

/-- C111: `generate_random_qubitop` draws `nterms` different Pauli strings, each acting on exactly `nlocality` of the qubits, and coefficients in `[-max_coeff, max_coeff]` (all
`max_coeff` if they are fixed); strings whose coefficient is below `1e-8` are dropped. A locality above the number of qubits is a `ValueError`. -/
theorem generate_spec {R : Rand σ} (hR : Lawful R) {n k locality : ℕ} {m : ℝ} {fixed : Bool} {fuel : ℕ} {st : σ} {r : Except Err (Terms Letter)}
    (h : generateRandomQubitop R n k locality m fixed fuel st = some r) :
    (0 < k ∧ n < locality ∧ r = .error .valueError) ∨
    ((k = 0 ∨ locality ≤ n) ∧ ∃ items : List (Term Letter × ℝ), items.length = k ∧ (items.map Prod.fst).Nodup ∧
      (∀ p ∈ items, Canonical p.1 ∧ p.1.length = locality ∧ (∀ f ∈ p.1, f.1 < n) ∧ (fixed = true → p.2 = m) ∧ (0 ≤ m → |p.2| ≤ m)) ∧
      r = .ok ((items.filter fun p => !decide (|p.2| < 1 / 10 ^ 8)).map fun p => (p.1, (p.2 : ℂ)))) := by
  rw [generateRandomQubitop] at h
  by_cases hbad : 0 < k ∧ n < locality
  · rw [if_pos hbad] at h
    injection h with h
    exact Or.inl ⟨hbad.1, hbad.2, h.symm⟩
  · rw [if_neg hbad] at h
    right
    have hk : k = 0 ∨ locality ≤ n := by
      rcases Nat.eq_zero_or_pos k with h0 | h0
      · exact Or.inl h0
      · exact Or.inr (not_lt.1 fun h' => hbad ⟨h0, h'⟩)
    refine ⟨hk, ?_⟩
    cases hls : labels R n locality fuel k [] (coefficients R m fixed k st).2 with
    | none => rw [hls] at h; cases h
    | some p =>
      obtain ⟨ls, st'⟩ := p
      rw [hls] at h
      injection h with h
      obtain ⟨c1, c2⟩ := coefficients_spec hR m fixed k st
      have hl : ls.Nodup ∧ (∀ l ∈ ls, GoodLabel n locality l) ∧ ls.length = k := by
        rcases hk with rfl | hk
        · have : ls = [] := by
            cases fuel <;> rw [labels] at hls <;> injection hls with hls <;> exact (congrArg Prod.fst hls).symm
          subst this
          exact ⟨List.nodup_nil, fun l hl => (nomatch hl), rfl⟩
        · have := labels_spec hR hk fuel k [] _ ls st' List.nodup_nil (fun l hl => by cases hl) hls
          simpa using this
      obtain ⟨l1, l2, l3⟩ := hl
      set cs := (coefficients R m fixed k st).1
      have hfst : (((cs.map fun x : ℝ => (x : ℂ)).zip ls).map Prod.fst) = cs.map fun x : ℝ => (x : ℂ) := List.map_fst_zip (by rw [List.length_map, c1, l3])
      have hsnd : (((cs.map fun x : ℝ => (x : ℂ)).zip ls).map Prod.snd) = ls := List.map_snd_zip (by rw [List.length_map, c1, l3])
      have hitems : ((ls.map PauliDecomp.labelTerm).zip cs).map Prod.fst = ls.map PauliDecomp.labelTerm := List.map_fst_zip (by rw [List.length_map, c1, l3])
      have hnd : (ls.map PauliDecomp.labelTerm).Nodup := by
        rw [List.nodup_map_iff_inj_on l1]
        intro x hx y hy e
        exact labelTerm_inj (l2 x hx) (l2 y hy) e
      refine ⟨(ls.map PauliDecomp.labelTerm).zip cs, by rw [List.length_zip, List.length_map, c1, l3, min_self], by rw [hitems]; exact hnd, fun p hp => ?_, ?_⟩
      · obtain ⟨hp1, hp2⟩ := List.of_mem_zip (show (p.1, p.2) ∈ _ from hp)
        obtain ⟨l, hl, e⟩ := List.mem_map.1 hp1
        rw [← e]
        obtain ⟨g1, g2, g3⟩ := (l2 l hl).term
        exact ⟨g1, g2, g3, c2 p.2 hp2⟩
      · rw [← h]
        have hfc := PauliDecomp.fromCoeffs_eq ((cs.map fun x : ℝ => (x : ℂ)).zip ls)
        rw [hfst, hsnd] at hfc
        rw [hfc]
        have hsm : ∀ p ∈ (cs.map fun x : ℝ => (x : ℂ)).zip ls, smul (ofTerm qubit (PauliDecomp.labelTerm p.2) 1) p.1 = [(PauliDecomp.labelTerm p.2, p.1)] := by
          intro p hp
          have hc := (l2 p.2 (List.of_mem_zip (show (p.1, p.2) ∈ _ from hp)).2).term.1
          have e : ∀ c, qubit.simplify (PauliDecomp.labelTerm p.2) c = (c, PauliDecomp.labelTerm p.2) := fun c => qubitSimplify_of_canonical hc c
          simp [ofTerm, e, smul]
        rw [List.map_congr_left hsm]
        have hmap : ((cs.map fun x : ℝ => (x : ℂ)).zip ls).map (fun p => [(PauliDecomp.labelTerm p.2, p.1)]) =
            (((ls.map PauliDecomp.labelTerm).zip cs).map fun p => (p.1, (p.2 : ℂ))).map fun p => [(p.1, p.2)] := by
          rw [List.map_map, List.zip_map_left, List.zip_map_left, List.map_map, List.map_map, ← List.zip_swap cs ls, List.map_map]
          rfl
        rw [hmap, foldl_add_terms, List.nil_append, List.filter_map]
        · congr 2
          refine List.filter_congr fun p _ => ?_
          show (!decide (‖(p.2 : ℂ)‖ < 1 / 10 ^ 8)) = _
          rw [Complex.norm_real, Real.norm_eq_abs]
        · rw [List.map_map]
          show (((ls.map PauliDecomp.labelTerm).zip cs).map Prod.fst).Nodup
          rw [hitems]; exact hnd
        · intro p _ hp; cases hp

/-- C111: with a fixed coefficient that is not negligible the operator has exactly `nterms` terms, each with that coefficient. -/
theorem generate_fixed {R : Rand σ} (hR : Lawful R) {n k locality : ℕ} {m : ℝ} (hm : 1 / 10 ^ 8 ≤ |m|) {fuel : ℕ} {st : σ} {o : Terms Letter}
    (h : generateRandomQubitop R n k locality m true fuel st = some (.ok o)) : o.length = k ∧ ∀ kv ∈ o, kv.2 = (m : ℂ) ∧ kv.1.length = locality := by
  rcases generate_spec hR h with ⟨_, _, h⟩ | ⟨_, items, h1, h2, h3, h4⟩
  · cases h
  · injection h4 with h4
    have hf : (items.filter fun p => !decide (|p.2| < 1 / 10 ^ 8)) = items := by
      rw [List.filter_eq_self]
      intro p hp
      rw [(h3 p hp).2.2.2.1 rfl]
      simpa using hm
    rw [hf] at h4
    refine ⟨by rw [h4, List.length_map, h1], fun kv hkv => ?_⟩
    rw [h4] at hkv
    obtain ⟨p, hp, rfl⟩ := List.mem_map.1 hkv
    exact ⟨by rw [(h3 p hp).2.2.2.1 rfl], (h3 p hp).2.1⟩

/-- C111 fails here: if more terms are asked for than there are Pauli strings of that locality the loop never ends. -/
theorem generate_counterexample {R : Rand σ} (hR : Lawful R) {n k locality : ℕ} (m : ℝ) (fixed : Bool) (hl : locality ≤ n) (hk : n.choose locality * 3 ^ locality < k) (fuel : ℕ) (st : σ) :
    generateRandomQubitop R n k locality m fixed fuel st = none := by
  rw [generateRandomQubitop, if_neg (by omega)]
  cases hls : labels R n locality fuel k [] (coefficients R m fixed k st).2 with
  | none => rfl
  | some p =>
    obtain ⟨h1, h2, h3⟩ := labels_spec hR hl fuel k [] _ p.1 p.2 List.nodup_nil (fun l hl => by cases hl) hls
    have := labels_count h1 h2
    rw [h3, List.length_nil] at this
    omega

/-- One string of locality 1 on one qubit. -/
example : ∃ o, generateRandomQubitop counting 1 1 1 3 true 1 0 = some (.ok o) ∧ o.length = 1 := by
  have h : labels counting 1 1 1 1 [] (coefficients counting 3 true 1 0).2 = some ([[2]], 2) := by
    simp [labels, coefficients, counting, labelOf, List.insertionSort]
  have hg : ∃ r, generateRandomQubitop counting 1 1 1 3 true 1 0 = some r := by
    rw [generateRandomQubitop, if_neg (by omega), h]; exact ⟨_, rfl⟩
  obtain ⟨r, hr⟩ := hg
  rcases generate_spec counting_lawful hr with ⟨_, h, _⟩ | ⟨_, items, _, _, _, h4⟩
  · omega
  · rw [h4] at hr
    exact ⟨_, hr, (generate_fixed counting_lawful (by norm_num) hr).1⟩

/-- Four strings of locality 1 on one qubit. -/
example (fuel : ℕ) : generateRandomQubitop counting 1 4 1 1 false fuel 0 = none := generate_counterexample counting_lawful 1 false (by omega) (by decide) fuel 0

/-! ### Random wavefunctions -/

/-- C111: `create_random_wavefunction` gives the drawn vector scaled to unit norm: `2^n` numbers, all the same positive multiple of what was drawn, whose squared moduli add up to exactly 1;
if only zeros were drawn it is refused. -/
theorem random_wavefunction {N : NpRand σ} (hN : ∀ n st, (N.rand n st).1.length = n) (n : ℕ) (st : σ) :
    ((∀ z ∈ drawnVector N n st, z = 0) → createRandomWavefunction N n none st = .error .valueError) ∧
    ((∃ z ∈ drawnVector N n st, z ≠ 0) → ∃ (f : ℝ) (w : Wavefunction.Wf Unit), 0 < f ∧ createRandomWavefunction N n none st = .ok w ∧ w.numpy = true ∧ w.amps.length = 2 ^ n ∧
      w.amps = (drawnVector N n st).map (fun z => .num (z * f)) ∧ (w.amps.map Wavefunction.ampSq).sum = 1) := by
  have hlen : (drawnVector N n st).length = 2 ^ n := by
    rw [drawnVector, List.length_map, List.length_zip, hN, hN, min_self]
  have hdef : createRandomWavefunction N n none st = Wavefunction.mk? ((drawnVector N n st).map fun z => .num (z / (Real.sqrt (((drawnVector N n st).map fun z => ‖z‖ ^ 2).sum) : ℝ))) := rfl
  set v := drawnVector N n st
  set f := Real.sqrt ((v.map fun z => ‖z‖ ^ 2).sum) with hf
  have hall : (v.map fun z => (Wavefunction.Amp.num (z / (f : ℂ)) : Wavefunction.Amp Unit)).all Wavefunction.Amp.isNum = true := by
    simp [Wavefunction.Amp.isNum]
  have hcount : ¬ (Bits.pyBin (v.map fun z => (Wavefunction.Amp.num (z / (f : ℂ)) : Wavefunction.Amp Unit)).length).count 1 ≠ 1 := by
    rw [Bits.count_one_pyBin, List.length_map, hlen]; simp [Bits.popcount_two_pow]
  have hsq : ((v.map fun z => (Wavefunction.Amp.num (z / (f : ℂ)) : Wavefunction.Amp Unit)).map Wavefunction.ampSq).sum = ((v.map fun z => ‖z‖ ^ 2).sum) / f ^ 2 := by
    rw [List.map_map]
    have : (Wavefunction.ampSq ∘ fun z => (Wavefunction.Amp.num (z / (f : ℂ)) : Wavefunction.Amp Unit)) = fun z => ‖z‖ ^ 2 * (1 / f ^ 2) := by
      funext z
      show Complex.normSq (z / (f : ℂ)) = _
      rw [Complex.normSq_eq_norm_sq, norm_div, Complex.norm_real, div_pow, Real.norm_eq_abs, sq_abs]
      ring
    rw [this, List.sum_map_mul_right]
    ring
  refine ⟨fun h => ?_, fun ⟨z, hz, hz0⟩ => ?_⟩
  · have hs : (v.map fun z => ‖z‖ ^ 2).sum = 0 := by
      rw [List.sum_eq_zero]
      intro x hx
      obtain ⟨z, hz, rfl⟩ := List.mem_map.1 hx
      rw [h z hz, norm_zero]; norm_num
    rw [hdef, Wavefunction.mk?, if_neg hcount]
    dsimp only
    rw [if_neg]
    rw [Wavefunction.checkNormalization]
    dsimp only
    rw [hsq, hs, if_pos (Or.inl hall)]
    norm_num
  · have hs : 0 < (v.map fun z => ‖z‖ ^ 2).sum := by
      refine lt_of_lt_of_le ?_ (List.single_le_sum (fun x hx => ?_) _ (List.mem_map_of_mem hz))
      · have := norm_pos_iff.2 hz0
        positivity
      · obtain ⟨y, _, rfl⟩ := List.mem_map.1 hx
        positivity
    have hf0 : 0 < f := Real.sqrt_pos.2 hs
    refine ⟨1 / f, ⟨true, v.map fun z => .num (z / (f : ℂ))⟩, by positivity, ?_, rfl, by rw [List.length_map, hlen], ?_, ?_⟩
    · rw [hdef, Wavefunction.mk?, if_neg hcount]
      dsimp only
      rw [hall, if_pos]
      apply Wavefunction.checkNorm_of_sum_one
      · left; rfl
      · show ((v.map fun z => (Wavefunction.Amp.num (z / (f : ℂ)) : Wavefunction.Amp Unit)).map Wavefunction.ampSq).sum = 1
        rw [hsq, hf, Real.sq_sqrt hs.le, div_self hs.ne']
    · apply List.map_congr_left
      intro z _
      rw [Complex.ofReal_div, Complex.ofReal_one, mul_one_div]
    · show ((v.map fun z => (Wavefunction.Amp.num (z / (f : ℂ)) : Wavefunction.Amp Unit)).map Wavefunction.ampSq).sum = 1
      rw [hsq, hf, Real.sq_sqrt hs.le, div_self hs.ne']

/-- C111: a seed other than 0 decides the wavefunction, whatever was drawn before. -/
theorem random_wavefunction_seeded (N : NpRand σ) (n : ℕ) {s : ℤ} (hs : s ≠ 0) (st : σ) : createRandomWavefunction N n (some s) st = createRandomWavefunction N n none (N.seed s) := by
  rw [createRandomWavefunction, createRandomWavefunction]
  simp only [hs, ne_eq, not_false_eq_true, if_true]

/-- C111 fails here: the seed 0 is not used. With it the result is what it is without a seed, and so depends on what was drawn before. -/
theorem random_wavefunction_counterexample : (∀ (σ : Type) (N : NpRand σ) (n : ℕ) (st : σ), createRandomWavefunction N n (some 0) st = createRandomWavefunction N n none st) ∧
    ∃ N : NpRand ℕ, createRandomWavefunction N 0 (some 0) 0 ≠ createRandomWavefunction N 0 (some 0) 1 := by
  refine ⟨fun σ N n st => rfl, ⟨fun s => s.toNat, fun n st => (List.replicate n (st : ℝ), st)⟩, ?_⟩
  intro h
  have hN : ∀ n (st : ℕ), ((⟨fun s => s.toNat, fun n st => (List.replicate n (st : ℝ), st)⟩ : NpRand ℕ).rand n st).1.length = n := fun n st => List.length_replicate
  have h0 := (random_wavefunction hN 0 0).1 (by
    intro z hz
    simp [drawnVector] at hz
    rw [hz]; rfl)
  obtain ⟨f, w, _, h1, _⟩ := (random_wavefunction hN 0 1).2 ⟨⟨1, 1⟩, by simp [drawnVector], fun h => by simpa using congrArg Complex.re h⟩
  have : createRandomWavefunction _ 0 none 0 = createRandomWavefunction _ 0 none 1 := h
  rw [h0, h1] at this
  cases this


end ZQ.RandomOps
