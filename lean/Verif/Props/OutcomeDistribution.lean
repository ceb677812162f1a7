import Verif.Model.OutcomeDistribution
import Verif.Lemmas.Frequencies
import Verif.Props.Born
import Verif.Props.Distribution
import Verif.Props.Measurement

/-!
# C129: measured distributions of outcomes approach the exact one
-/

namespace ZQ.Stat

open ZQ ZQ.Circuits ZQ.Est ZQ.Expect ZQ.Backend MeasureTheory ProbabilityTheory

variable {Ω : Type} [MeasurableSpace Ω]

/-! ### Specification -/

/-- Specification: the random numbers of a simulator made with `seed` are what numpy promises. -/
def Promised (P : Measure Ω) (r : Ω → Randomness) : Option ℕ → Prop
  | none => FreshRandom P r
  | some s => SeededRandom P r s

/-- Specification: the outcome `x` as a key of a distribution: a tuple of zeros and ones, qubit 0 first. -/
def outcomeKey {n : ℕ} (x : Fin n → Bool) : List ℤ := List.ofFn fun q => if x q then 1 else 0

/-- Specification: Born's rule: the probability of the outcome `x` of the circuit `c`. -/
noncomputable def born (ρ : String → ℂ) (c : Circuit) (x : Fin c.n → Bool) : ℝ := Complex.normSq (outputState ρ c x)

/-! ### Auxiliary facts -/

theorem outcomeKey_eq {n : ℕ} (x : Fin n → Bool) : outcomeKey x = (bits x).map fun b : ℕ => (b : ℤ) := by
  unfold outcomeKey bits
  rw [List.map_ofFn]
  congr 1
  funext q
  cases h : x q <;> simp [h]

theorem outcomeKey_injective (n : ℕ) : Function.Injective (outcomeKey (n := n)) := by
  intro x y h
  have h1 := List.ofFn_injective h
  funext q
  have := congrFun h1 q
  cases hx : x q <;> cases hy : y q <;> simp_all

theorem keys_ofItems {l : List (List ℤ × ℝ)} {k : List ℤ} (h : k ∈ PyDict.keys (PyDict.ofItems l)) : ∃ v, (k, v) ∈ l := by
  have key : ∀ (l : List (List ℤ × ℝ)) (acc : Dist.DDict), k ∈ PyDict.keys (l.foldl (fun d kv => PyDict.set d kv.1 kv.2) acc) → k ∈ PyDict.keys acc ∨ ∃ v, (k, v) ∈ l := by
    intro l
    induction l with
    | nil => intro acc h; exact Or.inl h
    | cons p l ih =>
      intro acc h
      rcases ih _ h with h | ⟨v, h⟩
      · rw [PyDict.keys_set] at h
        by_cases hp : p.1 ∈ PyDict.keys acc
        · rw [if_pos hp] at h; exact Or.inl h
        · rw [if_neg hp, List.mem_append, List.mem_singleton] at h
          rcases h with h | rfl
          · exact Or.inl h
          · exact Or.inr ⟨p.2, by simp⟩
      · exact Or.inr ⟨v, by simp [h]⟩
  rcases key l [] h with h | h
  · simp [PyDict.keys] at h
  · exact h

theorem make_keys {l : List (Dist.Key × ℝ)} {b : Bool} {r : Dist.DDict} (h : Dist.make l b = .ok r) : ∀ a ∈ r, ∃ kv ∈ l, Dist.preprocessKey kv.1 = .ok a.1 := by
  unfold Dist.make at h
  cases hp : Dist.preprocess l with
  | error e => rw [hp] at h; cases h
  | ok d =>
    rw [hp] at h
    change Dist.ofTuples d b = _ at h
    have hkeys : ∀ a ∈ r, ∃ a' ∈ d, a'.1 = a.1 := by
      unfold Dist.ofTuples at h
      by_cases hd : Dist.IsDistribution d
      · rw [if_pos hd] at h
        by_cases hc : Dist.IsNormalized d
        · rw [if_pos hc] at h
          cases h
          exact fun a ha => ⟨a, ha, rfl⟩
        · rw [if_neg hc] at h
          cases b with
          | false => cases h; exact fun a ha => ⟨a, ha, rfl⟩
          | true =>
            rw [if_pos rfl] at h
            unfold Dist.normalize at h
            dsimp only at h
            split_ifs at h with h0 h1 h2
            · cases h; exact fun a ha => ⟨a, ha, rfl⟩
            · cases h
              intro a ha
              obtain ⟨a', ha', rfl⟩ := List.mem_map.1 ha
              exact ⟨a', ha', rfl⟩
      · rw [if_neg hd] at h; cases h
    have hpre : ∀ a ∈ d, ∃ kv ∈ l, Dist.preprocessKey kv.1 = .ok a.1 := by
      unfold Dist.preprocess at hp
      cases hm : l.mapM (fun kv => (Dist.preprocessKey kv.1).map fun t => (t, kv.2)) with
      | error e => rw [hm] at hp; cases hp
      | ok items =>
        rw [hm] at hp
        have hp' : PyDict.ofItems items = d := by injection hp
        subst hp'
        have hitems : ∀ a ∈ items, ∃ kv ∈ l, Dist.preprocessKey kv.1 = .ok a.1 := by
          clear h hkeys hp
          induction l generalizing items with
          | nil => rw [List.mapM_nil] at hm; cases hm; simp
          | cons p l ih =>
            rw [List.mapM_cons] at hm
            cases h1 : Dist.preprocessKey p.1 with
            | error e => rw [h1] at hm; cases hm
            | ok t =>
              rw [h1] at hm
              cases h2 : l.mapM (fun kv => (Dist.preprocessKey kv.1).map fun t => (t, kv.2)) with
              | error e => rw [h2] at hm; cases hm
              | ok items' =>
                rw [h2] at hm
                have hm' : (t, p.2) :: items' = items := by injection hm
                subst hm'
                intro a ha
                rcases List.mem_cons.1 ha with rfl | ha
                · exact ⟨p, by simp, h1⟩
                · obtain ⟨kv, hkv, e⟩ := ih items' h2 a ha
                  exact ⟨kv, by simp [hkv], e⟩
        intro a ha
        obtain ⟨v, hv⟩ := keys_ofItems (List.mem_map_of_mem ha)
        exact hitems (a.1, v) hv
    intro a ha
    obtain ⟨a', ha', e⟩ := hkeys a ha
    rw [← e]
    exact hpre a' ha'

theorem preprocessKey_digits (t : List ℕ) (hp : ∀ b ∈ t, b < 10) : Dist.preprocessKey (.str (Meas.digitString t)) = .ok (t.map fun x : ℕ => (x : ℤ)) := by
  have h := Dist.make_bitstrings [(t, 1)] (by simp) (by simpa using hp) false
  have h1 : Dist.make [(.tup (t.map fun x : ℕ => (x : ℤ)), (1 : ℝ))] false = .ok [((t.map fun x : ℕ => (x : ℤ)), (1 : ℝ))] := by
    have hv : Dist.Valid [((t.map fun x : ℕ => (x : ℤ)), (1 : ℝ))] := ⟨by simp, by simp, by simp, by simp, by simp⟩
    refine (Dist.make_tuples hv.distinct false).trans ?_
    unfold Dist.ofTuples
    rw [if_pos ((Dist.isDistribution_iff hv.distinct).2 hv)]
    by_cases hc : Dist.IsNormalized [((t.map fun x : ℕ => (x : ℤ)), (1 : ℝ))]
    · rw [if_pos hc]
    · rw [if_neg hc]; rfl
  have h2 : Dist.make [(.str (Meas.digitString t), (1 : ℝ))] false = .ok [((t.map fun x : ℕ => (x : ℤ)), (1 : ℝ))] := h.trans h1
  obtain ⟨kv, hkv, e⟩ := make_keys h2 _ (List.mem_singleton_self _)
  rw [List.mem_singleton.1 hkv] at e
  exact e

/-- A table whose keys are outcomes of `n` qubits, each at most once. -/
structure OfOutcomes (n : ℕ) (d : Dist.DDict) : Prop where
  valid : Dist.Valid d
  close : Dist.IsClose (Dist.total d) 1
  keys : ∀ a ∈ d, ∃ x : Fin n → Bool, a.1 = outcomeKey x

theorem make_close {l : List (Dist.Key × ℝ)} {r : Dist.DDict} (h : Dist.make l = .ok r) : Dist.IsClose (Dist.total r) 1 := by
  have := (Dist.make_sound l true r h).2 rfl
  unfold Dist.IsClose
  rw [abs_one]
  exact this.trans (le_max_left _ _)

theorem mem_product01 (n : ℕ) (k : List ℤ) (h : k ∈ Dist.product01 n) : ∃ x : Fin n → Bool, k = outcomeKey x := by
  induction n generalizing k with
  | zero => rw [Dist.product01, List.mem_singleton] at h; exact ⟨fun _ => false, by rw [h]; rfl⟩
  | succ n ih =>
    rw [Dist.product01, List.mem_append, List.mem_map, List.mem_map] at h
    rcases h with ⟨k', hk', rfl⟩ | ⟨k', hk', rfl⟩
    · obtain ⟨x, rfl⟩ := ih k' hk'
      exact ⟨Fin.cons false x, by simp [outcomeKey, List.ofFn_succ]⟩
    · obtain ⟨x, rfl⟩ := ih k' hk'
      exact ⟨Fin.cons true x, by simp [outcomeKey, List.ofFn_succ]⟩

theorem OfOutcomes.binary {n : ℕ} (hn : 0 < n) {d : Dist.DDict} (h : OfOutcomes n d) : Dist.Binary d := by
  intro a ha
  obtain ⟨x, e⟩ := h.keys a ha
  rw [e]
  refine ⟨?_, ?_⟩
  · intro e; have := congrArg List.length e; simp [outcomeKey] at this; omega
  · intro b hb
    obtain ⟨q, rfl⟩ := List.mem_ofFn.1 hb
    cases x q <;> simp

theorem OfOutcomes.pmf_other {n : ℕ} {d : Dist.DDict} {k : List ℤ} (h : k ∉ Dist.outcomes d) : Dist.pmf d k = 0 := by
  unfold Dist.pmf
  refine List.sum_eq_zero ?_
  intro v hv
  obtain ⟨kv, hkv, rfl⟩ := List.mem_map.1 hv
  rw [if_neg]
  rintro rfl
  exact h (List.mem_toFinset.2 (List.mem_map_of_mem hkv))

theorem specMMD_outcomes {n : ℕ} {t m : Dist.DDict} (ht : OfOutcomes n t) (hm : OfOutcomes n m) (K : ℤ → ℤ → ℝ) :
    Dist.specMMD K t m = ∑ x : Fin n → Bool, ∑ y : Fin n → Bool, (Dist.pmf t (outcomeKey x) - Dist.pmf m (outcomeKey x)) *
      K (Dist.binValue (outcomeKey x)) (Dist.binValue (outcomeKey y)) * (Dist.pmf t (outcomeKey y) - Dist.pmf m (outcomeKey y)) := by
  have hsub : Dist.outcomes t ∪ Dist.outcomes m ⊆ (Finset.univ : Finset (Fin n → Bool)).image outcomeKey := by
    intro k hk
    rw [Finset.mem_image]
    rcases Finset.mem_union.1 hk with hk | hk
    · obtain ⟨a, ha, rfl⟩ := List.mem_map.1 (List.mem_toFinset.1 hk)
      obtain ⟨x, e⟩ := ht.keys a ha
      exact ⟨x, Finset.mem_univ _, e.symm⟩
    · obtain ⟨a, ha, rfl⟩ := List.mem_map.1 (List.mem_toFinset.1 hk)
      obtain ⟨x, e⟩ := hm.keys a ha
      exact ⟨x, Finset.mem_univ _, e.symm⟩
  have hz : ∀ k, k ∉ Dist.outcomes t ∪ Dist.outcomes m → Dist.pmf t k - Dist.pmf m k = 0 := by
    intro k hk
    rw [Finset.mem_union, not_or] at hk
    rw [OfOutcomes.pmf_other (n := n) hk.1, OfOutcomes.pmf_other (n := n) hk.2, sub_zero]
  have hsum : ∀ f : List ℤ → ℝ, (∀ k, k ∉ Dist.outcomes t ∪ Dist.outcomes m → f k = 0) → ∑ k ∈ Dist.outcomes t ∪ Dist.outcomes m, f k = ∑ x : Fin n → Bool, f (outcomeKey x) := by
    intro f hf
    rw [Finset.sum_subset hsub fun k _ hk => hf k hk, Finset.sum_image fun x _ y _ e => outcomeKey_injective n e]
  unfold Dist.specMMD
  rw [hsum]
  · refine Finset.sum_congr rfl fun x _ => ?_
    rw [hsum]
    intro k hk
    rw [hz k hk, mul_zero]
  · intro k hk
    refine Finset.sum_eq_zero fun b _ => ?_
    rw [hz k hk, zero_mul, zero_mul]

theorem getDistribution_outcomes {n s : ℕ} (hs : 0 < s) (d : Fin s → (Fin n → Bool)) :
    ∃ r, Meas.getDistribution (List.ofFn fun j => bits (d j)) = .ok r ∧ OfOutcomes n r ∧ Dist.total r = 1 ∧
      ∀ x : Fin n → Bool, Dist.pmf r (outcomeKey x) = ∑ j, (if d j = x then 1 else 0) / (s : ℝ) := by
  have hb : ∀ x : Fin n → Bool, ∀ b ∈ bits x, b < 10 := by
    intro x b hb
    obtain ⟨q, rfl⟩ := List.mem_ofFn.1 hb
    cases x q <;> simp
  have hm : ∀ t ∈ List.ofFn fun j => bits (d j), t.length = n ∧ ∀ b ∈ t, b < 10 := by
    intro t ht
    obtain ⟨j, rfl⟩ := List.mem_ofFn.1 ht
    exact ⟨by simp [bits], hb _⟩
  obtain ⟨r, h1, h2, h3⟩ := Meas.getDistribution_spec n (List.ofFn fun j => bits (d j)) (by intro e; have := congrArg List.length e; simp at this; omega) hm
  have hinj : Function.Injective (bits (n := n)) := by
    intro x y h
    refine outcomeKey_injective n ?_
    rw [outcomeKey_eq, outcomeKey_eq, h]
  refine ⟨r, h1, ⟨(Dist.make_sound _ true r h1).1, make_close h1, ?_⟩, h2, fun x => ?_⟩
  · intro a ha
    obtain ⟨kv, hkv, e⟩ := make_keys h1 a ha
    obtain ⟨kv', hkv', rfl⟩ := List.mem_map.1 hkv
    have hk : kv'.1 ∈ PyDict.keys (Meas.getCounts (List.ofFn fun j => bits (d j))) := List.mem_map_of_mem hkv'
    unfold Meas.getCounts at hk
    rw [PyDict.mem_keys_counter, Meas.tuplesToBitstrings_eq _ fun t ht => (hm t ht).2] at hk
    obtain ⟨t, ht, e'⟩ := List.mem_map.1 hk
    obtain ⟨j, rfl⟩ := List.mem_ofFn.1 ht
    refine ⟨d j, ?_⟩
    dsimp only at e
    rw [← e', preprocessKey_digits _ (hb _)] at e
    injection e with e
    rw [← e, outcomeKey_eq]
  · rw [outcomeKey_eq, h3 _ (hb x), List.length_ofFn, ← Finset.sum_div]
    congr 1
    clear h1 h2 h3 hm hs
    induction s with
    | zero => simp
    | succ s ih =>
      rw [List.ofFn_succ, List.count_cons, Nat.cast_add, ih fun j => d j.succ, Fin.sum_univ_succ, add_comm]
      congr 1
      by_cases h : d 0 = x
      · simp [h]
      · rw [if_neg h, if_neg]
        · simp
        · intro e; exact h (hinj (by simpa using e))

/-- The exact distribution. -/
theorem exact_outcomes {ρ : String → ℂ} {c : Circuit} (hc : Unitary ρ c) (st : St ℕ) :
    ∃ d, (exactDistribution (symbolic ρ) ρ c st).1 = .ok d ∧ OfOutcomes c.n d ∧ ∀ x, Dist.pmf d (outcomeKey x) = born ρ c x := by
  obtain ⟨d, h1, h2⟩ := exactDistribution_spec (symbolic ρ) ρ (fun _ _ _ => rfl) c hc st
  obtain ⟨w, g1, g2, g3, g4, g5, -, -⟩ := wavefunction_amplitudes (symbolic ρ) ρ (fun _ _ _ => rfl) c hc st
  have hd : Dist.ofProbabilities ((amplitudes w).map Complex.normSq) = .ok d := by
    have h := h1
    unfold exactDistribution at h
    cases hg : getWavefunction (symbolic ρ) ρ c none st with
    | mk r st' =>
      rw [hg] at g1 h
      dsimp only at g1
      subst g1
      dsimp only at h
      rw [g5] at h
      exact h
  refine ⟨d, h1, ?_, fun x => by rw [outcomeKey_eq]; exact h2 x⟩
  unfold Dist.ofProbabilities at hd
  have hl : ((amplitudes w).map Complex.normSq).length = 2 ^ c.n := by rw [List.length_map, g2]
  rw [if_neg (by rw [hl]; positivity)] at hd
  refine ⟨(Dist.make_sound _ true d hd).1, make_close hd, ?_⟩
  intro a ha
  obtain ⟨kv, hkv, e⟩ := make_keys hd a ha
  obtain ⟨kv', hkv', rfl⟩ := List.mem_map.1 hkv
  rw [hl, Nat.log2_two_pow] at hkv'
  have hk := (List.of_mem_zip hkv').1
  obtain ⟨x, hx⟩ := mem_product01 _ _ hk
  refine ⟨x, ?_⟩
  rw [← hx]
  injection e with e
  exact e.symm

/-- The draws behind a measured distribution. -/
theorem measured_outcomes (P : Measure Ω) [IsProbabilityMeasure P] {r : Ω → Randomness} {seed : Option ℕ} (hr : Promised P r seed) {ρ : String → ℂ} {c : Circuit} (hc : Unitary ρ c)
    (hn : 0 < c.n) {s : ℕ} (hs : 0 < s) (st : St ℕ) :
    ∃ (S : Fin s → Ω → (Fin c.n → Bool)) (D : Ω → Dist.DDict), (∀ j, Measurable (S j)) ∧ iIndepFun S P ∧ (∀ j x, P.real {ω | S j ω = x} = born ρ c x) ∧
      ∀ ω, (outcomeDistribution (r ω) seed ρ c (some (s : ℤ)) st).1 = .ok (D ω) ∧ OfOutcomes c.n (D ω) ∧ Dist.total (D ω) = 1 ∧ ∀ x, Dist.pmf (D ω) (outcomeKey x) = freq S x ω := by
  have hU : ∀ j, Uniform P fun ω => defaultRng (r ω) seed st.world j := by
    cases seed with
    | none => exact fun j => hr.1 st.world j
    | some k => exact fun j => hr.1 j
  have hI : iIndepFun (fun (j : ℕ) ω => defaultRng (r ω) seed st.world j) P := by
    cases seed with
    | none => exact hr.2.precomp (g := fun j : ℕ => (st.world, j)) fun a b h => (Prod.ext_iff.1 h).2
    | some k => exact hr.2
  let S : Fin s → Ω → (Fin c.n → Bool) := fun j ω => outcome ρ c (defaultRng (r ω) seed st.world j)
  have key : ∀ ω, ∃ d, (outcomeDistribution (r ω) seed ρ c (some (s : ℤ)) st).1 = .ok d ∧ OfOutcomes c.n d ∧ Dist.total d = 1 ∧ ∀ x, Dist.pmf d (outcomeKey x) = freq S x ω := by
    intro ω
    obtain ⟨d, h1, h2, h3, h4⟩ := getDistribution_outcomes hs fun j => S j ω
    refine ⟨d, ?_, h2, h3, h4⟩
    have e1 := symbolicRun_stream (fun j => (hU j).range ω) hc hn s hs st
    have e2 : (simRun (r ω) seed ρ c (some (s : ℤ)) st).1 = .ok (List.ofFn fun j : Fin s => bits (S j ω)) := e1
    unfold outcomeDistribution
    dsimp only
    cases hg : simRun (r ω) seed ρ c (some (s : ℤ)) st with
    | mk o st' =>
      rw [hg] at e2
      dsimp only at e2
      subst e2
      exact h1
  choose D hD using key
  refine ⟨S, D, fun j => (measurable_outcome ρ c).comp (hU j).measurable, ?_, fun j x => outcome_law (hU j) hc x, hD⟩
  exact (hI.precomp (g := fun j : Fin s => (j : ℕ)) Fin.val_injective).comp (fun _ => outcome ρ c) fun _ => measurable_outcome ρ c

/-! ### C129 -/

/-- C129. A measured distribution is unbiased: asking the simulator for the distribution of outcomes from `s` samples always succeeds with a distribution of total 1, the probability it reports for each
outcome `x` is `|ψ(x)|²` on average, with variance `p (1 - p) / s`; the reports for two outcomes `x ≠ y` have covariance `- p_x p_y / s`. -/
theorem distribution_unbiased (P : Measure Ω) [IsProbabilityMeasure P] {r : Ω → Randomness} {seed : Option ℕ} (hr : Promised P r seed) {ρ : String → ℂ} {c : Circuit} (hc : Unitary ρ c)
    (hn : 0 < c.n) {s : ℕ} (hs : 0 < s) (st : St ℕ) :
    ∃ D : Ω → List (List ℤ × ℝ), (∀ ω, (outcomeDistribution (r ω) seed ρ c (some (s : ℤ)) st).1 = .ok (D ω) ∧ Dist.Valid (D ω) ∧ Dist.total (D ω) = 1) ∧
      ∀ x : Fin c.n → Bool, MemLp (fun ω => Dist.pmf (D ω) (outcomeKey x)) 2 P ∧
        P[fun ω => Dist.pmf (D ω) (outcomeKey x)] = born ρ c x ∧
        Var[fun ω => Dist.pmf (D ω) (outcomeKey x); P] = born ρ c x * (1 - born ρ c x) / s ∧
        ∀ y, y ≠ x → cov[fun ω => Dist.pmf (D ω) (outcomeKey x), fun ω => Dist.pmf (D ω) (outcomeKey y); P] = -(born ρ c x * born ρ c y) / s := by
  obtain ⟨S, D, hS, hI, hlaw, hD⟩ := measured_outcomes P hr hc hn hs st
  refine ⟨D, fun ω => ⟨(hD ω).1, (hD ω).2.1.valid, (hD ω).2.2.1⟩, fun x => ?_⟩
  have hp : ∀ x, (fun ω => Dist.pmf (D ω) (outcomeKey x)) = freq S x := fun x => funext fun ω => (hD ω).2.2.2 x
  simp only [hp]
  refine ⟨freq_memLp hS x, freq_mean hs hS hlaw x, ?_, fun y hy => ?_⟩
  · rw [← covariance_self (freq_memLp hS x).aestronglyMeasurable.aemeasurable, freq_covariance hs hS hI hlaw, if_pos rfl]
    ring
  · rw [freq_covariance hs hS hI hlaw, if_neg hy.symm, zero_sub]

/-- C129. The probability that the reported probability of an outcome is off by `δ` or more is at most `p (1 - p) / (s δ²)`. -/
theorem distribution_error (P : Measure Ω) [IsProbabilityMeasure P] {r : Ω → Randomness} {seed : Option ℕ} (hr : Promised P r seed) {ρ : String → ℂ} {c : Circuit} (hc : Unitary ρ c)
    (hn : 0 < c.n) {s : ℕ} (hs : 0 < s) (st : St ℕ) (x : Fin c.n → Bool) {δ : ℝ} (hδ : 0 < δ) :
    P {ω | ∃ d, (outcomeDistribution (r ω) seed ρ c (some (s : ℤ)) st).1 = .ok d ∧ δ ≤ |Dist.pmf d (outcomeKey x) - born ρ c x|} ≤
      ENNReal.ofReal (born ρ c x * (1 - born ρ c x) / s / δ ^ 2) := by
  obtain ⟨D, h1, h2⟩ := distribution_unbiased P hr hc hn hs st
  obtain ⟨m1, m2, m3, -⟩ := h2 x
  refine le_trans (measure_mono ?_) (m3 ▸ meas_ge_le_variance_div_sq m1 hδ)
  rintro ω ⟨d, hd, hδ⟩
  rw [(h1 ω).1] at hd
  cases hd
  show δ ≤ |Dist.pmf (D ω) (outcomeKey x) - P[fun ω => Dist.pmf (D ω) (outcomeKey x)]|
  rw [m2]
  exact hδ

theorem mmd_general (P : Measure Ω) [IsProbabilityMeasure P] {r : Ω → Randomness} {seed : Option ℕ} (hr : Promised P r seed) {ρ : String → ℂ} {c : Circuit} (hc : Unitary ρ c)
    (hn : 0 < c.n) {s : ℕ} (hs : 0 < s) (st st' : St ℕ) (K : ℤ → ℤ → ℝ) :
    ∃ (E : Dist.DDict) (D : Ω → Dist.DDict) , (exactDistribution (symbolic ρ) ρ c st').1 = .ok E ∧ (∀ ω, (outcomeDistribution (r ω) seed ρ c (some (s : ℤ)) st).1 = .ok (D ω)) ∧
      OfOutcomes c.n E ∧ (∀ ω, OfOutcomes c.n (D ω)) ∧ Integrable (fun ω => Dist.specMMD K E (D ω)) P ∧
      ∫ ω, Dist.specMMD K E (D ω) ∂P = (∑ x, born ρ c x * K (Dist.binValue (outcomeKey x)) (Dist.binValue (outcomeKey x)) -
        ∑ x, ∑ y, born ρ c x * born ρ c y * K (Dist.binValue (outcomeKey x)) (Dist.binValue (outcomeKey y))) / s := by
  obtain ⟨S, D, hS, hI, hlaw, hD⟩ := measured_outcomes P hr hc hn hs st
  obtain ⟨E, e1, e2, e3⟩ := exact_outcomes hc st'
  have hV : ∀ ω, Dist.specMMD K E (D ω) = ∑ x, ∑ y, (born ρ c x - freq S x ω) * K (Dist.binValue (outcomeKey x)) (Dist.binValue (outcomeKey y)) * (born ρ c y - freq S y ω) := by
    intro ω
    rw [specMMD_outcomes e2 (hD ω).2.1]
    simp only [e3, (hD ω).2.2.2]
  obtain ⟨q1, q2⟩ := freq_quadratic (P := P) hs hS hI hlaw fun x y => K (Dist.binValue (outcomeKey x)) (Dist.binValue (outcomeKey y))
  refine ⟨E, D, e1, fun ω => (hD ω).1, e2, fun ω => (hD ω).2.1, ?_, ?_⟩
  · simp only [hV]; exact q1
  · simp only [hV]; exact q2

/-- Specification: the probability that two independent measurements of `c` look alike to the Gaussian kernel. -/
noncomputable def overlap (ρ : String → ℂ) (c : Circuit) (sigma : ℝ) : ℝ :=
  ∑ x, ∑ y, born ρ c x * born ρ c y * Dist.gauss sigma (Dist.binValue (outcomeKey x)) (Dist.binValue (outcomeKey y))

/-- C129. The distance between the exact and a measured distribution: `evaluate_distribution_distance` with `compute_mmd` and a bandwidth `sigma > 0` never fails on the two; its value is not negative,
and on average it is `(1 - overlap) / s`, so at most `1 / s`: the distance vanishes as the number of samples grows. -/
theorem distance_mean (P : Measure Ω) [IsProbabilityMeasure P] {r : Ω → Randomness} {seed : Option ℕ} (hr : Promised P r seed) {ρ : String → ℂ} {c : Circuit} (hc : Unitary ρ c)
    (hn : 0 < c.n) {s : ℕ} (hs : 0 < s) (st st' : St ℕ) {sigma : ℝ} (hsig : 0 < sigma) :
    ∃ (E : List (List ℤ × ℝ)) (D : Ω → List (List ℤ × ℝ)) (V : Ω → ℝ),
      (∀ r', (outcomeDistribution r' seed ρ c none st').1 = .ok E) ∧ (∀ ω, (outcomeDistribution (r ω) seed ρ c (some (s : ℤ)) st).1 = .ok (D ω)) ∧
      (∀ ω keys, Dist.Enumerates keys E (D ω) → Dist.evaluateDistance E (D ω) (fun t m => Dist.mmd keys t m (.one sigma)) = .ok (V ω)) ∧
      (∀ ω, 0 ≤ V ω) ∧ Integrable V P ∧ P[V] = (1 - overlap ρ c sigma) / s ∧ P[V] ≤ 1 / (s : ℝ) ∧
      ∀ δ, 0 < δ → P {ω | δ ≤ V ω} ≤ ENNReal.ofReal (1 / (s * δ)) := by
  obtain ⟨E, D, e1, d1, e2, d2, h1, h2⟩ := mmd_general P hr hc hn hs st st' (Dist.gauss sigma)
  have hs' : (0 : ℝ) < s := by exact_mod_cast hs
  have hdiag : ∀ z : ℤ, Dist.gauss sigma z z = 1 := by intro z; simp [Dist.gauss]
  have hmean : ∫ ω, Dist.specMMD (Dist.gauss sigma) E (D ω) ∂P = (1 - overlap ρ c sigma) / s := by
    rw [h2]
    simp only [hdiag, mul_one]
    rw [show ∑ x, born ρ c x = 1 from output_normalised hc]
    rfl
  have hle : (1 - overlap ρ c sigma) / s ≤ 1 / s := by
    refine div_le_div_of_nonneg_right ?_ hs'.le
    have : 0 ≤ overlap ρ c sigma := Finset.sum_nonneg fun x _ => Finset.sum_nonneg fun y _ => mul_nonneg (mul_nonneg (Complex.normSq_nonneg _) (Complex.normSq_nonneg _)) (Real.exp_pos _).le
    linarith
  have hnn : ∀ ω, 0 ≤ Dist.specMMD (Dist.gauss sigma) E (D ω) := fun ω => Dist.specMMD_nonneg _ _ _ hsig
  refine ⟨E, D, fun ω => Dist.specMMD (Dist.gauss sigma) E (D ω), fun _ => e1, d1, fun ω keys hk => ?_, hnn, h1, hmean, hmean ▸ hle, fun δ hδ => ?_⟩
  · rw [(Dist.evaluateDistance_spec E (D ω) e2.valid (d2 ω).valid _).2.1]
    · exact Dist.mmd_spec E (D ω) e2.valid.distinct (d2 ω).valid.distinct (e2.binary hn) ((d2 ω).binary hn) sigma hsig.ne' keys hk
    · intro a ha b hb
      obtain ⟨x, hx⟩ := e2.keys a ha
      obtain ⟨y, hy⟩ := (d2 ω).keys b hb
      rw [hx, hy]
      simp [outcomeKey]
    · exact ⟨fun _ => (d2 ω).close, fun _ => e2.close⟩
  · have hm := mul_meas_ge_le_integral_of_nonneg (μ := P) (f := fun ω => Dist.specMMD (Dist.gauss sigma) E (D ω)) (Filter.Eventually.of_forall hnn) h1 δ
    rw [hmean] at hm
    have hreal : P.real {ω | δ ≤ Dist.specMMD (Dist.gauss sigma) E (D ω)} ≤ 1 / (s * δ) := by
      rw [← div_div, le_div_iff₀ hδ, mul_comm]
      exact hm.trans hle
    rw [measureReal_def] at hreal
    exact (ENNReal.le_ofReal_iff_toReal_le (measure_ne_top _ _) (by positivity)).2 hreal

/-- C129. A simulator with a seed reports the same measured distribution each time: averaging the reports of several calls does not bring them closer to the exact distribution. -/
theorem seeded_distribution_same (r : Randomness) (k : ℕ) (ρ : String → ℂ) (c : Circuit) (n : ℤ) (st st' : St ℕ) :
    (outcomeDistribution r (some k) ρ c (some n) st).1 = (outcomeDistribution r (some k) ρ c (some n) st').1 := by
  have h := seeded_same r k ρ c (some n) st st'
  unfold outcomeDistribution
  dsimp only
  cases hg : simRun r (some k) ρ c (some n) st with
  | mk o st1 =>
    cases hg' : simRun r (some k) ρ c (some n) st' with
    | mk o' st1' =>
      rw [hg, hg'] at h
      dsimp only at h
      subst h
      cases o <;> rfl

/-- Non-vacuity: there are random numbers as promised, with and without a seed. -/
example (seed : Option ℕ) : ∃ (Ω : Type) (_ : MeasurableSpace Ω) (P : Measure Ω) (_ : IsProbabilityMeasure P) (r : Ω → Randomness), Promised P r seed := by
  obtain ⟨Ω, i, P, hP, r, h1, h2⟩ := randomness_exists
  refine ⟨Ω, i, P, hP, r, ?_⟩
  cases seed with
  | none => exact h1
  | some s => exact h2 s

/-- Non-vacuity: the two-qubit circuit `RY(-π/2)` on qubit 0. -/
example : Unitary (fun _ => 0) ⟨contextGate (0, .X), 2⟩ ∧ 0 < (⟨contextGate (0, .X), 2⟩ : Circuit).n :=
  ⟨⟨by intro h; simp at h, fun op hop => (contextGate_ok (n := 2) (f := (0, .X)) (fun _ => 0) (by norm_num) op hop).1,
    fun op hop => (contextGate_ok (n := 2) (f := (0, .X)) (fun _ => 0) (by norm_num) op hop).2⟩, by norm_num⟩

end ZQ.Stat
