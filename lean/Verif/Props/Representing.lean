import Verif.Props.Sampling

/-!
# C130: how well samples represent a distribution
-/

namespace ZQ.Meas

open ZQ.PyDict

/-! ### Auxiliary facts -/

theorem pyRound_nat {x : ℝ} {m : ℕ} (h : x = m) : pyRound x = m := by
  subst h
  unfold pyRound
  rw [if_pos (by rw [Int.fract_natCast]; norm_num), Int.floor_natCast]

/-- Rounding is at least as close as any other integer. -/
theorem pyRound_closest (x : ℝ) (m : ℤ) : |(pyRound x : ℝ) - x| ≤ |(m : ℝ) - x| := by
  rw [pyRound_abs]
  have h1 := Int.floor_add_fract x
  have h2 := Int.fract_nonneg x
  have h3 := Int.fract_lt_one x
  rcases le_or_gt m ⌊x⌋ with h | h
  · have h' : (m : ℝ) ≤ ⌊x⌋ := by exact_mod_cast h
    rw [abs_of_nonpos (show (m : ℝ) - x ≤ 0 by linarith)]
    have := le_abs_self (1 / 2 - Int.fract x)
    linarith
  · have h' : (⌊x⌋ : ℝ) + 1 ≤ m := by exact_mod_cast h
    rw [abs_of_nonneg (show 0 ≤ (m : ℝ) - x by linarith)]
    have := neg_abs_le (1 / 2 - Int.fract x)
    linarith

/-! ### C130 -/

/-- C130. When rounding gives the right number of samples, the samples are as close to the distribution as possible: for every outcome, no other list of samples, of any length, has a count nearer to `n p`.
The random generator is not used. -/
theorem representing_closest (choose : Chooser) (d : List (Outcome × ℝ)) (hv : Dist.Valid d) (n : ℕ) (hn : rounded d n = n) :
    ∃ r, representing choose d n = .ok r ∧ r.length = n ∧ ∀ (r' : List Outcome) (k : Outcome), |(r.count k : ℝ) - n * Dist.pmf d k| ≤ |(r'.count k : ℝ) - n * Dist.pmf d k| := by
  have hl : ((d.flatMap fun kv => List.replicate (pyRound (kv.2 * (n : ℝ))).toNat kv.1).length : ℤ) = n := (bitstrings_length hv.valNonneg n).trans hn
  have hl' : (d.flatMap fun kv => List.replicate (pyRound (kv.2 * (n : ℝ))).toNat kv.1).length = n := by exact_mod_cast hl
  refine ⟨_, ?_, hl', fun r' k => ?_⟩
  · unfold representing
    dsimp only
    rw [if_pos hl']
    rfl
  · have h1 := bitstrings_count hv n k
    have h2 : ((d.flatMap fun kv => List.replicate (pyRound (kv.2 * (n : ℝ))).toNat kv.1).count k : ℝ) = (pyRound (Dist.pmf d k * n) : ℝ) := by exact_mod_cast h1
    rw [h2, mul_comm (n : ℝ)]
    exact_mod_cast pyRound_closest (Dist.pmf d k * n) (r'.count k)

/-- C130. When the distribution can be represented exactly by `n` samples, it is: each outcome occurs exactly `n p` times, whatever the random generator does. -/
theorem representing_exact (choose : Chooser) (d : List (Outcome × ℝ)) (hv : Dist.Valid d) (ht : Dist.total d = 1) (n : ℕ) (hn : ∀ k, ∃ m : ℕ, n * Dist.pmf d k = m) :
    ∃ r, representing choose d n = .ok r ∧ r.length = n ∧ ∀ k, (r.count k : ℝ) = n * Dist.pmf d k := by
  have hval : ∀ kv ∈ d, ∃ m : ℕ, kv.2 * (n : ℝ) = m := by
    intro kv hkv
    obtain ⟨m, hm⟩ := hn kv.1
    rw [pmf_of_mem hv.distinct hkv] at hm
    exact ⟨m, by rw [mul_comm]; exact hm⟩
  have hsum : ((rounded d n : ℤ) : ℝ) = n := by
    have h1 : ∀ l : List (Outcome × ℝ), (∀ kv ∈ l, ∃ m : ℕ, kv.2 * (n : ℝ) = m) → ((rounded l n : ℤ) : ℝ) = Dist.total l * n := by
      intro l
      induction l with
      | nil => intro _; simp [rounded, Dist.total]
      | cons p l ih =>
        intro h
        obtain ⟨m, hm⟩ := h p (by simp)
        have h2 := ih fun kv hkv => h kv (by simp [hkv])
        unfold rounded Dist.total at h2 ⊢
        rw [List.map_cons, List.sum_cons, List.map_cons, List.sum_cons, Int.cast_add, h2, add_mul, pyRound_nat hm, hm]
        simp
    rw [h1 d hval, ht, one_mul]
  obtain ⟨r, h1, h2, h3⟩ := representing_closest choose d hv n (by exact_mod_cast hsum)
  refine ⟨r, h1, h2, fun k => ?_⟩
  obtain ⟨m, hm⟩ := hn k
  have := h3 (List.replicate m k) k
  rw [List.count_replicate_self, hm, sub_self, abs_zero] at this
  rw [hm]
  exact sub_eq_zero.1 (abs_nonpos_iff.1 this)

/-- Non-vacuity: three quarters and one quarter, eight samples. -/
example : ∃ d : List (Outcome × ℝ), Dist.Valid d ∧ Dist.total d = 1 ∧ ∀ k, ∃ m : ℕ, (8 : ℕ) * Dist.pmf d k = m := by
  refine ⟨[([0, 1], 3 / 4), ([1, 1], 1 / 4)], ⟨by simp, by simp, by simp, by simp, by simp; norm_num⟩, by simp [Dist.total]; norm_num, fun k => ?_⟩
  by_cases h1 : [0, 1] = k
  · exact ⟨6, by subst h1; simp [Dist.pmf]; norm_num⟩
  · by_cases h2 : [1, 1] = k
    · exact ⟨2, by subst h2; simp [Dist.pmf]; norm_num⟩
    · exact ⟨0, by simp [Dist.pmf, h1, h2]⟩

/-- The uniform distribution over `2 n` outcomes. -/
noncomputable def uniformOutcomes (n : ℕ) : List (Outcome × ℝ) := (List.range (2 * n)).map fun i : ℕ => ([(i : ℤ)], 1 / (2 * n : ℝ))

theorem uniformOutcomes_valid (n : ℕ) (hn : 0 < n) : Dist.Valid (uniformOutcomes n) ∧ Dist.total (uniformOutcomes n) = 1 := by
  have hn' : (n : ℝ) ≠ 0 := by exact_mod_cast hn.ne'
  refine ⟨⟨?_, ?_, ?_, ?_, ?_⟩, ?_⟩
  · intro h; have := congrArg List.length h; simp [uniformOutcomes] at this; omega
  · unfold uniformOutcomes
    rw [List.map_map]
    refine List.Nodup.map ?_ List.nodup_range
    intro i j h
    simpa using h
  · intro a ha b hb
    obtain ⟨i, -, rfl⟩ := List.mem_map.1 ha
    obtain ⟨j, -, rfl⟩ := List.mem_map.1 hb
    rfl
  · intro a ha z hz
    obtain ⟨i, -, rfl⟩ := List.mem_map.1 ha
    rw [List.mem_singleton.1 hz]
    positivity
  · intro a ha
    obtain ⟨i, -, rfl⟩ := List.mem_map.1 ha
    positivity
  · unfold Dist.total uniformOutcomes
    rw [List.map_map, show (Prod.snd ∘ fun i : ℕ => ([(i : ℤ)], 1 / (2 * n : ℝ))) = fun _ : ℕ => 1 / (2 * n : ℝ) from rfl, List.map_const', List.sum_replicate, List.length_range, nsmul_eq_mul]
    push_cast
    field_simp

theorem pmf_uniform (n i : ℕ) (hn : 0 < n) (hi : i < 2 * n) : Dist.pmf (uniformOutcomes n) [(i : ℤ)] = 1 / (2 * n : ℝ) :=
  pmf_of_mem (uniformOutcomes_valid n hn).1.distinct (List.mem_map.2 ⟨i, List.mem_range.2 hi, rfl⟩)

/-- C130, counterexample. The samples need not be close to the distribution when rounding gives the wrong number: for every number `n` of samples there is a distribution of which each outcome is expected
half a time, for which all `n` samples can be the same outcome, although `n` samples of which none occurs more than half a time too often or too rarely exist. -/
theorem representing_counterexample (n : ℕ) (hn : 0 < n) :
    ∃ (d : List (Outcome × ℝ)) (choose : Chooser) (k : Outcome) (r r' : List Outcome), Dist.Valid d ∧ Dist.total d = 1 ∧ LawfulChooser choose ∧ n * Dist.pmf d k = 1 / 2 ∧
      representing choose d n = .ok r ∧ r.count k = n ∧ r'.length = n ∧ ∀ k, |(r'.count k : ℝ) - n * Dist.pmf d k| ≤ 1 / 2 := by
  have hn' : (n : ℝ) ≠ 0 := by exact_mod_cast hn.ne'
  obtain ⟨hv, ht⟩ := uniformOutcomes_valid n hn
  have hhalf : 1 / (2 * n : ℝ) * n = 1 / 2 := by field_simp
  have hfr : Int.fract (1 / 2 : ℝ) = 1 / 2 := Int.fract_eq_self.2 ⟨by norm_num, by norm_num⟩
  have hr0 : pyRound (1 / 2 : ℝ) = 0 := by
    unfold pyRound
    rw [hfr, if_neg (lt_irrefl _), if_neg (lt_irrefl _), show ⌊(1 / 2 : ℝ)⌋ = 0 by norm_num, if_pos (by simp)]
  have hB : (uniformOutcomes n).flatMap (fun kv => List.replicate (pyRound (kv.2 * (n : ℝ))).toNat kv.1) = [] := by
    rw [List.flatMap_eq_nil_iff]
    intro kv hkv
    obtain ⟨i, -, rfl⟩ := List.mem_map.1 hkv
    rw [hhalf, hr0]
    rfl
  have hleft : (uniformOutcomes n).map (fun kv => (kv.1, (1 : ℝ) / 2 - |1 / 2 - Int.fract (kv.2 * (n : ℝ))|)) = (List.range (2 * n)).map fun i : ℕ => ([(i : ℤ)], (1 : ℝ) / 2) := by
    unfold uniformOutcomes
    rw [List.map_map]
    refine List.map_congr_left fun i _ => ?_
    show ([(i : ℤ)], (1 : ℝ) / 2 - |1 / 2 - Int.fract (1 / (2 * n : ℝ) * n)|) = _
    rw [hhalf, hfr]
    simp
  have hvl : Dist.Valid ((List.range (2 * n)).map fun i : ℕ => ([(i : ℤ)], (1 : ℝ) / 2)) := by
    have : ((List.range (2 * n)).map fun i : ℕ => ([(i : ℤ)], (1 : ℝ) / 2)) = (uniformOutcomes n).map fun kv => (kv.1, kv.2 * (n : ℝ)) := by
      unfold uniformOutcomes
      rw [List.map_map]
      refine List.map_congr_left fun i _ => ?_
      show _ = ([(i : ℤ)], 1 / (2 * n : ℝ) * n)
      rw [hhalf]
    rw [this]
    exact hv.scale (by positivity)
  have htl : Dist.floatMin ≤ Dist.total ((List.range (2 * n)).map fun i : ℕ => ([(i : ℤ)], (1 : ℝ) / 2)) := by
    have e : Dist.total ((List.range (2 * n)).map fun i : ℕ => ([(i : ℤ)], (1 : ℝ) / 2)) = n := by
      unfold Dist.total
      rw [List.map_map, show (Prod.snd ∘ fun i : ℕ => ([(i : ℤ)], (1 : ℝ) / 2)) = fun _ : ℕ => (1 : ℝ) / 2 from rfl, List.map_const', List.sum_replicate, List.length_range, nsmul_eq_mul]
      push_cast
      ring
    rw [e]
    refine half_ge_floatMin.trans ?_
    have : (1 : ℝ) ≤ n := by exact_mod_cast hn
    linarith
  obtain ⟨c, hc, ho, hno⟩ := ofTuples_norm hvl htl
  have hfind : firstChooser 0 (((List.range (2 * n)).map fun i : ℕ => ([(i : ℤ)], (1 : ℝ) / 2)).map fun kv => (kv.1, kv.2 * c)) n = .ok (List.replicate n [0]) := by
    have hpos : 0 < Dist.pmf (((List.range (2 * n)).map fun i : ℕ => ([(i : ℤ)], (1 : ℝ) / 2)).map fun kv => (kv.1, kv.2 * c)) [0] := by
      rw [pmf_of_mem (v := 1 / 2 * c) (hvl.scale hc.le).distinct]
      · positivity
      · exact List.mem_map.2 ⟨([0], 1 / 2), List.mem_map.2 ⟨0, List.mem_range.2 (by omega), rfl⟩, rfl⟩
    unfold firstChooser
    obtain ⟨m, hm⟩ : ∃ m, 2 * n = m + 1 := ⟨2 * n - 1, by omega⟩
    rw [hm] at hpos ⊢
    rw [List.range_succ_eq_map, List.map_cons, List.map_cons] at hpos ⊢
    rw [List.find?_cons_of_pos]
    · rfl
    · simpa using hpos
  refine ⟨uniformOutcomes n, firstChooser, [0], List.replicate n [0], (List.range n).map fun i : ℕ => [(i : ℤ)], hv, ht, firstChooser_lawful, ?_, ?_, List.count_replicate_self .., by simp, ?_⟩
  · have := pmf_uniform n 0 hn (by omega)
    rw [show ([0] : Outcome) = [((0 : ℕ) : ℤ)] from rfl, this, mul_comm]
    exact hhalf
  · unfold representing
    dsimp only
    rw [hB, hleft, if_neg (by simp; omega), ho]
    simp only [List.length_nil, Nat.cast_zero, sub_zero, Int.natAbs_natCast, bind, Except.bind]
    rw [counter_values_draws hfind]
    dsimp only
    rw [if_pos hn, List.nil_append]
    show Except.ok _ = _
    congr 1
    have hcount : ∀ k, ((counter (List.replicate n ([0] : Outcome))).flatMap fun kv => List.replicate kv.2 kv.1).count k = (List.replicate n ([0] : Outcome)).count k := by
      intro k
      rw [count_blocks _ (counter_nodup _), getD_counter']
    have hperm := List.perm_iff_count.2 hcount
    exact List.perm_replicate.1 hperm
  · intro k
    by_cases hk : ∃ i : ℕ, i < 2 * n ∧ k = [(i : ℤ)]
    · obtain ⟨i, hi, rfl⟩ := hk
      rw [pmf_uniform n i hn hi, mul_comm, hhalf]
      have hnd : ((List.range n).map fun i : ℕ => [(i : ℤ)]).Nodup := List.Nodup.map (fun i j h => by simpa using h) List.nodup_range
      have : ((List.range n).map fun i : ℕ => [(i : ℤ)]).count [(i : ℤ)] ≤ 1 := List.nodup_iff_count_le_one.1 hnd _
      interval_cases h : ((List.range n).map fun i : ℕ => [(i : ℤ)]).count [(i : ℤ)] <;> norm_num [abs_le]
    · have h1 : Dist.pmf (uniformOutcomes n) k = 0 := by
        refine Dist.pmf_not_mem fun h => hk ?_
        obtain ⟨kv, hkv, rfl⟩ := List.mem_map.1 h
        obtain ⟨i, hi, rfl⟩ := List.mem_map.1 hkv
        exact ⟨i, List.mem_range.1 hi, rfl⟩
      have h2 : ((List.range n).map fun i : ℕ => [(i : ℤ)]).count k = 0 := by
        rw [List.count_eq_zero]
        intro h
        obtain ⟨i, hi, rfl⟩ := List.mem_map.1 h
        exact hk ⟨i, by have := List.mem_range.1 hi; omega, rfl⟩
      rw [h1, h2]
      norm_num

end ZQ.Meas
