import Verif.Lemmas.Sampling

/-! # Sampling to a representing distribution (C24) -/

namespace ZQ.Meas

open ZQ.PyDict

/-- What is assumed of `np.random.choice(keys, n, p=values)`: it accepts every table of non-negative entries that sum to 1 (up to the
tolerance of `isclose`), and returns `n` keys of positive weight. Nothing else: any sequence of draws is allowed. -/
structure LawfulChooser (choose : Chooser) : Prop where
  draws : ∀ call d n l, choose call d n = .ok l → l.length = n ∧ ∀ k ∈ l, 0 < Dist.pmf d k
  accepts : ∀ call d n, Dist.Valid d → Dist.IsNormalized d → ∃ l, choose call d n = .ok l

/-- Number of samples that plain rounding of `n * p` gives. -/
noncomputable def rounded (d : List (Outcome × ℝ)) (n : ℕ) : ℤ := (d.map fun kv => pyRound (kv.2 * (n : ℝ))).sum

theorem pmf_of_mem {d : Dist.DDict} (hd : (keys d).Nodup) {k : Outcome} {v : ℝ} (h : (k, v) ∈ d) : Dist.pmf d k = v := by
  rw [← Dist.prob_eq_pmf hd, Dist.prob, get?_of_mem hd h]; rfl

theorem pmf_nonneg {d : Dist.DDict} (hv : Dist.Valid d) (k : Outcome) : 0 ≤ Dist.pmf d k := by
  by_cases hk : k ∈ keys d
  · obtain ⟨kv, hkv, rfl⟩ := List.mem_map.1 hk
    rw [pmf_of_mem hv.distinct hkv]; exact hv.valNonneg kv hkv
  · rw [Dist.pmf_not_mem hk]

theorem bitstrings_count {d : Dist.DDict} (hv : Dist.Valid d) (n : ℕ) (k : Outcome) :
    ((d.flatMap fun kv => List.replicate (pyRound (kv.2 * (n : ℝ))).toNat kv.1).count k : ℤ) = pyRound (Dist.pmf d k * n) := by
  by_cases hk : k ∈ keys d
  · obtain ⟨kv, hkv, rfl⟩ := List.mem_map.1 hk
    rw [count_flatMap_replicate d hv.distinct (fun v => (pyRound (v * (n : ℝ))).toNat) kv.1 kv.2 hkv,
      pmf_of_mem hv.distinct hkv]
    exact Int.toNat_of_nonneg (pyRound_nonneg (mul_nonneg (hv.valNonneg kv hkv) (by positivity)))
  · rw [count_flatMap_replicate_zero d (fun v => (pyRound (v * (n : ℝ))).toNat) k hk, Dist.pmf_not_mem hk, zero_mul, pyRound_zero]; rfl

theorem bitstrings_length {d : Dist.DDict} (hv : ∀ a ∈ d, 0 ≤ a.2) (n : ℕ) :
    ((d.flatMap fun kv => List.replicate (pyRound (kv.2 * (n : ℝ))).toNat kv.1).length : ℤ) = rounded d n := by
  unfold rounded
  induction d with
  | nil => rfl
  | cons p d ih =>
    rw [List.flatMap_cons, List.length_append, List.map_cons, List.sum_cons, ← ih (fun a ha => hv a (by simp [ha])),
      List.length_replicate]
    push_cast
    rw [Int.toNat_of_nonneg (pyRound_nonneg (mul_nonneg (hv p (by simp)) (by positivity)))]

theorem pmf_map (d : Dist.DDict) (hd : (keys d).Nodup) (g : ℝ → ℝ) (k : Outcome) :
    Dist.pmf (d.map fun kv => (kv.1, g kv.2)) k = if k ∈ keys d then g (Dist.pmf d k) else 0 := by
  have hd' : (keys (d.map fun kv => (kv.1, g kv.2))).Nodup := by simpa [keys, Function.comp_def] using hd
  by_cases hk : k ∈ keys d
  · obtain ⟨kv, hkv, rfl⟩ := List.mem_map.1 hk
    rw [if_pos hk, pmf_of_mem hd hkv, pmf_of_mem hd' (List.mem_map.2 ⟨kv, hkv, rfl⟩)]
  · rw [if_neg hk, Dist.pmf_not_mem (by simpa [keys, Function.comp_def] using hk)]

theorem mem_blocks {d : PyDict Outcome ℕ} {k : Outcome} (h : k ∈ d.flatMap fun kv => List.replicate kv.2 kv.1) : k ∈ keys d := by
  obtain ⟨kv, hkv, hm⟩ := List.mem_flatMap.1 h
  rw [List.mem_replicate] at hm
  exact List.mem_map.2 ⟨kv, hkv, hm.2.symm⟩

/-- Whatever the random generator returns: if the call returns, it returns exactly `n` samples, all of positive probability, and the
count of each outcome differs from `n * p` by at most 1/2 plus the total correction `|n - Σ round(n p)|`. -/
theorem representing_sound (choose : Chooser) (hc : LawfulChooser choose) (d : List (Outcome × ℝ)) (hv : Dist.Valid d) (n : ℕ)
    (r : List Outcome) (hr : representing choose d n = .ok r) :
    r.length = n ∧ (∀ k ∈ r, 0 < Dist.pmf d k) ∧
      ∀ k, |(r.count k : ℝ) - n * Dist.pmf d k| ≤ 1 / 2 + |(n : ℝ) - rounded d n| := by
  set B := d.flatMap fun kv => List.replicate (pyRound (kv.2 * (n : ℝ))).toNat kv.1 with hB
  have hcount : ∀ k, (B.count k : ℝ) = (pyRound (Dist.pmf d k * n) : ℝ) := by
    intro k
    have := bitstrings_count hv n k
    rw [← hB] at this
    exact_mod_cast this
  have hlen : (B.length : ℤ) = rounded d n := bitstrings_length hv.valNonneg n
  have hlenR : (B.length : ℝ) = (rounded d n : ℝ) := by exact_mod_cast hlen
  have hBpos : ∀ k ∈ B, 0 < Dist.pmf d k := by
    intro k hk
    have h1 : (0 : ℝ) < B.count k := by exact_mod_cast List.count_pos_iff.2 hk
    rw [hcount k] at h1
    refine lt_of_le_of_ne (pmf_nonneg hv k) fun e => ?_
    rw [← e, zero_mul, pyRound_zero] at h1
    simp at h1
  have hdist : ∀ k, |(B.count k : ℝ) - n * Dist.pmf d k| ≤ 1 / 2 := by
    intro k
    rw [hcount k, mul_comm (n : ℝ), pyRound_abs]
    have := abs_nonneg (1 / 2 - Int.fract (Dist.pmf d k * (n : ℝ)))
    linarith
  have hcorr : ∀ (E : ℕ) (b : ℕ), (b ≤ E) → |(n : ℝ) - rounded d n| = E → ∀ (x : ℝ), |x| ≤ 1 / 2 →
      |x + b| ≤ 1 / 2 + |(n : ℝ) - rounded d n| ∧ |x - b| ≤ 1 / 2 + |(n : ℝ) - rounded d n| := by
    intro E b hb hE x hx
    rw [hE]
    have hb' : (b : ℝ) ≤ E := by exact_mod_cast hb
    have hb0 : (0 : ℝ) ≤ b := by positivity
    rw [abs_le] at hx
    constructor <;> rw [abs_le] <;> constructor <;> linarith [hx.1, hx.2]
  unfold representing at hr
  simp only [] at hr
  rw [← hB] at hr
  by_cases h1 : B.length = n
  · rw [if_pos h1] at hr
    injection hr with hr
    subst hr
    refine ⟨h1, hBpos, fun k => ?_⟩
    have := abs_nonneg ((n : ℝ) - rounded d n)
    linarith [hdist k]
  · rw [if_neg h1] at hr
    cases ho : Dist.ofTuples (d.map fun kv => (kv.1, (1 : ℝ) / 2 - |1 / 2 - Int.fract (kv.2 * (n : ℝ))|)) true with
    | error e => rw [ho] at hr; cases hr
    | ok leftover =>
      obtain ⟨c, hleft⟩ := ofTuples_ok_keys ho
      rw [ho] at hr
      cases hch : choose 0 leftover (((n : ℤ) - (B.length : ℤ)).natAbs) with
      | error e =>
        have hsf : sampleFrom choose 0 leftover (((n : ℤ) - (B.length : ℤ)).natAbs) = .error e := by
          unfold sampleFrom; rw [hch]; rfl
        simp only [bind, Except.bind, hsf] at hr
        cases hr
      | ok l =>
        obtain ⟨hll, hlp⟩ := hc.draws _ _ _ _ hch
        simp only [bind, Except.bind, counter_values_draws hch] at hr
        have hE : |(n : ℝ) - rounded d n| = (((n : ℤ) - (B.length : ℤ)).natAbs : ℝ) := by
          rw [← hlenR, Nat.cast_natAbs]; push_cast; rfl
        have hkl : ∀ k ∈ keys leftover, k ∈ keys d := by
          intro k hk; rw [hleft] at hk; simpa [keys, Function.comp_def] using hk
        have hmemk : ∀ k ∈ l, k ∈ keys leftover := by
          intro k hk
          by_contra hcon
          have := hlp k hk
          rw [Dist.pmf_not_mem hcon] at this
          exact lt_irrefl _ this
        have hlpos : ∀ k ∈ l, 0 < Dist.pmf d k := by
          intro k hk
          have h2 := hlp k hk
          rw [hleft, Dist.pmf_scale, pmf_map d hv.distinct (fun v => 1 / 2 - |1 / 2 - Int.fract (v * (n : ℝ))|), if_pos (hkl k (hmemk k hk))] at h2
          refine lt_of_le_of_ne (pmf_nonneg hv k) fun e => ?_
          rw [← e] at h2
          simp at h2
        by_cases h2 : B.length < n
        · rw [if_pos h2] at hr
          injection hr with hr
          subst hr
          refine ⟨?_, ?_, ?_⟩
          · rw [List.length_append, length_blocks, sum_counter_values, hll]; omega
          · intro k hk
            rcases List.mem_append.1 hk with hk | hk
            · exact hBpos k hk
            · exact hlpos k ((mem_keys_counter l k).1 (mem_blocks hk))
          · intro k
            rw [List.count_append, count_blocks _ (counter_nodup l), getD_counter']
            have h3 : l.count k ≤ ((n : ℤ) - (B.length : ℤ)).natAbs := hll ▸ List.count_le_length
            have := (hcorr _ _ h3 hE _ (hdist k)).1
            push_cast
            rw [show (B.count k : ℝ) + l.count k - n * Dist.pmf d k = (B.count k : ℝ) - n * Dist.pmf d k + l.count k by ring]
            exact this
        · rw [if_neg h2] at hr
          unfold checkSampleElimination at hr
          cases ho2 : Dist.ofTuples leftover true with
          | error e => rw [ho2] at hr; cases hr
          | ok dist =>
            rw [ho2] at hr
            simp only [bind, Except.bind] at hr
            cases hloop : eliminationLoop choose (counter B) (leftover.length + 1) 1 (counter l) dist with
            | error e => rw [hloop] at hr; cases hr
            | ok res =>
              rw [hloop] at hr
              obtain ⟨c2, hdist2⟩ := ofTuples_ok_keys ho2
              obtain ⟨hrn, hrk, hrs, hrle⟩ := eliminationLoop_sound choose
                (fun call d n l h => ⟨(hc.draws call d n l h).1, fun k hk => by
                  by_contra hcon
                  have := (hc.draws call d n l h).2 k hk
                  rw [Dist.pmf_not_mem hcon] at this
                  exact lt_irrefl _ this⟩)
                (counter B) l.length (keys leftover).toFinset _ 1 (counter l) dist res (counter_nodup l)
                (fun k hk => List.mem_toFinset.2 (hmemk k ((mem_keys_counter l k).1 hk)))
                (fun k hk => by rw [hdist2] at hk; simpa [keys, Function.comp_def] using hk)
                (sum_counter_values l) hloop
              have hle : ∀ k, (res.flatMap fun kv => List.replicate kv.2 kv.1).count k ≤ B.count k := by
                intro k
                rw [count_blocks res hrn]
                have := hrle k
                rwa [getD_counter'] at this
              obtain ⟨r', hr', hcnt, hlen'⟩ := removeAll_spec _ B hle
              have : Except.ok r' = (Except.ok r : Except Err (List Outcome)) := by rw [← hr']; exact hr
              injection this with this
              subst this
              rw [length_blocks, hrs, hll] at hlen'
              refine ⟨by omega, ?_, ?_⟩
              · intro k hk
                refine hBpos k (List.count_pos_iff.1 ?_)
                have := List.count_pos_iff.2 hk
                rw [hcnt k] at this
                omega
              · intro k
                have hk1 := hle k
                rw [count_blocks res hrn] at hk1
                have h3 : (get? res k).getD 0 ≤ ((n : ℤ) - (B.length : ℤ)).natAbs := by
                  have hk2 : (res.flatMap fun kv => List.replicate kv.2 kv.1).count k ≤ l.length := by
                    rw [← hrs, ← length_blocks]; exact List.count_le_length
                  rw [count_blocks res hrn, hll] at hk2
                  exact hk2
                rw [hcnt k, count_blocks res hrn, Nat.cast_sub hk1]
                have := (hcorr _ _ h3 hE _ (hdist k)).2
                rw [show (B.count k : ℝ) - ((get? res k).getD 0 : ℕ) - n * Dist.pmf d k
                  = (B.count k : ℝ) - n * Dist.pmf d k - ((get? res k).getD 0 : ℕ) by ring]
                exact this

/-- The call always returns (the resampling loop ends and never runs into an impossible distribution), provided the probabilities sum to 1
up to an error that is at most half a sample. -/
theorem representing_returns (choose : Chooser) (hc : LawfulChooser choose) (d : List (Outcome × ℝ)) (hv : Dist.Valid d) (n : ℕ)
    (ht : |(n : ℝ) * Dist.total d - n| ≤ 1 / 2) : ∃ r, representing choose d n = .ok r := by
  set B := d.flatMap fun kv => List.replicate (pyRound (kv.2 * (n : ℝ))).toNat kv.1 with hB
  have hcount : ∀ k, (B.count k : ℝ) = (pyRound (Dist.pmf d k * n) : ℝ) := by
    intro k
    have := bitstrings_count hv n k
    rw [← hB] at this
    exact_mod_cast this
  set w : Outcome → ℝ := fun k => 1 / 2 - |1 / 2 - Int.fract (Dist.pmf d k * (n : ℝ))| with hwdef
  set K := keys d with hKdef
  have hw0 : ∀ k, 0 ≤ w k := by intro k; rw [hwdef]; simp only []; rw [← pyRound_abs]; exact abs_nonneg _
  have hw2 : ∀ k, w k ≤ 1 / 2 := by
    intro k; rw [hwdef]; simp only []
    have := abs_nonneg (1 / 2 - Int.fract (Dist.pmf d k * (n : ℝ))); linarith
  have hwabs : ∀ k, |(B.count k : ℝ) - n * Dist.pmf d k| = w k := by
    intro k; rw [hcount k, mul_comm (n : ℝ), pyRound_abs]
  have hKne : K ≠ [] := by rw [hKdef]; simpa [keys] using hv.nonempty
  have hKl : ∀ a ∈ K, ∀ b ∈ K, a.length = b.length := by
    intro a ha b hb
    obtain ⟨x, hx, rfl⟩ := List.mem_map.1 ha
    obtain ⟨y, hy, rfl⟩ := List.mem_map.1 hb
    exact hv.sameLength x hx y hy
  have hKnn : ∀ a ∈ K, ∀ z ∈ a, 0 ≤ z := by
    intro a ha
    obtain ⟨x, hx, rfl⟩ := List.mem_map.1 ha
    exact hv.keyNonneg x hx
  have hKn : K.Nodup := hv.distinct
  -- the leftover table
  have hinput : (d.map fun kv => (kv.1, (1 : ℝ) / 2 - |1 / 2 - Int.fract (kv.2 * (n : ℝ))|)) = table K w ∅ 1 := by
    unfold table
    rw [hKdef, keys, List.map_map]
    refine List.map_congr_left fun kv hkv => ?_
    simp only [Function.comp, hwdef]
    rw [pmf_of_mem hv.distinct hkv]
    simp
  -- sums over the keys
  have hsumB : ∑ k ∈ K.toFinset, (B.count k : ℝ) = (B.length : ℝ) := by
    have hsub : ∀ k ∈ B, k ∈ K.toFinset := by
      intro k hk
      obtain ⟨kv, hkv, hm⟩ := List.mem_flatMap.1 hk
      rw [List.mem_replicate] at hm
      rw [hm.2]
      exact List.mem_toFinset.2 (List.mem_map.2 ⟨kv, hkv, rfl⟩)
    have h1 := sum_counter_values B
    rw [sum_values_eq (counter B) (counter_nodup B) K.toFinset (fun k hk => hsub k ((mem_keys_counter B k).1 hk))] at h1
    simp only [getD_counter'] at h1
    rw [← h1]; push_cast; rfl
  have hsumP : ∑ k ∈ K.toFinset, (n : ℝ) * Dist.pmf d k = n * Dist.total d := by
    rw [← Finset.mul_sum, List.sum_toFinset _ hKn, Dist.total, hKdef, keys, List.map_map]
    congr 2
    refine List.map_congr_left fun kv hkv => ?_
    exact pmf_of_mem hv.distinct hkv
  have hnT := abs_le.1 ht
  unfold representing
  simp only []
  rw [← hB]
  by_cases h1 : B.length = n
  · rw [if_pos h1]; exact ⟨_, rfl⟩
  · rw [if_neg h1, hinput]
    have hW : 1 / 2 ≤ Dist.total (table K w ∅ 1) := by
      rw [total_table K hKn, Finset.sdiff_empty, mul_one]
      have h2 : |∑ k ∈ K.toFinset, ((B.count k : ℝ) - n * Dist.pmf d k)| ≤ ∑ k ∈ K.toFinset, w k := by
        refine (Finset.abs_sum_le_sum_abs _ _).trans ?_
        exact (Finset.sum_congr rfl fun k _ => hwabs k).le
      rw [Finset.sum_sub_distrib, hsumB, hsumP] at h2
      refine le_trans ?_ h2
      rcases lt_or_gt_of_ne h1 with h | h
      · have : (B.length : ℝ) + 1 ≤ n := by exact_mod_cast h
        rw [abs_of_nonpos (by linarith)]; linarith
      · have : (n : ℝ) + 1 ≤ B.length := by exact_mod_cast h
        rw [abs_of_nonneg (by linarith)]; linarith
    obtain ⟨c, hcpos, ho, hnorm⟩ := ofTuples_norm (valid_table K hKne hKn hKl hKnn w hw0 ∅ 1 zero_le_one)
      (half_ge_floatMin.trans (by linarith : (1 : ℝ) / 4 ≤ _))
    have htab : ∀ c1 c2, (table K w ∅ c1).map (fun kv => (kv.1, kv.2 * c2)) = table K w ∅ (c1 * c2) := by
      intro c1 c2
      unfold table
      rw [List.map_map]
      refine List.map_congr_left fun k _ => ?_
      simp only [Function.comp, mul_assoc]
    rw [htab, one_mul] at ho hnorm
    obtain ⟨l, hl⟩ := hc.accepts 0 _ (((n : ℤ) - (B.length : ℤ)).natAbs) (valid_table K hKne hKn hKl hKnn w hw0 ∅ c hcpos.le) hnorm
    obtain ⟨hll, hlp⟩ := hc.draws _ _ _ _ hl
    rw [ho]
    simp only [bind, Except.bind, counter_values_draws hl]
    by_cases h2 : B.length < n
    · rw [if_pos h2]; exact ⟨_, rfl⟩
    · rw [if_neg h2]
      have hlk : ∀ k ∈ l, k ∈ K := by
        intro k hk
        have := hlp k hk
        rw [pmf_table K hKn] at this
        by_contra hcon
        rw [if_neg (fun h => hcon h.1)] at this
        exact lt_irrefl _ this
      have hth : 1 / 2 ≤ Dist.total (table K w ∅ c) := by
        refine total_of_normalized hnorm ?_
        rw [total_table K hKn]
        exact mul_nonneg (Finset.sum_nonneg fun k _ => hw0 k) hcpos.le
      obtain ⟨c2, hc2pos, ho2, hnorm2⟩ := ofTuples_norm (valid_table K hKne hKn hKl hKnn w hw0 ∅ c hcpos.le)
        (half_ge_floatMin.trans (by linarith : (1 : ℝ) / 4 ≤ _))
      rw [htab] at ho2 hnorm2
      have hth2 : 1 / 2 ≤ Dist.total (table K w ∅ (c * c2)) := by
        refine total_of_normalized hnorm2 ?_
        rw [total_table K hKn]
        exact mul_nonneg (Finset.sum_nonneg fun k _ => hw0 k) (mul_pos hcpos hc2pos).le
      have hlenE : (l.length : ℝ) = B.length - n := by
        rw [hll]
        have : ((n : ℤ) - (B.length : ℤ)).natAbs = B.length - n := by omega
        rw [this, Nat.cast_sub (by omega)]
      obtain ⟨res, hres⟩ := eliminationLoop_ok choose hc.draws hc.accepts (counter B) l.length K hKne hKn hKl hKnn w hw0 hw2
        (by
          intro Z hZ hlt
          simp only [getD_counter'] at hlt
          have hE1 : (∑ k ∈ Z, (B.count k : ℝ)) + 1 ≤ l.length := by
            have : ∑ k ∈ Z, B.count k + 1 ≤ l.length := hlt
            exact_mod_cast this
          have hsplit := Finset.sum_sdiff (f := fun k => (B.count k : ℝ) - n * Dist.pmf d k) hZ
          rw [Finset.sum_sub_distrib (s := K.toFinset), hsumB, hsumP] at hsplit
          have hup : ∑ k ∈ K.toFinset \ Z, ((B.count k : ℝ) - n * Dist.pmf d k) ≤ ∑ k ∈ K.toFinset \ Z, w k :=
            Finset.sum_le_sum fun k _ => (le_abs_self _).trans (hwabs k).le
          have hZle : ∑ k ∈ Z, ((B.count k : ℝ) - n * Dist.pmf d k) ≤ (∑ k ∈ Z, (B.count k : ℝ)) / 2 := by
            rw [div_eq_mul_inv, Finset.sum_mul]
            refine Finset.sum_le_sum fun k _ => ?_
            have hp : 0 ≤ (n : ℝ) * Dist.pmf d k := mul_nonneg (by positivity) (pmf_nonneg hv k)
            rcases Nat.eq_zero_or_pos (B.count k) with h | h
            · rw [h]; simp; linarith
            · have h1 : (1 : ℝ) ≤ B.count k := by exact_mod_cast h
              have h2 := (le_abs_self _).trans ((hwabs k).le.trans (hw2 k))
              linarith
          have hS0 : 0 ≤ ∑ k ∈ Z, (B.count k : ℝ) := Finset.sum_nonneg fun k _ => by positivity
          linarith)
        ((table K w ∅ c).length + 1) 1 (counter l) ∅ (c * c2) (counter_nodup l)
        (fun k hk => hlk k ((mem_keys_counter l k).1 hk)) (sum_counter_values l) (by simp) (by simp)
        (by simp [table]) (mul_pos hcpos hc2pos) hth2
      have hcheck : checkSampleElimination choose 1 (counter l) B (table K w ∅ c) = .ok res := by
        unfold checkSampleElimination
        rw [ho2]
        exact hres
      rw [hcheck]
      simp only []
      obtain ⟨hrn, -, -, hrle⟩ := eliminationLoop_sound choose
        (fun call d n l h => ⟨(hc.draws call d n l h).1, fun k hk => by
          by_contra hcon
          have := (hc.draws call d n l h).2 k hk
          rw [Dist.pmf_not_mem hcon] at this
          exact lt_irrefl _ this⟩)
        (counter B) l.length K.toFinset _ 1 (counter l) _ res (counter_nodup l)
        (fun k hk => List.mem_toFinset.2 (hlk k ((mem_keys_counter l k).1 hk)))
        (fun k hk => by simpa [keys, table, Function.comp_def] using hk) (sum_counter_values l) hres
      obtain ⟨r, hr, -, -⟩ := removeAll_spec (res.flatMap fun kv => List.replicate kv.2 kv.1) B (by
        intro k
        rw [count_blocks res hrn]
        have := hrle k
        rwa [getD_counter'] at this)
      exact ⟨r, hr⟩

/-! ### The assumptions can be met -/

open Classical in
/-- A generator that always draws the first outcome of positive weight. -/
noncomputable def firstChooser : Chooser := fun _ d n =>
  match d.find? (fun kv => decide (0 < Dist.pmf d kv.1)) with
  | some kv => .ok (List.replicate n kv.1)
  | none => .error .valueError

theorem firstChooser_lawful : LawfulChooser firstChooser where
  draws := by
    intro call d n l h
    unfold firstChooser at h
    cases hf : d.find? (fun kv => decide (0 < Dist.pmf d kv.1)) with
    | none => rw [hf] at h; cases h
    | some kv =>
      rw [hf] at h
      injection h with h
      subst h
      refine ⟨by simp, fun k hk => ?_⟩
      rw [(List.mem_replicate.1 hk).2]
      simpa using List.find?_some hf
  accepts := by
    intro call d n hv hn
    unfold firstChooser
    cases hf : d.find? (fun kv => decide (0 < Dist.pmf d kv.1)) with
    | some kv => exact ⟨_, rfl⟩
    | none =>
      exfalso
      have h0 : ∀ kv ∈ d, kv.2 = 0 := by
        intro kv hkv
        have := List.find?_eq_none.1 hf kv hkv
        simp only [decide_eq_true_eq, not_lt] at this
        rw [pmf_of_mem hv.distinct hkv] at this
        exact le_antisymm this (hv.valNonneg kv hkv)
      have ht : Dist.total d = 0 := by
        unfold Dist.total
        refine List.sum_eq_zero fun x hx => ?_
        obtain ⟨kv, hkv, rfl⟩ := List.mem_map.1 hx
        exact h0 kv hkv
      have := total_of_normalized hn (by rw [ht])
      rw [ht] at this
      norm_num at this

example : ∃ r, representing firstChooser [([0], 1 / 3), ([1], 1 / 3), ([2], 1 / 3)] 100 = .ok r ∧ r.length = 100 := by
  have hv : Dist.Valid [([0], (1 : ℝ) / 3), ([1], 1 / 3), ([2], 1 / 3)] := by
    refine ⟨by simp, by simp, ?_, ?_, ?_⟩
    · intro a ha b hb; fin_cases ha <;> fin_cases hb <;> rfl
    · intro a ha; fin_cases ha <;> simp
    · intro a ha; fin_cases ha <;> norm_num
  obtain ⟨r, hr⟩ := representing_returns firstChooser firstChooser_lawful _ hv 100 (by simp [Dist.total]; norm_num)
  exact ⟨r, hr, (representing_sound firstChooser firstChooser_lawful _ hv 100 r hr).1⟩

end ZQ.Meas
