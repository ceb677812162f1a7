import Verif.Props.Bits

/-!
# C18, C20, C21: Dicke states, normalisation under mutation, outcome probabilities
-/

namespace ZQ.Wavefunction

open ZQ.Bits

variable {σ : Type}

theorem checkNorm_of_sum_one (w : Wf σ) (hn : w.numpy = true ∨ w.amps.all Amp.isNum = true)
    (h : (w.amps.map ampSq).sum = 1) : checkNormalization w = true := by
  unfold checkNormalization
  dsimp only
  rw [if_pos hn, h]
  simp
  positivity

/-! ## C18 -/

/-- Specification of a Dicke state: weight-`k` basis states have amplitude `1/√C(n,k)`, the others 0. -/
noncomputable def dickeAmplitude (n k i : ℕ) : ℂ :=
  if popcount i = k then ((1 / Real.sqrt (n.choose k : ℝ) : ℝ) : ℂ) else 0

theorem mk_of_map (n : ℕ) (f : ℕ → ℂ) (h : ((List.range (2 ^ n)).map fun i => Complex.normSq (f i)).sum = 1) :
    mk? ((List.range (2 ^ n)).map fun i => (Amp.num (f i) : Amp σ)) =
      .ok ⟨true, (List.range (2 ^ n)).map fun i => Amp.num (f i)⟩ := by
  unfold mk?
  have hall : ((List.range (2 ^ n)).map fun i => (Amp.num (f i) : Amp σ)).all Amp.isNum = true := by
    simp [Amp.isNum]
  rw [if_neg (by rw [count_one_pyBin]; simp [popcount_two_pow])]
  dsimp only
  rw [hall, if_pos]
  apply checkNorm_of_sum_one
  · left; rfl
  · rw [List.map_map]; exact h

theorem dicke_normSq_sum (n k : ℕ) (hk : k ≤ n) :
    ((List.range (2 ^ n)).map fun i => Complex.normSq (dickeAmplitude n k i)).sum = 1 := by
  have hpos : (0 : ℝ) < n.choose k := by exact_mod_cast Nat.choose_pos hk
  have e : ((List.range (2 ^ n)).map fun i => Complex.normSq (dickeAmplitude n k i)) =
      (List.range (2 ^ n)).map fun i => if decide (popcount i = k) then 1 / (n.choose k : ℝ) else 0 := by
    apply List.map_congr_left
    intro i _
    unfold dickeAmplitude
    by_cases h : popcount i = k
    · simp only [h, if_true, decide_true]
      rw [Complex.normSq_ofReal, div_mul_div_comm, Real.mul_self_sqrt hpos.le, one_mul]
    · simp [h]
  rw [e, sum_ite_count, countP_popcount]
  field_simp

/-- C18: for every `n > 0` and `0 ≤ k ≤ n` the construction terminates without error and yields exactly the Dicke
state: `2^n` amplitudes, entry `i` being `1/√C(n,k)` iff `i` has `k` one bits, else 0. -/
theorem dickeState_spec (n k : ℕ) (hn : 0 < n) (hk : k ≤ n) :
    (dickeState (n : ℤ) (k : ℤ) : Option (Except Err (Wf σ))) =
      some (.ok ⟨true, (List.range (2 ^ n)).map fun i => Amp.num (dickeAmplitude n k i)⟩) := by
  have hzero : ((List.replicate (2 ^ n) (Amp.num 0 : Amp σ)).set 0 (.num 1)) =
      (List.range (2 ^ n)).map fun i => Amp.num (dickeAmplitude n 0 i) := by
    apply List.ext_getElem?
    intro j
    by_cases hj : j < 2 ^ n
    · rw [List.getElem?_set, List.getElem?_map, List.getElem?_range hj]
      simp only [List.length_replicate, List.getElem?_replicate, hj, Option.map_some, if_true,
        dickeAmplitude, popcount_eq_zero]
      by_cases h0 : j = 0
      · subst h0; simp
      · simp [h0, Ne.symm h0]
    · rw [List.getElem?_eq_none (by simp; omega), List.getElem?_eq_none (by simp; omega)]
  have hz : (zeroState (n : ℤ) : Except Err (Wf σ)) =
      .ok ⟨true, (List.range (2 ^ n)).map fun i => Amp.num (dickeAmplitude n 0 i)⟩ := by
    unfold zeroState
    rw [if_neg (by omega), Int.toNat_natCast, hzero]
    exact mk_of_map n _ (dicke_normSq_sum n 0 (by omega))
  unfold dickeState
  rw [hz]
  dsimp only
  rw [if_neg (by omega), if_neg (by omega)]
  by_cases h0 : (k : ℤ) = 0
  · rw [if_pos h0]
    have : k = 0 := by omega
    subst this; rfl
  · rw [if_neg h0, Int.toNat_natCast, Int.toNat_natCast, dickeIndices_eq n k (by omega) hk]
    simp only [Option.map_some, Option.some.injEq, countP_popcount]
    have : setMany (List.replicate (2 ^ n) (Amp.num 0 : Amp σ))
        ((List.range (2 ^ n)).filter fun i => decide (popcount i = k))
        (.num ((1 / Real.sqrt (n.choose k : ℝ) : ℝ) : ℂ)) =
        (List.range (2 ^ n)).map fun i => Amp.num (dickeAmplitude n k i) := by
      rw [setMany_replicate]
      apply List.map_congr_left
      intro i _
      unfold dickeAmplitude
      by_cases h : popcount i = k <;> simp [h]
    rw [this]
    exact mk_of_map n _ (dicke_normSq_sum n k hk)

/-- C18: invalid arguments are rejected (`n ≤ 0`, negative weight, or weight above `n`). -/
theorem dickeState_rejects (n k : ℤ) (h : n ≤ 0 ∨ k < 0 ∨ n < k) :
    (dickeState n k : Option (Except Err (Wf σ))) = some (.error .valueError) := by
  unfold dickeState
  by_cases hn : n ≤ 0
  · have : (zeroState n : Except Err (Wf σ)) = .error .valueError := by
      unfold zeroState; rw [if_pos hn]
    rw [this]
  · have hz : (zeroState n : Except Err (Wf σ)) =
      .error .valueError ∨ ∃ w, (zeroState n : Except Err (Wf σ)) = .ok w := by
      unfold zeroState mk?
      rw [if_neg hn]
      split
      · left; rfl
      · dsimp only
        split
        · right; exact ⟨_, rfl⟩
        · left; rfl
    rcases hz with hz | ⟨w, hz⟩
    · rw [hz]
    · rw [hz]
      dsimp only
      by_cases h1 : k < 0
      · rw [if_pos h1]
      · rw [if_neg h1, if_pos (by omega)]

example : (0 : ℕ) < 3 ∧ 2 ≤ 3 ∧ dickeIndices 3 2 = some [3, 5, 6] := by decide +kernel

/-- C18: the successor step really is the next number of equal weight (nothing skipped, nothing repeated). -/
theorem nextSameWeight_is_successor (v : ℕ) (hv : 0 < v) :
    ∃ w : ℕ, nextSameWeight v = w ∧ v < w ∧ popcount w = popcount v ∧
      ∀ u, v < u → u < w → popcount u ≠ popcount v := nextSameWeight_spec v hv

/-! ## C20 -/

/-- Specification of a valid wavefunction: power-of-two length; if all entries are numbers their squared moduli
sum to 1 up to numpy's `isclose` tolerance, otherwise the numeric entries sum to at most 1. -/
def Valid (w : Wf σ) : Prop :=
  (∃ n, w.amps.length = 2 ^ n) ∧
  (w.numpy = true → ∀ a ∈ w.amps, ∃ z, a = Amp.num z) ∧
  ((∀ a ∈ w.amps, ∃ z, a = Amp.num z) →
      |(w.amps.map ampSq).sum - 1| ≤ 1 / 10 ^ 8 + 1 / 10 ^ 5) ∧
  ((∃ a ∈ w.amps, ∃ s, a = Amp.sym s) → (w.amps.map ampSq).sum ≤ 1)

theorem all_isNum_iff (l : List (Amp σ)) : l.all Amp.isNum = true ↔ ∀ a ∈ l, ∃ z, a = Amp.num z := by
  rw [List.all_eq_true]
  constructor
  · intro h a ha
    have := h a ha
    cases a with
    | num z => exact ⟨z, rfl⟩
    | sym s => simp [Amp.isNum] at this
  · intro h a ha
    obtain ⟨z, rfl⟩ := h a ha
    rfl

theorem check_valid (w : Wf σ) (hl : ∃ n, w.amps.length = 2 ^ n)
    (hnp : w.numpy = true → ∀ a ∈ w.amps, ∃ z, a = Amp.num z)
    (h : checkNormalization w = true) : Valid w := by
  unfold checkNormalization at h
  refine ⟨hl, hnp, ?_, ?_⟩
  · intro hall
    dsimp only at h
    rw [if_pos (Or.inr ((all_isNum_iff _).2 hall))] at h
    simpa using h
  · rintro ⟨a, ha, s, rfl⟩
    dsimp only at h
    rw [if_neg] at h
    · simpa using h
    · rintro (h1 | h1)
      · obtain ⟨z, hz⟩ := hnp h1 _ ha; cases hz
      · obtain ⟨z, hz⟩ := (all_isNum_iff _).1 h1 _ ha; cases hz

/-- C20: whatever the constructor accepts is valid, and its entries are the given ones. -/
theorem mk_valid (amps : List (Amp σ)) (w : Wf σ) (h : mk? amps = .ok w) :
    Valid w ∧ w.amps = amps := by
  unfold mk? at h
  split at h
  · cases h
  · rename_i hc
    dsimp only at h
    split at h
    · rename_i hn
      cases h
      refine ⟨check_valid _ ?_ ?_ hn, rfl⟩
      · apply exists_eq_two_pow_of_popcount
        rw [← count_one_pyBin]; simpa using hc
      · intro h; exact (all_isNum_iff _).1 h
    · cases h

/-- C20: the constructor rejects every vector whose length is not a power of two. -/
theorem mk_rejects_size (amps : List (Amp σ)) (h : ∀ n, amps.length ≠ 2 ^ n) :
    mk? amps = .error .valueError := by
  unfold mk?
  rw [if_pos]
  intro hc
  rw [count_one_pyBin] at hc
  obtain ⟨n, hn⟩ := exists_eq_two_pow_of_popcount _ hc
  exact h n hn

/-- C20: one assignment: validity and length are preserved; if it raises, nothing changed; if it does not, exactly the
addressed entry changed. -/
theorem setItem_spec (w : Wf σ) (idx : ℤ) (val : Amp σ) (hv : Valid w) :
    Valid (setItem w idx val).1 ∧
    (setItem w idx val).1.amps.length = w.amps.length ∧
    ((setItem w idx val).2 ≠ none → (setItem w idx val).1 = w) ∧
    ((setItem w idx val).2 = none →
      ∃ i, i < w.amps.length ∧ ((i : ℤ) = idx ∨ (i : ℤ) = idx + w.amps.length) ∧
        (setItem w idx val).1.amps = w.amps.set i val) := by
  unfold setItem
  cases hp : pyIndex w.amps.length idx with
  | none => simp [hv]
  | some i =>
    cases hg : w.amps[i]? with
    | none => simp [hg, hv]
    | some old =>
      have hi : i < w.amps.length := by
        by_contra hne
        rw [List.getElem?_eq_none (by omega)] at hg; cases hg
      have hii : (i : ℤ) = idx ∨ (i : ℤ) = idx + w.amps.length := by
        unfold pyIndex at hp
        split at hp
        · simp only [Option.some.injEq] at hp; omega
        · split at hp
          · simp only [Option.some.injEq] at hp; omega
          · cases hp
      have hold : (w.amps.set i val).set i old = w.amps := by
        rw [List.set_set]
        apply List.ext_getElem?
        intro j
        rw [List.getElem?_set]
        by_cases hj : i = j
        · subst hj; rw [hg]; simp [hi]
        · simp [hj]
      simp only [hg]
      by_cases ht : w.numpy && !val.isNum
      · simp [ht, hv]
      · simp only [ht]
        by_cases hc : checkNormalization { w with amps := w.amps.set i val } = true
        · simp only [hc, if_true, Bool.false_eq_true, if_false]
          refine ⟨?_, by simp, by simp, fun _ => ⟨i, hi, hii, rfl⟩⟩
          apply check_valid _ _ _ hc
          · obtain ⟨n, hn⟩ := hv.1
            exact ⟨n, by simpa using hn⟩
          · intro hnp a ha
            have hmem := List.mem_or_eq_of_mem_set ha
            rcases hmem with h | h
            · exact hv.2.1 hnp a h
            · subst h
              cases a with
              | num z => exact ⟨z, rfl⟩
              | sym s =>
                have hnp' : w.numpy = true := hnp
                exact absurd (by simp [hnp', Amp.isNum]) ht
        · have hw : ({ w with amps := (w.amps.set i val).set i old } : Wf σ) = w := by rw [hold]
          simp only [hc, Bool.false_eq_true, if_false, hw]
          simp [hv]

/-- Runs a history of assignments, ignoring (catching) exceptions. -/
noncomputable def runSets (w : Wf σ) (ops : List (ℤ × Amp σ)) : Wf σ :=
  ops.foldl (fun w op => (setItem w op.1 op.2).1) w

/-- C20: after any history of accepted and rejected assignments the wavefunction is valid and has its original length. -/
theorem wavefunction_history_valid (amps : List (Amp σ)) (w : Wf σ) (h : mk? amps = .ok w)
    (ops : List (ℤ × Amp σ)) :
    Valid (runSets w ops) ∧ (runSets w ops).amps.length = amps.length := by
  obtain ⟨hv, ha⟩ := mk_valid amps w h
  rw [← ha]
  clear h ha
  induction ops generalizing w with
  | nil => exact ⟨hv, rfl⟩
  | cons op ops ih =>
    have hs := setItem_spec w op.1 op.2 hv
    have := ih (setItem w op.1 op.2).1 hs.1
    exact ⟨this.1, by rw [← hs.2.1]; exact this.2⟩

/-- Non-vacuity: a concrete wavefunction is accepted. -/
example : ∃ w : Wf Unit, mk? [Amp.num 0, Amp.num 1] = .ok w := by
  refine ⟨⟨true, [Amp.num 0, Amp.num 1]⟩, ?_⟩
  have h := mk_of_map (σ := Unit) 1 (fun i => if i = 1 then 1 else 0) (by
    simp [List.range_succ])
  simpa [List.range_succ] using h

/-- C20: binding never yields an invalid wavefunction, and keeps numeric entries. -/
theorem bind_valid (w w' : Wf σ) (subs : σ → Amp σ) (hv : Valid w) (h : bind w subs = .ok w') :
    Valid w' ∧ w'.amps.length = w.amps.length ∧
      ∀ (i : ℕ) z, w.amps[i]? = some (Amp.num z) → w'.amps[i]? = some (Amp.num z) := by
  unfold bind at h
  split at h
  · cases h; exact ⟨hv, rfl, fun _ _ h => h⟩
  · split at h
    · rename_i w'' hm
      cases h
      obtain ⟨h1, h2⟩ := mk_valid _ _ hm
      refine ⟨h1, by rw [h2]; simp, ?_⟩
      intro i z hz
      rw [h2, List.getElem?_map, hz]; rfl
    · cases h

/-! ## C21 -/

/-- C21: for a numeric `2^n` wavefunction (`n ≥ 1`) `get_outcome_probs` has exactly one entry per `n`-bit outcome: the
`i`-th key lists the bits of `i` least significant first, its value is `|a_i|²`; keys are pairwise distinct and cover
all `n`-bit strings; values are non-negative and sum to the squared norm. -/
theorem getOutcomeProbs_spec (w : Wf σ) (n : ℕ) (hn : 0 < n) (zs : List ℂ) (hl : zs.length = 2 ^ n)
    (hw : w.amps = zs.map Amp.num) :
    ∃ d, getOutcomeProbs w = some d ∧ d.length = 2 ^ n ∧
      (∀ i, i < 2 ^ n → ∃ key, d[i]? = (zs[i]?.map fun z => (key, Complex.normSq z)) ∧ key.length = n ∧
        ∀ q, q < n → key[q]? = some (if i.testBit q then 1 else 0)) ∧
      (d.map Prod.fst).Nodup ∧
      (∀ key : List ℕ, key.length = n → (∀ b ∈ key, b = 0 ∨ b = 1) → key ∈ d.map Prod.fst) ∧
      (∀ p ∈ d, 0 ≤ p.2) ∧
      (d.map Prod.snd).sum = (zs.map Complex.normSq).sum := by
  have hprob : getProbabilities w = some (zs.map Complex.normSq) := by
    unfold getProbabilities
    rw [hw]
    clear hw hl
    induction zs with
    | nil => rfl
    | cons z zs ih => rw [List.map_cons, List.mapM_cons, ih]; rfl
  have hlen : w.amps.length = 2 ^ n := by rw [hw]; simpa using hl
  have hnq : nQubits w = n := by unfold nQubits; rw [hlen, Nat.log2_two_pow]
  have hkeys : ((List.range w.amps.length).map fun i => (zfill (nQubits w) (pyBin i)).reverse) =
      (List.range (2 ^ n)).map fun i => (toBits n i).reverse := by
    rw [hlen, hnq]
    apply List.map_congr_left
    intro i hi
    rw [zfill_pyBin n i hn (List.mem_range.1 hi)]
  have hd : getOutcomeProbs w = some (((List.range (2 ^ n)).map fun i => (toBits n i).reverse).zip
      (zs.map Complex.normSq)) := by
    unfold getOutcomeProbs
    rw [hprob]
    dsimp only
    rw [hkeys]; rfl
  have hfst : ((((List.range (2 ^ n)).map fun i => (toBits n i).reverse).zip
      (zs.map Complex.normSq)).map Prod.fst) = (List.range (2 ^ n)).map fun i => (toBits n i).reverse := by
    rw [List.map_fst_zip]; simp [hl]
  have hsnd : ((((List.range (2 ^ n)).map fun i => (toBits n i).reverse).zip
      (zs.map Complex.normSq)).map Prod.snd) = zs.map Complex.normSq := by
    rw [List.map_snd_zip]; simp [hl]
  refine ⟨_, hd, by simp [hl], ?_, ?_, ?_, ?_, ?_⟩
  · intro i hi
    refine ⟨(toBits n i).reverse, ?_, by simp, ?_⟩
    · have hz : zs[i]? = some (zs[i]'(by omega)) := List.getElem?_eq_getElem (by omega)
      have := (List.getElem?_zip_eq_some (i := i) (z := ((toBits n i).reverse, Complex.normSq (zs[i]'(by omega))))
        (l₁ := (List.range (2 ^ n)).map fun i => (toBits n i).reverse)
        (l₂ := zs.map Complex.normSq)).2 ⟨by simp [hi], by simp [hl, hi]⟩
      rw [this, hz]; rfl
    · intro q hq
      rw [List.getElem?_eq_getElem (by simpa using hq), List.getElem_reverse, toBits_getElem,
        Nat.testBit_eq_decide_div_mod_eq, toBits_length]
      have e : n - 1 - (n - 1 - q) = q := by omega
      rw [e]
      have : i / 2 ^ q % 2 = 0 ∨ i / 2 ^ q % 2 = 1 := by omega
      rcases this with h | h <;> simp [h]
  · rw [hfst]
    apply List.Nodup.map_on _ List.nodup_range
    intro i hi j hj h
    exact toBits_injOn n (List.mem_range.1 hi) (List.mem_range.1 hj) (List.reverse_injective h)
  · intro key hkl hkb
    rw [hfst, List.mem_map]
    have hd' : ∀ d ∈ key.reverse, d < 2 := fun d h => by
      rcases hkb d (by simpa using h) with h | h <;> omega
    refine ⟨pyInt2 key.reverse, ?_, ?_⟩
    · rw [List.mem_range, ← hkl, ← List.length_reverse]; exact pyInt2_lt _ hd'
    · have := toBits_pyInt2 key.reverse hd'
      rw [List.length_reverse, hkl] at this
      rw [this, List.reverse_reverse]
  · intro p hp
    have : p.2 ∈ zs.map Complex.normSq := by rw [← hsnd]; exact List.mem_map_of_mem hp
    obtain ⟨z, _, hz⟩ := List.mem_map.1 this
    rw [← hz]; exact Complex.normSq_nonneg z
  · rw [hsnd]

example : (0 : ℕ) < 1 ∧ ([0, 1] : List ℂ).length = 2 ^ 1 := by simp

end ZQ.Wavefunction
