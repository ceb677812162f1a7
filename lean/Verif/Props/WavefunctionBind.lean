import Verif.Props.Wavefunction

/-! C20: exactly which vectors are accepted, and what binding does. -/

namespace ZQ.Wavefunction

open ZQ.Bits

variable {σ : Type}

/-- Specification: the vectors that are wavefunctions. -/
def Acceptable (amps : List (Amp σ)) : Prop :=
  (∃ n, amps.length = 2 ^ n) ∧ ((∀ a ∈ amps, ∃ z, a = Amp.num z) → |(amps.map ampSq).sum - 1| ≤ 1 / 10 ^ 8 + 1 / 10 ^ 5) ∧
    ((∃ a ∈ amps, ∃ s, a = Amp.sym s) → (amps.map ampSq).sum ≤ 1)

theorem count_two_pow (n : ℕ) : (Bits.pyBin (2 ^ n)).count 1 = 1 := by
  rw [count_one_pyBin]
  simp [popcount_two_pow]

/-- C20: the constructor accepts exactly the vectors whose length is a power of two and whose numbers have a total probability of 1, up to the tolerance, or of at most 1 if there are
symbols; it raises `ValueError` for all others. -/
theorem mk_spec (amps : List (Amp σ)) :
    (Acceptable amps → mk? amps = .ok ⟨amps.all Amp.isNum, amps⟩) ∧ (¬ Acceptable amps → mk? amps = .error .valueError) := by
  have hacc : Acceptable amps → mk? amps = .ok ⟨amps.all Amp.isNum, amps⟩ := by
    rintro ⟨⟨n, hn⟩, h1, h2⟩
    unfold mk?
    rw [if_neg (by rw [hn, count_two_pow]; simp)]
    dsimp only
    rw [if_pos]
    unfold checkNormalization
    dsimp only
    by_cases hall : amps.all Amp.isNum = true
    · rw [if_pos (.inr hall)]
      exact decide_eq_true (h1 ((all_isNum_iff _).1 hall))
    · rw [if_neg (by rintro (h | h) <;> exact hall h)]
      refine decide_eq_true (h2 ?_)
      by_contra hno
      refine hall ((all_isNum_iff _).2 fun a ha => ?_)
      cases a with
      | num z => exact ⟨z, rfl⟩
      | sym s => exact absurd ⟨_, ha, s, rfl⟩ hno
  refine ⟨hacc, fun h => ?_⟩
  cases hm : mk? amps with
  | error e =>
    unfold mk? at hm
    split at hm
    · exact hm.symm
    · dsimp only at hm
      split at hm
      · cases hm
      · exact hm.symm
  | ok w =>
    obtain ⟨hv, hw⟩ := mk_valid _ _ hm
    refine absurd ?_ h
    obtain ⟨v1, -, v3, v4⟩ := hv
    rw [hw] at v1 v3 v4
    exact ⟨v1, v3, v4⟩

/-- Specification: an entry after substitution. -/
def substituted (subs : σ → Amp σ) : Amp σ → Amp σ
  | .num z => .num z
  | .sym s => subs s

/-- C20: binding replaces every symbolic entry by what substitution makes of it and keeps the numbers.  It succeeds exactly if the result is a wavefunction, and raises `ValueError`
otherwise. -/
theorem bind_spec (w : Wf σ) (hv : Valid w) (subs : σ → Amp σ) :
    (Acceptable (w.amps.map (substituted subs)) → ∃ w', bind w subs = .ok w' ∧ w'.amps = w.amps.map (substituted subs)) ∧
    (¬ Acceptable (w.amps.map (substituted subs)) → bind w subs = .error .valueError) := by
  have hrun : bind w subs = if w.amps.all Amp.isNum then .ok w else
      match mk? (w.amps.map (substituted subs)) with
      | .ok w' => .ok w'
      | .error _ => .error .valueError := by
    unfold bind
    congr! 4
  rw [hrun]
  by_cases hall : w.amps.all Amp.isNum = true
  · rw [if_pos hall]
    have hid : w.amps.map (substituted subs) = w.amps := by
      conv_rhs => rw [← List.map_id w.amps]
      refine List.map_congr_left fun a ha => ?_
      obtain ⟨z, rfl⟩ := (all_isNum_iff _).1 hall a ha
      rfl
    rw [hid]
    exact ⟨fun _ => ⟨w, rfl, rfl⟩, fun h => absurd ⟨hv.1, hv.2.2.1, hv.2.2.2⟩ h⟩
  · rw [if_neg hall]
    obtain ⟨h1, h2⟩ := mk_spec (w.amps.map (substituted subs))
    refine ⟨fun h => ?_, fun h => ?_⟩
    · rw [h1 h]
      exact ⟨_, rfl, rfl⟩
    · rw [h2 h]

/-- A case: one symbol that stands for 4/5, and one value that is refused. -/
example : Valid (⟨false, [.num (3 / 5), .sym ()]⟩ : Wf Unit) ∧ Acceptable ([.num (3 / 5), .sym ()].map (substituted fun _ : Unit => (.num (4 / 5) : Amp Unit))) ∧
    ¬ Acceptable ([.num (3 / 5), .sym ()].map (substituted fun _ : Unit => (.num 1 : Amp Unit))) := by
  have h1 : Complex.normSq (3 / 5) = 9 / 25 := by
    rw [show (3 / 5 : ℂ) = ((3 / 5 : ℝ) : ℂ) by push_cast; ring, Complex.normSq_ofReal]; norm_num
  have h2 : Complex.normSq (4 / 5) = 16 / 25 := by
    rw [show (4 / 5 : ℂ) = ((4 / 5 : ℝ) : ℂ) by push_cast; ring, Complex.normSq_ofReal]; norm_num
  refine ⟨⟨⟨1, rfl⟩, by simp, fun h => ?_, fun _ => ?_⟩, ⟨⟨1, rfl⟩, fun _ => ?_, ?_⟩, fun h => ?_⟩
  · obtain ⟨z, hz⟩ := h (.sym ()) (by simp)
    cases hz
  · simp [ampSq, h1]; norm_num
  · simp [ampSq, substituted, h1, h2]; norm_num
  · rintro ⟨a, ha, s, rfl⟩
    simp [substituted] at ha
  · have := h.2.1 (by simp [substituted])
    simp [ampSq, substituted, h1] at this
    norm_num [abs_of_pos] at this

end ZQ.Wavefunction
