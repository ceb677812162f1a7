import Verif.Lemmas.Fenwick
import Verif.Props.JordanWigner
import Verif.Props.QubitOp

/-! # C48: the Bravyi-Kitaev transform -/

namespace ZQ.Op

open PyDict

/-- The sign of a bit. -/
def bitSign (s : ℕ → Bool) (i : ℕ) : ℂ := if s i then -1 else 1

theorem bitSign_sq (s : ℕ → Bool) (i : ℕ) : bitSign s i * bitSign s i = 1 := by
  rw [bitSign]; split <;> norm_num

theorem bitSign_inj {s t : ℕ → Bool} {i j : ℕ} (h : bitSign s i = bitSign t j) : s i = t j := by
  cases hs : s i <;> cases ht : t j <;> simp [bitSign, hs, ht] at h <;> first | rfl | (exfalso; norm_num at h)

theorem sgn_eq_rangeProd (s : ℕ → Bool) (p : ℕ) : sgn s p = rangeProd (bitSign s) 0 p := by
  induction p with
  | zero => simp [sgn, occupiedBefore, rangeProd]
  | succ p ih =>
    rw [sgn_succ, ih, rangeProd, rangeProd, Finset.prod_Ico_succ_top (Nat.zero_le p)]
    rfl

theorem bitSign_encode {n i : ℕ} (s : ℕ → Bool) (hi : i < n) : bitSign (encode n s) i = blockProd (bitSign s) i := by
  have hblock : block i = Finset.Ico (clearLow (i + 1)) (i + 1) := by
    ext m; rw [block, Finset.mem_Icc, Finset.mem_Ico, blockStart_eq]; omega
  rw [blockProd, rangeProd, ← hblock]
  have : ∀ S : Finset ℕ, ∏ m ∈ S, bitSign s m = (-1) ^ (S.filter fun m => s m).card := by
    intro S
    show ∏ m ∈ S, (if s m = true then (-1 : ℂ) else 1) = _
    rw [Finset.prod_ite, Finset.prod_const, Finset.prod_const_one, mul_one]
  rw [this, bitSign, encode, if_pos hi]
  by_cases h : Odd ((block i).filter fun m => s m).card
  · simp [h, h.neg_one_pow]
  · rw [Nat.not_odd_iff_even] at h
    simp [h.neg_one_pow, Nat.not_odd_iff_even.2 h]

/-- Flip the bits in a set. -/
def flipOn (S : Finset ℕ) (s : ℕ → Bool) : ℕ → Bool := fun i => if i ∈ S then !(s i) else s i

/-- C48: flipping the occupation of a mode flips exactly the qubits of its update set. -/
theorem encode_flip {n p : ℕ} (hp : p < n) (s : ℕ → Bool) :
    encode n (Function.update s p (!(s p))) = flipOn (insert p (updateSet p n)) (encode n s) := by
  funext i
  by_cases hi : i < n
  · apply bitSign_inj (i := i) (j := i)
    rw [bitSign_encode _ hi]
    have hm := mem_update p n i hp
    have hblock : block i = Finset.Ico (clearLow (i + 1)) (i + 1) := by
      ext m; rw [block, Finset.mem_Icc, Finset.mem_Ico, blockStart_eq]; omega
    by_cases h : i ∈ insert p (updateSet p n)
    · have hpb := (hm.1 h).2
      have e : bitSign (flipOn (insert p (updateSet p n)) (encode n s)) i = -bitSign (encode n s) i := by
        rw [bitSign, flipOn, if_pos h, bitSign]; cases encode n s i <;> simp
      rw [e, bitSign_encode _ hi, blockProd, blockProd, rangeProd, rangeProd, ← hblock, ← Finset.mul_prod_erase _ _ hpb, ← Finset.mul_prod_erase _ _ hpb,
        ← neg_mul]
      congr 1
      · rw [bitSign, bitSign, Function.update_self]; cases s p <;> simp
      · refine Finset.prod_congr rfl fun m hm => ?_
        rw [bitSign, bitSign, Function.update_of_ne (Finset.ne_of_mem_erase hm)]
    · have hpb : p ∉ block i := fun hb => h (hm.2 ⟨hi, hb⟩)
      have e : bitSign (flipOn (insert p (updateSet p n)) (encode n s)) i = bitSign (encode n s) i := by
        rw [bitSign, flipOn, if_neg h]; rfl
      rw [e, bitSign_encode _ hi, blockProd, blockProd, rangeProd, rangeProd, ← hblock]
      refine Finset.prod_congr rfl fun m hm => ?_
      rw [bitSign, bitSign, Function.update_of_ne (fun e : m = p => hpb (e ▸ hm))]
  · have h : i ∉ insert p (updateSet p n) := fun h => hi ((mem_update p n i hp).1 h).1
    rw [flipOn, if_neg h, encode, encode, if_neg hi, if_neg hi, Function.update_of_ne (by omega)]

/-- C48: the encoding is one-to-one and onto. -/
theorem encode_bijective (n : ℕ) : Function.Bijective (encode n) := by
  constructor
  · intro s t h
    funext p
    by_cases hp : p < n
    · apply bitSign_inj (i := p) (j := p)
      rw [← occupationSet_prod (bitSign s) (bitSign_sq s) p, ← occupationSet_prod (bitSign t) (bitSign_sq t) p]
      refine Finset.prod_congr rfl fun i hi => ?_
      have := occupationSet_le p i hi
      rw [← bitSign_encode s (by omega : i < n), ← bitSign_encode t (by omega : i < n), h]
    · have := congrFun h p
      rwa [encode, encode, if_neg hp, if_neg hp] at this
  · intro t
    have key : ∀ k ≤ n, ∃ s : ℕ → Bool, (∀ i < k, encode n s i = t i) ∧ ∀ i, n ≤ i → s i = t i := by
      intro k
      induction k with
      | zero => intro _; exact ⟨t, fun i hi => by omega, fun i _ => rfl⟩
      | succ k ih =>
        intro hk
        obtain ⟨s, h1, h2⟩ := ih (by omega)
        by_cases e : encode n s k = t k
        · refine ⟨s, fun i hi => ?_, h2⟩
          rcases Nat.lt_succ_iff_lt_or_eq.1 hi with h | rfl
          · exact h1 i h
          · exact e
        · refine ⟨Function.update s k (!(s k)), fun i hi => ?_, fun i hi => ?_⟩
          · rw [encode_flip (by omega : k < n), flipOn]
            rcases Nat.lt_succ_iff_lt_or_eq.1 hi with h | rfl
            · rw [if_neg, h1 i h]
              intro hm
              rcases Finset.mem_insert.1 hm with hm | hm
              · omega
              · have := updateSet_gt k n i (by omega) hm; omega
            · rw [if_pos (Finset.mem_insert_self _ _)]
              cases h1 : encode n s i <;> cases h2 : t i <;> simp_all
          · rw [Function.update_of_ne (by omega)]; exact h2 i hi
    obtain ⟨s, h1, h2⟩ := key n le_rfl
    refine ⟨s, funext fun i => ?_⟩
    by_cases hi : i < n
    · exact h1 i hi
    · rw [encode, if_neg hi]; exact h2 i (by omega)

/-! ### Strings of one letter -/

theorem xs_action (l : List ℕ) : l.Nodup → ∀ (ψ : State) (s : ℕ → Bool),
    termAction pauliAction (l.map fun i => (i, Letter.X)) ψ s = ψ (fun i => if i ∈ l then !(s i) else s i) := by
  induction l with
  | nil => intro _ ψ s; rfl
  | cons j l ih =>
    intro hn ψ s
    rw [List.nodup_cons] at hn
    rw [List.map_cons, termAction_cons, Module.End.mul_apply]
    have hx : ∀ φ : State, pauliAction (j, .X) φ s = φ (Function.update s j (!(s j))) := by
      intro φ
      rw [pauliAction, atQubit_apply]
      cases s j <;> simp [letterMatrix, pauliX]
    rw [hx, ih hn.2]
    congr 1
    funext i
    by_cases hij : i = j
    · subst hij; simp [hn.1]
    · simp [hij]

theorem lettersX_action (S : Finset ℕ) (ψ : State) (s : ℕ → Bool) : termAction pauliAction (lettersOn .X S) ψ s = ψ (flipOn S s) := by
  rw [lettersOn, xs_action _ (Finset.sort_nodup _ _)]
  simp only [Finset.mem_sort]
  rfl

theorem lettersZ_action (S : Finset ℕ) (ψ : State) (s : ℕ → Bool) :
    termAction pauliAction (lettersOn .Z S) ψ s = (∏ i ∈ S, bitSign s i) * ψ s := by
  rw [allZ_action]
  · congr 1
    rw [zSign, lettersOn, List.map_map, ← Finset.prod_map_toList S (bitSign s)]
    exact ((Finset.sort_perm_toList S (· ≤ ·)).map _).prod_eq
  · intro f hf
    obtain ⟨i, _, rfl⟩ := List.mem_map.1 hf
    rfl

theorem prod_flip_disjoint {S T : Finset ℕ} (h : ∀ i ∈ S, i ∉ T) (s : ℕ → Bool) : ∏ i ∈ S, bitSign (flipOn T s) i = ∏ i ∈ S, bitSign s i :=
  Finset.prod_congr rfl fun i hi => by rw [bitSign, flipOn, if_neg (h i hi)]; rfl

/-- `(a† + a)/2` up to the factor: on encoded occupations the string flips mode `p` with the parity of the modes before. -/
theorem bkSum_action {n p : ℕ} (hp : p < n) (ψ : State) (s : ℕ → Bool) :
    termAction pauliAction (bkSumFactors p n) ψ (encode n s) = sgn s p * ψ (encode n (Function.update s p (!(s p)))) := by
  rw [bkSumFactors, termAction_append, Module.End.mul_apply, lettersX_action, lettersZ_action, encode_flip hp]
  congr 1
  rw [prod_flip_disjoint, sgn_eq_rangeProd, ← paritySet_prod]
  · refine Finset.prod_congr rfl fun i hi => bitSign_encode s ?_
    have := paritySet_lt p i hi; omega
  · intro i hi hm
    have h1 := paritySet_lt p i hi
    rcases Finset.mem_insert.1 hm with hm | hm
    · omega
    · have := updateSet_gt p n i hp hm; omega

theorem prod_symmDiff {x : ℕ → ℂ} (hx : ∀ i, x i * x i = 1) (S T : Finset ℕ) : ∏ i ∈ symmDiff S T, x i = (∏ i ∈ S, x i) * ∏ i ∈ T, x i := by
  have h1 : ∏ i ∈ S, x i = (∏ i ∈ S \ T, x i) * ∏ i ∈ S ∩ T, x i := by
    rw [mul_comm, Finset.prod_inter_mul_prod_sdiff]
  have h2 : ∏ i ∈ T, x i = (∏ i ∈ T \ S, x i) * ∏ i ∈ S ∩ T, x i := by
    rw [Finset.inter_comm, mul_comm, Finset.prod_inter_mul_prod_sdiff]
  have h3 : (∏ i ∈ S ∩ T, x i) * ∏ i ∈ S ∩ T, x i = 1 := by
    rw [← Finset.prod_mul_distrib]; exact Finset.prod_eq_one fun i _ => hx i
  have h4 : ∏ i ∈ symmDiff S T, x i = (∏ i ∈ S \ T, x i) * ∏ i ∈ T \ S, x i := by
    rw [symmDiff_def, Finset.sup_eq_union, Finset.prod_union disjoint_sdiff_sdiff]
  rw [h4, h1, h2]
  linear_combination (-(∏ i ∈ S \ T, x i) * ∏ i ∈ T \ S, x i) * h3

theorem bkDiff_action {n p : ℕ} (hp : p < n) (ψ : State) (s : ℕ → Bool) :
    termAction pauliAction (bkDiffFactors p n) ψ (encode n s) =
      -Complex.I * (sgn s p * bitSign s p) * ψ (encode n (Function.update s p (!(s p)))) := by
  have hnp : p ∉ updateSet p n := fun h => by have := updateSet_gt p n p hp h; omega
  have hU : insert p (updateSet p n) \ {p} = updateSet p n := by
    ext i
    simp only [Finset.mem_sdiff, Finset.mem_insert, Finset.mem_singleton]
    constructor
    · rintro ⟨h | h, h'⟩
      · exact absurd h h'
      · exact h
    · intro h; exact ⟨Or.inr h, fun e => hnp (e ▸ h)⟩
  have hy : ∀ (φ : State) (t : ℕ → Bool), pauliAction (p, .Y) φ t = -Complex.I * bitSign t p * φ (Function.update t p (!(t p))) := by
    intro φ t
    rw [pauliAction, atQubit_apply, bitSign]
    cases t p <;> simp [letterMatrix, pauliY]
  rw [bkDiffFactors, hU, termAction_append, termAction_append, termAction_cons, termAction_nil, mul_one, Module.End.mul_apply, Module.End.mul_apply, hy,
    lettersX_action, lettersZ_action]
  set t := encode n s with ht
  have hflip : flipOn (updateSet p n) (Function.update t p (!(t p))) = encode n (Function.update s p (!(s p))) := by
    rw [encode_flip hp]
    funext i
    by_cases hi : i = p
    · subst hi; simp [flipOn, hnp, ht]
    · simp [flipOn, hi, ht]
  rw [hflip, encode_flip hp, prod_flip_disjoint, ← ht]
  · have hmem : p ∈ symmDiff (paritySet p) (occupationSet p) := by
      rw [Finset.mem_symmDiff]
      exact Or.inr ⟨mem_occupationSet_self p, fun h => by have := paritySet_lt p p h; omega⟩
    have h1 := prod_symmDiff (bitSign_sq t) (paritySet p) (occupationSet p)
    rw [← Finset.mul_prod_erase _ _ hmem] at h1
    have h2 : ∏ i ∈ paritySet p, bitSign t i = sgn s p := by
      rw [sgn_eq_rangeProd, ← paritySet_prod]
      refine Finset.prod_congr rfl fun i hi => bitSign_encode s ?_
      have := paritySet_lt p i hi; omega
    have h3 : ∏ i ∈ occupationSet p, bitSign t i = bitSign s p := by
      rw [← occupationSet_prod _ (bitSign_sq s) p]
      refine Finset.prod_congr rfl fun i hi => bitSign_encode s ?_
      have := occupationSet_le p i hi; omega
    rw [h2, h3] at h1
    rw [← h1, Finset.sdiff_singleton_eq_erase]
    ring
  · intro i hi hm
    have hne : i ≠ p := by
      have := (Finset.mem_sdiff.1 hi).2
      simpa using this
    have hle : i ≤ p := by
      rcases Finset.mem_symmDiff.1 (Finset.mem_sdiff.1 hi).1 with ⟨h, _⟩ | ⟨h, _⟩
      · exact le_of_lt (paritySet_lt p i h)
      · exact occupationSet_le p i h
    rcases Finset.mem_insert.1 hm with hm | hm
    · exact hne hm
    · have := updateSet_gt p n i hp hm; omega

/-! ### Ladder operators -/

theorem bkLadder_exact (n : ℕ) (f : ℕ × Bool) :
    CanonicalOp (bkLadder n f) ∧ OnGrid (1 / 2) (bkLadder n f) ∧
    action pauliAction (bkLadder n f) = (1 / 2 : ℂ) • termAction pauliAction (bkSumFactors f.1 n)
      + (if f.2 then -(1 / 2 * Complex.I) else 1 / 2 * Complex.I) • termAction pauliAction (bkDiffFactors f.1 n) := by
  have single : ∀ (t : Term Letter) (c : ℂ), c ∈ Grid (1 / 2) →
      CanonicalOp (ofTerm qubit t c) ∧ OnGrid (1 / 2) (ofTerm qubit t c) ∧ action pauliAction (ofTerm qubit t c) = c • termAction pauliAction t := by
    intro t c hc
    refine ⟨⟨wf_single _ _, fun u hu => ?_⟩, onGrid_single (qubitSimplify_mem t hc), ?_⟩
    · rw [ofTerm, keys, List.map_singleton, List.mem_singleton] at hu
      rw [hu]; exact qubitSimplify_canonical _ _
    · rw [ofTerm, action_cons, action_nil, add_zero]
      exact qubit_sound t c trivial
  have g1 : (1 / 2 : ℂ) ∈ Grid (1 / 2) := ⟨1, 0, by simp⟩
  have g2 : -(1 / 2 * Complex.I) ∈ Grid (1 / 2) := ⟨0, -1, by simp⟩
  obtain ⟨s1, s2, s3⟩ := single (bkSumFactors f.1 n) (1 / 2) g1
  obtain ⟨d1, d2, d3⟩ := single (bkDiffFactors f.1 n) (-(1 / 2 * Complex.I)) g2
  rw [bkLadder]
  by_cases h : f.2 = true
  · rw [if_pos h, if_pos h]
    obtain ⟨w, g, _, a⟩ := add_onGrid (by norm_num) s1.1 d1.1 s2 d2
    refine ⟨⟨w, fun t ht => ?_⟩, g, by rw [a, s3, d3]⟩
    exact (mem_keys_add s1.1 d1.1 ht).elim (s1.2 t) (d1.2 t)
  · rw [if_neg h, if_neg h, sub_eq]
    have hneg : neg (ofTerm qubit (bkDiffFactors f.1 n) (-(1 / 2 * Complex.I))) = smul (ofTerm qubit (bkDiffFactors f.1 n) (-(1 / 2 * Complex.I))) (-1) := by
      rw [neg_eq, smul]
      exact List.map_congr_left fun kv _ => by rw [mul_neg_one]
    have n1 : CanonicalOp (neg (ofTerm qubit (bkDiffFactors f.1 n) (-(1 / 2 * Complex.I)))) := by
      rw [hneg, CanonicalOp, WF, keys_smul]; exact d1
    have n2 : OnGrid (1 / 2) (neg (ofTerm qubit (bkDiffFactors f.1 n) (-(1 / 2 * Complex.I)))) := by
      intro t
      rw [hneg, coeff_smul, mul_neg_one]
      exact (Grid _).neg_mem (d2 t)
    obtain ⟨w, g, _, a⟩ := add_onGrid (by norm_num) s1.1 n1.1 s2 n2
    refine ⟨⟨w, fun t ht => ?_⟩, g, ?_⟩
    · exact (mem_keys_add s1.1 n1.1 ht).elim (s1.2 t) (n1.2 t)
    · rw [a, s3, hneg, action_smul, d3, smul_smul]
      congr 2
      ring

/-- C48: reading encoded bit strings as occupations, the image of a ladder operator acts as the ladder operator. -/
theorem bkLadder_action {n : ℕ} (f : ℕ × Bool) (hf : f.1 < n) :
    decodeState n * action pauliAction (bkLadder n f) = ladderAction f * decodeState n := by
  obtain ⟨p, b⟩ := f
  dsimp only at hf
  rw [(bkLadder_exact n (p, b)).2.2]
  apply LinearMap.ext; intro ψ; funext s
  rw [Module.End.mul_apply, Module.End.mul_apply, ladder_apply]
  have hd : ∀ (φ : State) (u : ℕ → Bool), decodeState n φ u = φ (encode n u) := fun _ _ => rfl
  rw [hd, hd]
  rw [LinearMap.add_apply, LinearMap.smul_apply, LinearMap.smul_apply, Pi.add_apply, Pi.smul_apply, Pi.smul_apply, bkSum_action hf, bkDiff_action hf]
  show _ = if s p = b then sgn s p * ψ (encode n (Function.update s p (!b))) else 0
  have hI := Complex.I_mul_I
  cases hs : s p <;> cases b <;> simp [bitSign, hs]
  · linear_combination (-(1 / 2) * sgn s p * ψ (encode n (Function.update s p true))) * hI
  · linear_combination ((1 / 2) * sgn s p * ψ (encode n (Function.update s p true))) * hI
  · linear_combination ((1 / 2) * sgn s p * ψ (encode n (Function.update s p false))) * hI
  · linear_combination (-(1 / 2) * sgn s p * ψ (encode n (Function.update s p false))) * hI

/-- Operators that agree after decoding are equal. -/
theorem decode_cancel {n : ℕ} {M N : Module.End ℂ State} (h : decodeState n * M = decodeState n * N) : M = N := by
  apply LinearMap.ext; intro ψ; funext t
  obtain ⟨s, rfl⟩ := (encode_bijective n).2 t
  exact congrFun (LinearMap.congr_fun h ψ) s

/-- C48: the images of the ladder operators of `n` modes satisfy the canonical anticommutation relations. -/
theorem bk_anticommutation (n p q : ℕ) (hp : p < n) (hq : q < n) :
    action pauliAction (mul qubit (bkLadder n (p, false)) (bkLadder n (q, true))) + action pauliAction (mul qubit (bkLadder n (q, true)) (bkLadder n (p, false)))
      = (if p = q then 1 else 0) ∧
    action pauliAction (mul qubit (bkLadder n (p, false)) (bkLadder n (q, false))) + action pauliAction (mul qubit (bkLadder n (q, false)) (bkLadder n (p, false))) = 0 ∧
    action pauliAction (mul qubit (bkLadder n (p, true)) (bkLadder n (q, true))) + action pauliAction (mul qubit (bkLadder n (q, true)) (bkLadder n (p, true))) = 0 := by
  have tr : ∀ f g : ℕ × Bool, f.1 < n → g.1 < n → decodeState n * (action pauliAction (mul qubit (bkLadder n f) (bkLadder n g))) =
      ladderAction f * ladderAction g * decodeState n := by
    intro f g hf hg
    rw [qubit_product_action, ← mul_assoc, bkLadder_action f hf, mul_assoc, bkLadder_action g hg, mul_assoc]
  have anti : ∀ f g : ℕ × Bool, f.1 < n → g.1 < n → ∀ c : ℂ, ladderAction f * ladderAction g + ladderAction g * ladderAction f = c • 1 →
      action pauliAction (mul qubit (bkLadder n f) (bkLadder n g)) + action pauliAction (mul qubit (bkLadder n g) (bkLadder n f)) = c • 1 := by
    intro f g hf hg c h
    apply decode_cancel (n := n)
    rw [mul_add, tr f g hf hg, tr g f hg hf, ← add_mul, h, smul_mul_assoc, one_mul, mul_smul_comm, mul_one]
  by_cases h : p = q
  · subst h
    refine ⟨?_, ?_, ?_⟩
    · rw [if_pos rfl, anti _ _ hp hq 1 (by rw [one_smul]; exact ladder_same p false), one_smul]
    · rw [anti _ _ hp hq 0 (by rw [ladder_sq, add_zero, zero_smul]), zero_smul]
    · rw [anti _ _ hp hq 0 (by rw [ladder_sq, add_zero, zero_smul]), zero_smul]
  · refine ⟨?_, ?_, ?_⟩
    · rw [if_neg h, anti _ _ hp hq 0 (by rw [ladder_anticomm (f := (p, false)) (g := (q, true)) h, neg_add_cancel, zero_smul]), zero_smul]
    · rw [anti _ _ hp hq 0 (by rw [ladder_anticomm (f := (p, false)) (g := (q, false)) h, neg_add_cancel, zero_smul]), zero_smul]
    · rw [anti _ _ hp hq 0 (by rw [ladder_anticomm (f := (p, true)) (g := (q, true)) h, neg_add_cancel, zero_smul]), zero_smul]

/-! ### Operators -/

theorem bkTerm_spec (n : ℕ) (t : Term Bool) (c : ℂ) (hn : ∀ f ∈ t, f.1 < n) :
    CanonicalOp (bkTerm n t c) ∧ decodeState n * action pauliAction (bkTerm n t c) = c • termAction ladderAction t * decodeState n ∧
    ∀ δ : ℝ, c ∈ Grid (2 ^ t.length * δ) → OnGrid δ (bkTerm n t c) := by
  have key : ∀ (t : Term Bool) (acc : Terms Letter), (∀ f ∈ t, f.1 < n) → CanonicalOp acc →
      CanonicalOp (t.foldl (fun acc f => mul qubit acc (bkLadder n f)) acc) ∧
      (∀ M, decodeState n * action pauliAction acc = M * decodeState n →
        decodeState n * action pauliAction (t.foldl (fun acc f => mul qubit acc (bkLadder n f)) acc) = M * termAction ladderAction t * decodeState n) ∧
      ∀ δ : ℝ, OnGrid (2 ^ t.length * δ) acc → OnGrid δ (t.foldl (fun acc f => mul qubit acc (bkLadder n f)) acc) := by
    intro t
    induction t with
    | nil => intro acc _ h; exact ⟨h, fun M hM => by rw [termAction_nil, mul_one]; exact hM, fun δ hg => by simpa using hg⟩
    | cons f t ih =>
      intro acc hn h
      obtain ⟨i1, i2, i3⟩ := ih (mul qubit acc (bkLadder n f)) (fun g hg => hn g (List.mem_cons_of_mem _ hg)) (qubit_product_canonical _ _)
      refine ⟨i1, fun M hM => ?_, fun δ hg => i3 δ ?_⟩
      · rw [List.foldl_cons, i2 (M * ladderAction f), termAction_cons, mul_assoc M]
        rw [qubit_product_action, ← mul_assoc, hM, mul_assoc, bkLadder_action f (hn f (List.mem_cons_self ..)), mul_assoc]
      · intro u
        apply coeff_mul_mem
        intro l hl r hr
        apply qubitSimplify_mem
        have hl' : l.2 ∈ Grid (2 * (2 ^ t.length * δ)) := by
          have := hg l.1
          rw [coeff_of_mem h.1 (show (l.1, l.2) ∈ acc from hl), List.length_cons, pow_succ] at this
          rwa [show (2 : ℝ) * (2 ^ t.length * δ) = 2 ^ t.length * 2 * δ by ring]
        have hr' : r.2 ∈ Grid (1 / 2) := by
          have := (bkLadder_exact n f).2.1 r.1
          rwa [coeff_of_mem (bkLadder_exact n f).1.1 (show (r.1, r.2) ∈ bkLadder n f from hr)] at this
        obtain ⟨x, y, e1⟩ := hl'
        obtain ⟨z, w, e2⟩ := hr'
        refine ⟨x * z - y * w, x * w + y * z, ?_⟩
        rw [e1, e2]
        push_cast
        linear_combination (2 ^ t.length * (δ : ℂ)) * y * w * Complex.I_mul_I
  have h0 : CanonicalOp (ofTerm qubit [] c) := by
    refine ⟨wf_single _ _, fun u hu => ?_⟩
    rw [ofTerm, keys, List.map_singleton, List.mem_singleton] at hu
    rw [hu]; exact qubitSimplify_canonical _ _
  have h1 : ofTerm qubit [] c = [([], c)] := rfl
  obtain ⟨k1, k2, k3⟩ := key t (ofTerm qubit [] c) hn h0
  refine ⟨k1, ?_, fun δ hc => k3 δ (by rw [h1]; exact onGrid_single hc)⟩
  rw [bkTerm, k2 (c • 1), smul_mul_assoc, one_mul]
  rw [h1, action_cons, action_nil, add_zero, termAction_nil, smul_mul_assoc, mul_smul_comm, one_mul, mul_one]

theorem countFermion_bound (o : Terms Bool) : ∀ kv ∈ o, ∀ f ∈ kv.1, f.1 < countFermion o := by
  have m1 : ∀ (t : Term Bool) (n : ℕ), n ≤ t.foldl (fun (n : ℕ) (f : ℕ × Bool) => if f.1 + 1 > n then f.1 + 1 else n) n ∧
      ∀ f ∈ t, f.1 < t.foldl (fun (n : ℕ) (f : ℕ × Bool) => if f.1 + 1 > n then f.1 + 1 else n) n := by
    intro t
    induction t with
    | nil => intro n; exact ⟨le_rfl, fun f hf => by simp at hf⟩
    | cons g t ih =>
      intro n
      rw [List.foldl_cons]
      obtain ⟨h1, h2⟩ := ih (if g.1 + 1 > n then g.1 + 1 else n)
      have h3 : n ≤ (if g.1 + 1 > n then g.1 + 1 else n) ∧ g.1 < (if g.1 + 1 > n then g.1 + 1 else n) := by split <;> omega
      refine ⟨by omega, fun f hf => ?_⟩
      rcases List.mem_cons.1 hf with rfl | hf
      · omega
      · exact h2 f hf
  have m2 : ∀ (o : Terms Bool) (n : ℕ),
      n ≤ o.foldl (fun (n : ℕ) (kv : Term Bool × ℂ) => kv.1.foldl (fun (n : ℕ) (f : ℕ × Bool) => if f.1 + 1 > n then f.1 + 1 else n) n) n ∧
      ∀ kv ∈ o, ∀ f ∈ kv.1,
        f.1 < o.foldl (fun (n : ℕ) (kv : Term Bool × ℂ) => kv.1.foldl (fun (n : ℕ) (f : ℕ × Bool) => if f.1 + 1 > n then f.1 + 1 else n) n) n := by
    intro o
    induction o with
    | nil => intro n; exact ⟨le_rfl, fun kv hkv => by simp at hkv⟩
    | cons kv o ih =>
      intro n
      rw [List.foldl_cons]
      obtain ⟨h1, h2⟩ := ih (kv.1.foldl (fun (n : ℕ) (f : ℕ × Bool) => if f.1 + 1 > n then f.1 + 1 else n) n)
      obtain ⟨h3, h4⟩ := m1 kv.1 n
      refine ⟨le_trans h3 h1, fun kv' hkv' f hf => ?_⟩
      rcases List.mem_cons.1 hkv' with rfl | hkv'
      · exact lt_of_lt_of_le (h4 f hf) h1
      · exact h2 kv' hkv' f hf
  exact (m2 o 0).2

/-- C48, exact: reading encoded bit strings as occupations, the transform acts as the fermion operator (coefficients on a grid, as for C45). -/
theorem bravyiKitaev_action (o : Terms Bool) (nQubits : Option ℕ) (hn : countFermion o ≤ nQubits.getD (countFermion o))
    (δ : ℝ) (hδ : 1 / 10 ^ 8 ≤ δ) (hg : ∀ kv ∈ o, kv.2 ∈ Grid (2 ^ kv.1.length * δ)) :
    ∃ q, bravyiKitaev o nQubits = .ok q ∧ CanonicalOp q ∧
      decodeState (nQubits.getD (countFermion o)) * action pauliAction q = action ladderAction o * decodeState (nQubits.getD (countFermion o)) := by
  set n := nQubits.getD (countFermion o) with hdef
  have spec := fun kv (hkv : kv ∈ o) => bkTerm_spec n kv.1 kv.2 (fun f hf => lt_of_lt_of_le (countFermion_bound o kv hkv f hf) hn)
  obtain ⟨w, g1, g2, h4⟩ := foldl_add_onGrid hδ o (fun kv => bkTerm n kv.1 kv.2) [] wf_nil (OnGrid.nil δ)
    (fun kv hkv => ⟨(spec kv hkv).1.1, (spec kv hkv).2.2 δ (hg kv hkv)⟩)
  refine ⟨_, if_neg (by omega), ⟨w, ?_⟩, ?_⟩
  · exact foldl_add_keys Canonical o (fun kv => bkTerm n kv.1 kv.2) [] wf_nil (fun t ht => by simp [keys] at ht) (fun kv hkv => (spec kv hkv).1)
  · rw [h4, action_nil, zero_add, action]
    clear h4 w g1 g2 hg hdef hn
    clear_value n
    induction o with
    | nil => simp
    | cons kv o ih =>
      rw [List.map_cons, List.sum_cons, List.map_cons, List.sum_cons, mul_add, add_mul, (spec kv (List.mem_cons_self ..)).2.1,
        ih (fun kv hkv => spec kv (List.mem_cons_of_mem _ hkv))]

/-- C48, all operators: within `1e-8` per term of an operator with exactly the right action. -/
theorem bravyiKitaev_error (o : Terms Bool) (nQubits : Option ℕ) (hn : countFermion o ≤ nQubits.getD (countFermion o)) :
    ∃ q E, bravyiKitaev o nQubits = .ok q ∧ CanonicalOp q ∧ CanonicalOp E ∧
      decodeState (nQubits.getD (countFermion o)) * action pauliAction E = action ladderAction o * decodeState (nQubits.getD (countFermion o)) ∧
      ∀ t, ‖coeff q t - coeff E t‖ ≤ o.length * (1 / 10 ^ 8) := by
  set n := nQubits.getD (countFermion o) with hdef
  have spec := fun kv (hkv : kv ∈ o) => bkTerm_spec n kv.1 kv.2 (fun f hf => lt_of_lt_of_le (countFermion_bound o kv hkv f hf) hn)
  obtain ⟨w, err⟩ := foldl_add_error o (fun kv => bkTerm n kv.1 kv.2) [] wf_nil (fun kv h => (spec kv h).1.1)
  obtain ⟨E, e1, e2, e3, e4⟩ := exactSum_spec Canonical o (fun kv => bkTerm n kv.1 kv.2) (fun kv h => (spec kv h).1)
  refine ⟨_, E, if_neg (by omega), ⟨w, ?_⟩, ⟨e1, e2⟩, ?_, fun t => ?_⟩
  · exact foldl_add_keys Canonical o (fun kv => bkTerm n kv.1 kv.2) [] wf_nil (fun t ht => by simp [keys] at ht) (fun kv hkv => (spec kv hkv).1)
  · rw [e3, action]
    clear e1 e2 e3 e4 w err hdef hn
    clear_value n
    induction o with
    | nil => simp
    | cons kv o ih =>
      rw [List.map_cons, List.sum_cons, List.map_cons, List.sum_cons, mul_add, add_mul, (spec kv (List.mem_cons_self ..)).2.1,
        ih (fun kv hkv => spec kv (List.mem_cons_of_mem _ hkv))]
  · have := err t
    rw [coeff_of_not_mem (o := []) (by simp [keys]), zero_add] at this
    rw [e4]; exact this

/-- C48: too small a register is rejected. -/
theorem bravyiKitaev_rejects (o : Terms Bool) (n : ℕ) (hn : n < countFermion o) : bravyiKitaev o (some n) = .error .valueError := if_pos hn

/-- C45, C48: on the same register the Jordan-Wigner and Bravyi-Kitaev images are related by the (bijective) relabelling of basis states; so they
have the same matrix elements between corresponding basis states, and the same spectrum. -/
theorem bk_jw_equivalent (o : Terms Bool) (δ : ℝ) (hδ : 1 / 10 ^ 8 ≤ δ) (hg : ∀ kv ∈ o, kv.2 ∈ Grid (2 ^ kv.1.length * δ)) :
    ∃ q, bravyiKitaev o none = .ok q ∧
      decodeState (countFermion o) * action pauliAction q = action pauliAction (jordanWigner o) * decodeState (countFermion o) := by
  obtain ⟨q, h1, _, h2⟩ := bravyiKitaev_action o none le_rfl δ hδ hg
  exact ⟨q, h1, by rw [jordanWigner_action o δ hδ hg]; exact h2⟩

/-! ### The iteration order over sets -/

/-- The order of factors on different qubits does not matter to the constructor. -/
theorem qubitSimplify_perm {t u : Term Letter} (h : t.Perm u) (hn : (t.map Prod.fst).Nodup) (c : ℂ) : qubitSimplify t c = qubitSimplify u c := by
  have : sortByIndex t = sortByIndex u := by
    refine List.Perm.eq_of_pairwise (le := fun a b => a.1 ≤ b.1) ?_ (sorted_sortByIndex t) (sorted_sortByIndex u)
      (((perm_sortByIndex t).trans h).trans (perm_sortByIndex u).symm)
    intro a b ha hb h1 h2
    have ha' := (perm_sortByIndex t).mem_iff.1 ha
    have hb' := h.mem_iff.2 ((perm_sortByIndex u).mem_iff.1 hb)
    exact List.inj_on_of_nodup_map hn ha' hb' (le_antisymm h1 h2)
  rw [qubitSimplify, qubitSimplify, this]

theorem lettersOn_fst (a : Letter) (S : Finset ℕ) : (lettersOn a S).map Prod.fst = S.sort (· ≤ ·) := by
  rw [lettersOn, List.map_map]; exact List.map_id _

/-- C48: whatever order Python iterates over the sets in, the ladder operator's image is the same. -/
theorem bk_order {n p : ℕ} (hp : p < n) {u v : Term Letter} (hu : (bkSumFactors p n).Perm u) (hv : (bkDiffFactors p n).Perm v) (c : ℂ) :
    ofTerm qubit u c = ofTerm qubit (bkSumFactors p n) c ∧ ofTerm qubit v c = ofTerm qubit (bkDiffFactors p n) c := by
  have one : ∀ (t u : Term Letter), t.Perm u → (t.map Prod.fst).Nodup → ofTerm qubit u c = ofTerm qubit t c := by
    intro t u h hn
    rw [ofTerm, ofTerm]
    show [((qubitSimplify u c).2, (qubitSimplify u c).1)] = [((qubitSimplify t c).2, (qubitSimplify t c).1)]
    rw [qubitSimplify_perm h hn]
  refine ⟨one _ _ hu ?_, one _ _ hv ?_⟩
  · rw [bkSumFactors, List.map_append, lettersOn_fst, lettersOn_fst]
    refine List.Nodup.append (Finset.sort_nodup _ _) (Finset.sort_nodup _ _) fun i h1 h2 => ?_
    rw [Finset.mem_sort] at h1 h2
    have := paritySet_lt p i h2
    rcases Finset.mem_insert.1 h1 with h | h
    · omega
    · have := updateSet_gt p n i hp h; omega
  · rw [bkDiffFactors, List.map_append, List.map_append, lettersOn_fst, lettersOn_fst]
    have hz : ∀ i ∈ symmDiff (paritySet p) (occupationSet p) \ {p}, i < p := by
      intro i hi
      have hne : i ≠ p := by simpa using (Finset.mem_sdiff.1 hi).2
      rcases Finset.mem_symmDiff.1 (Finset.mem_sdiff.1 hi).1 with ⟨h, _⟩ | ⟨h, _⟩
      · exact paritySet_lt p i h
      · have := occupationSet_le p i h; omega
    have hx : ∀ i ∈ insert p (updateSet p n) \ {p}, p < i := by
      intro i hi
      have hne : i ≠ p := by simpa using (Finset.mem_sdiff.1 hi).2
      rcases Finset.mem_insert.1 (Finset.mem_sdiff.1 hi).1 with h | h
      · exact absurd h hne
      · exact updateSet_gt p n i hp h
    refine List.Nodup.append (List.Nodup.append (by simp) (Finset.sort_nodup _ _) fun i h1 h2 => ?_) (Finset.sort_nodup _ _) fun i h1 h2 => ?_
    · rw [Finset.mem_sort] at h2
      have := hx i h2
      simp at h1; omega
    · rw [Finset.mem_sort] at h2
      have := hz i h2
      rcases List.mem_append.1 h1 with h1 | h1
      · simp at h1; omega
      · rw [Finset.mem_sort] at h1
        have := hx i h1; omega

/-- The hypotheses are met by a hopping Hamiltonian on five modes; the sets of mode 2 are those of the literature. -/
example : countFermion [([(4, true), (1, false)], 4), ([(1, true), (4, false)], 4)] = 5 ∧ (4 : ℂ) ∈ Grid (2 ^ 2 * 1) ∧
    updateSet 2 5 = {3} ∧ paritySet 2 = {1} ∧ occupationSet 3 = {3, 1, 2} :=
  ⟨by decide, ⟨1, 0, by norm_num⟩, by decide +kernel, by decide +kernel, by decide +kernel⟩

end ZQ.Op
