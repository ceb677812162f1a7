import Verif.Model.JWInteraction
import Verif.Spec.JWInteraction
import Verif.Props.TensorConversion
import Verif.Lemmas.StandsFor
import Verif.Props.ReverseJW
import Verif.Props.BravyiKitaev

/-! # C78: the Jordan-Wigner transform of interaction operators -/

namespace ZQ.JWInt

open ZQ ZQ.Op ZQ.PolyT PyDict

/-! ### Strings -/

/-- Entry of `X` or `Y` from the flipped bit to the bit `b`. -/
noncomputable def xyPhase (l : Letter) (b : Bool) : ℂ := if l = .X then 1 else if b then Complex.I else -Complex.I

theorem xy_apply {l : Letter} (hl : l = .X ∨ l = .Y) (q : ℕ) (ψ : State) (s : ℕ → Bool) :
    pauliAction (q, l) ψ s = xyPhase l (s q) * ψ (Function.update s q (!(s q))) := by
  rw [pauliAction, atQubit_apply]
  rcases hl with rfl | rfl <;> cases hs : s q <;> simp [letterMatrix, pauliX, pauliY, xyPhase]

theorem allZ_segment (a b : ℕ) : AllZ (zSegment a b) := by
  intro f hf
  obtain ⟨i, _, rfl⟩ := List.mem_map.1 hf
  rfl

theorem mem_segment {a b : ℕ} {f : ℕ × Letter} (hf : f ∈ zSegment a b) : a ≤ f.1 ∧ f.1 < b := by
  obtain ⟨i, hi, rfl⟩ := List.mem_map.1 hf
  rw [List.mem_range'_1] at hi
  dsimp only; omega

theorem segment_sign' (a k : ℕ) (s : ℕ → Bool) : sgn s (a + k) = sgn s a * zSign (zSegment a (a + k)) s := by
  induction k with
  | zero => simp [zSegment, zSign]
  | succ k ih =>
    have : zSegment a (a + (k + 1)) = zSegment a (a + k) ++ [(a + k, .Z)] := by
      rw [zSegment, zSegment, show a + (k + 1) - a = k + 1 by omega, show a + k - a = k by omega, List.range'_concat, List.map_append]
      simp
    rw [this, ← add_assoc, sgn_succ, ih, zSign, zSign, List.map_append, List.prod_append]
    simp [mul_assoc]

theorem segment_sign {a b : ℕ} (h : a < b) (s : ℕ → Bool) : zSign (zSegment (a + 1) b) s = sgn s a * bitSign s a * sgn s b := by
  have h1 := segment_sign' (a + 1) (b - (a + 1)) s
  rw [show a + 1 + (b - (a + 1)) = b by omega, sgn_succ] at h1
  rw [h1, bitSign]
  have h2 := sgn_sq s a
  have h3 := bitSign_sq s a
  rw [bitSign] at h3
  linear_combination (-(zSign (zSegment (a + 1) b) s)) * h3 - (zSign (zSegment (a + 1) b) s * (if s a then (-1 : ℂ) else 1) ^ 2) * h2

theorem canonical_segment (a b : ℕ) : Canonical (zSegment a b) := by
  refine ⟨?_, fun f hf => by rw [allZ_segment a b f hf]; simp⟩
  rw [zSegment, List.map_map]
  show (List.map id _).Pairwise _
  rw [List.map_id]
  exact List.pairwise_lt_range'

theorem canonical_cons {f : ℕ × Letter} {t : Term Letter} (hf : f.2 ≠ .I) (ht : Canonical t) (h : ∀ g ∈ t, f.1 < g.1) : Canonical (f :: t) := by
  refine ⟨?_, fun g hg => ?_⟩
  · rw [List.map_cons, List.pairwise_cons]
    refine ⟨fun x hx => ?_, ht.1⟩
    obtain ⟨g, hg, rfl⟩ := List.mem_map.1 hx
    exact h g hg
  · rcases List.mem_cons.1 hg with rfl | hg
    · exact hf
    · exact ht.2 g hg

theorem canonical_join {t u : Term Letter} (ht : Canonical t) (hu : Canonical u) (h : ∀ f ∈ t, ∀ g ∈ u, f.1 < g.1) : Canonical (t ++ u) := by
  refine ⟨?_, fun g hg => (List.mem_append.1 hg).elim (ht.2 g) (hu.2 g)⟩
  rw [List.map_append, List.pairwise_append]
  refine ⟨ht.1, hu.1, fun x hx y hy => ?_⟩
  obtain ⟨f, hf, rfl⟩ := List.mem_map.1 hx
  obtain ⟨g, hg, rfl⟩ := List.mem_map.1 hy
  exact h f hf g hg

theorem canonical_one {f : ℕ × Letter} (hf : f.2 ≠ .I) : Canonical [f] := canonical_cons hf ⟨List.Pairwise.nil, by simp⟩ (by simp)

theorem canonical_hop {a b : ℕ} (h : a < b) {la lb : Letter} (ha : la ≠ .I) (hb : lb ≠ .I) : Canonical (hopString a b la lb) := by
  refine canonical_join (canonical_join (canonical_one ha) (canonical_segment _ _) ?_) (canonical_one hb) ?_
  · intro f hf g hg
    rw [List.mem_singleton.1 hf]
    have := (mem_segment hg).1
    dsimp only; omega
  · intro f hf g hg
    rw [List.mem_singleton.1 hg]
    rcases List.mem_append.1 hf with hf | hf
    · rw [List.mem_singleton.1 hf]; exact h
    · exact (mem_segment hf).2

theorem ofTerm_canonical {t : Term Letter} (h : Canonical t) (c : ℂ) : ofTerm qubit t c = [(t, c)] := by
  rw [ofTerm]
  show [((qubitSimplify t c).2, (qubitSimplify t c).1)] = _
  rw [qubitSimplify_of_canonical h]

theorem hop_apply {a b : ℕ} (h : a < b) {la lb : Letter} (ha : la = .X ∨ la = .Y) (hb : lb = .X ∨ lb = .Y) (ψ : State) (s : ℕ → Bool) :
    termAction pauliAction (hopString a b la lb) ψ s = sgn s a * bitSign s a * sgn s b * (xyPhase la (s a) * xyPhase lb (s b)) *
      ψ (Function.update (Function.update s a (!(s a))) b (!(s b))) := by
  rw [hopString, termAction_append, termAction_append, termAction_cons, termAction_cons, termAction_nil, mul_one, mul_one, ←
    term_comm_pauli (f := (a, la)) (zSegment (a + 1) b) (fun g hg => by have := (mem_segment hg).1; dsimp only; omega), mul_assoc,
    Module.End.mul_apply, allZ_action (allZ_segment _ _), segment_sign h, Module.End.mul_apply, xy_apply ha, xy_apply hb, Function.update_of_ne h.ne']
  ring

/-! ### One-body terms -/

/-- `a†_p a_q`. -/
def hop (p q : ℕ) : Module.End ℂ State := ladderAction (p, true) * ladderAction (q, false)

theorem hop_ladder {p q : ℕ} (h : p ≠ q) (ψ : State) (s : ℕ → Bool) :
    hop p q ψ s = if s p = true ∧ s q = false then sgn s p * sgn s q * (if p < q then -1 else 1) * ψ (Function.update (Function.update s p (!(s p))) q (!(s q)))
      else 0 := by
  rw [hop, Module.End.mul_apply, ladder_apply, ladder_apply]
  dsimp only
  rw [Function.update_of_ne (Ne.symm h), sgn_update]
  cases hp : s p <;> cases hq : s q <;> by_cases hpq : p < q <;> simp [hpq] <;> ring

theorem hopLetters_xy {c : ℂ} {x : ℝ × Letter × Letter} (h : x ∈ hopLetters c) : (x.2.1 = .X ∨ x.2.1 = .Y) ∧ (x.2.2 = .X ∨ x.2.2 = .Y) := by
  simp only [hopLetters, List.mem_cons, List.not_mem_nil, or_false] at h
  rcases h with rfl | rfl | rfl | rfl <;> simp

theorem xy_ne {l : Letter} (h : l = .X ∨ l = .Y) : l ≠ .I := by rcases h with rfl | rfl <;> simp

/-- The four strings of a hopping term. -/
noncomputable def hopSum (a b : ℕ) (c : ℂ) : Module.End ℂ State :=
  ((hopLetters c).map fun x => (1 / 2 * (x.1 : ℂ)) • termAction pauliAction (hopString a b x.2.1 x.2.2)).sum

theorem hopSum_eq {a b : ℕ} (h : a < b) (c : ℂ) : hopSum a b c = c • hop a b + (starRingEnd ℂ) c • hop b a := by
  apply LinearMap.ext; intro ψ; funext s
  have hu : Function.update (Function.update s b (!(s b))) a (!(s a)) = Function.update (Function.update s a (!(s a))) b (!(s b)) :=
    Function.update_comm h.ne' _ _ _
  have hr : (starRingEnd ℂ) c = c.re - c.im * Complex.I := by
    apply Complex.ext <;> simp
  have hc : c = c.re + c.im * Complex.I := (Complex.re_add_im c).symm
  have hx : ∀ la lb, (la = Letter.X ∨ la = Letter.Y) → (lb = Letter.X ∨ lb = Letter.Y) → _ := fun la lb ha hb => hop_apply h (la := la) (lb := lb) ha hb ψ s
  simp only [hopSum, hopLetters, List.map_cons, List.map_nil, List.sum_cons, List.sum_nil, add_zero, LinearMap.add_apply, LinearMap.smul_apply,
    Pi.add_apply, Pi.smul_apply, smul_eq_mul]
  rw [hx _ _ (Or.inl rfl) (Or.inl rfl), hx _ _ (Or.inr rfl) (Or.inr rfl), hx _ _ (Or.inr rfl) (Or.inl rfl), hx _ _ (Or.inl rfl) (Or.inr rfl),
    hop_ladder h.ne, hop_ladder h.ne', if_pos h, if_neg (by omega : ¬ b < a), hu]
  generalize ψ (Function.update (Function.update s a (!(s a))) b (!(s b))) = w
  rw [hr]
  conv_rhs => rw [hc]
  have hI := Complex.I_sq
  cases hsa : s a <;> cases hsb : s b <;> simp [xyPhase, bitSign, hsa] <;> first | ring1 | linear_combination (sgn s a * sgn s b * w) * hc | (ring_nf; rw [hI]; ring1)

theorem grid_re {δ : ℝ} {c : ℂ} {k : ℝ} (h : c ∈ Grid (k * δ)) (hk : k ≠ 0) : (1 / k * c.re : ℂ) ∈ Grid δ ∧ (1 / k * c.im : ℂ) ∈ Grid δ := by
  have hk' : (k : ℂ) ≠ 0 := by exact_mod_cast hk
  obtain ⟨m, n, rfl⟩ := h
  refine ⟨⟨m, 0, ?_⟩, ⟨n, 0, ?_⟩⟩
  · simp; field_simp
  · simp; field_simp

theorem oneBodyOrdered_rep {δ : ℝ} (hδ : 1 / 10 ^ 8 ≤ δ) {p q : ℕ} (h : p < q) (c : ℂ) :
    StandsFor pauliAction Canonical (c ∈ Grid (2 * δ)) δ 4 (oneBodyOrdered p q c) (c • hop p q + (starRingEnd ℂ) c • hop q p) := by
  rw [← hopSum_eq h]
  have := StandsFor.foldl_add (ev := pauliAction) (P := Canonical) (G := c ∈ Grid (2 * δ)) hδ (k := 0)
    (fun x : ℝ × Letter × Letter => ofTerm qubit (hopString p q x.2.1 x.2.2) (1 / 2 * (x.1 : ℂ)))
    (fun x => (1 / 2 * (x.1 : ℂ)) • termAction pauliAction (hopString p q x.2.1 x.2.2)) (hopLetters c) (fun x hx => ?_) StandsFor.nil
  · exact (this.mono (by simp [hopLetters])).congr (zero_add _)
  · obtain ⟨h1, h2⟩ := hopLetters_xy hx
    have hcan := canonical_hop h (xy_ne h1) (xy_ne h2)
    rw [ofTerm_canonical hcan]
    refine StandsFor.of_exact (wf_single _ _) (fun t ht => ?_) (by rw [action_cons, action_nil, add_zero]) (fun hg => onGrid_single ?_)
    · rw [keys, List.map_singleton, List.mem_singleton] at ht
      rw [ht]; exact hcan
    · obtain ⟨g1, g2⟩ := grid_re hg two_ne_zero
      simp only [Complex.ofReal_ofNat] at g1 g2
      simp only [hopLetters, List.mem_cons, List.not_mem_nil, or_false] at hx
      rcases hx with rfl | rfl | rfl | rfl
      · exact g1
      · exact g1
      · exact g2
      · push_cast; rw [mul_neg]; exact (Grid δ).neg_mem g2

theorem conj_grid' {δ : ℝ} {c : ℂ} (h : c ∈ Grid δ) : (starRingEnd ℂ) c ∈ Grid δ := by
  obtain ⟨m, n, rfl⟩ := h
  exact ⟨m, -n, by simp⟩

/-- C78: `jordan_wigner_one_body(p, q, c)` stands for `c a†_p a_q + h.c.` when `p ≠ q`. -/
theorem oneBody_rep {δ : ℝ} (hδ : 1 / 10 ^ 8 ≤ δ) {p q : ℕ} (h : p ≠ q) (c : ℂ) :
    StandsFor pauliAction Canonical (c ∈ Grid (2 * δ)) δ 4 (oneBody p q c) (c • hop p q + (starRingEnd ℂ) c • hop q p) := by
  rw [oneBody, if_pos h]
  by_cases hpq : q < p
  · rw [if_pos hpq]
    refine (StandsFor.weaken (oneBodyOrdered_rep hδ hpq ((starRingEnd ℂ) c)) fun g => conj_grid' g).congr ?_
    rw [Complex.conj_conj, add_comm]
  · rw [if_neg hpq]
    exact oneBodyOrdered_rep hδ (by omega) c

theorem single_rep {G : Prop} {δ : ℝ} {t : Term Letter} (ht : Canonical t) (c : ℂ) (hg : G → c ∈ Grid δ) :
    StandsFor pauliAction Canonical G δ 0 (ofTerm qubit t c) (c • termAction pauliAction t) := by
  rw [ofTerm_canonical ht]
  refine StandsFor.of_exact (wf_single _ _) (fun u hu => ?_) (by rw [action_cons, action_nil, add_zero]) (fun h => onGrid_single (hg h))
  rw [keys, List.map_singleton, List.mem_singleton] at hu
  rw [hu]; exact ht

theorem canonical_nil : Canonical [] := ⟨List.Pairwise.nil, by simp⟩

/-- `Z_p = 1 - 2 a†_p a_p`. -/
theorem z_eq (p : ℕ) : pauliAction (p, .Z) = 1 - (2 : ℂ) • hop p p := by
  rw [← zPart_action, action_cons, action_cons, action_nil, termAction_cons, termAction_cons, termAction_nil]
  simp only [mul_one]
  show (1 : ℂ) • (1 : Module.End ℂ State) + ((-2 : ℂ) • hop p p + 0) = _
  module

theorem Grid.scale {δ k : ℝ} {c : ℂ} (h : c ∈ Grid (k * δ)) (hk : k ≠ 0) : 1 / (k : ℂ) * c ∈ Grid δ := by
  have hk' : (k : ℂ) ≠ 0 := by exact_mod_cast hk
  obtain ⟨m, n, rfl⟩ := h
  exact ⟨m, n, by push_cast; field_simp⟩

/-- C78: `jordan_wigner_one_body(p, p, c)` stands for `c a†_p a_p`. -/
theorem oneBody_diag_rep {δ : ℝ} (hδ : 1 / 10 ^ 8 ≤ δ) (p : ℕ) (c : ℂ) :
    StandsFor pauliAction Canonical (c ∈ Grid (2 * δ)) δ 2 (oneBody p p c) (c • hop p p) := by
  rw [oneBody, if_neg (by simp)]
  have g : c ∈ Grid (2 * δ) → 1 / 2 * c ∈ Grid δ := fun h => by simpa using Grid.scale h two_ne_zero
  refine (((StandsFor.nil.add hδ (single_rep canonical_nil (1 / 2 * c) g)).add hδ
    (single_rep (canonical_one (f := (p, .Z)) (by simp)) (-(1 / 2) * c) fun h => by rw [neg_mul]; exact (Grid δ).neg_mem (g h))).mono (le_refl _)).congr ?_
  rw [termAction_cons, termAction_nil, mul_one, z_eq]
  module

/-! ### Two-body terms -/

theorem end_neg_mul (A B : Module.End ℂ State) : -A * B = -(A * B) := LinearMap.ext fun ψ => rfl
theorem end_mul_neg (A B : Module.End ℂ State) : A * -B = -(A * B) := LinearMap.ext fun ψ => by
  rw [Module.End.mul_apply, LinearMap.neg_apply, LinearMap.neg_apply, Module.End.mul_apply, map_neg]

/-- `a†_p a†_q a_r a_s`. -/
def quad (p q r s : ℕ) : Module.End ℂ State := ladderAction (p, true) * ladderAction (q, true) * ladderAction (r, false) * ladderAction (s, false)

theorem quad_pp (p r s : ℕ) : quad p p r s = 0 := by rw [quad, ladder_sq, zero_mul, zero_mul]
theorem quad_rr (p q r : ℕ) : quad p q r r = 0 := by rw [quad, mul_assoc, ladder_sq, mul_zero]

theorem quad_swap_left (p q r s : ℕ) : quad q p r s = -quad p q r s := by
  by_cases h : p = q
  · subst h; rw [quad_pp, neg_zero]
  · rw [quad, quad, ladder_anticomm (f := (q, true)) (g := (p, true)) (Ne.symm h), end_neg_mul, end_neg_mul]

theorem quad_swap_right (p q r s : ℕ) : quad p q s r = -quad p q r s := by
  by_cases h : r = s
  · subst h; rw [quad_rr, neg_zero]
  · rw [quad, quad, mul_assoc, mul_assoc _ (ladderAction (r, false)), ladder_anticomm (f := (s, false)) (g := (r, false)) (Ne.symm h), end_mul_neg]

theorem quad_inner {p q : ℕ} (h : p ≠ q) (s : ℕ) : quad p q q s = hop q q * hop p s := by
  rw [quad, hop, hop, ladder_anticomm (f := (p, true)) (g := (q, true)) h, end_neg_mul, end_neg_mul, mul_assoc (ladderAction (q, true)),
    ladder_anticomm (f := (p, true)) (g := (q, false)) h, end_mul_neg, end_neg_mul, neg_neg]
  simp only [mul_assoc]

theorem quad_pr {p q : ℕ} (h : p ≠ q) (s : ℕ) : quad p q p s = -(hop p p * hop q s) := by rw [quad_swap_left q p, quad_inner h.symm]
theorem quad_qs {p q : ℕ} (h : p ≠ q) (r : ℕ) : quad p q r q = -(hop q q * hop p r) := by rw [quad_swap_right p q q r, quad_inner h]
theorem quad_ps {p q : ℕ} (h : p ≠ q) (r : ℕ) : quad p q r p = hop p p * hop q r := by
  rw [quad_swap_left q p, quad_qs h.symm, neg_neg]

theorem twoBodyTwo_rep {δ : ℝ} (hδ : 1 / 10 ^ 8 ≤ δ) {p q r s : ℕ} (h : p ≠ q) (hrs : (r = p ∧ s = q) ∨ (r = q ∧ s = p)) (c : ℂ) :
    StandsFor pauliAction Canonical (c ∈ Grid (4 * δ)) δ 4 (twoBodyTwo p q s c) (c • quad p q r s) := by
  have g : c ∈ Grid (4 * δ) → 1 / 4 * c ∈ Grid δ := fun h => by simpa using Grid.scale h four_ne_zero
  set k : ℂ := if p = s then -(1 / 4) * c else 1 / 4 * c with hk
  have gk : c ∈ Grid (4 * δ) → k ∈ Grid δ := fun h => by
    rw [hk]; split
    · rw [neg_mul]; exact (Grid δ).neg_mem (g h)
    · exact g h
  have hq : c • quad p q r s = (-4 * k) • (hop p p * hop q q) := by
    rcases hrs with ⟨rfl, rfl⟩ | ⟨rfl, rfl⟩
    · rw [quad_pr h, hk, if_neg h]; module
    · rw [quad_ps h, hk, if_pos rfl]; module
  have hmm : Canonical [(min q p, Letter.Z), (max q p, Letter.Z)] := by
    refine canonical_cons (by simp) (canonical_one (by simp)) fun x hx => ?_
    rw [List.mem_singleton.1 hx]
    dsimp only
    rcases lt_or_gt_of_ne h with h | h
    · rw [min_eq_right h.le, max_eq_left h.le]; exact h
    · rw [min_eq_left h.le, max_eq_right h.le]; exact h
  have hz : termAction pauliAction [(min q p, Letter.Z), (max q p, Letter.Z)] = pauliAction (p, .Z) * pauliAction (q, .Z) := by
    rw [termAction_cons, termAction_cons, termAction_nil, mul_one]
    rcases lt_or_gt_of_ne h with h | h
    · rw [min_eq_right h.le, max_eq_left h.le]
    · rw [min_eq_left h.le, max_eq_right h.le, pauliAction_comm (f := (q, .Z)) (g := (p, .Z)) h.ne]
  refine (((((StandsFor.nil.sub hδ (single_rep canonical_nil k gk)).add hδ (single_rep (canonical_one (f := (p, .Z)) (by simp)) k gk)).add hδ
    (single_rep (canonical_one (f := (q, .Z)) (by simp)) k gk)).sub hδ (single_rep hmm k gk)).mono (le_refl _)).congr ?_
  rw [hq, hz, termAction_cons, termAction_cons, termAction_nil, mul_one, mul_one, z_eq, z_eq]
  simp only [mul_sub, sub_mul, one_mul, mul_one, smul_mul_assoc, mul_smul_comm, smul_smul]
  module

/-- The product with a `Z` in front. -/
theorem zmul_rep {G : Prop} {δ : ℝ} (z : ℕ) {t : Term Letter} (ht : Canonical t) (c : ℂ) (hg : G → c ∈ Grid δ) :
    StandsFor pauliAction Canonical G δ 0 (mul qubit (ofTerm qubit [(z, .Z)] 1) (ofTerm qubit t c)) (c • (pauliAction (z, .Z) * termAction pauliAction t)) := by
  have hz : Canonical [(z, Letter.Z)] := canonical_one (by simp)
  refine StandsFor.of_exact (qubit_product_canonical _ _).1 (qubit_product_canonical _ _).2 ?_ fun h u => ?_
  · rw [qubit_product_action, ofTerm_canonical hz, ofTerm_canonical ht, action_cons, action_nil, action_cons, action_nil, add_zero, add_zero,
      termAction_cons, termAction_nil, mul_one, smul_mul_assoc, mul_smul_comm]
    module
  · rw [ofTerm_canonical hz, ofTerm_canonical ht]
    apply coeff_mul_mem
    intro l hl r hr
    rw [List.mem_singleton.1 hl, List.mem_singleton.1 hr]
    apply qubitSimplify_mem
    rw [one_mul]; exact hg h

theorem threeLoop_rep {δ : ℝ} (hδ : 1 / 10 ^ 8 ≤ δ) {a b : ℕ} (h : a < b) (z : ℕ) (c : ℂ) :
    StandsFor pauliAction Canonical (c ∈ Grid (4 * δ)) δ 8 ((hopLetters c).foldl (threeStep a b z) []) (hop z z * (c • hop a b + (starRingEnd ℂ) c • hop b a)) := by
  have := StandsFor.foldl (ev := pauliAction) (P := Canonical) (G := c ∈ Grid (4 * δ)) (δ := δ) (k := 2) (threeStep a b z)
    (fun x => hop z z * ((1 / 2 * (x.1 : ℂ)) • termAction pauliAction (hopString a b x.2.1 x.2.2))) (hopLetters c) (fun x hx n acc N hacc => ?_) _ _ _ StandsFor.nil
  · refine (this.mono (by simp [hopLetters])).congr ?_
    rw [zero_add, ← hopSum_eq h, hopSum, List.sum_map_mul_left]
  · rw [threeStep]
    by_cases h0 : x.1 = 0
    · rw [if_pos h0, h0]
      refine (hacc.mono (Nat.le_add_right n 2)).congr ?_
      simp
    · rw [if_neg h0]
      dsimp only
      obtain ⟨h1, h2⟩ := hopLetters_xy hx
      have hcan := canonical_hop h (xy_ne h1) (xy_ne h2)
      have hg : c ∈ Grid (4 * δ) → (x.1 : ℂ) / 4 ∈ Grid δ := fun hg => by
        obtain ⟨g1, g2⟩ := grid_re hg four_ne_zero
        simp only [Complex.ofReal_ofNat] at g1 g2
        rw [show (x.1 : ℂ) / 4 = 1 / 4 * x.1 by ring]
        simp only [hopLetters, List.mem_cons, List.not_mem_nil, or_false] at hx
        rcases hx with rfl | rfl | rfl | rfl
        · exact g1
        · exact g1
        · exact g2
        · push_cast; rw [mul_neg]; exact (Grid δ).neg_mem g2
      refine (((hacc.sub hδ (zmul_rep z hcan _ hg)).add hδ (single_rep hcan _ hg)).mono (le_of_eq (by ring))).congr ?_
      rw [z_eq]
      simp only [sub_mul, one_mul, smul_mul_assoc, mul_smul_comm]
      module

theorem twoBodyThree_rep {δ : ℝ} (hδ : 1 / 10 ^ 8 ≤ δ) {p q r s : ℕ} (hpq : p ≠ q) (hrs : r ≠ s)
    (h : (p = r ∧ q ≠ s) ∨ (p = s ∧ q ≠ r) ∨ (q = r ∧ p ≠ s) ∨ (q = s ∧ p ≠ r)) (c : ℂ) :
    StandsFor pauliAction Canonical (c ∈ Grid (4 * δ)) δ 8 (twoBodyThree p q r s c) (c • quad p q r s + (starRingEnd ℂ) c • quad s r q p) := by
  have key : ∀ (a b z : ℕ) (k : ℂ), (c ∈ Grid (4 * δ) → k ∈ Grid (4 * δ)) → a < b → threeData p q r s c = ((a, b), k, z) →
      hop z z * (k • hop a b + (starRingEnd ℂ) k • hop b a) = c • quad p q r s + (starRingEnd ℂ) c • quad s r q p →
      StandsFor pauliAction Canonical (c ∈ Grid (4 * δ)) δ 8 (twoBodyThree p q r s c) (c • quad p q r s + (starRingEnd ℂ) c • quad s r q p) := by
    intro a b z k hk hab hd he
    rw [twoBodyThree, hd]
    exact (StandsFor.weaken (threeLoop_rep hδ hab z k) hk).congr he
  have n1 : c ∈ Grid (4 * δ) → -c ∈ Grid (4 * δ) := fun h => (Grid _).neg_mem h
  have n2 : c ∈ Grid (4 * δ) → (starRingEnd ℂ) c ∈ Grid (4 * δ) := conj_grid'
  have n3 : c ∈ Grid (4 * δ) → -(starRingEnd ℂ) c ∈ Grid (4 * δ) := fun h => (Grid _).neg_mem (conj_grid' h)
  rcases h with ⟨rfl, h⟩ | ⟨rfl, h⟩ | ⟨rfl, h⟩ | ⟨rfl, h⟩
  · by_cases hl : s < q
    · refine key s q p _ n3 hl (by rw [threeData, if_pos rfl, if_pos hl]) ?_
      rw [quad_pr hpq, quad_qs hrs.symm, map_neg, Complex.conj_conj, mul_add, mul_smul_comm, mul_smul_comm]
      module
    · refine key q s p _ n1 (by omega) (by rw [threeData, if_pos rfl, if_neg hl]) ?_
      rw [quad_pr hpq, quad_qs hrs.symm, map_neg, mul_add, mul_smul_comm, mul_smul_comm]
      module
  · by_cases hl : r < q
    · refine key r q p _ n2 hl (by rw [threeData, if_neg hrs.symm, if_pos rfl, if_pos hl]) ?_
      rw [quad_ps hpq, quad_ps hrs.symm, Complex.conj_conj, mul_add, mul_smul_comm, mul_smul_comm]
      module
    · refine key q r p _ id (by omega) (by rw [threeData, if_neg hrs.symm, if_pos rfl, if_neg hl]) ?_
      rw [quad_ps hpq, quad_ps hrs.symm, mul_add, mul_smul_comm, mul_smul_comm]
  · by_cases hl : s < p
    · refine key s p q _ n2 hl (by rw [threeData, if_neg hpq, if_neg h, if_pos rfl, if_pos hl]) ?_
      rw [quad_inner hpq, quad_inner hrs.symm, Complex.conj_conj, mul_add, mul_smul_comm, mul_smul_comm]
      module
    · refine key p s q _ id (by omega) (by rw [threeData, if_neg hpq, if_neg h, if_pos rfl, if_neg hl]) ?_
      rw [quad_inner hpq, quad_inner hrs.symm, mul_add, mul_smul_comm, mul_smul_comm]
  · by_cases hl : r < p
    · refine key r p q _ n3 hl (by rw [threeData, if_neg h, if_neg hpq, if_neg hrs.symm, if_pos hl]) ?_
      rw [quad_qs hpq, quad_pr hrs.symm, map_neg, Complex.conj_conj, mul_add, mul_smul_comm, mul_smul_comm]
      module
    · refine key p r q _ n1 (by omega) (by rw [threeData, if_neg h, if_neg hpq, if_neg hrs.symm, if_neg hl]) ?_
      rw [quad_qs hpq, quad_pr hrs.symm, map_neg, mul_add, mul_smul_comm, mul_smul_comm]
      module

/-- A sign per comparison. -/
noncomputable def ltSign (p q : ℕ) : ℂ := if p < q then -1 else 1

/-- The state with four bits flipped. -/
def flip4 (s : ℕ → Bool) (a b c d : ℕ) : ℕ → Bool :=
  Function.update (Function.update (Function.update (Function.update s a (!(s a))) b (!(s b))) c (!(s c))) d (!(s d))

theorem quad_apply {p q r t : ℕ} (h1 : p ≠ q) (h2 : p ≠ r) (h3 : p ≠ t) (h4 : q ≠ r) (h5 : q ≠ t) (h6 : r ≠ t) (ψ : State) (s : ℕ → Bool) :
    quad p q r t ψ s = if s p = true ∧ s q = true ∧ s r = false ∧ s t = false then
      sgn s p * sgn s q * sgn s r * sgn s t * (ltSign p q * ltSign p r * ltSign p t * ltSign q r * ltSign q t * ltSign r t) * ψ (flip4 s p q r t) else 0 := by
  rw [quad, Module.End.mul_apply, Module.End.mul_apply, Module.End.mul_apply, ladder_apply, ladder_apply, ladder_apply, ladder_apply]
  dsimp only
  by_cases hp : s p = true
  swap
  · rw [if_neg hp, if_neg (fun h => hp h.1)]
  by_cases hq : s q = true
  swap
  · rw [if_neg (fun h : s p = true ∧ s q = true ∧ _ => hq h.2.1), Function.update_of_ne h1.symm, if_neg hq]; simp
  by_cases hr : s r = false
  swap
  · rw [if_neg (fun h : s p = true ∧ s q = true ∧ s r = false ∧ _ => hr h.2.2.1), Function.update_of_ne h4.symm, Function.update_of_ne h2.symm, if_neg hr]; simp
  by_cases ht : s t = false
  swap
  · rw [if_neg (fun h : s p = true ∧ s q = true ∧ s r = false ∧ s t = false => ht h.2.2.2), Function.update_of_ne h6.symm, Function.update_of_ne h5.symm,
      Function.update_of_ne h3.symm, if_neg ht]; simp
  rw [if_pos hp, Function.update_of_ne h1.symm, if_pos hq, Function.update_of_ne h4.symm, Function.update_of_ne h2.symm, if_pos hr,
    Function.update_of_ne h6.symm, Function.update_of_ne h5.symm, Function.update_of_ne h3.symm, if_pos ht, if_pos ⟨hp, hq, hr, ht⟩, flip4]
  simp only [sgn_update, Function.update_of_ne h1.symm, Function.update_of_ne h4.symm, Function.update_of_ne h2.symm, hp, hq, hr, ht, ltSign]
  simp only [ne_eq, Bool.not_true, Bool.not_false, reduceCtorEq, not_false_eq_true, and_true]
  split_ifs <;> ring

theorem sort4 {p q r t : ℕ} (h1 : p ≠ q) (h2 : p ≠ r) (h3 : p ≠ t) (h4 : q ≠ r) (h5 : q ≠ t) (h6 : r ≠ t) :
    ∃ a b c d, [p, q, r, t].insertionSort (· ≤ ·) = [a, b, c, d] ∧ a < b ∧ b < c ∧ c < d ∧
      ∀ σ : ℕ → ℂ, σ p = -1 → σ q = -1 → σ r = 1 → σ t = 1 →
        σ a * σ c = -((if xor (decide (q < p)) (decide (t < r)) then -1 else 1) *
          (ltSign p q * ltSign p r * ltSign p t * ltSign q r * ltSign q t * ltSign r t)) := by
  have srt : [p, q, r, t].insertionSort (· ≤ ·) = (([t].orderedInsert (· ≤ ·) r).orderedInsert (· ≤ ·) q).orderedInsert (· ≤ ·) p := rfl
  rcases lt_or_gt_of_ne h1 with h1 | h1 <;> rcases lt_or_gt_of_ne h2 with h2 | h2 <;> rcases lt_or_gt_of_ne h3 with h3 | h3 <;>
    rcases lt_or_gt_of_ne h4 with h4 | h4 <;> rcases lt_or_gt_of_ne h5 with h5 | h5 <;> rcases lt_or_gt_of_ne h6 with h6 | h6 <;>
    first
    | (exfalso; omega)
    | (rw [srt]
       simp only [List.orderedInsert, h1.le, h2.le, h3.le, h4.le, h5.le, h6.le, h1.not_ge, h2.not_ge, h3.not_ge, h4.not_ge, h5.not_ge, h6.not_ge, if_true, if_false]
       refine ⟨_, _, _, _, rfl, by assumption, by assumption, by assumption, fun σ e1 e2 e3 e4 => ?_⟩
       simp only [ltSign, e1, e2, e3, e4, h1, h2, h3, h4, h5, h6, h1.not_gt, h2.not_gt, h3.not_gt, h4.not_gt, h5.not_gt, h6.not_gt, if_true, if_false, decide_true, decide_false, Bool.xor_true, Bool.xor_false, Bool.not_true, Bool.not_false]
       norm_num)

/-- The sum of the entries of the sixteen strings. -/
theorem kernel4 (c : ℂ) (b1 b2 b3 b4 : Bool) :
    (letters4.map fun o => (fourCoeff c o : ℂ) * (xyPhase o.1 b1 * xyPhase o.2.1 b2 * xyPhase o.2.2.1 b3 * xyPhase o.2.2.2 b4)).sum
      = if b1 = true ∧ b2 = true ∧ b3 = false ∧ b4 = false then -c else if b1 = false ∧ b2 = false ∧ b3 = true ∧ b4 = true then -(starRingEnd ℂ) c else 0 := by
  have hr : (starRingEnd ℂ) c = c.re - c.im * Complex.I := by apply Complex.ext <;> simp
  have hc : c = c.re + c.im * Complex.I := (Complex.re_add_im c).symm
  simp [letters4, fourCoeff, countX, List.count_cons]
  rw [hr]
  generalize c.re = x at *
  generalize c.im = y at *
  cases b1 <;> cases b2 <;> cases b3 <;> cases b4 <;> simp [xyPhase] <;> (try rw [hc]) <;> ring_nf

theorem letters4_xy {o : Letter × Letter × Letter × Letter} (h : o ∈ letters4) :
    (o.1 = .X ∨ o.1 = .Y) ∧ (o.2.1 = .X ∨ o.2.1 = .Y) ∧ (o.2.2.1 = .X ∨ o.2.2.1 = .Y) ∧ (o.2.2.2 = .X ∨ o.2.2.2 = .Y) := by
  obtain ⟨a, b, c, d⟩ := o
  simp only [letters4, List.mem_flatMap, List.mem_map, List.mem_cons, List.not_mem_nil, or_false, Prod.mk.injEq] at h
  obtain ⟨_, h1, _, h2, _, h3, _, h4, rfl, rfl, rfl, rfl⟩ := h
  exact ⟨h1, h2, h3, h4⟩

theorem fourTerm_apply {a b c d : ℕ} (h1 : a ≠ b) (h2 : a ≠ c) (h3 : a ≠ d) (h4 : b ≠ c) (h5 : b ≠ d) (h6 : c ≠ d) {o : Letter × Letter × Letter × Letter}
    (ho : o ∈ letters4) (ψ : State) (s : ℕ → Bool) :
    termAction pauliAction [(a, o.1), (b, o.2.1), (c, o.2.2.1), (d, o.2.2.2)] ψ s =
      xyPhase o.1 (s a) * xyPhase o.2.1 (s b) * xyPhase o.2.2.1 (s c) * xyPhase o.2.2.2 (s d) * ψ (flip4 s a b c d) := by
  obtain ⟨o1, o2, o3, o4⟩ := letters4_xy ho
  rw [termAction_cons, termAction_cons, termAction_cons, termAction_cons, termAction_nil, mul_one, Module.End.mul_apply, Module.End.mul_apply, Module.End.mul_apply,
    xy_apply o1, xy_apply o2, xy_apply o3, xy_apply o4, Function.update_of_ne h1.symm, Function.update_of_ne h4.symm, Function.update_of_ne h2.symm,
    Function.update_of_ne h6.symm, Function.update_of_ne h5.symm, Function.update_of_ne h3.symm, flip4]
  ring

/-- The string of one combination of letters: canonical, and its action. -/
theorem fourString_spec {p q r t : ℕ} (h1 : p ≠ q) (h2 : p ≠ r) (h3 : p ≠ t) (h4 : q ≠ r) (h5 : q ≠ t) (h6 : r ≠ t) {a b c d : ℕ}
    (hs : [p, q, r, t].insertionSort (· ≤ ·) = [a, b, c, d]) (hab : a < b) (hbc : b < c) (hcd : c < d) {o : Letter × Letter × Letter × Letter}
    (ho : o ∈ letters4) :
    Canonical (fourString (sorted4 p q r t o)) ∧ ∀ (ψ : State) (s : ℕ → Bool),
      termAction pauliAction (fourString (sorted4 p q r t o)) ψ s =
        sgn s p * sgn s q * sgn s r * sgn s t * (bitSign s a * bitSign s c) *
        (xyPhase o.1 (s p) * xyPhase o.2.1 (s q) * xyPhase o.2.2.1 (s r) * xyPhase o.2.2.2 (s t) * ψ (flip4 s p q r t)) := by
  have hperm : (sorted4 p q r t o).Perm [(p, o.1), (q, o.2.1), (r, o.2.2.1), (t, o.2.2.2)] := List.perm_insertionSort _ _
  have hsorted : (sorted4 p q r t o).Pairwise fun x y => x.1 ≤ y.1 := by
    have : Std.Total fun (x y : ℕ × Letter) => x.1 ≤ y.1 := ⟨fun x y => le_total _ _⟩
    have : IsTrans (ℕ × Letter) fun x y => x.1 ≤ y.1 := ⟨fun x y z h h' => h.trans h'⟩
    exact List.pairwise_insertionSort _ _
  have hfst : (sorted4 p q r t o).map Prod.fst = [a, b, c, d] := by
    rw [← hs]
    refine List.Perm.eq_of_pairwise (le := (· ≤ ·)) (fun x y _ _ h h' => le_antisymm h h') (List.pairwise_map.2 hsorted) (List.pairwise_insertionSort _ _) ?_
    exact (hperm.map Prod.fst).trans (List.perm_insertionSort _ _).symm
  have hidx : [a, b, c, d].Perm [p, q, r, t] := by rw [← hs]; exact List.perm_insertionSort _ _
  have hlet : ∀ f ∈ sorted4 p q r t o, f.2 ≠ .I := by
    intro f hf
    obtain ⟨o1, o2, o3, o4⟩ := letters4_xy ho
    have := (hperm.mem_iff).1 hf
    simp only [List.mem_cons, List.not_mem_nil, or_false] at this
    rcases this with rfl | rfl | rfl | rfl
    · exact xy_ne o1
    · exact xy_ne o2
    · exact xy_ne o3
    · exact xy_ne o4
  generalize hl : sorted4 p q r t o = l at hperm hsorted hfst hlet
  match l, hfst with
  | [(a', x), (b', y), (c', z), (d', w)], hfst =>
    simp only [List.map_cons, List.map_nil, List.cons.injEq, and_true] at hfst
    obtain ⟨rfl, rfl, rfl, rfl⟩ := hfst
    simp only [List.mem_cons, List.not_mem_nil, or_false, forall_eq_or_imp, forall_eq] at hlet
    obtain ⟨lx, ly, lz, lw⟩ := hlet
    refine ⟨?_, fun ψ s => ?_⟩
    · show Canonical ([(a', x)] ++ zSegment (a' + 1) b' ++ [(b', y)] ++ [(c', z)] ++ zSegment (c' + 1) d' ++ [(d', w)])
      have e : [(a', x)] ++ zSegment (a' + 1) b' ++ [(b', y)] ++ [(c', z)] ++ zSegment (c' + 1) d' ++ [(d', w)] = hopString a' b' x y ++ hopString c' d' z w := by
        simp [hopString]
      rw [e]
      have bound : ∀ {i j : ℕ} {u v : Letter} {f : ℕ × Letter}, i < j → f ∈ hopString i j u v → i ≤ f.1 ∧ f.1 ≤ j := by
        intro i j u v f hij hf
        rcases List.mem_append.1 hf with hf | hf
        · rcases List.mem_append.1 hf with hf | hf
          · rw [List.mem_singleton.1 hf]; dsimp only; omega
          · have := mem_segment hf; omega
        · rw [List.mem_singleton.1 hf]; dsimp only; omega
      refine canonical_join (canonical_hop hab lx ly) (canonical_hop hcd lz lw) fun f hf g hg => ?_
      have := bound hab hf
      have := bound hcd hg
      omega
    · have e : termAction pauliAction (fourString [(a', x), (b', y), (c', z), (d', w)]) =
          termAction pauliAction (zSegment (a' + 1) b' ++ zSegment (c' + 1) d') * termAction pauliAction [(a', x), (b', y), (c', z), (d', w)] := by
        have c1 := term_comm_pauli (f := (a', x)) (zSegment (a' + 1) b') (fun g hg => by have := mem_segment hg; dsimp only; omega)
        have c2 := term_comm_pauli (f := (a', x)) (zSegment (c' + 1) d') (fun g hg => by have := mem_segment hg; dsimp only; omega)
        have c3 := term_comm_pauli (f := (b', y)) (zSegment (c' + 1) d') (fun g hg => by have := mem_segment hg; dsimp only; omega)
        have c4 := term_comm_pauli (f := (c', z)) (zSegment (c' + 1) d') (fun g hg => by have := mem_segment hg; dsimp only; omega)
        show termAction pauliAction ([(a', x)] ++ zSegment (a' + 1) b' ++ [(b', y)] ++ [(c', z)] ++ zSegment (c' + 1) d' ++ [(d', w)]) = _
        simp only [termAction_append, termAction_cons, termAction_nil, mul_one]
        generalize termAction pauliAction (zSegment (a' + 1) b') = S1 at *
        generalize termAction pauliAction (zSegment (c' + 1) d') = S2 at *
        generalize pauliAction (a', x) = A at *
        generalize pauliAction (b', y) = B at *
        generalize pauliAction (c', z) = C at *
        generalize pauliAction (d', w) = D at *
        calc A * S1 * B * C * S2 * D = A * S1 * B * (C * S2) * D := by simp only [mul_assoc]
          _ = A * S1 * (B * S2) * C * D := by rw [← c4]; simp only [mul_assoc]
          _ = (A * S1) * S2 * B * C * D := by rw [← c3]; simp only [mul_assoc]
          _ = S1 * (A * S2) * B * C * D := by rw [← c1]; simp only [mul_assoc]
          _ = S1 * S2 * (A * (B * (C * D))) := by rw [← c2]; simp only [mul_assoc]
      have eperm : termAction pauliAction [(a', x), (b', y), (c', z), (d', w)] = termAction pauliAction [(p, o.1), (q, o.2.1), (r, o.2.2.1), (t, o.2.2.2)] := by
        refine List.Perm.prod_eq' (hperm.map _) (List.pairwise_map.2 ?_)
        simp only [List.pairwise_cons, List.mem_cons, List.not_mem_nil, or_false, forall_eq_or_imp, forall_eq, IsEmpty.forall_iff, implies_true, List.Pairwise.nil, and_true]
        refine ⟨⟨?_, ?_, ?_⟩, ⟨?_, ?_⟩, ?_⟩ <;> exact pauliAction_comm (by dsimp only; omega)
      have hz : AllZ (zSegment (a' + 1) b' ++ zSegment (c' + 1) d') := fun f hf => (List.mem_append.1 hf).elim (allZ_segment _ _ f) (allZ_segment _ _ f)
      have hzs : zSign (zSegment (a' + 1) b' ++ zSegment (c' + 1) d') s = sgn s a' * bitSign s a' * sgn s b' * (sgn s c' * bitSign s c' * sgn s d') := by
        rw [← segment_sign hab, ← segment_sign hcd, zSign, zSign, zSign, List.map_append, List.prod_append]
      have hsg : sgn s a' * sgn s b' * sgn s c' * sgn s d' = sgn s p * sgn s q * sgn s r * sgn s t := by
        have := (hidx.map (sgn s)).prod_eq
        simp only [List.map_cons, List.map_nil, List.prod_cons, List.prod_nil, mul_one] at this
        simp only [mul_assoc]; exact this
      rw [e, Module.End.mul_apply, allZ_action hz, hzs, eperm, fourTerm_apply h1 h2 h3 h4 h5 h6 ho, ← hsg]
      ring

theorem ltSign_swap {p q : ℕ} (h : p ≠ q) : ltSign q p = -ltSign p q := by
  rw [ltSign, ltSign]
  rcases lt_or_gt_of_ne h with h | h
  · rw [if_pos h, if_neg h.not_gt]; norm_num
  · rw [if_neg h.not_gt, if_pos h]

theorem flip4_reverse {p q r t : ℕ} (h1 : p ≠ q) (h2 : p ≠ r) (h3 : p ≠ t) (h4 : q ≠ r) (h5 : q ≠ t) (h6 : r ≠ t) (s : ℕ → Bool) :
    flip4 s t r q p = flip4 s p q r t := by
  funext i
  rw [flip4, flip4]
  by_cases e1 : i = p
  · subst e1; simp [h1, h2, h3]
  · by_cases e2 : i = q
    · subst e2; simp [h1.symm, h4, h5]
    · by_cases e3 : i = r
      · subst e3; simp [h2.symm, h4.symm, h6]
      · by_cases e4 : i = t
        · subst e4; simp [h3.symm, h5.symm, h6.symm]
        · simp [e1, e2, e3, e4]

theorem fourCoeff_grid {δ : ℝ} {c : ℂ} (h : c ∈ Grid (8 * δ)) (o : Letter × Letter × Letter × Letter) : (fourCoeff c o : ℂ) ∈ Grid δ := by
  obtain ⟨g1, g2⟩ := grid_re h (by norm_num : (8 : ℝ) ≠ 0)
  simp only [Complex.ofReal_ofNat] at g1 g2
  rw [fourCoeff]
  split_ifs
  · push_cast; rw [mul_neg, mul_one]; exact (Grid δ).neg_mem g2
  · push_cast; exact g2
  · push_cast; exact g1
  · push_cast; rw [mul_neg, mul_one]; exact (Grid δ).neg_mem g1

theorem twoBodyFour_rep {δ : ℝ} (hδ : 1 / 10 ^ 8 ≤ δ) {p q r t : ℕ} (h1 : p ≠ q) (h2 : p ≠ r) (h3 : p ≠ t) (h4 : q ≠ r) (h5 : q ≠ t) (h6 : r ≠ t) (c : ℂ) :
    StandsFor pauliAction Canonical (c ∈ Grid (8 * δ)) δ 16 (twoBodyFour p q r t c) (c • quad p q r t + (starRingEnd ℂ) c • quad t r q p) := by
  obtain ⟨a, b, c', d, hs, hab, hbc, hcd, hsign⟩ := sort4 h1 h2 h3 h4 h5 h6
  have hstr : ∀ o ∈ letters4, _ := fun o ho => fourString_spec h1 h2 h3 h4 h5 h6 hs hab hbc hcd (o := o) ho
  rw [twoBodyFour]
  set ε : ℂ := if xor (decide (q < p)) (decide (t < r)) then -1 else 1 with hε
  have hk : (if xor (decide (q < p)) (decide (t < r)) = true then c * -1 else c) = c * ε := by
    rw [hε]; split <;> simp
  have hεε : ε * ε = 1 := by rw [hε]; split <;> norm_num
  have hεc : (starRingEnd ℂ) ε = ε := by rw [hε]; split <;> simp
  have hεg : c ∈ Grid (8 * δ) → c * ε ∈ Grid (8 * δ) := fun h => by
    rw [hε]; split
    · rw [mul_neg, mul_one]; exact (Grid _).neg_mem h
    · rwa [mul_one]
  rw [hk]
  have := StandsFor.foldl (ev := pauliAction) (P := Canonical) (G := c ∈ Grid (8 * δ)) (δ := δ) (k := 1)
    (fun acc o => if fourCoeff (c * ε) o = 0 then acc else add acc (ofTerm qubit (fourString (sorted4 p q r t o)) (fourCoeff (c * ε) o : ℂ)))
    (fun o => (fourCoeff (c * ε) o : ℂ) • termAction pauliAction (fourString (sorted4 p q r t o))) letters4 (fun o ho n acc N hacc => ?_) _ _ _ StandsFor.nil
  · refine (this.mono (by simp [letters4])).congr ?_
    rw [zero_add]
    apply LinearMap.ext; intro ψ; funext s
    have hsum : ((letters4.map fun o => (fourCoeff (c * ε) o : ℂ) • termAction pauliAction (fourString (sorted4 p q r t o))).sum) ψ s =
        sgn s p * sgn s q * sgn s r * sgn s t * (bitSign s a * bitSign s c') * ψ (flip4 s p q r t) *
          (letters4.map fun o => (fourCoeff (c * ε) o : ℂ) *
            (xyPhase o.1 (s p) * xyPhase o.2.1 (s q) * xyPhase o.2.2.1 (s r) * xyPhase o.2.2.2 (s t))).sum := by
      have gen : ∀ l : List (Letter × Letter × Letter × Letter), (∀ o ∈ l, o ∈ letters4) →
          ((l.map fun o => (fourCoeff (c * ε) o : ℂ) • termAction pauliAction (fourString (sorted4 p q r t o))).sum) ψ s =
          sgn s p * sgn s q * sgn s r * sgn s t * (bitSign s a * bitSign s c') * ψ (flip4 s p q r t) *
          (l.map fun o => (fourCoeff (c * ε) o : ℂ) *
            (xyPhase o.1 (s p) * xyPhase o.2.1 (s q) * xyPhase o.2.2.1 (s r) * xyPhase o.2.2.2 (s t))).sum := by
        intro l
        induction l with
        | nil => intro _; simp
        | cons o l ih =>
          intro hl
          rw [List.map_cons, List.sum_cons, LinearMap.add_apply, Pi.add_apply, ih fun o' h' => hl o' (List.mem_cons_of_mem _ h'), LinearMap.smul_apply,
            Pi.smul_apply, smul_eq_mul, (hstr o (hl o (List.mem_cons_self ..))).2, List.map_cons, List.sum_cons]
          ring
      exact gen letters4 fun o h => h
    rw [hsum, kernel4, LinearMap.add_apply, LinearMap.smul_apply, LinearMap.smul_apply, Pi.add_apply, Pi.smul_apply, Pi.smul_apply, smul_eq_mul, smul_eq_mul,
      quad_apply h1 h2 h3 h4 h5 h6, quad_apply h6.symm h5.symm h3.symm h4.symm h2.symm h1.symm, flip4_reverse h1 h2 h3 h4 h5 h6, ltSign_swap h6, ltSign_swap h5,
      ltSign_swap h3, ltSign_swap h4, ltSign_swap h2, ltSign_swap h1, map_mul, hεc]
    by_cases c1 : s p = true ∧ s q = true ∧ s r = false ∧ s t = false
    · obtain ⟨e1, e2, e3, e4⟩ := c1
      have := hsign (bitSign s) (by simp [bitSign, e1]) (by simp [bitSign, e2]) (by simp [bitSign, e3]) (by simp [bitSign, e4])
      rw [if_pos ⟨e1, e2, e3, e4⟩, if_pos ⟨e1, e2, e3, e4⟩, if_neg (by rw [e4]; simp), this]
      linear_combination (sgn s p * sgn s q * sgn s r * sgn s t * ψ (flip4 s p q r t) * c *
        (ltSign p q * ltSign p r * ltSign p t * ltSign q r * ltSign q t * ltSign r t)) * hεε
    · by_cases c2 : s p = false ∧ s q = false ∧ s r = true ∧ s t = true
      · obtain ⟨e1, e2, e3, e4⟩ := c2
        have := hsign (fun i => -bitSign s i) (by simp [bitSign, e1]) (by simp [bitSign, e2]) (by simp [bitSign, e3]) (by simp [bitSign, e4])
        rw [neg_mul_neg] at this
        rw [if_neg c1, if_neg c1, if_pos ⟨e1, e2, e3, e4⟩, if_pos ⟨e4, e3, e2, e1⟩, this]
        linear_combination (sgn s p * sgn s q * sgn s r * sgn s t * ψ (flip4 s p q r t) * (starRingEnd ℂ) c *
          (ltSign p q * ltSign p r * ltSign p t * ltSign q r * ltSign q t * ltSign r t)) * hεε
      · rw [if_neg c1, if_neg c2, if_neg c1, if_neg (fun h : s t = true ∧ s r = true ∧ s q = false ∧ s p = false => c2 ⟨h.2.2.2, h.2.2.1, h.2.1, h.1⟩)]
        ring
  · by_cases h0 : fourCoeff (c * ε) o = 0
    · rw [if_pos h0, h0]
      refine (hacc.mono (Nat.le_add_right n 1)).congr ?_
      simp
    · rw [if_neg h0]
      exact (hacc.add hδ (single_rep (hstr o ho).1 _ fun h => fourCoeff_grid (hεg h) o)).mono (le_of_eq (by ring))

theorem Grid.sub_int {δ : ℝ} (k : ℤ) {z : ℂ} (h : z ∈ Grid (k * δ)) : z ∈ Grid δ := by
  obtain ⟨m, n, rfl⟩ := h
  exact ⟨k * m, k * n, by push_cast; ring⟩

/-- C78: `jordan_wigner_two_body(p, q, r, s, c)` stands for `c a†_p a†_q a_r a_s + h.c.`; when that product is diagonal the conjugate is not added. -/
theorem twoBody_rep {δ : ℝ} (hδ : 1 / 10 ^ 8 ≤ δ) (p q r s : ℕ) (c : ℂ) :
    (((p = r ∧ q = s) ∨ (p = s ∧ q = r)) → StandsFor pauliAction Canonical (c ∈ Grid (8 * δ)) δ 16 (twoBody p q r s c) (c • quad p q r s)) ∧
    (¬ ((p = r ∧ q = s) ∨ (p = s ∧ q = r)) →
      StandsFor pauliAction Canonical (c ∈ Grid (8 * δ)) δ 16 (twoBody p q r s c) (c • quad p q r s + (starRingEnd ℂ) c • quad s r q p)) := by
  have g84 : c ∈ Grid (8 * δ) → c ∈ Grid (4 * δ) := fun h => Grid.sub_int 2 (by rw [show (8 : ℝ) * δ = ((2 : ℤ) : ℝ) * (4 * δ) by push_cast; ring] at h; exact h)
  by_cases hpq : p = q
  · subst hpq
    have e : twoBody p p r s c = [] := by rw [twoBody, if_pos (Or.inl rfl)]
    rw [e, quad_pp, quad_rr, smul_zero, smul_zero, add_zero]
    exact ⟨fun _ => StandsFor.nil.mono (by norm_num), fun _ => StandsFor.nil.mono (by norm_num)⟩
  by_cases hrs : r = s
  · subst hrs
    have e : twoBody p q r r c = [] := by rw [twoBody, if_pos (Or.inr rfl)]
    rw [e, quad_pp, quad_rr, smul_zero, smul_zero, add_zero]
    exact ⟨fun _ => StandsFor.nil.mono (by norm_num), fun _ => StandsFor.nil.mono (by norm_num)⟩
  have hsp : ¬ s = r := fun h => hrs h.symm
  have hqp : ¬ q = p := fun h => hpq h.symm
  constructor
  · intro h
    have hd : [p, q, r, s].dedup.length = 2 := by
      rcases h with ⟨rfl, rfl⟩ | ⟨rfl, rfl⟩
      · simp [List.dedup_cons_of_mem, List.dedup_cons_of_notMem, hpq]
      · simp [List.dedup_cons_of_mem, List.dedup_cons_of_notMem, hpq, hqp]
    rw [twoBody, if_neg (by tauto), if_neg (by omega), if_neg (by omega), if_pos hd]
    exact (StandsFor.weaken (twoBodyTwo_rep hδ hpq (by tauto) c) g84).mono (by norm_num)
  · intro h
    by_cases h3 : p = r ∨ p = s ∨ q = r ∨ q = s
    · have hd : [p, q, r, s].dedup.length = 3 := by
        rcases h3 with rfl | rfl | rfl | rfl
        · have : q ≠ s := fun e => h (Or.inl ⟨rfl, e⟩)
          simp [List.dedup_cons_of_mem, List.dedup_cons_of_notMem, hpq, hqp, hrs, this]
        · have : q ≠ r := fun e => h (Or.inr ⟨rfl, e⟩)
          simp [List.dedup_cons_of_mem, List.dedup_cons_of_notMem, hpq, hqp, hrs, this]
        · have : p ≠ s := fun e => h (Or.inr ⟨e, rfl⟩)
          simp [List.dedup_cons_of_mem, List.dedup_cons_of_notMem, hpq, hqp, hrs, this]
        · have : p ≠ r := fun e => h (Or.inl ⟨e, rfl⟩)
          simp [List.dedup_cons_of_mem, List.dedup_cons_of_notMem, hpq, hqp, hrs, this]
      rw [twoBody, if_neg (by tauto), if_neg (by omega), if_pos hd]
      refine (StandsFor.weaken (twoBodyThree_rep hδ hpq hrs ?_ c) g84).mono (by norm_num)
      rcases h3 with e | e | e | e
      · exact Or.inl ⟨e, fun e' => h (Or.inl ⟨e, e'⟩)⟩
      · exact Or.inr (Or.inl ⟨e, fun e' => h (Or.inr ⟨e, e'⟩)⟩)
      · exact Or.inr (Or.inr (Or.inl ⟨e, fun e' => h (Or.inr ⟨e', e⟩)⟩))
      · exact Or.inr (Or.inr (Or.inr ⟨e, fun e' => h (Or.inl ⟨e', e⟩)⟩))
    · push Not at h3
      obtain ⟨k1, k2, k3, k4⟩ := h3
      have hd : [p, q, r, s].dedup.length = 4 := by
        simp [List.dedup_cons_of_notMem, hpq, hrs, k1, k2, k3, k4]
      rw [twoBody, if_neg (by tauto), if_pos hd]
      exact twoBodyFour_rep hδ hpq k1 k2 k3 k4 hrs c

/-! ### The whole operator -/

theorem pairs_mem {α : Type} {l : List α} {z : α × α} (h : z ∈ pairs l) : z.1 ∈ l ∧ z.2 ∈ l := by
  induction l with
  | nil => simp [pairs] at h
  | cons x l ih =>
    rcases List.mem_append.1 h with h | h
    · obtain ⟨y, hy, rfl⟩ := List.mem_map.1 h
      exact ⟨List.mem_cons_self .., List.mem_cons_of_mem _ hy⟩
    · exact ⟨List.mem_cons_of_mem _ (ih h).1, List.mem_cons_of_mem _ (ih h).2⟩

theorem pairs_rel {α : Type} {R : α → α → Prop} {l : List α} (hl : l.Pairwise R) {z : α × α} (h : z ∈ pairs l) : R z.1 z.2 := by
  induction l with
  | nil => simp [pairs] at h
  | cons x l ih =>
    rw [List.pairwise_cons] at hl
    rcases List.mem_append.1 h with h | h
    · obtain ⟨y, hy, rfl⟩ := List.mem_map.1 h
      exact hl.1 y hy
    · exact ih hl.2 h

theorem pairs_nodup {α : Type} {l : List α} (hl : l.Nodup) : (pairs l).Nodup := by
  induction l with
  | nil => exact List.nodup_nil
  | cons x l ih =>
    rw [List.nodup_cons] at hl
    refine List.nodup_append'.2 ⟨hl.2.map fun a b h => (Prod.mk.inj h).2, ih hl.2, ?_⟩
    intro z h1 h2
    obtain ⟨y, _, rfl⟩ := List.mem_map.1 h1
    exact hl.1 (pairs_mem h2).1

theorem pairs_length {α : Type} (l : List α) : (pairs l).length = l.length.choose 2 := by
  induction l with
  | nil => rfl
  | cons x l ih => rw [pairs, List.length_append, List.length_map, ih, List.length_cons, Nat.choose_succ_succ' _ 1, Nat.choose_one_right]

/-- A double sum over a list, split into the diagonal and the pairs. -/
theorem sum_square {α M : Type} [AddCommMonoid M] (l : List α) (F : α → α → M) :
    (l.map fun x => (l.map fun y => F x y).sum).sum = (l.map fun x => F x x).sum + ((pairs l).map fun z => F z.1 z.2 + F z.2 z.1).sum := by
  induction l with
  | nil => simp [pairs]
  | cons x l ih =>
    simp only [List.map_cons, List.sum_cons, List.sum_map_add, pairs, List.map_append, List.sum_append, List.map_map] at ih ⊢
    rw [ih]
    simp only [Function.comp_def, List.sum_map_add]
    abel

theorem sum_allIndices_two {M : Type} [AddCommMonoid M] (n : ℕ) (f : List ℕ → M) :
    ((allIndices n 2).map f).sum = ((List.range n).map fun p => ((List.range n).map fun q => f [p, q]).sum).sum := by
  rw [allIndices, sum_flatMap]
  congr 1
  apply List.map_congr_left
  intro p _
  rw [List.map_map, allIndices, sum_flatMap]
  congr 1
  apply List.map_congr_left
  intro q _
  simp [allIndices]

theorem sum_allIndices_four {M : Type} [AddCommMonoid M] (n : ℕ) (f : List ℕ → M) :
    ((allIndices n 4).map f).sum = ((List.range n).map fun p => ((List.range n).map fun q =>
      ((List.range n).map fun r => ((List.range n).map fun s => f [p, q, r, s]).sum).sum).sum).sum := by
  rw [allIndices, sum_flatMap]
  congr 1
  apply List.map_congr_left
  intro p _
  rw [List.map_map, allIndices, sum_flatMap]
  congr 1
  apply List.map_congr_left
  intro q _
  rw [List.map_map, sum_allIndices_two]
  rfl

theorem polyAction_interaction (n : ℕ) (c : ℂ) (one two : Tensor) :
    polyAction (interaction n c one two) = c • 1 + ((List.range n).map fun p => ((List.range n).map fun q => one [p, q] • hop p q).sum).sum +
      ((List.range n).map fun p => ((List.range n).map fun q =>
        ((List.range n).map fun r => ((List.range n).map fun s => two [p, q, r, s] • quad p q r s).sum).sum).sum).sum := by
  rw [polyAction, interaction, List.map_cons, List.map_cons, List.map_cons, List.map_nil, List.sum_cons, List.sum_cons, List.sum_cons, List.sum_nil, add_zero,
    tensorAction_const, tensorAction_eq, tensorAction_eq, ← add_assoc]
  congr 1
  · congr 1
    refine (sum_allIndices_two n _).trans ?_
    simp [termAction_cons, termAction_nil, hop]
  · refine (sum_allIndices_four n _).trans ?_
    simp [termAction_cons, termAction_nil, quad, mul_assoc]

/-- The operator written over pairs of modes. -/
theorem polyAction_pairs (n : ℕ) (c : ℂ) (one two : Tensor) :
    polyAction (interaction n c one two) = c • 1 + ((List.range n).map fun p => one [p, p] • hop p p).sum +
      ((pairs (List.range n)).map fun x => one [x.1, x.2] • hop x.1 x.2 + one [x.2, x.1] • hop x.2 x.1).sum +
      (((pairs (List.range n)).map fun x => (two [x.1, x.2, x.1, x.2] - two [x.1, x.2, x.2, x.1] - two [x.2, x.1, x.1, x.2] + two [x.2, x.1, x.2, x.1]) •
        quad x.1 x.2 x.1 x.2).sum +
      ((pairs (pairs (List.range n))).map fun x =>
        (two [x.1.1, x.1.2, x.2.1, x.2.2] - two [x.1.1, x.1.2, x.2.2, x.2.1] - two [x.1.2, x.1.1, x.2.1, x.2.2] + two [x.1.2, x.1.1, x.2.2, x.2.1]) •
          quad x.1.1 x.1.2 x.2.1 x.2.2 +
        (two [x.2.1, x.2.2, x.1.1, x.1.2] - two [x.2.1, x.2.2, x.1.2, x.1.1] - two [x.2.2, x.2.1, x.1.1, x.1.2] + two [x.2.2, x.2.1, x.1.2, x.1.1]) •
          quad x.2.1 x.2.2 x.1.1 x.1.2).sum) := by
  rw [polyAction_interaction, sum_square (List.range n) fun p q => one [p, q] • hop p q, ← add_assoc]
  congr 1
  have inner : ∀ p q, ((List.range n).map fun r => ((List.range n).map fun s => two [p, q, r, s] • quad p q r s).sum).sum =
      ((pairs (List.range n)).map fun y => (two [p, q, y.1, y.2] - two [p, q, y.2, y.1]) • quad p q y.1 y.2).sum := by
    intro p q
    rw [sum_square (List.range n) fun r s => two [p, q, r, s] • quad p q r s]
    have h0 : ((List.range n).map fun r => two [p, q, r, r] • quad p q r r).sum = 0 := by
      apply List.sum_eq_zero
      intro x hx
      obtain ⟨r, _, rfl⟩ := List.mem_map.1 hx
      rw [quad_rr, smul_zero]
    rw [h0, zero_add]
    congr 1
    apply List.map_congr_left
    intro y _
    rw [quad_swap_right p q y.1 y.2]
    module
  simp only [inner]
  rw [sum_square (List.range n) fun p q => ((pairs (List.range n)).map fun y => (two [p, q, y.1, y.2] - two [p, q, y.2, y.1]) • quad p q y.1 y.2).sum]
  have h0 : ((List.range n).map fun p => ((pairs (List.range n)).map fun y => (two [p, p, y.1, y.2] - two [p, p, y.2, y.1]) • quad p p y.1 y.2).sum).sum = 0 := by
    apply List.sum_eq_zero
    intro x hx
    obtain ⟨r, _, rfl⟩ := List.mem_map.1 hx
    apply List.sum_eq_zero
    intro x hx
    obtain ⟨y, _, rfl⟩ := List.mem_map.1 hx
    rw [quad_pp, smul_zero]
  rw [h0, zero_add, ← sum_square (pairs (List.range n)) fun x y =>
    (two [x.1, x.2, y.1, y.2] - two [x.1, x.2, y.2, y.1] - two [x.2, x.1, y.1, y.2] + two [x.2, x.1, y.2, y.1]) • quad x.1 x.2 y.1 y.2]
  congr 1
  apply List.map_congr_left
  intro x _
  rw [← List.sum_map_add]
  congr 1
  apply List.map_congr_left
  intro y _
  rw [quad_swap_left x.1 x.2]
  module

theorem hermOne_pair (one : Tensor) (p q : ℕ) : hermOne one [p, q] = if p = q then one [p, q] else 1 / 2 * (one [p, q] + (starRingEnd ℂ) (one [q, p])) := rfl

theorem hermTwo_quad (two : Tensor) (p q r s : ℕ) : hermTwo two [p, q, r, s] =
    if (p = r ∧ q = s) ∨ (p = s ∧ q = r) then two [p, q, r, s] else 1 / 2 * (two [p, q, r, s] + (starRingEnd ℂ) (two [s, r, q, p])) := rfl

theorem hermTwo_of {two : Tensor} {p q r s : ℕ} (h : ¬ ((p = r ∧ q = s) ∨ (p = s ∧ q = r))) :
    hermTwo two [p, q, r, s] = 1 / 2 * (two [p, q, r, s] + (starRingEnd ℂ) (two [s, r, q, p])) := if_neg h

/-- All entries lie on a grid. -/
def EntriesOn (n : ℕ) (γ : ℝ) (c : ℂ) (one two : Tensor) : Prop :=
  c ∈ Grid γ ∧ (∀ p < n, ∀ q < n, one [p, q] ∈ Grid γ) ∧ ∀ p < n, ∀ q < n, ∀ r < n, ∀ s < n, two [p, q, r, s] ∈ Grid γ

theorem Grid.half' {δ : ℝ} {z : ℂ} (h : z ∈ Grid (2 * δ)) : 1 / 2 * z ∈ Grid δ := by rw [mul_comm]; exact Grid.half h

theorem jwInteraction_standsFor {δ : ℝ} (hδ : 1 / 10 ^ 8 ≤ δ) (n : ℕ) (c : ℂ) (one two : Tensor) :
    ∃ o, jwInteraction n c one two none = .ok o ∧ StandsFor pauliAction Canonical (EntriesOn n (16 * δ) c one two) δ
      (n * 3 + n.choose 2 * 22 + (n.choose 2).choose 2 * 17) o (polyAction (interaction n c (hermOne one) (hermTwo two))) := by
  rw [jwInteraction, Option.getD_none, if_neg (lt_irrefl n), if_neg (lt_irrefl n)]
  refine ⟨_, rfl, ?_⟩
  set G := EntriesOn n (16 * δ) c one two with hG
  have lt_of : ∀ {x : ℕ × ℕ}, x ∈ pairs (List.range n) → x.1 < x.2 ∧ x.1 < n ∧ x.2 < n := fun {x} hx =>
    ⟨pairs_rel List.pairwise_lt_range hx, List.mem_range.1 (pairs_mem hx).1, List.mem_range.1 (pairs_mem hx).2⟩
  have g162 : ∀ z : ℂ, z ∈ Grid (16 * δ) → z ∈ Grid (2 * δ) := fun z h => Grid.sub_int 8 (by rwa [show (16 : ℝ) * δ = ((8 : ℤ) : ℝ) * (2 * δ) by push_cast; ring] at h)
  have g164 : ∀ z : ℂ, z ∈ Grid (16 * δ) → z ∈ Grid (2 * (2 * δ)) := fun z h => Grid.sub_int 4 (by rwa [show (16 : ℝ) * δ = ((4 : ℤ) : ℝ) * (2 * (2 * δ)) by push_cast; ring] at h)
  have g168 : ∀ z : ℂ, z ∈ Grid (16 * δ) → z ∈ Grid (8 * δ) := fun z h => Grid.sub_int 2 (by rwa [show (16 : ℝ) * δ = ((2 : ℤ) : ℝ) * (8 * δ) by push_cast; ring] at h)
  have g1616 : ∀ z : ℂ, z ∈ Grid (16 * δ) → z ∈ Grid (2 * (8 * δ)) := fun z h => by rwa [show (16 : ℝ) * δ = 2 * (8 * δ) by ring] at h
  have s0 : StandsFor pauliAction Canonical G δ 0 (ofTerm qubit [] c) (c • 1) := (single_rep canonical_nil c fun h => Grid.sub_int 16 (by exact_mod_cast h.1)).congr (by rw [termAction_nil])
  have s1 := StandsFor.foldl_add hδ (k := 2) (fun p => oneBody p p (one [p, p])) (fun p => hermOne one [p, p] • hop p p) (List.range n) (fun p hp => by
    have hp := List.mem_range.1 hp
    rw [hermOne_pair, if_pos rfl]
    exact (oneBody_diag_rep hδ p (one [p, p])).weaken fun h => g162 _ (h.2.1 p hp p hp)) s0
  have s2 := StandsFor.foldl (ev := pauliAction) (P := Canonical) (G := G) (δ := δ) (k := 22)
    (fun acc (x : ℕ × ℕ) => add (add acc (oneBody x.1 x.2 (oneCoeff one x.1 x.2))) (twoBody x.1 x.2 x.1 x.2 (diagCoeff two x.1 x.2)))
    (fun x => (hermOne one [x.1, x.2] • hop x.1 x.2 + hermOne one [x.2, x.1] • hop x.2 x.1) +
      (hermTwo two [x.1, x.2, x.1, x.2] - hermTwo two [x.1, x.2, x.2, x.1] - hermTwo two [x.2, x.1, x.1, x.2] + hermTwo two [x.2, x.1, x.2, x.1]) •
        quad x.1 x.2 x.1 x.2)
    (pairs (List.range n)) (fun x hx m acc N hacc => by
      obtain ⟨h1, h2, h3⟩ := lt_of hx
      have a1 := (oneBody_rep hδ h1.ne (oneCoeff one x.1 x.2)).weaken (G' := G) fun h =>
        Grid.half' (g164 _ ((Grid _).add_mem (h.2.1 _ h2 _ h3) (conj_grid' (h.2.1 _ h3 _ h2))))
      have a2 := ((twoBody_rep hδ x.1 x.2 x.1 x.2 (diagCoeff two x.1 x.2)).1 (Or.inl ⟨rfl, rfl⟩)).weaken (G' := G) fun h =>
        g168 _ ((Grid _).add_mem ((Grid _).sub_mem ((Grid _).sub_mem (h.2.2 _ h2 _ h3 _ h2 _ h3) (h.2.2 _ h2 _ h3 _ h3 _ h2)) (h.2.2 _ h3 _ h2 _ h2 _ h3))
          (h.2.2 _ h3 _ h2 _ h3 _ h2))
      refine (((hacc.add hδ a1).add hδ a2).mono (by omega)).congr ?_
      have e1 : (starRingEnd ℂ) (oneCoeff one x.1 x.2) = hermOne one [x.2, x.1] := by
        rw [hermOne_pair, if_neg h1.ne', oneCoeff, map_mul, map_add, Complex.conj_conj, map_div₀, map_one, map_ofNat, add_comm]
      have e2 : oneCoeff one x.1 x.2 = hermOne one [x.1, x.2] := by rw [hermOne_pair, if_neg h1.ne, oneCoeff]
      have e3 : diagCoeff two x.1 x.2 = hermTwo two [x.1, x.2, x.1, x.2] - hermTwo two [x.1, x.2, x.2, x.1] - hermTwo two [x.2, x.1, x.1, x.2] +
          hermTwo two [x.2, x.1, x.2, x.1] := by
        rw [hermTwo_quad, hermTwo_quad, hermTwo_quad, hermTwo_quad, if_pos (Or.inl ⟨rfl, rfl⟩), if_pos (Or.inr ⟨rfl, rfl⟩), if_pos (Or.inr ⟨rfl, rfl⟩),
          if_pos (Or.inl ⟨rfl, rfl⟩), diagCoeff]
      rw [e1, e2, e3, add_assoc]) _ _ _ s1
  have s3 := StandsFor.foldl_add hδ (k := 16)
    (fun x : (ℕ × ℕ) × (ℕ × ℕ) => twoBody x.1.1 x.1.2 x.2.1 x.2.2 (twoCoeff two x.1.1 x.1.2 x.2.1 x.2.2))
    (fun x => (hermTwo two [x.1.1, x.1.2, x.2.1, x.2.2] - hermTwo two [x.1.1, x.1.2, x.2.2, x.2.1] - hermTwo two [x.1.2, x.1.1, x.2.1, x.2.2] +
          hermTwo two [x.1.2, x.1.1, x.2.2, x.2.1]) • quad x.1.1 x.1.2 x.2.1 x.2.2 +
        (hermTwo two [x.2.1, x.2.2, x.1.1, x.1.2] - hermTwo two [x.2.1, x.2.2, x.1.2, x.1.1] - hermTwo two [x.2.2, x.2.1, x.1.1, x.1.2] +
          hermTwo two [x.2.2, x.2.1, x.1.2, x.1.1]) • quad x.2.1 x.2.2 x.1.1 x.1.2)
    (pairs (pairs (List.range n))) (fun x hx => by
      obtain ⟨hpq, hp, hq⟩ := lt_of (pairs_mem hx).1
      obtain ⟨hrs, hr, hs⟩ := lt_of (pairs_mem hx).2
      have hne : x.1 ≠ x.2 := pairs_rel (pairs_nodup List.nodup_range) hx
      obtain ⟨⟨p, q⟩, ⟨r, s⟩⟩ := x
      dsimp only at *
      have hne' : ¬ (p = r ∧ q = s) := fun h => hne (by rw [h.1, h.2])
      have n1 : ¬ ((p = r ∧ q = s) ∨ (p = s ∧ q = r)) := by omega
      refine (((twoBody_rep hδ p q r s (twoCoeff two p q r s)).2 n1).weaken fun h => Grid.half' (g1616 _ ?_)).congr ?_
      · have m := h.2.2
        have mm : ∀ i < n, ∀ j < n, ∀ k < n, ∀ l < n, (starRingEnd ℂ) (two [i, j, k, l]) ∈ Grid (16 * δ) := fun i hi j hj k hk l hl => conj_grid' (m i hi j hj k hk l hl)
        exact (Grid _).add_mem ((Grid _).add_mem ((Grid _).sub_mem ((Grid _).sub_mem ((Grid _).sub_mem ((Grid _).sub_mem ((Grid _).add_mem
          (m _ hp _ hq _ hr _ hs) (mm _ hs _ hr _ hq _ hp)) (m _ hp _ hq _ hs _ hr)) (mm _ hr _ hs _ hq _ hp)) (m _ hq _ hp _ hr _ hs)) (mm _ hs _ hr _ hp _ hq))
          (m _ hq _ hp _ hs _ hr)) (mm _ hr _ hs _ hp _ hq)
      · have e1 : hermTwo two [p, q, r, s] - hermTwo two [p, q, s, r] - hermTwo two [q, p, r, s] + hermTwo two [q, p, s, r] = twoCoeff two p q r s := by
          rw [hermTwo_of n1, hermTwo_of (by omega), hermTwo_of (by omega), hermTwo_of (by omega), twoCoeff]
          ring
        have e2 : hermTwo two [r, s, p, q] - hermTwo two [r, s, q, p] - hermTwo two [s, r, p, q] + hermTwo two [s, r, q, p] = (starRingEnd ℂ) (twoCoeff two p q r s) := by
          rw [hermTwo_of (by omega), hermTwo_of (by omega), hermTwo_of (by omega), hermTwo_of (by omega), twoCoeff]
          simp only [map_mul, map_add, map_sub, Complex.conj_conj, map_div₀, map_one, map_ofNat]
          ring
        rw [e1, e2, quad_swap_left r s q p, quad_swap_right r s p q, neg_neg]) s2
  refine (s3.mono ?_).congr ?_
  · simp only [pairs_length, List.length_range]; omega
  · rw [polyAction_pairs, List.sum_map_add (l := pairs (List.range n))]
    simp only [add_assoc]

theorem tensorAction_congr {n : ℕ} {key : Key} {t t' : Tensor} (h : ∀ idx, idx.length = key.length → (∀ i ∈ idx, i < n) → t idx = t' idx) :
    tensorAction n key t = tensorAction n key t' := by
  unfold tensorAction
  refine Finset.sum_congr rfl fun idx _ => ?_
  rw [h _ (by simp) fun i hi => by obtain ⟨k, rfl⟩ := (List.mem_ofFn' _ _).1 hi; exact (idx k).2]

theorem herm_action {n : ℕ} {one two : Tensor} (h : Hermitian n one two) (c : ℂ) :
    polyAction (interaction n c (hermOne one) (hermTwo two)) = polyAction (interaction n c one two) := by
  have h1 : tensorAction n [true, false] (hermOne one) = tensorAction n [true, false] one := tensorAction_congr fun idx hl hi => by
    obtain ⟨p, q, rfl⟩ := List.length_eq_two.1 hl
    rw [hermOne_pair]
    split_ifs with e
    · rfl
    · rw [← h.1 p (hi p (by simp)) q (hi q (by simp))]; ring
  have h2 : tensorAction n [true, true, false, false] (hermTwo two) = tensorAction n [true, true, false, false] two := tensorAction_congr fun idx hl hi => by
    match idx, hl, hi with
    | [p, q, r, s], _, hi =>
      rw [hermTwo_quad]
      split_ifs with e
      · rfl
      · rw [← h.2 p (hi p (by simp)) q (hi q (by simp)) r (hi r (by simp)) s (hi s (by simp))]; ring
  simp only [polyAction, interaction, List.map_cons, List.map_nil, h1, h2]

/-- The additions whose result may drop a coefficient below `1e-8`. -/
def additions (n : ℕ) : ℕ := n * 3 + n.choose 2 * 22 + (n.choose 2).choose 2 * 17

/-- C78. `jordan_wigner` of a Hermitian interaction operator whose entries are multiples of `16 δ`, `δ ≥ 1e-8`: the qubit operator is exactly the operator of
the arrays. -/
theorem jwInteraction_action (n : ℕ) (c : ℂ) (one two : Tensor) (h : Hermitian n one two) {δ : ℝ} (hδ : 1 / 10 ^ 8 ≤ δ)
    (hg : EntriesOn n (16 * δ) c one two) :
    ∃ o, jwInteraction n c one two none = .ok o ∧ CanonicalOp o ∧ action pauliAction o = polyAction (interaction n c one two) := by
  obtain ⟨o, h1, h2⟩ := jwInteraction_standsFor hδ n c one two
  exact ⟨o, h1, ⟨h2.wf, h2.terms⟩, (h2.exact hg).2.trans (herm_action h c)⟩

/-- C78, any Hermitian entries: the coefficients differ from those of the exact operator by at most `1e-8` per addition made. -/
theorem jwInteraction_error (n : ℕ) (c : ℂ) (one two : Tensor) (h : Hermitian n one two) :
    ∃ o, jwInteraction n c one two none = .ok o ∧ CanonicalOp o ∧
      ∃ E : Terms Letter, CanonicalOp E ∧ action pauliAction E = polyAction (interaction n c one two) ∧
        ∀ t, ‖coeff o t - coeff E t‖ ≤ additions n * (1 / 10 ^ 8) := by
  obtain ⟨o, h1, h2⟩ := jwInteraction_standsFor le_rfl n c one two
  obtain ⟨E, e1, e2, e3, e4⟩ := h2.err
  exact ⟨o, h1, ⟨h2.wf, h2.terms⟩, E, ⟨e1, e2⟩, e3.trans (herm_action h c), e4⟩

/-- C78, entries that are not Hermitian: every off-diagonal coefficient is silently replaced by its average with the conjugate one. -/
theorem jwInteraction_symmetrised (n : ℕ) (c : ℂ) (one two : Tensor) {δ : ℝ} (hδ : 1 / 10 ^ 8 ≤ δ) (hg : EntriesOn n (16 * δ) c one two) :
    ∃ o, jwInteraction n c one two none = .ok o ∧ CanonicalOp o ∧ action pauliAction o = polyAction (interaction n c (hermOne one) (hermTwo two)) := by
  obtain ⟨o, h1, h2⟩ := jwInteraction_standsFor hδ n c one two
  exact ⟨o, h1, ⟨h2.wf, h2.terms⟩, (h2.exact hg).2⟩

/-- C78: the number of qubits must be the number of orbitals; smaller is a `ValueError`, larger an `IndexError`. -/
theorem jwInteraction_nQubits (n : ℕ) (c : ℂ) (one two : Tensor) (N : ℕ) :
    (N < n → jwInteraction n c one two (some N) = .error .valueError) ∧ (n < N → jwInteraction n c one two (some N) = .error .indexError) ∧
    jwInteraction n c one two (some n) = jwInteraction n c one two none := by
  refine ⟨fun h => ?_, fun h => ?_, rfl⟩
  · rw [jwInteraction, Option.getD_some, if_pos h]
  · rw [jwInteraction, Option.getD_some, if_neg h.not_gt, if_pos h]

theorem termValue_interaction (n : ℕ) (c : ℂ) (one two : Tensor) (t : Term Bool) :
    termValue (interaction n c one two) t = if t.map Prod.snd = [] then c else if t.map Prod.snd = [true, false] then one (t.map Prod.fst)
      else if t.map Prod.snd = [true, true, false, false] then two (t.map Prod.fst) else 0 := by
  rw [termValue, value, interaction]
  simp only [PyDict.get?, eq_comm (b := t.map Prod.snd)]
  split_ifs <;> rfl

theorem termValue_grid {n : ℕ} {c : ℂ} {one two : Tensor} {γ : ℝ} (hg : EntriesOn n γ c one two) {t : Term Bool} (ht : ∀ f ∈ t, f.1 < n) :
    termValue (interaction n c one two) t ∈ Grid γ ∧ (termValue (interaction n c one two) t ≠ 0 → t.length ≤ 4) := by
  rw [termValue_interaction]
  split_ifs with h1 h2 h3
  · exact ⟨hg.1, fun _ => by have := congrArg List.length h1; simp at this; simp [this]⟩
  · refine ⟨?_, fun _ => by have := congrArg List.length h2; simp at this; omega⟩
    have hl : t.length = 2 := by have := congrArg List.length h2; simpa using this
    match t, hl, ht with
    | [a, b], _, ht => exact hg.2.1 _ (ht a (by simp)) _ (ht b (by simp))
  · refine ⟨?_, fun _ => by have := congrArg List.length h3; simp at this; omega⟩
    have hl : t.length = 4 := by have := congrArg List.length h3; simpa using this
    match t, hl, ht with
    | [a, b, d, e], _, ht => exact hg.2.2 _ (ht a (by simp)) _ (ht b (by simp)) _ (ht d (by simp)) _ (ht e (by simp))
  · exact ⟨(Grid γ).zero_mem, fun h => absurd rfl h⟩

/-- C78: the direct transform of an interaction operator and the transform of the fermion operator it stands for have the same coefficients. -/
theorem jwInteraction_eq_jordanWigner (n : ℕ) (c : ℂ) (one two : Tensor) (h : Hermitian n one two) {δ : ℝ} (hδ : 1 / 10 ^ 8 ≤ δ)
    (hg : EntriesOn n (16 * δ) c one two) :
    ∃ o f, jwInteraction n c one two none = .ok o ∧ toFermion (interaction n c one two) = .ok f ∧ ∀ t, coeff o t = coeff (jordanWigner f) t := by
  obtain ⟨o, h1, h2, h3⟩ := jwInteraction_action n c one two h hδ hg
  have hv : Valid (interaction n c one two) := by simp [Valid, interaction, keys]
  obtain ⟨f, f1, f2, f3, f4, f5⟩ := toFermion_spec hv
  have hδ0 : (0 : ℝ) < δ := lt_of_lt_of_le (by norm_num) hδ
  refine ⟨o, f, h1, f1, canonical_unique h2 (jordanWigner_error f).1 ?_⟩
  rw [h3, jordanWigner_action f δ hδ, f5]
  · intro t ht
    rcases eq_or_ne (termValue (interaction n c one two) t) 0 with h0 | h0
    · exact Or.inl h0
    · exact Or.inr (le_trans (by linarith) (Grid.norm_ge (by linarith) (termValue_grid hg ht).1 h0))
  · intro kv hkv
    have hc : coeff f kv.1 = kv.2 := coeff_of_mem f2 hkv
    by_cases ht : ∀ x ∈ kv.1, x.1 < n
    · have e := f3 kv.1 ht
      rw [hc] at e
      rw [e]
      split_ifs with hs
      · exact (Grid _).zero_mem
      · rcases eq_or_ne (termValue (interaction n c one two) kv.1) 0 with h0 | h0
        · rw [h0]; exact (Grid _).zero_mem
        · obtain ⟨k, hk⟩ := Nat.exists_eq_add_of_le ((termValue_grid hg ht).2 h0)
          refine Grid.sub_int ((2 : ℤ) ^ k) ?_
          have := (termValue_grid hg ht).1
          rwa [show (16 : ℝ) * δ = (((2 : ℤ) ^ k : ℤ) : ℝ) * (2 ^ kv.1.length * δ) by
            push_cast; rw [← mul_assoc, ← pow_add, add_comm k, ← hk]; norm_num] at this
    · have e := f4 kv.1 ht
      rw [hc] at e
      rw [e]
      exact (Grid _).zero_mem

/-- Complex hopping and a density-density term with entries that are not real: the hypotheses are met. -/
example : Hermitian 2 (fun i => if i = [0, 1] then Complex.I else if i = [1, 0] then -Complex.I else 0) (fun i => if i = [0, 1, 1, 0] then 3 else 0) ∧
    EntriesOn 2 (16 * (1 / 16)) 2 (fun i => if i = [0, 1] then Complex.I else if i = [1, 0] then -Complex.I else 0)
      (fun i => if i = [0, 1, 1, 0] then 3 else 0) := by
  refine ⟨⟨fun p _ q _ => ?_, fun p _ q _ r _ s _ => ?_⟩, ⟨2, 0, by norm_num⟩, fun p _ q _ => ?_, fun p _ q _ r _ s _ => ?_⟩
  · by_cases h : p = 0 <;> by_cases h' : q = 0 <;> by_cases k : p = 1 <;> by_cases k' : q = 1 <;> simp [h, h', k, k'] <;> omega
  · by_cases h : p = 0 ∧ q = 1 ∧ r = 1 ∧ s = 0
    · obtain ⟨rfl, rfl, rfl, rfl⟩ := h; simpa using (Complex.conj_ofNat 3).symm
    · have : ¬ (s = 0 ∧ r = 1 ∧ q = 1 ∧ p = 0) := by tauto
      simp [h, this]
  · dsimp only
    split_ifs
    · exact ⟨0, 1, by norm_num⟩
    · exact ⟨0, -1, by norm_num⟩
    · exact (Grid _).zero_mem
  · dsimp only
    split_ifs
    · exact ⟨3, 0, by norm_num⟩
    · exact (Grid _).zero_mem

/-- C78, the negation for operators that are not Hermitian: `a†_0 a_1` on two orbitals. -/
theorem jwInteraction_counterexample :
    ∃ o, jwInteraction 2 0 (fun i => if i = [0, 1] then 1 else 0) (fun _ => 0) none = .ok o ∧
      action pauliAction o ≠ polyAction (interaction 2 0 (fun i => if i = [0, 1] then 1 else 0) (fun _ => 0)) := by
  obtain ⟨o, h1, _, h3⟩ := jwInteraction_symmetrised 2 0 (fun i => if i = [0, 1] then 1 else 0) (fun _ => 0) (δ := 1 / 16) (by norm_num)
    ⟨(Grid _).zero_mem, fun p _ q _ => by
      dsimp only
      split_ifs
      · exact ⟨1, 0, by norm_num⟩
      · exact (Grid _).zero_mem, fun _ _ _ _ _ _ _ _ => (Grid _).zero_mem⟩
  refine ⟨o, h1, fun e => ?_⟩
  rw [h3, polyAction_interaction, polyAction_interaction] at e
  have hz : ∀ p q r s : ℕ, hermTwo (fun _ => 0) [p, q, r, s] = 0 := fun p q r s => by rw [hermTwo_quad]; simp
  simp only [List.range_succ, List.range_zero, List.nil_append, List.map_append, List.map_cons, List.map_nil, List.sum_append, List.sum_cons, List.sum_nil,
    hermOne_pair, hz] at e
  simp at e
  have e := congrFun (congrFun (congrArg DFunLike.coe e) fun _ => 1) fun i => decide (i = 0)
  rw [LinearMap.add_apply, LinearMap.smul_apply, LinearMap.smul_apply, Pi.add_apply, Pi.smul_apply, Pi.smul_apply, hop_ladder (by decide),
    hop_ladder (by decide)] at e
  simp [sgn, List.range_succ] at e

end ZQ.JWInt
