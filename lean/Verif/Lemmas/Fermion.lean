import Verif.Model.Fermion
import Verif.Props.SymOp
import Verif.Props.QubitOp

/-! Lemmas about ladder operators: anticommutation relations, and coefficient grids on which additions are exact. -/

namespace ZQ.Op

open PyDict

/-! ### occupation parity -/

/-- `(-1)` to the number of occupied modes before `p`. -/
def sgn (s : ℕ → Bool) (p : ℕ) : ℂ := (-1) ^ occupiedBefore s p

theorem occupiedBefore_succ (s : ℕ → Bool) (p : ℕ) : occupiedBefore s (p + 1) = occupiedBefore s p + if s p then 1 else 0 := by
  rw [occupiedBefore, List.range_succ, List.filter_append, List.length_append]
  cases h : s p <;> simp [h, occupiedBefore]

theorem sgn_succ (s : ℕ → Bool) (p : ℕ) : sgn s (p + 1) = sgn s p * if s p then -1 else 1 := by
  rw [sgn, sgn, occupiedBefore_succ]
  cases s p <;> simp [pow_succ]

theorem sgn_sq (s : ℕ → Bool) (p : ℕ) : sgn s p * sgn s p = 1 := by
  rw [sgn, ← pow_add, ← two_mul, pow_mul]; norm_num

theorem sgn_update (s : ℕ → Bool) (p q : ℕ) (v : Bool) :
    sgn (Function.update s p v) q = if p < q ∧ s p ≠ v then -sgn s q else sgn s q := by
  induction q with
  | zero => rw [if_neg (fun h => by omega)]; rfl
  | succ q ih =>
    rw [sgn_succ, ih, sgn_succ]
    by_cases hpq : p = q
    · subst hpq
      rw [Function.update_self, if_neg (fun h : p < p ∧ _ => absurd h.1 (lt_irrefl _))]
      by_cases hv : s p = v
      · rw [if_neg (fun h : p < p + 1 ∧ s p ≠ v => h.2 hv), hv]
      · rw [if_pos (show p < p + 1 ∧ s p ≠ v from ⟨by omega, hv⟩)]
        cases v <;> cases hs : s p <;> simp_all
    · rw [Function.update_of_ne (Ne.symm hpq)]
      by_cases h : p < q ∧ s p ≠ v
      · rw [if_pos h, if_pos (show p < q + 1 ∧ s p ≠ v from ⟨by omega, h.2⟩), neg_mul]
      · rw [if_neg h, if_neg (fun h' : p < q + 1 ∧ s p ≠ v => h ⟨by omega, h'.2⟩)]

theorem ladder_apply (f : ℕ × Bool) (ψ : State) (s : ℕ → Bool) :
    ladderAction f ψ s = if s f.1 = f.2 then sgn s f.1 * ψ (Function.update s f.1 (!f.2)) else 0 := rfl

/-- Ladder operators on different modes anticommute. -/
theorem ladder_anticomm {f g : ℕ × Bool} (h : f.1 ≠ g.1) : ladderAction f * ladderAction g = -(ladderAction g * ladderAction f) := by
  obtain ⟨p, b⟩ := f
  obtain ⟨q, d⟩ := g
  dsimp only at h
  apply LinearMap.ext; intro ψ; funext s
  rw [LinearMap.neg_apply, Pi.neg_apply, Module.End.mul_apply, Module.End.mul_apply]
  simp only [ladder_apply, sgn_update, Function.update_of_ne h, Function.update_of_ne h.symm, Function.update_comm h]
  by_cases h1 : s p = b
  · by_cases h2 : s q = d
    · rw [if_pos h1, if_pos h2, if_pos h2, if_pos h1]
      have e1 : s p ≠ !b := by rw [h1]; cases b <;> simp
      have e2 : s q ≠ !d := by rw [h2]; cases d <;> simp
      rcases lt_or_gt_of_ne h with hlt | hlt
      · rw [if_pos ⟨hlt, e1⟩, if_neg (fun e => absurd e.1 (by omega))]; ring
      · rw [if_neg (fun e => absurd e.1 (by omega)), if_pos ⟨hlt, e2⟩]; ring
    · rw [if_pos h1, if_neg h2, if_neg h2]; ring
  · rw [if_neg h1]
    split <;> simp

/-- The same ladder operator twice is zero. -/
theorem ladder_sq (f : ℕ × Bool) : ladderAction f * ladderAction f = 0 := by
  obtain ⟨p, b⟩ := f
  apply LinearMap.ext; intro ψ; funext s
  rw [LinearMap.zero_apply, Module.End.mul_apply]
  simp only [ladder_apply, Function.update_self]
  rw [if_neg (show ¬ (!b) = b by cases b <;> simp)]
  simp

/-- `a a† + a† a = 1` on the same mode. -/
theorem ladder_same (p : ℕ) (b : Bool) : ladderAction (p, b) * ladderAction (p, !b) + ladderAction (p, !b) * ladderAction (p, b) = 1 := by
  apply LinearMap.ext; intro ψ; funext s
  rw [LinearMap.add_apply, Pi.add_apply, Module.End.mul_apply, Module.End.mul_apply, Module.End.one_apply]
  simp only [ladder_apply, Function.update_self, sgn_update, Function.update_idem, Bool.not_not]
  by_cases h : s p = b
  · rw [if_pos h, if_true, if_neg (fun e : p < p ∧ _ => absurd e.1 (lt_irrefl _)), if_neg (show ¬ s p = !b by rw [h]; cases b <;> simp), add_zero,
      ← mul_assoc, sgn_sq, one_mul]
    rw [← h, Function.update_eq_self]
  · have h' : s p = !b := by cases b <;> cases hs : s p <;> simp_all
    rw [if_neg h, zero_add, if_pos h', if_true, if_neg (fun e : p < p ∧ _ => absurd e.1 (lt_irrefl _)), ← mul_assoc, sgn_sq, one_mul]
    rw [← h', Function.update_eq_self]

/-! ### Coefficient grids -/

/-- Gaussian integer multiples of `δ`. -/
def Grid (δ : ℝ) : AddSubgroup ℂ where
  carrier := {z | ∃ m n : ℤ, z = (δ : ℂ) * (m + n * Complex.I)}
  zero_mem' := ⟨0, 0, by simp⟩
  add_mem' := by
    rintro _ _ ⟨m, n, rfl⟩ ⟨m', n', rfl⟩
    exact ⟨m + m', n + n', by push_cast; ring⟩
  neg_mem' := by
    rintro _ ⟨m, n, rfl⟩
    exact ⟨-m, -n, by push_cast; ring⟩

theorem Grid.mul_I {δ : ℝ} {z : ℂ} (h : z ∈ Grid δ) : z * Complex.I ∈ Grid δ := by
  obtain ⟨m, n, rfl⟩ := h
  refine ⟨-n, m, ?_⟩
  push_cast
  linear_combination (δ : ℂ) * n * Complex.I_mul_I

theorem Grid.half {δ : ℝ} {z : ℂ} (h : z ∈ Grid (2 * δ)) : z * (1 / 2) ∈ Grid δ := by
  obtain ⟨m, n, rfl⟩ := h
  exact ⟨m, n, by push_cast; ring⟩

theorem Grid.nsmul_sub {δ : ℝ} {k : ℕ} {z : ℂ} (h : z ∈ Grid (k * δ)) : z ∈ Grid δ := by
  obtain ⟨m, n, rfl⟩ := h
  exact ⟨k * m, k * n, by push_cast; ring⟩

theorem Grid.norm_ge {δ : ℝ} (hδ : 0 ≤ δ) {z : ℂ} (h : z ∈ Grid δ) (hz : z ≠ 0) : δ ≤ ‖z‖ := by
  obtain ⟨m, n, rfl⟩ := h
  rw [norm_mul, Complex.norm_real, Real.norm_eq_abs, abs_of_nonneg hδ]
  have h1 : (1 : ℝ) ≤ ‖((m : ℂ) + n * Complex.I)‖ := by
    by_cases hm : m = 0
    · by_cases hn : n = 0
      · subst hm; subst hn; exact absurd (by simp) hz
      · have := Complex.abs_im_le_norm ((m : ℂ) + n * Complex.I)
        refine le_trans ?_ this
        have e : ((m : ℂ) + n * Complex.I).im = n := by simp
        rw [e]
        exact_mod_cast Int.one_le_abs hn
    · have := Complex.abs_re_le_norm ((m : ℂ) + n * Complex.I)
      refine le_trans ?_ this
      have e : ((m : ℂ) + n * Complex.I).re = m := by simp
      rw [e]
      exact_mod_cast Int.one_le_abs hm
  nlinarith

variable {A : Type} [DecidableEq A]

/-- All coefficients lie on the grid. -/
def OnGrid (δ : ℝ) (o : Terms A) : Prop := ∀ t, coeff o t ∈ Grid δ

theorem OnGrid.nil (δ : ℝ) : OnGrid δ ([] : Terms A) := fun t => by
  rw [coeff_of_not_mem (by simp [keys])]; exact (Grid δ).zero_mem

theorem onGrid_single {δ : ℝ} {t : Term A} {c : ℂ} (h : c ∈ Grid δ) : OnGrid δ [(t, c)] := fun u => by
  rw [coeff_cons]; split
  · exact h
  · rw [coeff_of_not_mem (by simp [keys])]; exact (Grid δ).zero_mem

theorem wf_single (t : Term A) (c : ℂ) : WF [(t, c)] := by simp [WF, keys]

/-- On a grid coarser than the tolerance additions are exact. -/
theorem add_onGrid {δ : ℝ} (hδ : 1 / 10 ^ 8 ≤ δ) {a b : Terms A} (ha : WF a) (hb : WF b) (ga : OnGrid δ a) (gb : OnGrid δ b) :
    WF (add a b) ∧ OnGrid δ (add a b) ∧ (∀ t, coeff (add a b) t = coeff a t + coeff b t) ∧
    ∀ ev : ℕ × A → Module.End ℂ State, action ev (add a b) = action ev a + action ev b := by
  have h0 : (0 : ℝ) ≤ δ := le_trans (by norm_num) hδ
  have hc : ∀ t, ¬ ‖coeff a t + coeff b t‖ < 1 / 10 ^ 8 ∨ coeff a t + coeff b t = 0 := by
    intro t
    by_cases hz : coeff a t + coeff b t = 0
    · exact Or.inr hz
    · left
      rw [not_lt]
      exact le_trans hδ (Grid.norm_ge h0 ((Grid δ).add_mem (ga t) (gb t)) hz)
  have he := fun t => add_exact ha hb t (hc t)
  exact ⟨(add_spec ha hb).1, fun t => by rw [he]; exact (Grid δ).add_mem (ga t) (gb t), he, fun ev => action_add ev ha hb hc⟩

/-- Everything stored after an addition is at least the tolerance, if it was so before. -/
def NoTiny (o : Terms A) : Prop := ∀ kv ∈ o, ¬ ‖kv.2‖ < 1 / 10 ^ 8

theorem noTiny_nil : NoTiny ([] : Terms A) := fun kv h => by simp at h

theorem noTiny_add {a b : Terms A} (ha : WF a) (hb : WF b) (h : NoTiny a) : NoTiny (add a b) := by
  obtain ⟨h1, h2, h3, _⟩ := add_spec ha hb
  intro kv hkv
  have hk : kv.1 ∈ keys (add a b) := List.mem_map_of_mem hkv
  have hc := h3 kv.1 hk
  rw [coeff_of_mem h1 (show (kv.1, kv.2) ∈ _ from hkv)] at hc
  rw [hc]
  rcases (h2 kv.1).1 hk with ⟨_, h⟩ | ⟨hb', ha'⟩
  · exact h
  · obtain ⟨v, hv⟩ := (mem_keys_iff a kv.1).1 ha'
    have hm := mem_of_get? hv
    rw [coeff_of_not_mem hb', add_zero, coeff_of_mem ha hm]
    exact h (kv.1, v) hm

theorem mem_keys_add {a b : Terms A} (ha : WF a) (hb : WF b) {t : Term A} (h : t ∈ keys (add a b)) : t ∈ keys a ∨ t ∈ keys b := by
  rcases ((add_spec ha hb).2.1 t).1 h with h | h
  · exact Or.inr h.1
  · exact Or.inl h.2

/-- Adding a list of operators: the coefficients are right up to `1e-8` per addition. -/
theorem foldl_add_error {ι : Type} (l : List ι) (f : ι → Terms A) (acc : Terms A) (hacc : WF acc) (hf : ∀ i ∈ l, WF (f i)) :
    WF (l.foldl (fun acc i => add acc (f i)) acc) ∧
    ∀ t, ‖coeff (l.foldl (fun acc i => add acc (f i)) acc) t - (coeff acc t + (l.map fun i => coeff (f i) t).sum)‖ ≤ l.length * (1 / 10 ^ 8) := by
  induction l generalizing acc with
  | nil => exact ⟨hacc, fun t => by simp⟩
  | cons i l ih =>
    have hfi := hf i (List.mem_cons_self ..)
    obtain ⟨h1, h2⟩ := ih (add acc (f i)) (add_spec hacc hfi).1 (fun j hj => hf j (List.mem_cons_of_mem _ hj))
    refine ⟨h1, fun t => ?_⟩
    have e := add_error hacc hfi t
    have := h2 t
    rw [List.foldl_cons, List.map_cons, List.sum_cons, List.length_cons]
    have split : coeff (l.foldl (fun acc i => add acc (f i)) (add acc (f i))) t - (coeff acc t + (coeff (f i) t + (l.map fun i => coeff (f i) t).sum))
        = (coeff (l.foldl (fun acc i => add acc (f i)) (add acc (f i))) t - (coeff (add acc (f i)) t + (l.map fun i => coeff (f i) t).sum))
          + (coeff (add acc (f i)) t - (coeff acc t + coeff (f i) t)) := by ring
    rw [split]
    refine le_trans (norm_add_le _ _) ?_
    push_cast
    linarith

/-- Adding a list of operators on a grid is exact. -/
theorem foldl_add_onGrid {ι : Type} {δ : ℝ} (hδ : 1 / 10 ^ 8 ≤ δ) (l : List ι) (f : ι → Terms A) (acc : Terms A) (hacc : WF acc)
    (gacc : OnGrid δ acc) (hf : ∀ i ∈ l, WF (f i) ∧ OnGrid δ (f i)) :
    WF (l.foldl (fun acc i => add acc (f i)) acc) ∧ OnGrid δ (l.foldl (fun acc i => add acc (f i)) acc) ∧
    (∀ t, coeff (l.foldl (fun acc i => add acc (f i)) acc) t = coeff acc t + (l.map fun i => coeff (f i) t).sum) ∧
    ∀ ev : ℕ × A → Module.End ℂ State, action ev (l.foldl (fun acc i => add acc (f i)) acc) = action ev acc + (l.map fun i => action ev (f i)).sum := by
  induction l generalizing acc with
  | nil => exact ⟨hacc, gacc, fun t => by simp, fun ev => by simp⟩
  | cons i l ih =>
    have hfi := hf i (List.mem_cons_self ..)
    obtain ⟨a1, a2, a3, a4⟩ := add_onGrid hδ hacc hfi.1 gacc hfi.2
    obtain ⟨h1, h2, h3, h4⟩ := ih (add acc (f i)) a1 a2 (fun j hj => hf j (List.mem_cons_of_mem _ hj))
    exact ⟨h1, h2, fun t => by rw [List.foldl_cons, h3, a3, List.map_cons, List.sum_cons, add_assoc],
      fun ev => by rw [List.foldl_cons, h4, a4, List.map_cons, List.sum_cons, add_assoc]⟩

theorem foldl_add_keys {ι : Type} (P : Term A → Prop) (l : List ι) (f : ι → Terms A) (acc : Terms A) (hacc : WF acc)
    (pacc : ∀ t ∈ keys acc, P t) (hf : ∀ i ∈ l, WF (f i) ∧ ∀ t ∈ keys (f i), P t) :
    ∀ t ∈ keys (l.foldl (fun acc i => add acc (f i)) acc), P t := by
  induction l generalizing acc with
  | nil => exact pacc
  | cons i l ih =>
    have hfi := hf i (List.mem_cons_self ..)
    refine ih (add acc (f i)) (add_spec hacc hfi.1).1 (fun t ht => ?_) (fun j hj => hf j (List.mem_cons_of_mem _ hj))
    rcases mem_keys_add hacc hfi.1 ht with h | h
    · exact pacc t h
    · exact hfi.2 t h

end ZQ.Op
