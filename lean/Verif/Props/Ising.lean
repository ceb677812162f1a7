import Verif.Props.QubitOp
import Mathlib.Algebra.Ring.Parity

/-! # C63: Ising operators -/

namespace ZQ.Op

open PyDict

/-- All factors are `Z` (what the constructor accepts). -/
def AllZ (t : Term Letter) : Prop := ∀ f ∈ t, f.2 = .Z

/-- Every term of the operator is a product of `Z`s. -/
def IsingOp (o : Terms Letter) : Prop := ∀ t ∈ keys o, AllZ t

/-- The diagonal `±1` entry of a product of `Z`s. -/
def zSign (t : Term Letter) (s : ℕ → Bool) : ℂ := (t.map fun f => if s f.1 then (-1 : ℂ) else 1).prod

theorem allZ_action {t : Term Letter} (h : AllZ t) (ψ : State) (s : ℕ → Bool) :
    termAction pauliAction t ψ s = zSign t s * ψ s := by
  induction t with
  | nil => rw [termAction_nil, zSign, List.map_nil, List.prod_nil, one_mul]; rfl
  | cons f t ih =>
    have hf : f.2 = .Z := h f (List.mem_cons_self ..)
    rw [termAction_cons, Module.End.mul_apply]
    have hz : ∀ φ : State, pauliAction f φ s = (if s f.1 then (-1 : ℂ) else 1) * φ s := by
      intro φ
      rw [pauliAction, atQubit_apply, hf]
      cases hs : s f.1
      · simp [letterMatrix, pauliZ, ← hs]
      · simp [letterMatrix, pauliZ, ← hs]
    rw [hz, ih (fun g hg => h g (List.mem_cons_of_mem _ hg)), ← mul_assoc]
    rw [zSign, zSign, List.map_cons, List.prod_cons]

theorem allZ_isingSimplify (t : Term Letter) (c : ℂ) : AllZ (isingSimplify t c).2 := by
  intro f hf
  rw [isingSimplify] at hf
  obtain ⟨i, _, rfl⟩ := List.mem_map.1 hf
  rfl

/-- C63: the simplified term keeps exactly the qubits occurring an odd number of times, in increasing order. -/
theorem isingSimplify_spec (t : Term Letter) (c : ℂ) :
    (isingSimplify t c).1 = c ∧ Canonical (isingSimplify t c).2 ∧
    ∀ f, f ∈ (isingSimplify t c).2 ↔ f.2 = .Z ∧ (t.map Prod.fst).count f.1 % 2 = 1 := by
  have hmem : ∀ i, i ∈ (((counter (t.map Prod.fst)).filter fun kv => kv.2 % 2 = 1).map Prod.fst) ↔ (t.map Prod.fst).count i % 2 = 1 := by
    intro i
    constructor
    · intro h
      obtain ⟨kv, hkv, rfl⟩ := List.mem_map.1 h
      obtain ⟨h1, h2⟩ := List.mem_filter.1 hkv
      have hget := get?_of_mem (counter_nodup _) (show (kv.1, kv.2) ∈ _ from h1)
      rw [get?_counter] at hget
      split at hget
      · injection hget with hget
        rw [hget]; simpa using h2
      · cases hget
    · intro h
      have hin : i ∈ t.map Prod.fst := by
        by_contra hn
        rw [List.count_eq_zero_of_not_mem hn] at h; omega
      have hget := get?_counter (t.map Prod.fst) i
      rw [if_pos hin] at hget
      exact List.mem_map.2 ⟨(i, _), List.mem_filter.2 ⟨mem_of_get? hget, by simpa using h⟩, rfl⟩
  have hnd : (((counter (t.map Prod.fst)).filter fun kv => kv.2 % 2 = 1).map Prod.fst).Nodup :=
    List.Nodup.sublist (List.filter_sublist.map _) (counter_nodup (t.map Prod.fst))
  refine ⟨rfl, ⟨?_, fun f hf => ?_⟩, fun f => ?_⟩
  · rw [isingSimplify, List.map_map]
    show (List.map id _).Pairwise _
    rw [List.map_id]
    have hs := List.pairwise_insertionSort (· ≤ ·) (((counter (t.map Prod.fst)).filter fun kv => kv.2 % 2 = 1).map Prod.fst)
    have hn := (List.perm_insertionSort (· ≤ ·) (((counter (t.map Prod.fst)).filter fun kv => kv.2 % 2 = 1).map Prod.fst)).nodup_iff.2 hnd
    exact hs.imp₂ (fun a b h1 h2 => lt_of_le_of_ne h1 h2) hn
  · rw [allZ_isingSimplify t c f hf]; simp
  · rw [isingSimplify]
    constructor
    · intro h
      obtain ⟨i, hi, rfl⟩ := List.mem_map.1 h
      rw [List.mem_insertionSort, hmem] at hi
      exact ⟨rfl, hi⟩
    · rintro ⟨h1, h2⟩
      obtain ⟨i, a⟩ := f
      dsimp only at h1 h2
      subst h1
      exact List.mem_map.2 ⟨i, by rw [List.mem_insertionSort, hmem]; exact h2, rfl⟩

theorem zSign_isingSimplify (t : Term Letter) (c : ℂ) (s : ℕ → Bool) : zSign (isingSimplify t c).2 s = zSign t s := by
  set x : ℕ → ℂ := fun i => if s i then -1 else 1 with hx
  have hx2 : ∀ i, x i * x i = 1 := by intro i; rw [hx]; dsimp only; split <;> norm_num
  have h1 : zSign t s = ((t.map Prod.fst).map x).prod := by rw [zSign, List.map_map]; rfl
  have h2 : zSign (isingSimplify t c).2 s = ((((counter (t.map Prod.fst)).filter fun kv => kv.2 % 2 = 1).map Prod.fst).map x).prod := by
    rw [zSign, isingSimplify, List.map_map]
    exact ((List.perm_insertionSort (· ≤ ·) _).map x).prod_eq
  rw [h1, h2]
  have h3 := sum_counter (M := Additive ℂ) (fun i => Additive.ofMul (x i)) (t.map Prod.fst)
  have h4 : ((t.map Prod.fst).map x).prod = ((counter (t.map Prod.fst)).map fun kv => x kv.1 ^ kv.2).prod := by
    have e := congrArg Additive.toMul h3
    have e1 : ∀ l : List ℕ, Additive.toMul (l.map fun i => Additive.ofMul (x i)).sum = (l.map x).prod := by
      intro l
      induction l with
      | nil => rfl
      | cons i l ih => rw [List.map_cons, List.sum_cons, toMul_add, ih, List.map_cons, List.prod_cons]; rfl
    have e2 : ∀ l : List (ℕ × ℕ), Additive.toMul (l.map fun kv => kv.2 • Additive.ofMul (x kv.1)).sum = (l.map fun kv => x kv.1 ^ kv.2).prod := by
      intro l
      induction l with
      | nil => rfl
      | cons i l ih => rw [List.map_cons, List.sum_cons, toMul_add, ih, List.map_cons, List.prod_cons]; rfl
    rw [← e1, ← e, ← e2]
  rw [h4]
  generalize counter (t.map Prod.fst) = d
  induction d with
  | nil => rfl
  | cons p d ih =>
    rw [List.map_cons, List.prod_cons, ← ih]
    rcases Nat.mod_two_eq_zero_or_one p.2 with hp | hp
    · rw [List.filter_cons_of_neg (by simp [hp])]
      obtain ⟨m, hm⟩ := Nat.dvd_of_mod_eq_zero hp
      rw [hm, pow_mul, pow_two, hx2, one_pow, one_mul]
    · rw [List.filter_cons_of_pos (by simp [hp]), List.map_cons, List.map_cons, List.prod_cons]
      have hm : p.2 = 2 * (p.2 / 2) + 1 := by omega
      conv_rhs => rw [hm, pow_succ, pow_mul, pow_two, hx2, one_pow, one_mul]

theorem ising_sound : Sound pauliAction ising AllZ := by
  intro t c h
  show (isingSimplify t c).1 • termAction pauliAction (isingSimplify t c).2 = _
  rw [(isingSimplify_spec t c).1]
  congr 1
  apply LinearMap.ext; intro ψ; funext s
  rw [allZ_action (allZ_isingSimplify t c), allZ_action h, zSign_isingSimplify t c s]

theorem ising_append {a b : Terms Letter} (ha : IsingOp a) (hb : IsingOp b) :
    ∀ l ∈ a, ∀ r ∈ b, AllZ (l.1 ++ r.1) := by
  intro l hl r hr f hf
  rcases List.mem_append.1 hf with hf | hf
  · exact ha l.1 (List.mem_map_of_mem hl) f hf
  · exact hb r.1 (List.mem_map_of_mem hr) f hf

/-- C63: products act as the composition, and are again canonical products of `Z`s. -/
theorem ising_product_spec {a b : Terms Letter} (ha : IsingOp a) (hb : IsingOp b) :
    action pauliAction (mul ising a b) = action pauliAction a * action pauliAction b ∧
    IsingOp (mul ising a b) ∧ CanonicalOp (mul ising a b) := by
  refine ⟨action_mul pauliAction ising_sound a b (ising_append ha hb), fun t ht => ?_, wf_mul _ _ _, fun t ht => ?_⟩
  · obtain ⟨l, _, r, _, rfl⟩ := (mem_keys_mul ising a b t).1 ht
    exact allZ_isingSimplify _ _
  · obtain ⟨l, _, r, _, rfl⟩ := (mem_keys_mul ising a b t).1 ht
    exact (isingSimplify_spec _ _).2.1

/-- C63: the action of an Ising operator is diagonal. -/
theorem ising_diagonal {a : Terms Letter} (ha : IsingOp a) (ψ : State) (s : ℕ → Bool) :
    action pauliAction a ψ s = (a.map fun kv => kv.2 * zSign kv.1 s).sum * ψ s := by
  induction a with
  | nil => rw [action_nil, List.map_nil, List.sum_nil, zero_mul]; rfl
  | cons p a ih =>
    obtain ⟨t, c⟩ := p
    rw [action_cons, LinearMap.add_apply, Pi.add_apply, ih (fun u hu => ha u (by simp [keys] at hu ⊢; exact Or.inr hu)),
      LinearMap.smul_apply, Pi.smul_apply, allZ_action (ha t (by simp [keys])), List.map_cons, List.sum_cons, smul_eq_mul]
    ring

theorem ising_action_comm {a b : Terms Letter} (ha : IsingOp a) (hb : IsingOp b) :
    action pauliAction a * action pauliAction b = action pauliAction b * action pauliAction a := by
  apply LinearMap.ext; intro ψ; funext s
  rw [Module.End.mul_apply, Module.End.mul_apply, ising_diagonal ha, ising_diagonal hb, ising_diagonal hb, ising_diagonal ha]
  ring

/-- C63: multiplication is commutative, coefficient by coefficient. -/
theorem ising_mul_comm {a b : Terms Letter} (ha : IsingOp a) (hb : IsingOp b) (t : Term Letter) :
    coeff (mul ising a b) t = coeff (mul ising b a) t := by
  obtain ⟨h1, _, h2⟩ := ising_product_spec ha hb
  obtain ⟨h3, _, h4⟩ := ising_product_spec hb ha
  exact canonical_unique h2 h4 (by rw [h1, h3, ising_action_comm ha hb]) t

/-- C63: multiplication is associative, coefficient by coefficient. -/
theorem ising_mul_assoc {a b c : Terms Letter} (ha : IsingOp a) (hb : IsingOp b) (hc : IsingOp c) (t : Term Letter) :
    coeff (mul ising (mul ising a b) c) t = coeff (mul ising a (mul ising b c)) t := by
  obtain ⟨h1, i1, h2⟩ := ising_product_spec ha hb
  obtain ⟨h3, i3, h4⟩ := ising_product_spec hb hc
  obtain ⟨h5, _, h6⟩ := ising_product_spec i1 hc
  obtain ⟨h7, _, h8⟩ := ising_product_spec ha i3
  exact canonical_unique h6 h8 (by rw [h5, h7, h1, h3, mul_assoc]) t

/-- The constructor rejects anything but `Z`, and gives the simplified product. -/
theorem isingOf_spec (t : Term Letter) (c : ℂ) :
    (AllZ t → ∃ o, isingOf t c = .ok o ∧ IsingOp o ∧ CanonicalOp o ∧ action pauliAction o = c • termAction pauliAction t) ∧
    (¬ AllZ t → isingOf t c = .error .valueError) := by
  refine ⟨fun h => ⟨ofTerm ising t c, by rw [isingOf, if_pos (show ∀ f ∈ t, f.2 = Letter.Z from h)], ?_, ⟨by simp [WF, ofTerm, keys], ?_⟩, ?_⟩,
    fun h => by rw [isingOf, if_neg (show ¬ ∀ f ∈ t, f.2 = Letter.Z from h)]⟩
  · intro u hu
    rw [ofTerm, keys, List.map_singleton, List.mem_singleton] at hu
    rw [hu]; exact allZ_isingSimplify t c
  · intro u hu
    rw [ofTerm, keys, List.map_singleton, List.mem_singleton] at hu
    rw [hu]; exact (isingSimplify_spec t c).2.1
  · rw [ofTerm, action_cons, action_nil, add_zero]
    exact ising_sound t c h

example : AllZ [(3, .Z), (1, .Z), (3, .Z)] := by intro f hf; simp at hf; rcases hf with rfl | rfl | rfl <;> rfl

/-- `Z3 Z1 Z3` is `Z1`. -/
example : (isingSimplify [(3, .Z), (1, .Z), (3, .Z)] 1).2 = [(1, .Z)] := by decide +kernel

end ZQ.Op
