import Verif.Model.OpLaws
import Verif.Props.SymOp
import Verif.Props.QubitOp
import Verif.Props.Ising
import Verif.Props.Hermitian

/-!
# C128: the laws of operator arithmetic
-/

namespace ZQ.OpLaws

open ZQ ZQ.Op PyDict

variable {A : Type} [DecidableEq A]

/-! ### Specification -/

/-- Specification: the three classes of operators, with the terms that their operators have: Pauli strings with increasing qubits, the same with Z only, and all products of ladder operators. -/
inductive Kind : {A : Type} → OpClass A → (Term A → Prop) → Prop
  | qubit : Kind qubit Canonical
  | ising : Kind ising fun t => Canonical t ∧ AllZ t
  | fermion : Kind fermion fun _ => True

/-- Specification: an operator with terms of this kind, each once. -/
def Is (N : Term A → Prop) (o : Terms A) : Prop := WF o ∧ ∀ t ∈ keys o, N t

/-- Specification: nothing is dropped when the operators are added. -/
def Kept (a b : Terms A) : Prop := ∀ t, ¬ ‖coeff a t + coeff b t‖ < 1 / 10 ^ 8 ∨ coeff a t + coeff b t = 0

/-! ### Proofs -/

/-- What the laws need of a class. -/
structure Lawful (S : OpClass A) (N : Term A → Prop) : Prop where
  linear : ∀ t c, S.simplify t c = (c * (S.simplify t 1).1, (S.simplify t 1).2)
  normal : ∀ t c, N t → S.simplify t c = (c, t)
  nil : N []

theorem simplifyLoop_linear (c : ℂ) : ∀ (rest : Term Letter) (left : ℕ × Letter) (d : ℂ) (acc : Term Letter),
    simplifyLoop left rest (c * d) acc = (c * (simplifyLoop left rest d acc).1, (simplifyLoop left rest d acc).2) := by
  intro rest
  induction rest with
  | nil => intro left d acc; rw [simplifyLoop, simplifyLoop]
  | cons right rest ih =>
    intro left d acc
    rw [simplifyLoop, simplifyLoop]
    by_cases h : left.1 = right.1
    · rw [if_pos h, if_pos h, mul_assoc, ih]
    · rw [if_neg h, if_neg h, ih]

theorem qubit_linear (t : Term Letter) (c : ℂ) : qubitSimplify t c = (c * (qubitSimplify t 1).1, (qubitSimplify t 1).2) := by
  rw [qubitSimplify, qubitSimplify]
  cases sortByIndex t with
  | nil => rw [mul_one]
  | cons f rest =>
    show simplifyLoop f rest c [] = _
    rw [← simplifyLoop_linear, mul_one]

theorem ising_normal {t : Term Letter} (h : Canonical t ∧ AllZ t) (c : ℂ) : isingSimplify t c = (c, t) := by
  obtain ⟨h1, h2, h3⟩ := isingSimplify_spec t c
  have key : (isingSimplify t c).2 = t := by
    have hs : ∀ {u : Term Letter}, Canonical u → u.Pairwise (fun f g => f.1 < g.1) := fun h => List.pairwise_map.1 h.1
    refine List.Perm.eq_of_pairwise (le := fun f g => f.1 < g.1) (fun a b _ _ x y => absurd (lt_trans x y) (lt_irrefl _)) (hs h2) (hs h.1) ?_
    have hn : ∀ {u : Term Letter}, Canonical u → u.Nodup := fun h => (hs h).imp fun hx e => by rw [e] at hx; exact lt_irrefl _ hx
    rw [List.perm_ext_iff_of_nodup (hn h2) (hn h.1)]
    intro f
    rw [h3]
    have hnd : (t.map Prod.fst).Nodup := h.1.1.imp fun hx e => by rw [e] at hx; exact lt_irrefl _ hx
    constructor
    · rintro ⟨e, hc⟩
      have : f.1 ∈ t.map Prod.fst := by
        by_contra hn
        rw [List.count_eq_zero_of_not_mem hn] at hc; omega
      obtain ⟨g, hg, e'⟩ := List.mem_map.1 this
      have : g = f := Prod.ext e' (by rw [h.2 g hg, e])
      rwa [← this]
    · intro hf
      exact ⟨h.2 f hf, by rw [List.count_eq_one_of_mem hnd (List.mem_map_of_mem hf)]⟩
  exact Prod.ext h1 key

theorem lawful {S : OpClass A} {N : Term A → Prop} (h : Kind S N) : Lawful S N := by
  cases h with
  | qubit => exact ⟨qubit_linear, fun t c h => qubitSimplify_of_canonical h c, canonical_nil⟩
  | ising => exact ⟨fun t c => Prod.ext (mul_one c).symm rfl, fun t c h => ising_normal h c, canonical_nil, fun f hf => by cases hf⟩
  | fermion => exact ⟨fun t c => by simp [Op.fermion], fun t c _ => rfl, trivial⟩

theorem kind_nil {S : OpClass A} {N : Term A → Prop} (h : Kind S N) : N [] := (lawful h).nil

/-- A number as an operator. -/
theorem number_mul {S : OpClass A} {N : Term A → Prop} (h : Kind S N) {a : Terms A} (ha : Is N a) (c : ℂ) :
    mul S (ofTerm S [] c) a = smul a c ∧ mul S a (ofTerm S [] c) = smul a c := by
  have hl := lawful h
  have e : ofTerm S [] c = [([], c)] := by rw [ofTerm, hl.normal [] c hl.nil]
  have app : ∀ (res : Terms A) (t : Term A) (v : ℂ), t ∉ keys res → accum res t v = res ++ [(t, v)] := by
    intro res t v hn
    rw [accum_eq, coeff_of_not_mem hn, zero_add]
    induction res with
    | nil => rfl
    | cons p res ih =>
      have : p.1 ≠ t := fun e => hn (by rw [← e]; exact List.mem_cons_self ..)
      obtain ⟨k, w⟩ := p
      rw [PyDict.set, if_neg this, ih fun hm => hn (List.mem_cons_of_mem _ hm)]
      rfl
  rw [e]
  constructor
  · rw [mul, List.foldl_cons, List.foldl_nil, mulRow]
    have key : ∀ (b res : Terms A), (keys (res ++ b)).Nodup → (∀ t ∈ keys b, N t) →
        b.foldl (fun res r => accum res (S.simplify ([] ++ r.1) (c * r.2)).2 (S.simplify ([] ++ r.1) (c * r.2)).1) res = res ++ smul b c := by
      intro b
      induction b with
      | nil => intro res _ _; rw [List.foldl_nil, smul, List.map_nil, List.append_nil]
      | cons r b ih =>
        intro res hn hN
        have hr : N r.1 := hN _ (List.mem_cons_self ..)
        rw [keys, List.map_append, List.map_cons] at hn
        have hnot : r.1 ∉ keys res := fun hm => (List.nodup_append.1 hn).2.2 _ hm _ (List.mem_cons_self ..) rfl
        rw [List.foldl_cons, List.nil_append, hl.normal _ _ hr]
        dsimp only
        rw [app _ _ _ hnot, ih _ (by rw [keys, List.map_append, List.map_append]; simpa using hn) fun t ht => hN t (List.mem_cons_of_mem _ ht)]
        rw [smul, smul, List.map_cons, List.append_assoc, mul_comm c]
        rfl
    exact (key a [] ha.1 ha.2).trans (List.nil_append _)
  · rw [mul]
    have key : ∀ (b res : Terms A), (keys (res ++ b)).Nodup → (∀ t ∈ keys b, N t) → b.foldl (fun res l => mulRow S l [([], c)] res) res = res ++ smul b c := by
      intro b
      induction b with
      | nil => intro res _ _; rw [List.foldl_nil, smul, List.map_nil, List.append_nil]
      | cons r b ih =>
        intro res hn hN
        have hr : N r.1 := hN _ (List.mem_cons_self ..)
        rw [keys, List.map_append, List.map_cons] at hn
        have hnot : r.1 ∉ keys res := fun hm => (List.nodup_append.1 hn).2.2 _ hm _ (List.mem_cons_self ..) rfl
        have e : mulRow S r [([], c)] res = res ++ [(r.1, r.2 * c)] := by
          rw [mulRow, List.foldl_cons, List.foldl_nil, List.append_nil, hl.normal _ _ hr]
          exact app _ _ _ hnot
        rw [List.foldl_cons, e, ih _ (by rw [keys, List.map_append, List.map_append]; simpa using hn) fun t ht => hN t (List.mem_cons_of_mem _ ht)]
        rw [smul, smul, List.map_cons, List.append_assoc]
        rfl
    exact (key a [] ha.1 ha.2).trans (List.nil_append _)

/-- C128. `identity()` times an operator, and an operator times `identity()`, are the operator: the same terms with the same coefficients in the same order. -/
theorem identity_laws {S : OpClass A} {N : Term A → Prop} (h : Kind S N) {a : Terms A} (ha : Is N a) : mul S (identity S) a = a ∧ mul S a (identity S) = a := by
  have : smul a 1 = a := by simp [smul]
  obtain ⟨h1, h2⟩ := number_mul h ha 1
  exact ⟨h1.trans this, h2.trans this⟩

/-- C128. An operator plus `zero()` is the operator. `zero()` plus an operator has all its coefficients except those below 1e-8, so the two are equal in the sense of `==`. -/
theorem zero_laws {a : Terms A} (ha : WF a) : add a zero = a ∧
    (∀ t, coeff (add zero a) t = if ‖coeff a t‖ < 1 / 10 ^ 8 then 0 else coeff a t) ∧
    ∀ common, IsCommon (add zero a) a common → isclose (add zero a) a common = true := by
  have hz : WF (zero : Terms A) := by simp [WF, zero, keys]
  have hc : ∀ t, coeff (zero : Terms A) t = 0 := fun t => coeff_of_not_mem (by simp [zero, keys])
  obtain ⟨h1, h2, h3, h4⟩ := add_spec hz ha
  have key : ∀ t, coeff (add zero a) t = if ‖coeff a t‖ < 1 / 10 ^ 8 then 0 else coeff a t := by
    intro t
    by_cases ht : t ∈ keys (add zero a)
    · rw [h3 t ht, hc, zero_add]
      rcases (h2 t).1 ht with ⟨_, hb⟩ | ⟨_, hb⟩
      · rw [hc, zero_add] at hb; rw [if_neg hb]
      · simp [zero, keys] at hb
    · have := h4 t ht
      rw [hc, zero_add] at this
      rw [this.1, if_pos this.2]
  refine ⟨rfl, key, fun common hcom => isclose_of_close_partial h1 ha common hcom (fun t ht _ => ?_) fun t _ => ?_⟩
  · rw [h3 t ht, hc, zero_add, sub_self, norm_zero]
    exact mul_pos (by norm_num) (lt_of_lt_of_le one_pos (le_max_left _ _))
  · rw [key]
    by_cases hs : ‖coeff a t‖ < 1 / 10 ^ 8
    · rw [if_pos hs, zero_sub, norm_neg]; exact hs
    · rw [if_neg hs, sub_self, norm_zero]; norm_num

/-! Products, coefficient by coefficient -/

/-- A linear combination over the terms. -/
noncomputable def lin (a : Terms A) (f : Term A → ℂ) : ℂ := (a.map fun kv => kv.2 • f kv.1).sum

/-- What a pair of terms adds to a coefficient of the product. -/
noncomputable def pair (S : OpClass A) (t l r : Term A) : ℂ := if (S.simplify (l ++ r) 1).2 = t then (S.simplify (l ++ r) 1).1 else 0

theorem coeff_mul_lin {S : OpClass A} {N : Term A → Prop} (h : Lawful S N) (a b : Terms A) (t : Term A) :
    coeff (mul S a b) t = lin a fun l => lin b fun r => pair S t l r := by
  rw [coeff_mul, lin]
  congr 1
  apply List.map_congr_left
  intro l _
  rw [lin, smul_eq_mul, ← List.sum_map_mul_left]
  congr 1
  apply List.map_congr_left
  intro r _
  rw [h.linear, pair, smul_eq_mul]
  by_cases e : (S.simplify (l.1 ++ r.1) 1).2 = t
  · rw [if_pos e, if_pos e]; ring
  · rw [if_neg e, if_neg e]; ring

theorem lin_eq {a b : Terms A} (ha : WF a) (hb : WF b) (h : ∀ t, coeff a t = coeff b t) (f : Term A → ℂ) : lin a f = lin b f := sum_eq_of_coeff f ha hb h

theorem lin_add {a b : Terms A} (ha : WF a) (hb : WF b) (h : Kept a b) (f : Term A → ℂ) : lin (add a b) f = lin a f + lin b f := by
  have key : ∀ (b acc : Terms A), WF acc → WF b → WF (b.foldl (fun acc kv => accum acc kv.1 kv.2) acc) ∧
      lin (b.foldl (fun acc kv => accum acc kv.1 kv.2) acc) f = lin acc f + lin b f ∧
      ∀ t, coeff (b.foldl (fun acc kv => accum acc kv.1 kv.2) acc) t = coeff acc t + coeff b t := by
    intro b
    induction b with
    | nil => intro acc h _; exact ⟨h, by simp [lin], fun t => by rw [coeff_of_not_mem (o := []) (by simp [keys]), add_zero]; rfl⟩
    | cons p b ih =>
      obtain ⟨u, c⟩ := p
      intro acc h1 hw
      have hn := List.nodup_cons.1 (show (u :: keys b).Nodup from hw)
      obtain ⟨i1, i2, i3⟩ := ih (accum acc u c) (wf_accum h1 _ _) hn.2
      refine ⟨i1, ?_, fun t => ?_⟩
      · rw [List.foldl_cons, i2, lin, sum_accum]
        simp only [lin, List.map_cons, List.sum_cons]
        ring
      · rw [List.foldl_cons, i3 t, coeff_accum, coeff_cons]
        by_cases e : u = t
        · subst e; rw [if_pos rfl, if_pos rfl, coeff_of_not_mem hn.1]; ring
        · rw [if_neg e, if_neg e]; ring
  obtain ⟨h1, h2, h3⟩ := key b a ha hb
  rw [← h2]
  exact lin_eq (add_spec ha hb).1 h1 (fun t => by rw [add_exact ha hb t (h t), h3]) f

/-- C128. Products distribute over sums from both sides, exactly, when the sum drops nothing. -/
theorem distributive {S : OpClass A} {N : Term A → Prop} (h : Kind S N) {a b : Terms A} (c : Terms A) (ha : WF a) (hb : WF b) (hk : Kept a b) (t : Term A) :
    coeff (mul S (add a b) c) t = coeff (mul S a c) t + coeff (mul S b c) t ∧ coeff (mul S c (add a b)) t = coeff (mul S c a) t + coeff (mul S c b) t := by
  have hl := lawful h
  constructor
  · rw [coeff_mul_lin hl, coeff_mul_lin hl, coeff_mul_lin hl, lin_add ha hb hk]
  · rw [coeff_mul_lin hl, coeff_mul_lin hl, coeff_mul_lin hl, lin, lin, lin, ← List.sum_map_add]
    congr 1
    apply List.map_congr_left
    intro l _
    rw [lin_add ha hb hk, smul_add]

theorem lin_mul {S : OpClass A} {N : Term A → Prop} (h : Lawful S N) (a b : Terms A) (f : Term A → ℂ) :
    lin (mul S a b) f = lin a fun l => lin b fun r => (S.simplify (l ++ r) 1).1 * f (S.simplify (l ++ r) 1).2 := by
  have row : ∀ (l : Term A × ℂ) (b res : Terms A), lin (mulRow S l b res) f = lin res f + l.2 * lin b fun r => (S.simplify (l.1 ++ r) 1).1 * f (S.simplify (l.1 ++ r) 1).2 := by
    intro l b
    induction b with
    | nil => intro res; simp [mulRow, lin]
    | cons r b ih =>
      intro res
      show lin (mulRow S l b (accum res (S.simplify (l.1 ++ r.1) (l.2 * r.2)).2 (S.simplify (l.1 ++ r.1) (l.2 * r.2)).1)) f = _
      rw [ih, lin, sum_accum, h.linear]
      simp only [lin, List.map_cons, List.sum_cons, smul_eq_mul]
      ring
  have all : ∀ (a res : Terms A), lin (a.foldl (fun res l => mulRow S l b res) res) f = lin res f +
      lin a fun l => lin b fun r => (S.simplify (l ++ r) 1).1 * f (S.simplify (l ++ r) 1).2 := by
    intro a
    induction a with
    | nil => intro res; simp [lin]
    | cons l a ih =>
      intro res
      rw [List.foldl_cons, ih, row]
      simp only [lin, List.map_cons, List.sum_cons, smul_eq_mul]
      ring
  rw [mul, all]
  simp [lin]

theorem is_canonical {o : Terms Letter} (h : Is (fun t => Canonical t ∧ AllZ t) o) : IsingOp o := fun t ht => (h.2 t ht).2

/-- C128. Products are associative, exactly, coefficient by coefficient. -/
theorem associative {S : OpClass A} {N : Term A → Prop} (h : Kind S N) {a b c : Terms A} (ha : Is N a) (hb : Is N b) (hc : Is N c) (t : Term A) :
    coeff (mul S (mul S a b) c) t = coeff (mul S a (mul S b c)) t := by
  have hl := lawful h
  cases h with
  | qubit => convert qubit_mul_assoc a b c t
  | ising => convert ising_mul_assoc (is_canonical ha) (is_canonical hb) (is_canonical hc) t
  | fermion =>
    rw [coeff_mul_lin hl, coeff_mul_lin hl, lin_mul hl]
    rw [lin, lin]
    congr 1
    apply List.map_congr_left
    intro l _
    congr 1
    rw [lin_mul hl, lin, lin]
    congr 1
    apply List.map_congr_left
    intro r _
    congr 1
    show (1 : ℂ) * lin c (fun u => pair Op.fermion t (l.1 ++ r.1) u) = lin c fun u => (1 : ℂ) * pair Op.fermion t l.1 (r.1 ++ u)
    rw [one_mul]
    congr 1
    funext u
    rw [one_mul, pair, pair, List.append_assoc]

/-- Products depend on the coefficients only. -/
theorem coeff_mul_congr {S : OpClass A} {N : Term A → Prop} (h : Lawful S N) {a a' b b' : Terms A} (ha : WF a) (ha' : WF a') (hb : WF b) (hb' : WF b')
    (h1 : ∀ t, coeff a t = coeff a' t) (h2 : ∀ t, coeff b t = coeff b' t) (t : Term A) : coeff (mul S a b) t = coeff (mul S a' b') t := by
  rw [coeff_mul_lin h, coeff_mul_lin h, lin_eq ha ha' h1]
  congr 1
  funext l
  exact lin_eq hb hb' h2 _

theorem is_mul {S : OpClass A} {N : Term A → Prop} (h : Kind S N) (a b : Terms A) : Is N (mul S a b) := by
  refine ⟨wf_mul S a b, fun t ht => ?_⟩
  obtain ⟨l, _, r, _, rfl⟩ := (mem_keys_mul S a b t).1 ht
  cases h with
  | qubit => exact qubitSimplify_canonical _ _
  | ising => exact ⟨(isingSimplify_spec _ _).2.1, allZ_isingSimplify _ _⟩
  | fermion => trivial

theorem is_identity {S : OpClass A} {N : Term A → Prop} (h : Kind S N) : Is N (identity S) := by
  have hl := lawful h
  rw [identity, ofTerm, hl.normal _ _ hl.nil]
  exact ⟨by simp [WF, keys], fun t ht => by rw [show t = [] by simpa [keys] using ht]; exact hl.nil⟩

theorem is_pow {S : OpClass A} {N : Term A → Prop} (h : Kind S N) (a : Terms A) (n : ℕ) : Is N (pow S a n) := by
  cases n with
  | zero => exact is_identity h
  | succ n => rw [pow, List.range_succ, List.foldl_append]; exact is_mul h _ _

theorem pow_succ_eq (S : OpClass A) (a : Terms A) (n : ℕ) : pow S a (n + 1) = mul S (pow S a n) a := by
  rw [pow, List.range_succ, List.foldl_append]; rfl

/-- C128. The laws of powers: `op ** 0` is the identity, `op ** 1` is the operator, `op ** (m + n)` is the product of `op ** m` and `op ** n`, and `op ** (m * n)` is the power of a power. -/
theorem pow_laws {S : OpClass A} {N : Term A → Prop} (h : Kind S N) {a : Terms A} (ha : Is N a) (m n : ℕ) :
    pow S a 0 = identity S ∧ pow S a 1 = a ∧ (∀ t, coeff (pow S a (m + n)) t = coeff (mul S (pow S a m) (pow S a n)) t) ∧
      ∀ t, coeff (pow S a (m * n)) t = coeff (pow S (pow S a m) n) t := by
  have hl := lawful h
  have hadd : ∀ m n t, coeff (pow S a (m + n)) t = coeff (mul S (pow S a m) (pow S a n)) t := by
    intro m n
    induction n with
    | zero =>
      intro t
      rw [add_zero, show pow S a 0 = identity S from rfl, (identity_laws h (is_pow h a m)).2]
    | succ n ih =>
      intro t
      rw [← add_assoc, pow_succ_eq, coeff_mul_congr hl (is_pow h a _).1 (wf_mul _ _ _) ha.1 ha.1 ih (fun _ => rfl), associative h (is_pow h a m) (is_pow h a n) ha, pow_succ_eq]
  refine ⟨rfl, ?_, hadd m n, ?_⟩
  · rw [show (1 : ℕ) = 0 + 1 from rfl, pow_succ_eq]
    exact (identity_laws h ha).1
  · induction n with
    | zero => intro t; rfl
    | succ n ih =>
      intro t
      rw [Nat.mul_succ, hadd, pow_succ_eq]
      exact coeff_mul_congr hl (is_pow h a _).1 (is_pow h _ _).1 (is_pow h a m).1 (is_pow h a m).1 ih (fun _ => rfl) t

theorem coeff_smul' (a : Terms A) (c : ℂ) (t : Term A) : coeff (smul a c) t = c * coeff a t := (smul_spec a c).2 t

theorem lin_smul (a : Terms A) (c : ℂ) (f : Term A → ℂ) : lin (smul a c) f = c * lin a f := by
  rw [lin, lin, smul, List.map_map, ← List.sum_map_mul_left]
  congr 1
  apply List.map_congr_left
  intro kv _
  simp only [Function.comp, smul_eq_mul]
  ring

/-- C128. Numbers: `c * op` and `op * c` multiply every coefficient; numbers move through products; a number is as good as the operator with the number as constant term; dividing in place is
dividing, and fails for 0. -/
theorem number_laws {S : OpClass A} {N : Term A → Prop} (h : Kind S N) {a b : Terms A} (ha : Is N a) (c : ℂ) :
    (∀ t, coeff (rmul c a) t = c * coeff a t) ∧ rmul c a = smul a c ∧
    mul S (ofTerm S [] c) a = smul a c ∧ mul S a (ofTerm S [] c) = smul a c ∧
    (∀ t, coeff (mul S (smul a c) b) t = c * coeff (mul S a b) t) ∧ (∀ t, coeff (mul S a (smul b c)) t = c * coeff (mul S a b) t) ∧
    (c = 0 → itruediv a c = .error .zeroDivision) ∧ (c ≠ 0 → ∃ q, itruediv a c = .ok q ∧ smul q c = a) := by
  have hl := lawful h
  refine ⟨coeff_smul' a c, rfl, (number_mul h ha c).1, (number_mul h ha c).2, fun t => ?_, fun t => ?_, fun h0 => if_pos h0, fun h0 => ⟨_, if_neg h0, ?_⟩⟩
  · rw [coeff_mul_lin hl, coeff_mul_lin hl, lin_smul]
  · rw [coeff_mul_lin hl, coeff_mul_lin hl, lin, lin, ← List.sum_map_mul_left]
    congr 1
    apply List.map_congr_left
    intro l _
    rw [lin_smul, smul_eq_mul, smul_eq_mul]; ring
  · rw [smul, smul, List.map_map]
    conv_rhs => rw [← List.map_id a]
    apply List.map_congr_left
    intro kv _
    simp only [Function.comp, id]
    rw [mul_assoc, one_div, inv_mul_cancel₀ h0, mul_one]

/-- C128. The constant: it is the coefficient of the empty term, 0 if there is none; setting it sets it and changes no other coefficient; setting it to itself plus a number adds the number. -/
theorem constant_laws {a : Terms A} (ha : WF a) (v : ℂ) :
    constant a = coeff a [] ∧ constant (setConstant a v) = v ∧ WF (setConstant a v) ∧ (∀ t, t ≠ [] → coeff (setConstant a v) t = coeff a t) ∧
      addScalar a v = setConstant a (constant a + v) := by
  have h : ∀ t, coeff (setConstant a v) t = if [] = t then v else coeff a t := fun t => coeff_set ..
  refine ⟨rfl, ?_, ha.set _ _, fun t ht => ?_, rfl⟩
  · show coeff (setConstant a v) [] = v
    rw [h, if_pos rfl]
  · rw [h, if_neg fun e => ht e.symm]

/-- `(X0 + 2 Z1) ** 3`, whose terms are of the first kind. -/
example (t : Term Letter) : coeff (pow qubit [([(0, .X)], 1), ([(1, .Z)], 2)] (1 + 2)) t =
    coeff (mul qubit (pow qubit [([(0, .X)], 1), ([(1, .Z)], 2)] 1) (pow qubit [([(0, .X)], 1), ([(1, .Z)], 2)] 2)) t :=
  (pow_laws .qubit ⟨by simp [WF, keys], by
    intro t ht
    simp only [keys, List.map_cons, List.map_nil, List.mem_cons, List.not_mem_nil, or_false] at ht
    rcases ht with rfl | rfl <;> exact ⟨by simp, by simp⟩⟩ 1 2).2.2.1 t

end ZQ.OpLaws
