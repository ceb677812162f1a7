import Verif.Spec.Qubits
import Verif.Lemmas.Bits
import Mathlib.Algebra.BigOperators.Ring.Finset
import Mathlib.Data.List.Perm.Lattice
import Mathlib.Data.List.Sort

/-! Correctness of the lifting construction at the level of natural indices. -/

namespace ZQ

open Bits

/-- bit `q` of the `n`-bit number `i`, most significant first -/
def bitAt (n i q : ℕ) : ℕ := i / 2 ^ (n - 1 - q) % 2

theorem bitAt_lt (n i q : ℕ) : bitAt n i q < 2 := Nat.mod_lt _ (by omega)

theorem toBits_eq_map (n i : ℕ) : toBits n i = (List.range n).map (bitAt n i) := by
  apply List.ext_getElem
  · simp
  · intro q h1 h2
    rw [toBits_getElem]; simp [bitAt]

theorem bitAt_ext {n i j : ℕ} (hi : i < 2 ^ n) (hj : j < 2 ^ n) (h : ∀ q, q < n → bitAt n i q = bitAt n j q) :
    i = j := by
  apply toBits_injOn n hi hj
  rw [toBits_eq_map, toBits_eq_map]
  exact List.map_congr_left (fun q hq => h q (List.mem_range.1 hq))

theorem pyInt2_inj {l m : List ℕ} (hl : ∀ d ∈ l, d < 2) (hm : ∀ d ∈ m, d < 2) (hlen : l.length = m.length)
    (h : pyInt2 l = pyInt2 m) : l = m := by
  have h1 := toBits_pyInt2 l hl
  have h2 := toBits_pyInt2 m hm
  rw [← h1, h, hlen, h2]

/-- Bits of the three parts of an index split as high (`a` bits), middle (`b` bits), low (`c` bits). -/
theorem bitAt_div (b c i q : ℕ) (hq : q < b) : bitAt b (i / 2 ^ c) q = bitAt (b + c) i q := by
  unfold bitAt
  rw [Nat.div_div_eq_div_mul, ← pow_add]
  congr 3; omega

theorem bitAt_mod (a c i q : ℕ) (hq : q < c) : bitAt c (i % 2 ^ c) q = bitAt (a + c) i (a + q) := by
  unfold bitAt
  have e : a + c - 1 - (a + q) = c - 1 - q := by omega
  rw [e]
  obtain ⟨d, hd⟩ : ∃ d, c = (c - 1 - q) + 1 + d := ⟨c - ((c - 1 - q) + 1), by omega⟩
  generalize c - 1 - q = s at hd ⊢
  subst hd
  rw [pow_add, pow_succ, mul_assoc, Nat.mod_mul_right_div_self]
  rw [Nat.mod_mul_right_mod]

namespace UnitaryTools

variable {K : Type} [CommRing K]

theorem denseVector_foldl (bs : List ℕ) (v : Vec K) (x w : ℕ) (hd : ∀ b ∈ bs, b < 2) (hx : x < 2 ^ w)
    (hdim : v.dim = 2 ^ w) (hv : ∀ r, r < 2 ^ w → v.e r = if r = x then 1 else 0) :
    (bs.foldl (fun v b => v.kron (Vec.basis b)) v).dim = 2 ^ (w + bs.length) ∧
    ∀ r, r < 2 ^ (w + bs.length) →
      (bs.foldl (fun v b => v.kron (Vec.basis b)) v).e r =
        if r = x * 2 ^ bs.length + pyInt2 bs then 1 else 0 := by
  induction bs generalizing v x w with
  | nil => simpa [pyInt2] using ⟨hdim, hv⟩
  | cons b bs ih =>
    have hb : b < 2 := hd b List.mem_cons_self
    have h1 : (v.kron (Vec.basis b) : Vec K).dim = 2 ^ (w + 1) := by
      simp [Vec.kron, Vec.basis, hdim, pow_succ]
    have h2 : ∀ r, r < 2 ^ (w + 1) → (v.kron (Vec.basis b) : Vec K).e r = if r = 2 * x + b then 1 else 0 := by
      intro r hr
      rw [pow_succ] at hr
      simp only [Vec.kron, Vec.basis]
      rw [hv _ (by omega)]
      by_cases e1 : r / 2 = x
      · by_cases e2 : r % 2 = b
        · rw [if_pos e1, if_pos e2, if_pos (by omega), one_mul]
        · rw [if_neg e2, if_neg (show ¬ r = 2 * x + b by omega), mul_zero]
      · rw [if_neg e1, if_neg (show ¬ r = 2 * x + b by omega), zero_mul]
    have := ih _ (2 * x + b) (w + 1) (fun c hc => hd c (List.mem_cons_of_mem _ hc))
      (by rw [pow_succ]; omega) h1 h2
    rw [List.foldl_cons, List.length_cons]
    have e : w + 1 + bs.length = w + (bs.length + 1) := by omega
    rw [e] at this
    refine ⟨this.1, fun r hr => ?_⟩
    rw [this.2 r hr, pyInt2_cons, pow_succ]
    have e2 : (2 * x + b) * 2 ^ bs.length + pyInt2 bs = x * (2 ^ bs.length * 2) + (b * 2 ^ bs.length + pyInt2 bs) := by ring
    rw [e2]

theorem denseVector_spec (bs : List ℕ) (hne : bs ≠ []) (hd : ∀ b ∈ bs, b < 2) :
    ∃ v : Vec K, denseVector bs = .ok v ∧ v.dim = 2 ^ bs.length ∧
      ∀ r, r < 2 ^ bs.length → v.e r = if r = pyInt2 bs then 1 else 0 := by
  cases bs with
  | nil => exact absurd rfl hne
  | cons b bs =>
    have hb : b < 2 := hd b List.mem_cons_self
    have := denseVector_foldl (K := K) bs (Vec.basis b) b 1 (fun c hc => hd c (List.mem_cons_of_mem _ hc))
      (by simpa using hb) (by simp [Vec.basis]) (by intro r _; simp [Vec.basis])
    refine ⟨_, rfl, ?_, ?_⟩
    · rw [this.1, List.length_cons, Nat.add_comm]
    · intro r hr
      rw [this.2 r (by rwa [List.length_cons, Nat.add_comm] at hr), pyInt2_cons]

/-- The index map of a qubit permutation. -/
def sigma (order : List ℕ) (i : ℕ) : ℕ := pyInt2 (order.map (bitAt order.length i))

theorem map_bitAt_lt (n i : ℕ) (l : List ℕ) : ∀ d ∈ l.map (bitAt n i), d < 2 := by
  intro d hd
  obtain ⟨q, _, rfl⟩ := List.mem_map.1 hd
  exact bitAt_lt n i q

theorem sigma_lt (order : List ℕ) (i : ℕ) : sigma order i < 2 ^ order.length := by
  have := pyInt2_lt _ (map_bitAt_lt order.length i order)
  simpa [sigma] using this

theorem permute_basis (order : List ℕ) (w i : ℕ) (hw : 0 < w) (hi : i < 2 ^ w) (h : ∀ q ∈ order, q < w) :
    permute (basisBitstring i w) order = some (order.map (bitAt w i)) := by
  unfold permute
  rw [basisBitstring_eq i w hw hi, toBits_eq_map]
  induction order with
  | nil => rfl
  | cons q qs ih =>
    have hq := h q List.mem_cons_self
    rw [List.mapM_cons, ih (fun x hx => h x (List.mem_cons_of_mem _ hx))]
    simp [hq]

theorem mapM_except_ok {α β : Type} (l : List α) (f : α → Except Err β) (g : α → β)
    (h : ∀ a ∈ l, f a = .ok (g a)) : l.mapM f = .ok (l.map g) := by
  induction l with
  | nil => rfl
  | cons a l ih =>
    rw [List.mapM_cons, h a List.mem_cons_self, ih (fun x hx => h x (List.mem_cons_of_mem _ hx))]
    rfl

theorem mergeSort_range_iff (order : List ℕ) :
    order.mergeSort (· ≤ ·) = List.range order.length ↔ order.Perm (List.range order.length) := by
  have hs : (order.mergeSort (· ≤ ·)).Perm order := List.mergeSort_perm _ _
  constructor
  · intro h; rw [h] at hs; exact hs.symm
  · intro h
    have h1 : (order.mergeSort (· ≤ ·)).Pairwise (· ≤ ·) := by
      have := List.pairwise_mergeSort (le := fun a b : ℕ => decide (a ≤ b))
        (fun a b c h1 h2 => by simp at *; omega) (fun a b => by simp; omega) order
      simpa using this
    have h2 : (List.range order.length).Pairwise (· ≤ ·) := List.pairwise_le_range
    exact List.Perm.eq_of_pairwise (fun a b _ _ h1 h2 => Nat.le_antisymm h1 h2) h1 h2 (hs.trans h)

theorem permutationMatrix_spec (order : List ℕ) (hne : order ≠ []) (hp : order.Perm (List.range order.length)) :
    ∃ P : Mat K, permutationMatrix order = .ok P ∧ P.rows = 2 ^ order.length ∧ P.cols = 2 ^ order.length ∧
      ∀ r i, r < 2 ^ order.length → i < 2 ^ order.length →
        P.e r i = if r = sigma order i then 1 else 0 := by
  have hw : 0 < order.length := List.length_pos_of_ne_nil hne
  have hmem : ∀ q ∈ order, q < order.length := fun q hq => List.mem_range.1 (hp.mem_iff.1 hq)
  have hcol : ∀ i ∈ List.range (2 ^ order.length), ∃ v : Vec K,
      permColumn (K := K) order i = .ok v ∧
      ∀ r, r < 2 ^ order.length → v.e r = if r = sigma order i then 1 else 0 := by
    intro i hi
    unfold permColumn
    rw [permute_basis order _ i hw (List.mem_range.1 hi) hmem]
    obtain ⟨v, hv, _, hve⟩ := denseVector_spec (K := K) (order.map (bitAt order.length i)) (by simpa using hne)
      (map_bitAt_lt _ _ _)
    refine ⟨v, hv, fun r hr => ?_⟩
    rw [hve r (by simpa using hr)]; rfl
  haveI : Nonempty (Vec K) := ⟨⟨0, fun _ => 0⟩⟩
  choose! g hg using hcol
  have hm := mapM_except_ok (List.range (2 ^ order.length))
    (permColumn (K := K) order) g (fun i hi => (hg i hi).1)
  unfold permutationMatrix
  dsimp only
  rw [if_neg (by simpa using (mergeSort_range_iff order).2 hp), hm]
  refine ⟨_, rfl, rfl, rfl, ?_⟩
  intro r i hr hi
  simp only [List.getElem?_map, List.getElem?_range hi, Option.map_some]
  exact (hg i (List.mem_range.2 hi)).2 r hr

theorem filter_not_contains_perm (l : List ℕ) (w : ℕ) (hn : l.Nodup) (h : ∀ q ∈ l, q < w) :
    (permutationMakingQubitsAdjacent l w).Perm (List.range w) := by
  unfold permutationMakingQubitsAdjacent
  rw [List.perm_ext_iff_of_nodup]
  · intro a
    simp only [List.mem_append, List.mem_filter, List.mem_range, List.contains_iff_mem, Bool.not_eq_true',
      ← Bool.not_eq_true]
    constructor
    · rintro (h1 | h1)
      · exact h a h1
      · exact h1.1
    · intro ha
      by_cases hm : a ∈ l
      · exact Or.inl hm
      · exact Or.inr ⟨ha, hm⟩
  · rw [List.nodup_append]
    refine ⟨hn, List.nodup_range.filter _, ?_⟩
    intro a ha b hb hab
    subst hab
    simp [ha] at hb
  · exact List.nodup_range

theorem kron_eye_low (A : Mat K) (a b : ℕ) (i j : ℕ) (_hr : A.rows = 2 ^ a) (_hc : A.cols = 2 ^ a) :
    (Mat.kron A (Mat.eye (2 ^ b))).e i j =
      if i % 2 ^ b = j % 2 ^ b then A.e (i / 2 ^ b) (j / 2 ^ b) else 0 := by
  simp only [Mat.kron, Mat.eye]
  split <;> simp

theorem kron_eye_high (B : Mat K) (a b : ℕ) (i j : ℕ) (hr : B.rows = 2 ^ b) (hc : B.cols = 2 ^ b) :
    (Mat.kron (Mat.eye (2 ^ a)) B).e i j =
      if i / 2 ^ b = j / 2 ^ b then B.e (i % 2 ^ b) (j % 2 ^ b) else 0 := by
  simp only [Mat.kron, Mat.eye, hr, hc]
  split <;> simp

theorem conj_perm (P M : Mat K) (w : ℕ) (s : ℕ → ℕ) (hs : ∀ i, s i < 2 ^ w) (hPr : P.rows = 2 ^ w)
    (hPc : P.cols = 2 ^ w) (hMc : M.cols = 2 ^ w)
    (hP : ∀ r i, r < 2 ^ w → i < 2 ^ w → P.e r i = if r = s i then 1 else 0) (i j : ℕ) (hi : i < 2 ^ w)
    (hj : j < 2 ^ w) :
    (Mat.mul (Mat.mul P.transpose M) P).e i j = M.e (s i) (s j) := by
  simp only [Mat.mul, Mat.transpose, hMc, hPr]
  have h1 : ∀ k ∈ Finset.range (2 ^ w), (∑ r ∈ Finset.range (2 ^ w), P.e r i * M.e r k) = M.e (s i) k := by
    intro k _
    rw [Finset.sum_eq_single (s i)]
    · rw [hP _ _ (hs i) hi, if_pos rfl, one_mul]
    · intro r hr hne
      rw [hP _ _ (Finset.mem_range.1 hr) hi, if_neg hne, zero_mul]
    · intro h; exact absurd (Finset.mem_range.2 (hs i)) h
  rw [Finset.sum_congr rfl (fun k hk => by rw [h1 k hk])]
  rw [Finset.sum_eq_single (s j)]
  · rw [hP _ _ (hs j) hj, if_pos rfl, mul_one]
  · intro r hr hne
    rw [hP _ _ (Finset.mem_range.1 hr) hj, if_neg hne, mul_zero]
  · intro h; exact absurd (Finset.mem_range.2 (hs j)) h

theorem sigma_append (l r : List ℕ) (i : ℕ) :
    sigma (l ++ r) i / 2 ^ r.length = pyInt2 (l.map (bitAt (l.length + r.length) i)) ∧
    sigma (l ++ r) i % 2 ^ r.length = pyInt2 (r.map (bitAt (l.length + r.length) i)) := by
  unfold sigma
  rw [List.map_append, pyInt2_append_list, List.length_append, List.length_map]
  have hlt := pyInt2_lt _ (map_bitAt_lt (l.length + r.length) i r)
  rw [List.length_map] at hlt
  constructor
  · rw [Nat.add_comm, Nat.add_mul_div_right _ _ (Nat.two_pow_pos _), Nat.div_eq_of_lt hlt, Nat.zero_add]
  · rw [Nat.add_comm, Nat.add_mul_mod_self_right, Nat.mod_eq_of_lt hlt]

/-- Entry formula of the lifted matrix in terms of integer indices. -/
theorem liftMatrix_spec (m : Mat K) (qs : List ℕ) (n : ℕ) (hne : qs ≠ []) (hnd : qs.Nodup)
    (hlt : ∀ q ∈ qs, q < n) (hr : m.rows = 2 ^ qs.length) (hc : m.cols = 2 ^ qs.length) :
    ∃ L : Mat K, liftMatrix m qs n = .ok L ∧ L.rows = 2 ^ n ∧ L.cols = 2 ^ n ∧
      ∀ i j, i < 2 ^ n → j < 2 ^ n →
        L.e i j = if ∀ q, q < n → q ∉ qs → bitAt n i q = bitAt n j q
          then m.e (pyInt2 (qs.map (bitAt n i))) (pyInt2 (qs.map (bitAt n j))) else 0 := by
  obtain ⟨s, hs⟩ : ∃ s, qs.min? = some s := by
    cases h : qs.min? with
    | none => rw [List.min?_eq_none_iff] at h; exact absurd h hne
    | some s => exact ⟨s, rfl⟩
  obtain ⟨l, hl⟩ : ∃ l, qs.max? = some l := by
    cases h : qs.max? with
    | none => rw [List.max?_eq_none_iff] at h; exact absurd h hne
    | some s => exact ⟨s, rfl⟩
  have hsmem : s ∈ qs ∧ ∀ q ∈ qs, s ≤ q := by
    rw [List.min?_eq_some_iff] at hs; exact hs
  have hlmem : l ∈ qs ∧ ∀ q ∈ qs, q ≤ l := by
    rw [List.max?_eq_some_iff] at hl; exact hl
  have hsl : s ≤ l := hsmem.2 l hlmem.1
  have hln : l < n := hlt l hlmem.1
  -- shifted qubits
  set sh := qs.map (fun q => q - s) with hsh
  set w := l - s + 1 with hw
  have hshnd : sh.Nodup := by
    apply List.Nodup.map_on _ hnd
    intro a ha b hb hab
    have h1 := hsmem.2 a ha
    have h2 := hsmem.2 b hb
    omega
  have hshlt : ∀ q ∈ sh, q < w := by
    intro q hq
    obtain ⟨a, ha, rfl⟩ := List.mem_map.1 hq
    have := hlmem.2 a ha
    omega
  have hperm := filter_not_contains_perm sh w hshnd hshlt
  set rest := (List.range w).filter (fun i => !sh.contains i) with hrest
  have hord : permutationMakingQubitsAdjacent sh w = sh ++ rest := rfl
  have hordlen : (sh ++ rest).length = w := by
    rw [← hord, hperm.length_eq, List.length_range]
  have hshlen : sh.length = qs.length := by rw [hsh, List.length_map]
  have hkw : qs.length ≤ w := by
    rw [List.length_append] at hordlen; omega
  have hrestlen : rest.length = w - qs.length := by
    rw [List.length_append] at hordlen; omega
  obtain ⟨P, hP, hPr, hPc, hPe⟩ := permutationMatrix_spec (K := K) (sh ++ rest)
    (by intro h; rw [h] at hordlen; simp at hordlen)
    (by rw [hordlen, ← hord]; exact hperm)
  rw [hordlen] at hPr hPc hPe
  set inner := Mat.mul (Mat.mul P.transpose (Mat.kron m (Mat.eye (2 ^ (w - qs.length))))) P with hinner
  have hinr : inner.rows = 2 ^ w := by simp [hinner, Mat.mul, Mat.transpose, hPc]
  have hinc : inner.cols = 2 ^ w := by simp [hinner, Mat.mul, hPc]
  have hsplit : 2 ^ qs.length * 2 ^ (w - qs.length) = 2 ^ w := by
    rw [← pow_add]; congr 1; omega
  refine ⟨Mat.kron (Mat.kron (Mat.eye (2 ^ s)) inner) (Mat.eye (2 ^ (n - l - 1))), ?_, ?_, ?_, ?_⟩
  · unfold liftMatrix
    rw [hs, hl]
    dsimp only
    rw [← hsh, ← hw, hord, hP]
    show (if l + 1 < s + qs.length then _ else _) = _
    rw [if_neg (by omega)]
    have e1 : l + 1 - s - qs.length = w - qs.length := by omega
    rw [e1, if_neg, if_neg (by omega)]
    rintro (h | h)
    · apply h; simp [Mat.kron, Mat.eye, hr, hPr, hsplit]
    · apply h; simp [Mat.kron, Mat.eye, hc, hPr, hsplit]
  · have : 2 ^ n = 2 ^ s * 2 ^ w * 2 ^ (n - l - 1) := by
      rw [← pow_add, ← pow_add]; congr 1; omega
    simp [Mat.kron, Mat.eye, hinr, this]
  · have : 2 ^ n = 2 ^ s * 2 ^ w * 2 ^ (n - l - 1) := by
      rw [← pow_add, ← pow_add]; congr 1; omega
    simp [Mat.kron, Mat.eye, hinc, this]
  · intro i j hi hj
    set t := n - l - 1 with ht
    have hn : n = s + w + t := by omega
    rw [kron_eye_low _ (s + w) t _ _ (by simp [Mat.kron, Mat.eye, hinr, pow_add])
      (by simp [Mat.kron, Mat.eye, hinc, pow_add]),
      kron_eye_high inner s w _ _ hinr hinc]
    -- index parts
    set im := i / 2 ^ t % 2 ^ w with him
    set jm := j / 2 ^ t % 2 ^ w with hjm
    have himlt : im < 2 ^ w := Nat.mod_lt _ (Nat.two_pow_pos w)
    have hjmlt : jm < 2 ^ w := Nat.mod_lt _ (Nat.two_pow_pos w)
    have hhi : ∀ k, k < 2 ^ n → k / 2 ^ t / 2 ^ w < 2 ^ s := by
      intro k hk
      rw [Nat.div_div_eq_div_mul, Nat.div_lt_iff_lt_mul (by positivity), ← pow_add, ← pow_add]
      have : s + (t + w) = n := by omega
      rwa [this]
    -- bits of parts
    have bhi : ∀ k q, q < s → bitAt s (k / 2 ^ t / 2 ^ w) q = bitAt n k q := by
      intro k q hq
      rw [bitAt_div s w _ q hq, bitAt_div (s + w) t k q (by omega), ← hn]
    have bmid : ∀ k q, q < w → bitAt w (k / 2 ^ t % 2 ^ w) q = bitAt n k (s + q) := by
      intro k q hq
      rw [bitAt_mod s w _ q hq, bitAt_div (s + w) t k (s + q) (by omega), ← hn]
    have blow : ∀ k q, q < t → bitAt t (k % 2 ^ t) q = bitAt n k (s + w + q) := by
      intro k q hq
      rw [bitAt_mod (s + w) t k q hq, ← hn]
    have hconj := conj_perm P (Mat.kron m (Mat.eye (2 ^ (w - qs.length)))) w (sigma (sh ++ rest))
      (fun k => by have := sigma_lt (sh ++ rest) k; rwa [hordlen] at this) hPr hPc
      (by simp [Mat.kron, Mat.eye, hc, hsplit]) hPe im jm himlt hjmlt
    rw [← hinner] at hconj
    rw [hconj, kron_eye_low m qs.length (w - qs.length) _ _ hr hc, ← hrestlen]
    have hsum : sh.length + rest.length = w := by rw [← List.length_append, hordlen]
    rw [(sigma_append sh rest im).1, (sigma_append sh rest im).2, (sigma_append sh rest jm).1,
      (sigma_append sh rest jm).2, hsum]
    have hmapsh : ∀ k, sh.map (bitAt w (k / 2 ^ t % 2 ^ w)) = qs.map (bitAt n k) := by
      intro k
      rw [hsh, List.map_map]
      apply List.map_congr_left
      intro q hq
      have h1 := hsmem.2 q hq
      have h2 := hlmem.2 q hq
      simp only [Function.comp]
      rw [bmid k _ (by omega)]
      congr 1; omega
    rw [him, hjm, hmapsh i, hmapsh j]
    -- conditions
    have hcond : (∀ q, q < n → q ∉ qs → bitAt n i q = bitAt n j q) ↔
        (i % 2 ^ t = j % 2 ^ t ∧ i / 2 ^ t / 2 ^ w = j / 2 ^ t / 2 ^ w ∧
          pyInt2 (rest.map (bitAt w im)) = pyInt2 (rest.map (bitAt w jm))) := by
      constructor
      · intro h
        refine ⟨?_, ?_, ?_⟩
        · apply bitAt_ext (Nat.mod_lt _ (Nat.two_pow_pos t)) (Nat.mod_lt _ (Nat.two_pow_pos t))
          intro q hq
          rw [blow i q hq, blow j q hq]
          apply h _ (by omega)
          intro hmem
          have := hlmem.2 _ hmem
          omega
        · apply bitAt_ext (hhi i hi) (hhi j hj)
          intro q hq
          rw [bhi i q hq, bhi j q hq]
          apply h _ (by omega)
          intro hmem
          have := hsmem.2 _ hmem
          omega
        · congr 1
          apply List.map_congr_left
          intro q hq
          rw [hrest, List.mem_filter, List.mem_range] at hq
          rw [him, hjm, bmid i q hq.1, bmid j q hq.1]
          apply h _ (by omega)
          intro hmem
          have : q ∈ sh := by
            rw [hsh, List.mem_map]; exact ⟨s + q, hmem, by omega⟩
          simp [this] at hq
      · rintro ⟨h1, h2, h3⟩ q hq hqs
        rcases Nat.lt_or_ge q s with hqs1 | hqs1
        · rw [← bhi i q hqs1, ← bhi j q hqs1, h2]
        · rcases Nat.lt_or_ge q (s + w) with hqs2 | hqs2
          · have hl3 := pyInt2_inj (map_bitAt_lt _ _ _) (map_bitAt_lt _ _ _) (by simp) h3
            have hqr : q - s ∈ rest := by
              rw [hrest, List.mem_filter, List.mem_range]
              refine ⟨by omega, ?_⟩
              have : q - s ∉ sh := by
                rw [hsh, List.mem_map]
                rintro ⟨a, ha, hae⟩
                have := hsmem.2 a ha
                have : a = q := by omega
                subst this
                exact hqs ha
              simpa using this
            have := (List.map_inj_left.1 hl3) (q - s) hqr
            rw [him, hjm, bmid i _ (by omega), bmid j _ (by omega)] at this
            have e : s + (q - s) = q := by omega
            rwa [e] at this
          · have e : q = s + w + (q - (s + w)) := by omega
            rw [e, ← blow i _ (by omega), ← blow j _ (by omega), h1]
    by_cases hC : ∀ q, q < n → q ∉ qs → bitAt n i q = bitAt n j q
    · rw [if_pos hC]
      obtain ⟨h1, h2, h3⟩ := hcond.1 hC
      rw [if_pos h1, if_pos h2, if_pos h3]
    · rw [if_neg hC]
      by_cases h1 : i % 2 ^ t = j % 2 ^ t
      · rw [if_pos h1]
        by_cases h2 : i / 2 ^ t / 2 ^ w = j / 2 ^ t / 2 ^ w
        · rw [if_pos h2, if_neg]
          intro h3
          exact hC (hcond.2 ⟨h1, h2, h3⟩)
        · rw [if_neg h2]
      · rw [if_neg h1]

end UnitaryTools

end ZQ
