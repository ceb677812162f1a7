import Verif.Lemmas.CommaKeys
import Verif.Lemmas.Bits

/-! # Outcome distributions (C28) and distances between them (C29) -/

namespace ZQ.Dist

open ZQ.Bits

/-- A table of tuples as constructor input. -/
def tuples (d : DDict) : List (Key × ℝ) := d.map fun kv => (.tup kv.1, kv.2)

/-- What the class promises about its table: non-empty, distinct same-length keys of non-negative integers, non-negative values. -/
structure Valid (d : List (List ℤ × ℝ)) : Prop where
  nonempty : d ≠ []
  distinct : (d.map Prod.fst).Nodup
  sameLength : ∀ a ∈ d, ∀ b ∈ d, a.1.length = b.1.length
  keyNonneg : ∀ a ∈ d, ∀ z ∈ a.1, 0 ≤ z
  valNonneg : ∀ a ∈ d, 0 ≤ a.2

/-! ### Auxiliary facts -/

theorem isKeyLengthFixed_iff (d : DDict) :
    IsKeyLengthFixed d ↔ ∀ a ∈ d, ∀ b ∈ d, a.1.length = b.1.length := by
  cases d with
  | nil => simp [IsKeyLengthFixed]
  | cons p d =>
    unfold IsKeyLengthFixed
    simp only [PyDict.keys, List.map_cons, List.headD_cons]
    constructor
    · intro h a ha b hb; rw [h a ha, h b hb]
    · intro h a ha; exact h a ha p (by simp)

theorem isDistribution_iff {d : DDict} (hn : (d.map Prod.fst).Nodup) : IsDistribution d ↔ Valid d := by
  unfold IsDistribution
  rw [isKeyLengthFixed_iff]
  exact ⟨fun ⟨a, b, c, e⟩ => ⟨a, hn, c, e, b⟩, fun ⟨a, _, c, e, b⟩ => ⟨a, b, c, e⟩⟩

theorem preprocess_of_ok {l : List (Key × ℝ)} {d : DDict} (h : l.mapM
    (fun kv => (preprocessKey kv.1).map fun t => (t, kv.2)) = .ok d) (hn : (d.map Prod.fst).Nodup) :
    preprocess l = .ok d := by
  rw [preprocess, h]
  show Except.ok (PyDict.ofItems d) = _
  rw [PyDict.ofItems_eq_self hn]

theorem preprocess_map {l : DDict} (f : List ℤ → Key) (h : ∀ kv ∈ l, preprocessKey (f kv.1) = .ok kv.1)
    (hn : (l.map Prod.fst).Nodup) : preprocess (l.map fun kv => (f kv.1, kv.2)) = .ok l := by
  refine preprocess_of_ok ?_ hn
  clear hn
  induction l with
  | nil => rfl
  | cons p l ih =>
    rw [List.map_cons, List.mapM_cons, ih (fun kv hkv => h kv (by simp [hkv])), h p (by simp)]
    rfl

theorem preprocess_tuples {d : DDict} (hn : (d.map Prod.fst).Nodup) : preprocess (tuples d) = .ok d :=
  preprocess_map _ (fun _ _ => rfl) hn

theorem make_tuples {d : DDict} (hn : (d.map Prod.fst).Nodup) (b : Bool) : make (tuples d) b = ofTuples d b := by
  rw [make, preprocess_tuples hn]; rfl

theorem preprocess_nodup {l : List (Key × ℝ)} {d : DDict} (h : preprocess l = .ok d) :
    (d.map Prod.fst).Nodup := by
  unfold preprocess at h
  cases hm : l.mapM (fun kv => (preprocessKey kv.1).map fun t => (t, kv.2)) with
  | error e => rw [hm] at h; cases h
  | ok items =>
    rw [hm] at h
    injection h with h
    subst h
    have : ∀ (items : List (List ℤ × ℝ)) (acc : DDict), (PyDict.keys acc).Nodup →
        (PyDict.keys (items.foldl (fun d kv => PyDict.set d kv.1 kv.2) acc)).Nodup := by
      intro items
      induction items with
      | nil => intro acc h; exact h
      | cons p items ih => intro acc h; exact ih _ (PyDict.nodup_set h _ _)
    exact this items [] List.nodup_nil

theorem total_scale (d : DDict) (c : ℝ) : total (d.map fun kv => (kv.1, kv.2 * c)) = total d * c := by
  induction d with
  | nil => simp [total]
  | cons p d ih =>
    simp only [total, List.map_cons, List.sum_cons, List.map_map] at ih ⊢
    rw [ih]; ring

theorem pmf_scale (d : DDict) (c : ℝ) (k : List ℤ) :
    pmf (d.map fun kv => (kv.1, kv.2 * c)) k = pmf d k * c := by
  induction d with
  | nil => simp [pmf]
  | cons p d ih =>
    simp only [pmf, List.map_cons, List.sum_cons, List.map_map] at ih ⊢
    rw [ih]; split_ifs <;> ring

theorem Valid.scale {d : DDict} (h : Valid d) {c : ℝ} (hc : 0 ≤ c) :
    Valid (d.map fun kv => (kv.1, kv.2 * c)) where
  nonempty := by simpa using h.nonempty
  distinct := by rw [List.map_map]; exact h.distinct
  sameLength := by
    intro a ha b hb
    obtain ⟨a, ha', rfl⟩ := List.mem_map.1 ha
    obtain ⟨b, hb', rfl⟩ := List.mem_map.1 hb
    exact h.sameLength a ha' b hb'
  keyNonneg := by
    intro a ha
    obtain ⟨a, ha', rfl⟩ := List.mem_map.1 ha
    exact h.keyNonneg a ha'
  valNonneg := by
    intro a ha
    obtain ⟨a, ha', rfl⟩ := List.mem_map.1 ha
    exact mul_nonneg (h.valNonneg a ha') hc

theorem isClose_one_one : IsClose 1 1 := by unfold IsClose; simp

/-! ### C28 -/

/-- Normalisation divides every entry by the total; the result sums to 1. -/
theorem normalize_spec (d : List (List ℤ × ℝ)) (ht : 1 / 2 ^ 1022 ≤ total d) :
    ∃ r, normalize d = .ok r ∧ r.map Prod.fst = d.map Prod.fst ∧ total r = 1 ∧
      ∀ k, pmf r k = pmf d k / total d := by
  have hpos : 0 < total d := lt_of_lt_of_le (by positivity) ht
  have hne : norm d ≠ 0 := ne_of_gt hpos
  unfold normalize
  simp only []
  rw [if_neg hne, if_neg (by rintro ⟨_, h⟩; exact absurd h (not_lt.2 ht))]
  by_cases h1 : norm d = 1
  · rw [if_pos h1]
    have h1' : total d = 1 := h1
    exact ⟨d, rfl, rfl, h1, fun k => by rw [h1', div_one]⟩
  · rw [if_neg h1]
    refine ⟨_, rfl, by rw [List.map_map]; rfl, ?_, fun k => ?_⟩
    · rw [total_scale]; exact mul_one_div_cancel hne
    · rw [pmf_scale]; exact mul_one_div _ _

/-- Tables with total zero, or too small to divide by, are rejected. -/
theorem normalize_rejects (d : List (List ℤ × ℝ)) (ht : total d = 0 ∨ 0 < total d ∧ total d < 1 / 2 ^ 1022) :
    normalize d = .error .valueError := by
  unfold normalize
  simp only []
  rw [← total_eq_norm] at ht
  rcases ht with h | h
  · rw [if_pos h]
  · rw [if_neg (ne_of_gt h.1), if_pos (show 0 < norm d ∧ norm d < floatMin from h)]

/-- Whatever dictionary is given (string keys, tuple keys, other objects): an object that gets constructed satisfies the class invariant, and
its probabilities sum to 1 within the relative tolerance `1e-9` when normalisation is requested. -/
theorem make_sound (l : List (Key × ℝ)) (b : Bool) (r : DDict) (h : make l b = .ok r) :
    Valid r ∧ (b = true → |total r - 1| ≤ 1 / 10 ^ 9 * max |total r| 1) := by
  unfold make at h
  cases hp : preprocess l with
  | error e => rw [hp] at h; cases h
  | ok d =>
    rw [hp] at h
    have hn := preprocess_nodup hp
    change ofTuples d b = _ at h
    unfold ofTuples at h
    by_cases hd : IsDistribution d
    · rw [if_pos hd] at h
      have hv := (isDistribution_iff hn).1 hd
      by_cases hc : IsNormalized d
      · rw [if_pos hc] at h
        injection h with h; subst h
        refine ⟨hv, fun _ => ?_⟩
        have : IsClose (total d) 1 := hc
        unfold IsClose at this
        rw [abs_one] at this
        exact this.trans (max_le le_rfl (by positivity))
      · rw [if_neg hc] at h
        cases b with
        | false =>
          simp only [Bool.false_eq_true, if_false] at h
          injection h with h; subst h
          exact ⟨hv, by simp⟩
        | true =>
          simp only [if_true] at h
          have key : ∃ c, 0 ≤ c ∧ r = d.map (fun kv => (kv.1, kv.2 * c)) ∧ total r = 1 := by
            unfold normalize at h
            simp only [] at h
            have hnn : 0 ≤ norm d := by
              refine List.sum_nonneg ?_
              intro x hx
              obtain ⟨a, ha, rfl⟩ := List.mem_map.1 hx
              exact hv.valNonneg a ha
            split_ifs at h with h0 h1 h2
            · injection h with h; subst h
              exact ⟨1, by norm_num, by simp, h2⟩
            · injection h with h; subst h
              refine ⟨1 / norm d, by positivity, rfl, ?_⟩
              rw [total_scale]; exact mul_one_div_cancel h0
          obtain ⟨c, hc0, rfl, h1⟩ := key
          refine ⟨hv.scale hc0, fun _ => ?_⟩
          rw [h1]; simp
    · rw [if_neg hd] at h; cases h

/-- Construction from tuples accepts every valid table with a positive total (not below the smallest normal float), keeps the keys and their order, and scales all
probabilities by one positive factor. -/
theorem make_accepts (d : List (List ℤ × ℝ)) (hv : Valid d) (ht : 1 / 2 ^ 1022 ≤ total d) :
    ∃ r c, make (tuples d) true = .ok r ∧ 0 < c ∧ r.map Prod.fst = d.map Prod.fst ∧ ∀ k, pmf r k = c * pmf d k := by
  rw [make_tuples hv.distinct]
  unfold ofTuples
  rw [if_pos ((isDistribution_iff hv.distinct).2 hv)]
  by_cases hc : IsNormalized d
  · rw [if_pos hc]; exact ⟨d, 1, rfl, one_pos, rfl, fun k => (one_mul _).symm⟩
  · rw [if_neg hc, if_pos rfl]
    obtain ⟨r, hr, hk, -, hp⟩ := normalize_spec d ht
    have hpos : 0 < total d := lt_of_lt_of_le (by positivity) ht
    exact ⟨r, 1 / total d, hr, by positivity, hk, fun k => by rw [hp]; ring⟩

/-- Tables that violate the invariant are rejected. -/
theorem make_rejects (d : List (List ℤ × ℝ)) (hn : (d.map Prod.fst).Nodup) (hv : ¬ Valid d) (b : Bool) :
    make (tuples d) b = .error .runtimeError := by
  rw [make_tuples hn]
  unfold ofTuples
  rw [if_neg (fun h => hv ((isDistribution_iff hn).1 h))]

/-- A small concrete valid table. -/
theorem valid_example : Valid [([0, 1], 3), ([1, 1], 1)] where
  nonempty := by simp
  distinct := by simp
  sameLength := by simp
  keyNonneg := by simp
  valNonneg := by simp

example : (1 : ℝ) / 2 ^ 1022 ≤ total [([0, 1], 3), ([1, 1], 1)] := by
  have : (1 : ℝ) / 2 ^ 1022 ≤ 1 := by
    rw [div_le_one (by positivity)]; exact one_le_pow₀ (by norm_num)
  simp only [total, List.map_cons, List.map_nil, List.sum_cons, List.sum_nil]
  linarith

example : ¬ Valid [([0, 1], 3), ([1], 1)] := fun h => by
  have := h.sameLength ([0, 1], 3) (by simp) ([1], 1) (by simp)
  simp at this

example : ¬ Valid [([0, 1], 3), ([1, 0], -1)] := fun h => by
  have := h.valNonneg ([1, 0], -1) (by simp)
  norm_num at this

/-- Bitstring keys mean the same as tuple keys: `"010"` is `(0, 1, 0)`. -/
theorem make_bitstrings (d : List (List ℕ × ℝ)) (hn : (d.map Prod.fst).Nodup)
    (hd : ∀ a ∈ d, ∀ b ∈ a.1, b < 10) (b : Bool) :
    make (d.map fun kv => (.str (kv.1.map fun x => Char.ofNat (48 + x)), kv.2)) b
      = make (tuples (d.map fun kv => (kv.1.map (fun x : ℕ => (x : ℤ)), kv.2))) b := by
  have key : preprocess (d.map fun kv => (.str (kv.1.map fun x => Char.ofNat (48 + x)), kv.2))
      = .ok (d.map fun kv => (kv.1.map (fun x : ℕ => (x : ℤ)), kv.2)) := by
    refine preprocess_of_ok ?_ ?_
    · clear hn
      induction d with
      | nil => rfl
      | cons p d ih =>
        have h1 : preprocessKey (.str (p.1.map fun x => Char.ofNat (48 + x)))
            = .ok (p.1.map (fun x : ℕ => (x : ℤ))) := by
          have hp := hd p (by simp)
          generalize p.1 = t at hp
          rw [preprocessKey, if_pos]
          · have : ((t.map fun x => Char.ofNat (48 + x)).map fun c => [c]).mapM pyInt
                = some (t.map (fun x : ℕ => (x : ℤ))) := by
              induction t with
              | nil => rfl
              | cons x t iht =>
                rw [List.map_cons, List.map_cons, List.mapM_cons,
                  iht (fun b hb => hp b (by simp [hb]))]
                have hx : x < 10 := hp x (by simp)
                have : pyInt [Char.ofNat (48 + x)] = some (x : ℤ) := by
                  have := pyInt_pyStr x
                  rw [pyStr, dif_pos hx] at this
                  exact this
                rw [this]; rfl
            rw [this]
          · intro hm
            obtain ⟨x, hx, he⟩ := List.mem_map.1 hm
            have hx' := hp x hx
            have := digitChar_toNat hx'
            rw [digitChar, he] at this
            have h44 : (',' : Char).toNat = 44 := rfl
            omega
        rw [List.map_cons, List.mapM_cons, ih (fun a ha => hd a (by simp [ha])), h1]; rfl
    · rw [List.map_map]
      have : (Prod.fst ∘ fun kv : List ℕ × ℝ => (kv.1.map (fun x : ℕ => (x : ℤ)), kv.2))
          = (fun t : List ℕ => t.map (fun x : ℕ => (x : ℤ))) ∘ Prod.fst := rfl
      rw [this, ← List.map_map]
      exact hn.map (List.map_injective_iff.2 Nat.cast_injective)
  rw [make, key, make, preprocess_tuples]
  exact preprocess_nodup key

example : ∃ r, make [(.str ['0', '1'], 1), (.str ['1', '1'], 3)] true = .ok r ∧
    pmf r [1, 1] = 3 / 4 := by
  have h := make_bitstrings [([0, 1], 1), ([1, 1], 3)] (by simp) (by simp) true
  have hv : Valid [([0, 1], 1), ([1, 1], 3)] :=
    ⟨by simp, by simp, by simp, by simp, by simp⟩
  have ht : (1 : ℝ) / 2 ^ 1022 ≤ total [([0, 1], 1), ([1, 1], 3)] := by
    have : (1 : ℝ) / 2 ^ 1022 ≤ 1 := by
      rw [div_le_one (by positivity)]; exact one_le_pow₀ (by norm_num)
    simp only [total, List.map_cons, List.map_nil, List.sum_cons, List.sum_nil]
    linarith
  have ht4 : total [([0, 1], (1 : ℝ)), ([1, 1], 3)] = 4 := by simp [total]; norm_num
  obtain ⟨r, hr, -, -, hp⟩ := normalize_spec [([0, 1], 1), ([1, 1], 3)] ht
  refine ⟨r, ?_, ?_⟩
  · refine h.trans ?_
    refine (make_tuples hv.distinct true).trans ?_
    unfold ofTuples
    rw [if_pos ((isDistribution_iff hv.distinct).2 hv), if_neg, if_pos rfl, hr]
    unfold IsNormalized
    rw [total_eq_norm, ht4]
    unfold IsClose
    norm_num
  · rw [hp, ht4]; simp [pmf]

/-- Saving and loading returns the same object, with outcomes of at least two subsystems (or one-digit outcomes). -/
theorem save_load_partial (d : List (List ℤ × ℝ)) (hv : Valid d) (hs : IsClose (total d) 1)
    (hk : ∀ a ∈ d, 2 ≤ a.1.length ∨ ∀ z ∈ a.1, z < 10) : load (save d) = .ok d := by
  have hpre : ∀ kv ∈ d, preprocessKey (commaKey (.tup kv.1)) = .ok kv.1 := fun kv hkv =>
    preprocess_commaKey kv.1 ((hk kv hkv).imp id (fun h z hz => ⟨hv.keyNonneg kv hkv z hz, h z hz⟩))
  have hitems : save d = d.map fun kv => (commaKey (.tup kv.1), kv.2) := by
    unfold save commaKeys
    rw [List.map_map]
    refine PyDict.ofItems_eq_self ?_
    rw [List.map_map, show (Prod.fst ∘ ((fun kv : Key × ℝ => (commaKey kv.1, kv.2)) ∘
      fun kv : List ℤ × ℝ => (Key.tup kv.1, kv.2))) = (fun t => commaKey (.tup t)) ∘ Prod.fst from rfl,
      ← List.map_map]
    refine List.Nodup.map_on ?_ hv.distinct
    intro a ha b hb hab
    obtain ⟨x, hx, rfl⟩ := List.mem_map.1 ha
    obtain ⟨y, hy, rfl⟩ := List.mem_map.1 hb
    have := hpre x hx
    rw [hab, hpre y hy] at this
    injection this with this
    exact this.symm
  rw [load, make, hitems, preprocess_map (fun t => commaKey (.tup t)) hpre hv.distinct]
  show ofTuples d true = _
  unfold ofTuples
  rw [if_pos ((isDistribution_iff hv.distinct).2 hv), if_pos]
  exact hs

/-- The same for lists of distributions. -/
theorem saveAll_loadAll_partial (ds : List (List (List ℤ × ℝ))) (hv : ∀ d ∈ ds, Valid d)
    (hs : ∀ d ∈ ds, IsClose (total d) 1)
    (hk : ∀ d ∈ ds, ∀ a ∈ d, 2 ≤ a.1.length ∨ ∀ z ∈ a.1, z < 10) : loadAll (saveAll ds) = .ok ds := by
  unfold loadAll saveAll
  induction ds with
  | nil => rfl
  | cons d ds ih =>
    rw [List.map_cons, List.mapM_cons, save_load_partial d (hv d (by simp)) (hs d (by simp)) (hk d (by simp)),
      ih (fun d h => hv d (by simp [h])) (fun d h => hs d (by simp [h])) (fun d h => hk d (by simp [h]))]
    rfl

example : Valid [([0, 12], 1 / 4), ([1, 1], 3 / 4)] ∧ IsClose (total [([0, 12], 1 / 4), ([1, 1], 3 / 4)]) 1 := by
  refine ⟨⟨by simp, by simp, by simp, by simp, by norm_num⟩, ?_⟩
  have : total [([0, 12], (1 : ℝ) / 4), ([1, 1], 3 / 4)] = 1 := by simp [total]; norm_num
  rw [this]; exact isClose_one_one

/-- The general round trip fails: a one-subsystem outcome with value 12 is loaded as a two-subsystem outcome. -/
theorem save_load_counterexample :
    Valid [([12], 1)] ∧ load (save [([12], 1)]) = .ok [([1, 2], 1)] := by
  refine ⟨⟨by simp, by simp, by simp, by simp, by simp⟩, ?_⟩
  have h12 : intStr 12 = ['1', '2'] := by
    show pyStr 12 = _
    rw [pyStr, dif_neg (by norm_num), pyStr, dif_pos (by norm_num)]; rfl
  have hsave : save [([12], 1)] = [(.str ['1', '2'], 1)] := by
    simp [save, commaKeys, commaKey, h12, joinComma, PyDict.ofItems, PyDict.set]
  rw [hsave, load, show [(Key.str ['1', '2'], (1 : ℝ))]
    = ([([1, 2], 1)] : List (List ℕ × ℝ)).map
        (fun kv => (.str (kv.1.map fun x => Char.ofNat (48 + x)), kv.2)) from rfl,
    make_bitstrings _ (by simp) (by simp)]
  refine (make_tuples (by simp) true).trans ?_
  unfold ofTuples
  have hv : Valid [([1, 2], 1)] := ⟨by simp, by simp, by simp, by simp, by simp⟩
  have e : (([([1, 2], 1)] : List (List ℕ × ℝ)).map fun kv => (kv.1.map (fun x : ℕ => (x : ℤ)), kv.2))
      = [([1, 2], 1)] := by simp
  rw [e, if_pos ((isDistribution_iff hv.distinct).2 hv), if_pos]
  unfold IsNormalized
  rw [total_eq_norm]
  have : total [([1, 2], (1 : ℝ))] = 1 := by simp [total]
  rw [this]; exact isClose_one_one

theorem product01_length (n : ℕ) : (product01 n).length = 2 ^ n := by
  induction n with
  | zero => rfl
  | succ n ih => rw [product01, List.length_append, List.length_map, List.length_map, ih, pow_succ]; ring

theorem toBits_succ_msb (n i : ℕ) : toBits (n + 1) i = (i / 2 ^ n) % 2 :: toBits n i := by
  induction n generalizing i with
  | zero => simp [toBits]
  | succ n ih =>
    rw [toBits, ih (i / 2), List.cons_append, Nat.div_div_eq_div_mul, ← pow_succ']; rfl

theorem product01_eq (n : ℕ) :
    product01 n = (List.range (2 ^ n)).map fun i => (toBits n i).map (fun x : ℕ => (x : ℤ)) := by
  induction n with
  | zero => rfl
  | succ n ih =>
    rw [product01, ih, pow_succ, mul_two, List.range_add, List.map_append, List.map_map, List.map_map, List.map_map]
    congr 1
    · refine List.map_congr_left fun i hi => ?_
      rw [List.mem_range] at hi
      simp only [Function.comp]
      rw [toBits_succ_msb, Nat.div_eq_of_lt hi]; rfl
    · refine List.map_congr_left fun i hi => ?_
      rw [List.mem_range] at hi
      simp only [Function.comp]
      rw [toBits_succ_msb, Nat.add_div_left _ (by positivity), Nat.div_eq_of_lt hi, List.map_cons]
      congr 1
      have : ∀ (n j i : ℕ), toBits n (2 ^ n * j + i) = toBits n i := by
        intro n
        induction n with
        | zero => intros; rfl
        | succ n ih =>
          intro j i
          rw [toBits, toBits]
          have h1 : (2 ^ (n + 1) * j + i) / 2 = 2 ^ n * j + i / 2 := by
            rw [pow_succ, show 2 ^ n * 2 * j + i = i + 2 * (2 ^ n * j) by ring,
              Nat.add_mul_div_left _ _ (by norm_num)]; ring
          have h2 : (2 ^ (n + 1) * j + i) % 2 = i % 2 := by
            rw [pow_succ, show 2 ^ n * 2 * j + i = i + 2 * (2 ^ n * j) by ring, Nat.add_mul_mod_self_left]
          rw [h1, h2, ih]
      have := this n 1 i
      rw [mul_one] at this
      rw [this]

/-- Conversion of a probability vector: entry `i` becomes the probability of the bitstring of `i`, most significant bit first. -/
theorem ofProbabilities_spec (n : ℕ) (p : List ℝ) (hl : p.length = 2 ^ n) (h0 : ∀ x ∈ p, 0 ≤ x) (h1 : p.sum = 1) :
    ∃ r, ofProbabilities p = .ok r ∧
      ∀ i (hi : i < p.length), pmf r ((toBits n i).map (fun x : ℕ => (x : ℤ))) = p[i] := by
  have hne : p.length ≠ 0 := by rw [hl]; positivity
  unfold ofProbabilities
  rw [if_neg hne, show Nat.log2 p.length = n by rw [hl, Nat.log2_two_pow]]
  set d : DDict := (product01 n).zip p with hd
  have hzl : (product01 n).length = p.length := by rw [product01_length, hl]
  have hkeys : d.map Prod.fst = product01 n := List.map_fst_zip (by omega)
  have hvals : d.map Prod.snd = p := List.map_snd_zip (by omega)
  have hinj : ∀ i < 2 ^ n, ∀ j < 2 ^ n, (toBits n i).map (fun x : ℕ => (x : ℤ))
      = (toBits n j).map (fun x : ℕ => (x : ℤ)) → i = j := by
    intro i hi j hj h
    exact toBits_injOn n hi hj (List.map_injective_iff.2 Nat.cast_injective h)
  have hnd : (d.map Prod.fst).Nodup := by
    rw [hkeys, product01_eq]
    refine List.Nodup.map_on ?_ List.nodup_range
    intro i hi j hj
    rw [List.mem_range] at hi hj
    exact hinj i hi j hj
  have htl : ∀ n i, (toBits n i).length = n := by
    intro n; induction n with
    | zero => intro; rfl
    | succ n ih => intro i; rw [toBits]; simp [ih]
  have hkey : ∀ a ∈ d, ∃ i, a.1 = (toBits n i).map (fun x : ℕ => (x : ℤ)) := by
    intro a ha
    have : a.1 ∈ d.map Prod.fst := List.mem_map.2 ⟨a, ha, rfl⟩
    rw [hkeys, product01_eq] at this
    obtain ⟨i, _, hi⟩ := List.mem_map.1 this
    exact ⟨i, hi.symm⟩
  have hv : Valid d := by
    refine ⟨?_, hnd, ?_, ?_, ?_⟩
    · intro e; rw [e] at hvals; simp at hvals; subst hvals; exact hne rfl
    · intro a ha b hb
      obtain ⟨i, hi⟩ := hkey a ha
      obtain ⟨j, hj⟩ := hkey b hb
      rw [hi, hj]; simp [htl]
    · intro a ha z hz
      obtain ⟨i, hi⟩ := hkey a ha
      rw [hi] at hz
      obtain ⟨x, _, rfl⟩ := List.mem_map.1 hz
      omega
    · intro a ha
      exact h0 _ (hvals ▸ List.mem_map.2 ⟨a, ha, rfl⟩)
  have hmk : make (tuples d) true = .ok d := by
    rw [make_tuples hnd]
    unfold ofTuples
    rw [if_pos ((isDistribution_iff hnd).2 hv), if_pos]
    unfold IsNormalized
    have : norm d = 1 := by rw [norm]; show (d.map Prod.snd).sum = 1; rw [hvals, h1]
    rw [this]; exact isClose_one_one
  refine ⟨d, hmk, fun i hi => ?_⟩
  have hi2 : i < 2 ^ n := hl ▸ hi
  rw [← prob_eq_pmf hnd]
  have hmem : ((toBits n i).map (fun x : ℕ => (x : ℤ)), p[i]) ∈ d := by
    rw [hd, List.mem_iff_getElem]
    refine ⟨i, by simp only [List.length_zip]; omega, ?_⟩
    rw [List.getElem_zip]
    congr 1
    simp only [product01_eq, List.getElem_map, List.getElem_range]
  rw [prob, PyDict.get?_of_mem hnd hmem]; rfl

example : ∃ r, ofProbabilities [1 / 2, 0, 1 / 4, 1 / 4] = .ok r ∧ pmf r [1, 0] = 1 / 4 := by
  obtain ⟨r, hr, h⟩ := ofProbabilities_spec 2 [1 / 2, 0, 1 / 4, 1 / 4] rfl
    (by intro x hx; simp at hx; rcases hx with rfl | rfl | rfl <;> norm_num) (by simp; norm_num)
  exact ⟨r, hr, h 2 (by simp)⟩

/-! ### C29 -/

/-- `keys` enumerates the set of all outcomes of the two distributions, each once, in whatever order. -/
def Enumerates (keys : List (List ℤ)) (t m : List (List ℤ × ℝ)) : Prop :=
  keys.Nodup ∧ keys.toFinset = outcomes t ∪ outcomes m

theorem nllLoop_eq (t m : DDict) {eps : ℝ} (he : 0 < eps) (keys : List (List ℤ)) (v : ℝ) :
    nllLoop t m eps keys v
      = .ok (v + (keys.map fun k => prob t k * Real.log (max eps (prob m k))).sum) := by
  induction keys generalizing v with
  | nil => simp [nllLoop]
  | cons k ks ih =>
    have : pyLog (max eps (prob m k)) = .ok (Real.log (max eps (prob m k))) := by
      unfold pyLog; rw [if_pos (lt_max_of_lt_left he)]
    rw [nllLoop, this]
    show nllLoop t m eps ks _ = _
    rw [ih]; simp [add_assoc]

/-- The clipped negative log likelihood never takes the logarithm of a non-positive number, and its value is the textbook formula,
whatever the iteration order of the set of outcomes. -/
theorem clippedNLL_spec (t m : List (List ℤ × ℝ)) (ht : (t.map Prod.fst).Nodup) (hm : (m.map Prod.fst).Nodup)
    (eps : ℝ) (he : 0 < eps) (keys : List (List ℤ)) (hk : Enumerates keys t m) :
    clippedNLL keys t m eps = .ok (specNLL t m eps) := by
  rw [clippedNLL, nllLoop_eq t m he]
  show Except.ok _ = _
  congr 1
  rw [zero_add, specNLL, ← hk.2, List.sum_toFinset _ hk.1]
  simp only [prob_eq_pmf ht, prob_eq_pmf hm]

/-- With `eps = 0` the computation fails as soon as an outcome is missing from the measured distribution. -/
theorem clippedNLL_zero_eps (t m : List (List ℤ × ℝ)) (hm : (m.map Prod.fst).Nodup) (k : List ℤ)
    (hk : pmf m k = 0) (keys : List (List ℤ)) (h : k ∈ keys) :
    clippedNLL keys t m 0 = .error .valueError := by
  have : ∀ keys v, k ∈ keys → nllLoop t m 0 keys v = .error .valueError := by
    intro keys
    induction keys with
    | nil => intro v h; simp at h
    | cons a ks ih =>
      intro v h
      rw [nllLoop]
      unfold pyLog
      by_cases ha : 0 < max 0 (prob m a)
      · rw [if_pos ha]
        refine ih _ ?_
        rcases List.mem_cons.1 h with rfl | h
        · rw [prob_eq_pmf hm, hk] at ha; simp at ha
        · exact h
      · rw [if_neg ha]; rfl
  rw [clippedNLL, this keys 0 h]; rfl

/-- For probabilities and a clipping parameter in `(0, 1]` the value is non-negative and at most `-log eps` times the total. -/
theorem specNLL_bounds (t m : List (List ℤ × ℝ)) (ht : Valid t) (hm : Valid m) (hm1 : total m ≤ 1)
    (eps : ℝ) (he : 0 < eps) (he1 : eps ≤ 1) :
    0 ≤ specNLL t m eps ∧ specNLL t m eps ≤ -Real.log eps * total t := by
  have hp0 : ∀ k, 0 ≤ pmf t k := fun k => List.sum_nonneg (by
    intro x hx; obtain ⟨a, ha, rfl⟩ := List.mem_map.1 hx
    split_ifs
    · exact ht.valNonneg a ha
    · exact le_rfl)
  have hm_le : ∀ k, pmf m k ≤ 1 := fun k => by
    refine le_trans ?_ hm1
    refine List.sum_le_sum ?_
    intro a ha
    split_ifs
    · exact le_rfl
    · exact hm.valNonneg a ha
  have hsum : ∑ k ∈ outcomes t ∪ outcomes m, pmf t k = total t := by
    have hd := ht.distinct
    have h1 : ∑ k ∈ outcomes t ∪ outcomes m, pmf t k = ∑ k ∈ outcomes t, pmf t k := by
      symm
      refine Finset.sum_subset Finset.subset_union_left ?_
      intro k _ hk
      exact pmf_not_mem (by simpa [outcomes, PyDict.keys] using hk)
    rw [h1, outcomes, List.sum_toFinset _ hd]
    rw [List.map_map, total]
    congr 1
    refine List.map_congr_left fun a ha => ?_
    rw [Function.comp, ← prob_eq_pmf hd, prob, PyDict.get?_of_mem hd (v := a.2) ha]; rfl
  rw [specNLL, ← Finset.sum_neg_distrib]
  constructor
  · refine Finset.sum_nonneg fun k _ => ?_
    rw [← mul_neg]
    refine mul_nonneg (hp0 k) ?_
    have : Real.log (max eps (pmf m k)) ≤ 0 :=
      Real.log_nonpos (le_trans he.le (le_max_left _ _)) (max_le he1 (hm_le k))
    linarith
  · rw [← hsum, Finset.mul_sum]
    refine Finset.sum_le_sum fun k _ => ?_
    rw [← mul_neg, mul_comm]
    refine mul_le_mul_of_nonneg_right ?_ (hp0 k)
    have := Real.log_le_log he (le_max_left eps (pmf m k))
    linarith

/-- The (symmetrised) divergence is symmetric in its arguments, whatever the iteration orders. -/
theorem jensenShannon_symm (t m : List (List ℤ × ℝ)) (ht : (t.map Prod.fst).Nodup) (hm : (m.map Prod.fst).Nodup)
    (eps : ℝ) (he : 0 < eps) (k₁ k₂ k₃ k₄ : List (List ℤ)) (h₁ : Enumerates k₁ t m) (h₂ : Enumerates k₂ m t)
    (h₃ : Enumerates k₃ m t) (h₄ : Enumerates k₄ t m) :
    jensenShannon k₁ k₂ t m eps = .ok ((specNLL t m eps + specNLL m t eps) / 2) ∧
    jensenShannon k₃ k₄ m t eps = jensenShannon k₁ k₂ t m eps := by
  have e1 := clippedNLL_spec t m ht hm eps he k₁ h₁
  have e2 := clippedNLL_spec m t hm ht eps he k₂ h₂
  have e3 := clippedNLL_spec m t hm ht eps he k₃ h₃
  have e4 := clippedNLL_spec t m ht hm eps he k₄ h₄
  unfold jensenShannon
  rw [e1, e2, e3, e4]
  constructor
  · show Except.ok _ = _
    congr 1; ring
  · show Except.ok _ = Except.ok _
    congr 1; ring

example : Enumerates [[1, 1], [0, 1]] [([0, 1], 1)] [([0, 1], 1 / 2), ([1, 1], 1 / 2)] := by
  refine ⟨by simp, ?_⟩
  simp only [outcomes, List.map_cons, List.map_nil]
  decide

/-- Binary outcomes: all outcomes are non-empty tuples of zeros and ones. -/
def Binary (d : List (List ℤ × ℝ)) : Prop := ∀ a ∈ d, a.1 ≠ [] ∧ ∀ b ∈ a.1, b = 0 ∨ b = 1

theorem keyToInt_binary (k : List ℤ) (hk : k ≠ []) (hb : ∀ b ∈ k, b = 0 ∨ b = 1) :
    ∃ n, keyToInt k = .ok n ∧ (n : ℤ) = binValue k := by
  have h0 : intStr 0 = ['0'] := by show pyStr 0 = _; rw [pyStr, dif_pos (by norm_num)]; rfl
  have h1 : intStr 1 = ['1'] := by show pyStr 1 = _; rw [pyStr, dif_pos (by norm_num)]; rfl
  have hs : (k.map intStr).flatten = k.map fun b => if b = 1 then '1' else '0' := by
    clear hk
    induction k with
    | nil => rfl
    | cons b k ih =>
      rw [List.map_cons, List.flatten_cons, ih (fun x hx => hb x (by simp [hx])), List.map_cons]
      rcases hb b (by simp) with rfl | rfl
      · rw [h0]; rfl
      · rw [h1]; rfl
  refine ⟨pyInt2 ((k.map fun b => if b = 1 then '1' else '0').map fun c => if c = '1' then 1 else 0), ?_, ?_⟩
  · unfold keyToInt
    simp only []
    rw [hs, if_neg (by simpa using hk), if_pos]
    intro c hc
    obtain ⟨b, _, rfl⟩ := List.mem_map.1 hc
    split_ifs <;> simp
  · rw [List.map_map]
    have key : ∀ (l : List ℤ) (acc : ℕ), (∀ b ∈ l, b = 0 ∨ b = 1) →
        (((l.map ((fun c => if c = '1' then 1 else 0) ∘ fun b => if b = 1 then '1' else '0')).foldl
          (fun acc d => 2 * acc + d) acc : ℕ) : ℤ) = l.foldl (fun acc b => 2 * acc + b) (acc : ℤ) := by
      intro l
      induction l with
      | nil => intro acc _; rfl
      | cons b l ih =>
        intro acc hb
        rw [List.map_cons, List.foldl_cons, List.foldl_cons, ih _ (fun x hx => hb x (by simp [hx]))]
        congr 1
        rcases hb b (by simp) with rfl | rfl <;> simp
    exact key k 0 hb

theorem binValue_injOn (n : ℕ) {a b : List ℤ} (ha : a.length = n) (hb : b.length = n)
    (ha' : ∀ x ∈ a, x = 0 ∨ x = 1) (hb' : ∀ x ∈ b, x = 0 ∨ x = 1) (h : binValue a = binValue b) : a = b := by
  induction n generalizing a b with
  | zero => rw [List.length_eq_zero_iff] at ha hb; rw [ha, hb]
  | succ n ih =>
    rcases List.eq_nil_or_concat a with rfl | ⟨a, x, rfl⟩
    · simp at ha
    rcases List.eq_nil_or_concat b with rfl | ⟨b, y, rfl⟩
    · simp at hb
    simp only [List.concat_eq_append] at *
    have hv : ∀ l z, binValue (l ++ [z]) = 2 * binValue l + z := by
      intro l z; simp [binValue]
    rw [hv, hv] at h
    have hx := ha' x (by simp)
    have hy := hb' y (by simp)
    have hxy : x = y ∧ binValue a = binValue b := by omega
    rw [ih (by simpa using ha) (by simpa using hb) (fun z hz => ha' z (by simp [hz]))
      (fun z hz => hb' z (by simp [hz])) hxy.2, hxy.1]

theorem mapM_keyToInt (l : List (List ℤ)) (h : ∀ k ∈ l, k ≠ [] ∧ ∀ b ∈ k, b = 0 ∨ b = 1) :
    l.mapM keyToInt = .ok (l.map fun k => (binValue k).toNat) := by
  induction l with
  | nil => rfl
  | cons k l ih =>
    obtain ⟨n, hn, hv⟩ := keyToInt_binary k (h k (by simp)).1 (h k (by simp)).2
    rw [List.mapM_cons, hn, ih (fun k hk => h k (by simp [hk])), List.map_cons, ← hv]
    rfl

theorem binValue_nonneg (k : List ℤ) (h : ∀ b ∈ k, b = 0 ∨ b = 1) : 0 ≤ binValue k := by
  by_cases hk : k = []
  · subst hk; exact le_rfl
  · obtain ⟨n, -, hv⟩ := keyToInt_binary k hk h; omega

/-- The mean of the Gaussian kernels of several bandwidths. -/
noncomputable def multiGauss (sigmas : List ℝ) (x y : ℤ) : ℝ :=
  (sigmas.map fun s => gauss s x y).sum / sigmas.length

theorem mmd_eq (t m : DDict) (ht : (t.map Prod.fst).Nodup) (hm : (m.map Prod.fst).Nodup)
    (bt : Binary t) (bm : Binary m) (keys : List (List ℤ)) (hk : Enumerates keys t m) (s : Sigma)
    (K : ℕ → ℕ → ℝ) (K' : ℤ → ℤ → ℝ) (hker : kernel s = .ok K) (hKK : ∀ x y : ℕ, K x y = K' x y) :
    mmd keys t m s = .ok (specMMD K' t m) := by
  have hbin : ∀ k ∈ keys, k ≠ [] ∧ ∀ b ∈ k, b = 0 ∨ b = 1 := by
    intro k hkm
    have : k ∈ outcomes t ∪ outcomes m := by rw [← hk.2]; simpa using hkm
    rw [Finset.mem_union] at this
    rcases this with h | h
    · obtain ⟨a, ha, rfl⟩ := List.mem_map.1 (List.mem_toFinset.1 h); exact bt a ha
    · obtain ⟨a, ha, rfl⟩ := List.mem_map.1 (List.mem_toFinset.1 h); exact bm a ha
  unfold mmd
  rw [mapM_keyToInt keys hbin, hker]
  show Except.ok _ = _
  congr 1
  have hzip : (keys.map fun k => (binValue k).toNat).zip (keys.map fun key => prob t key - prob m key)
      = keys.map fun k => ((binValue k).toNat, prob t k - prob m k) := by
    rw [List.zip_map', ]
  simp only [hzip, List.map_map, Function.comp_def]
  rw [specMMD, ← hk.2, List.sum_toFinset _ hk.1]
  congr 1
  refine List.map_congr_left fun a ha => ?_
  rw [List.sum_toFinset _ hk.1, ← List.sum_map_mul_left]
  congr 1
  refine List.map_congr_left fun b hb => ?_
  rw [hKK, Int.toNat_of_nonneg (binValue_nonneg a (hbin a ha).2),
    Int.toNat_of_nonneg (binValue_nonneg b (hbin b hb).2), prob_eq_pmf ht, prob_eq_pmf hm, prob_eq_pmf ht, prob_eq_pmf hm]
  ring

theorem rbf_eq_gauss (s : ℝ) (x y : ℕ) : rbf s x y = gauss s x y := by
  unfold rbf gauss
  rw [sq_abs]
  congr 1
  push_cast
  ring

/-- The distance computed with one bandwidth is the textbook squared discrepancy for the Gaussian kernel. -/
theorem mmd_spec (t m : List (List ℤ × ℝ)) (ht : (t.map Prod.fst).Nodup) (hm : (m.map Prod.fst).Nodup)
    (bt : Binary t) (bm : Binary m) (sigma : ℝ) (hs : sigma ≠ 0) (keys : List (List ℤ)) (hk : Enumerates keys t m) :
    mmd keys t m (.one sigma) = .ok (specMMD (gauss sigma) t m) := by
  refine mmd_eq t m ht hm bt bm keys hk _ (rbf sigma) (gauss sigma) ?_ (rbf_eq_gauss sigma)
  rw [kernel, if_neg hs]

/-- The distance computed with several bandwidths is the one for the mean of the Gaussian kernels. -/
theorem mmd_multi_spec (t m : List (List ℤ × ℝ)) (ht : (t.map Prod.fst).Nodup) (hm : (m.map Prod.fst).Nodup)
    (bt : Binary t) (bm : Binary m) (sigmas : List ℝ) (hne : sigmas ≠ []) (hs : ∀ s ∈ sigmas, s ≠ 0)
    (keys : List (List ℤ)) (hk : Enumerates keys t m) :
    mmd keys t m (.many sigmas) = .ok (specMMD (multiGauss sigmas) t m) := by
  refine mmd_eq t m ht hm bt bm keys hk _ (multiRbf sigmas) (multiGauss sigmas) ?_ ?_
  · rw [kernel, if_neg]
    rintro (h | h)
    · exact hne h
    · exact hs 0 h rfl
  · intro x y
    unfold multiRbf multiGauss
    simp only [rbf_eq_gauss]

theorem gauss_form (t m : List (List ℤ × ℝ)) (sigma : ℝ) :
    specMMD (gauss sigma) t m = ∑ a ∈ outcomes t ∪ outcomes m, ∑ b ∈ outcomes t ∪ outcomes m,
      (pmf t a - pmf m a) * Real.exp (-(1 / (2 * sigma)) * ((binValue a : ℝ) - (binValue b : ℝ)) ^ 2)
        * (pmf t b - pmf m b) := by
  unfold specMMD gauss
  refine Finset.sum_congr rfl fun a _ => Finset.sum_congr rfl fun b _ => ?_
  congr 3
  ring

theorem specMMD_nonneg (t m : List (List ℤ × ℝ)) (sigma : ℝ) (hs : 0 < sigma) :
    0 ≤ specMMD (gauss sigma) t m := by
  rw [gauss_form]
  exact gauss_form_nonneg (outcomes t ∪ outcomes m) (fun a => (binValue a : ℝ)) (fun a => pmf t a - pmf m a)
    (by positivity)

theorem specMMD_multi (t m : List (List ℤ × ℝ)) (sigmas : List ℝ) :
    specMMD (multiGauss sigmas) t m = (sigmas.map fun s => specMMD (gauss s) t m).sum / sigmas.length := by
  have key : ∀ sigmas : List ℝ, (sigmas.map fun s => specMMD (gauss s) t m).sum
      = ∑ a ∈ outcomes t ∪ outcomes m, ∑ b ∈ outcomes t ∪ outcomes m,
        (pmf t a - pmf m a) * ((sigmas.map fun s => gauss s (binValue a) (binValue b)).sum) * (pmf t b - pmf m b) := by
    intro sigmas
    induction sigmas with
    | nil => simp
    | cons s l ih =>
      rw [List.map_cons, List.sum_cons, ih, specMMD, ← Finset.sum_add_distrib]
      refine Finset.sum_congr rfl fun a _ => ?_
      rw [← Finset.sum_add_distrib]
      refine Finset.sum_congr rfl fun b _ => ?_
      rw [List.map_cons, List.sum_cons]; ring
  rw [key, div_eq_mul_inv, Finset.sum_mul, specMMD]
  refine Finset.sum_congr rfl fun a _ => ?_
  rw [Finset.sum_mul]
  refine Finset.sum_congr rfl fun b _ => ?_
  unfold multiGauss; ring

/-- The discrepancy is never negative (positive bandwidth). -/
theorem mmd_nonneg (t m : List (List ℤ × ℝ)) (ht : (t.map Prod.fst).Nodup) (hm : (m.map Prod.fst).Nodup)
    (bt : Binary t) (bm : Binary m) (sigma : ℝ) (hs : 0 < sigma) (keys : List (List ℤ)) (hk : Enumerates keys t m) :
    ∃ v, mmd keys t m (.one sigma) = .ok v ∧ 0 ≤ v :=
  ⟨_, mmd_spec t m ht hm bt bm sigma hs.ne' keys hk, specMMD_nonneg t m sigma hs⟩

/-- The same for several positive bandwidths. -/
theorem mmd_multi_nonneg (t m : List (List ℤ × ℝ)) (ht : (t.map Prod.fst).Nodup) (hm : (m.map Prod.fst).Nodup)
    (bt : Binary t) (bm : Binary m) (sigmas : List ℝ) (hne : sigmas ≠ []) (hs : ∀ s ∈ sigmas, 0 < s)
    (keys : List (List ℤ)) (hk : Enumerates keys t m) :
    ∃ v, mmd keys t m (.many sigmas) = .ok v ∧ 0 ≤ v := by
  refine ⟨_, mmd_multi_spec t m ht hm bt bm sigmas hne (fun s h => (hs s h).ne') keys hk, ?_⟩
  rw [specMMD_multi]
  refine div_nonneg (List.sum_nonneg ?_) (by positivity)
  intro x hx
  obtain ⟨s, h, rfl⟩ := List.mem_map.1 hx
  exact specMMD_nonneg t m s (hs s h)

theorem outcomes_union_comm (t m : List (List ℤ × ℝ)) : outcomes t ∪ outcomes m = outcomes m ∪ outcomes t :=
  Finset.union_comm _ _

/-- The discrepancy is symmetric in its arguments (any bandwidth argument, any iteration orders). -/
theorem mmd_symm (t m : List (List ℤ × ℝ)) (ht : (t.map Prod.fst).Nodup) (hm : (m.map Prod.fst).Nodup)
    (bt : Binary t) (bm : Binary m) (sigma : ℝ) (hs : sigma ≠ 0) (k₁ k₂ : List (List ℤ))
    (h₁ : Enumerates k₁ t m) (h₂ : Enumerates k₂ m t) :
    mmd k₁ t m (.one sigma) = mmd k₂ m t (.one sigma) := by
  rw [mmd_spec t m ht hm bt bm sigma hs k₁ h₁, mmd_spec m t hm ht bm bt sigma hs k₂ h₂]
  congr 1
  unfold specMMD
  rw [outcomes_union_comm]
  refine Finset.sum_congr rfl fun a _ => Finset.sum_congr rfl fun b _ => ?_
  ring

/-- The discrepancy vanishes exactly when the two distributions give every outcome the same probability. -/
theorem mmd_eq_zero_iff (t m : List (List ℤ × ℝ)) (ht : (t.map Prod.fst).Nodup) (hm : (m.map Prod.fst).Nodup)
    (bt : Binary t) (bm : Binary m) (n : ℕ) (lt : ∀ a ∈ t, a.1.length = n) (lm : ∀ a ∈ m, a.1.length = n)
    (sigma : ℝ) (hs : 0 < sigma) (keys : List (List ℤ)) (hk : Enumerates keys t m) :
    mmd keys t m (.one sigma) = .ok 0 ↔ ∀ k, pmf t k = pmf m k := by
  rw [mmd_spec t m ht hm bt bm sigma hs.ne' keys hk]
  constructor
  · intro h
    injection h with h
    rw [gauss_form] at h
    have hmem : ∀ k ∈ outcomes t ∪ outcomes m, k.length = n ∧ ∀ b ∈ k, b = 0 ∨ b = 1 := by
      intro k hk
      rcases Finset.mem_union.1 hk with h | h
      · obtain ⟨a, ha, rfl⟩ := List.mem_map.1 (List.mem_toFinset.1 h); exact ⟨lt a ha, (bt a ha).2⟩
      · obtain ⟨a, ha, rfl⟩ := List.mem_map.1 (List.mem_toFinset.1 h); exact ⟨lm a ha, (bm a ha).2⟩
    have hz := gauss_form_eq_zero (outcomes t ∪ outcomes m) (fun a => (binValue a : ℝ))
      (fun a => pmf t a - pmf m a) (γ := 1 / (2 * sigma)) (by positivity) (by
        intro a ha b hb hab
        have hab' : binValue a = binValue b := by simpa using hab
        exact binValue_injOn n (hmem a ha).1 (hmem b hb).1 (hmem a ha).2 (hmem b hb).2 hab') h
    intro k
    by_cases hk : k ∈ outcomes t ∪ outcomes m
    · have := hz k hk; linarith
    · rw [Finset.mem_union, not_or] at hk
      rw [pmf_not_mem (by simpa [outcomes, PyDict.keys] using hk.1),
        pmf_not_mem (by simpa [outcomes, PyDict.keys] using hk.2)]
  · intro h
    congr 1
    unfold specMMD
    simp [h]

example : Binary [([0, 1], 1)] ∧ Binary [([0, 1], 1 / 2), ([1, 1], 1 / 2)] := by
  constructor
  · intro a ha; simp at ha; subst ha; simp
  · intro a ha; simp at ha; rcases ha with rfl | rfl <;> simp

/-- `evaluate_distribution_distance` refuses distributions over tuples of different length and pairs of which only one is normalised,
and otherwise returns the value of the given distance function. -/
theorem evaluateDistance_spec (t m : List (List ℤ × ℝ)) (ht : Valid t) (hm : Valid m)
    (f : List (List ℤ × ℝ) → List (List ℤ × ℝ) → Except Err ℝ) :
    ((∃ a ∈ t, ∃ b ∈ m, a.1.length ≠ b.1.length) → evaluateDistance t m f = .error .runtimeError) ∧
    ((∀ a ∈ t, ∀ b ∈ m, a.1.length = b.1.length) →
      (IsClose (total t) 1 ↔ IsClose (total m) 1) → evaluateDistance t m f = f t m) ∧
    ((∀ a ∈ t, ∀ b ∈ m, a.1.length = b.1.length) →
      ¬(IsClose (total t) 1 ↔ IsClose (total m) 1) → evaluateDistance t m f = .error .runtimeError) := by
  have hnum : ∀ {d : List (List ℤ × ℝ)}, Valid d → ∃ a ∈ d, numberOfSubsystems d = .ok a.1.length := by
    intro d hd
    cases d with
    | nil => exact absurd rfl hd.nonempty
    | cons p d => exact ⟨p, by simp, rfl⟩
  obtain ⟨a, ha, ea⟩ := hnum ht
  obtain ⟨b, hb, eb⟩ := hnum hm
  have unf : evaluateDistance t m f = (if a.1.length ≠ b.1.length then .error .runtimeError
      else if (IsNormalized t) ≠ (IsNormalized m) then .error .runtimeError else f t m) := by
    unfold evaluateDistance; rw [ea, eb]; rfl
  rw [unf]
  refine ⟨?_, ?_, ?_⟩
  · rintro ⟨c, hc, e, he, hne⟩
    rw [if_pos]
    rw [ht.sameLength a ha c hc, hm.sameLength b hb e he]; exact hne
  · intro hl hi
    rw [if_neg (by simpa using hl a ha b hb), if_neg (not_not.2 (propext hi : IsNormalized t = IsNormalized m))]
  · intro hl hi
    rw [if_neg (by simpa using hl a ha b hb), if_pos]
    intro h
    exact hi (iff_of_eq h)

end ZQ.Dist
