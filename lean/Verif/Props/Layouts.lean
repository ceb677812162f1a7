import Verif.Lemmas.Layouts
import Mathlib.Tactic.FinCases
import Mathlib.Data.Fintype.Basic

/-!
# C12, C13: circuit layouts

A layout is *good* when its connections are listed once, every layer uses listed connections only, and no qubit occurs twice in a layer.
-/

namespace ZQ.Layouts

/-- The qubits used by a layer, with repetitions. -/
def qubitsOf (layer : List (ℕ × ℕ)) : List ℕ := layer.flatMap fun ab => [ab.1, ab.2]

/-! ## C12 -/

/-- **C12.** The connections are the pairs `(i, i+1)` with `i + 1 < n`, each once. -/
theorem nearest_connectivity (n : ℕ) :
    (nearestNeighbors n).connectivity.Nodup ∧
      ∀ a b, (a, b) ∈ (nearestNeighbors n).connectivity ↔ b = a + 1 ∧ b < n := by
  unfold nearestNeighbors
  simp only [List.nil_append, pyRange_two, List.map_map]
  constructor
  · rw [List.nodup_append]
    refine ⟨List.Nodup.map ?_ List.nodup_range, List.Nodup.map ?_ List.nodup_range, ?_⟩
    · intro a b h; simp at h; omega
    · intro a b h; simp at h; omega
    · rintro ⟨a, b⟩ h ⟨c, d⟩ h' heq
      cases heq
      simp only [List.mem_map, List.mem_range, Function.comp, Prod.mk.injEq] at h h'
      omega
  · intro a b
    simp only [List.mem_append, List.mem_map, List.mem_range, Function.comp, Prod.mk.injEq]
    constructor
    · rintro (⟨i, hi, h1, h2⟩ | ⟨i, hi, h1, h2⟩) <;> omega
    · rintro ⟨rfl, h⟩
      rcases Nat.even_or_odd' a with ⟨k, hk | hk⟩
      · exact Or.inl ⟨k, by omega, by omega, by omega⟩
      · exact Or.inr ⟨k, by omega, by omega, by omega⟩

/-- **C12.** There are two layers, listing together each connection exactly once; within a layer no qubit occurs twice. -/
theorem nearest_layers (n : ℕ) :
    (nearestNeighbors n).layers.length = 2 ∧ (nearestNeighbors n).layers.flatten = (nearestNeighbors n).connectivity ∧
      ∀ layer ∈ (nearestNeighbors n).layers, (qubitsOf layer).Nodup := by
  refine ⟨rfl, by simp [nearestNeighbors], ?_⟩
  have key : ∀ s k : ℕ, (qubitsOf (((List.range k).map fun i => s + 2 * i).map fun index => (index, index + 1))).Nodup := by
    intro s k
    unfold qubitsOf
    rw [List.nodup_flatMap]
    constructor
    · intro ab hab
      simp only [List.map_map, List.mem_map] at hab
      obtain ⟨i, _, rfl⟩ := hab
      simp
    · rw [List.map_map, List.pairwise_map]
      apply List.Nodup.pairwise_of_forall_ne List.nodup_range
      intro i _ j _ hij
      simp only [Function.onFun, Function.comp, List.disjoint_cons_left, List.mem_cons, List.not_mem_nil, or_false,
        List.disjoint_nil_left, and_true]
      omega
  intro layer hl
  simp only [nearestNeighbors, pyRange_two, List.mem_cons, List.not_mem_nil, or_false] at hl
  rcases hl with rfl | rfl
  · exact key 0 _
  · exact key 1 _

/-- Non-trivial instance: 5 qubits. -/
example : nearestNeighbors 5 = ⟨[(0, 1), (2, 3), (1, 2), (3, 4)], [[(0, 1), (2, 3)], [(1, 2), (3, 4)]]⟩ := rfl

/-! ## C13 -/

/-- **C13.** The sycamore layout exists exactly for grids with at least one column and one row. -/
theorem sycamore_ok_iff (X Y : ℕ) : (∃ L, sycamore X Y = .ok L) ↔ 1 ≤ X ∧ 1 ≤ Y := by
  constructor
  · rintro ⟨L, h⟩
    unfold sycamore at h
    by_contra hc
    rw [if_pos (by omega)] at h
    cases h
  · rintro ⟨hX, hY⟩
    unfold sycamore
    rw [if_neg (by omega)]
    simp only [patternLoop_eq X Y hX, layerOf_eq]
    exact ⟨_, rfl⟩

/-- The closed form of the layers. -/
theorem sycamore_eq (X Y : ℕ) (hX : 1 ≤ X) (hY : 1 ≤ Y) :
    sycamore X Y = .ok ⟨((List.range (Y - 1)).flatMap fun r => (List.range (2 * X - 1)).map (edge X r)),
      ([0, 1].flatMap fun n => [(maskOut n fun r p => if r < Y - 1 ∧ p < 2 * X - 1 then p1 r p else 0), maskOut n pattern2].flatMap
        fun mask => [0, 1].map fun v => ((positions X Y).filter fun xy => mask xy.2 xy.1 = v).map fun xy => edge X xy.2 xy.1)⟩ := by
  unfold sycamore
  rw [if_neg (by omega)]
  simp only [patternLoop_eq X Y hX, layerOf_eq]
  have hc : ((List.range (2 * (Y / 2))).map (rowOf X Y)).flatten =
      (List.range (Y - 1)).flatMap fun r => (List.range (2 * X - 1)).map (edge X r) := by
    have hr : (List.range (Y - 1)).flatMap (rowOf X Y) =
        (List.range (Y - 1)).flatMap fun r => (List.range (2 * X - 1)).map (edge X r) := by
      apply List.flatMap_congr
      intro r hr
      unfold rowOf
      rw [if_pos (List.mem_range.1 hr)]
    rw [← hr, ← List.flatMap_def]
    rcases Nat.even_or_odd' Y with ⟨k, hk | hk⟩
    · have : 2 * (Y / 2) = (Y - 1) + 1 := by omega
      rw [this, List.range_succ, List.flatMap_append]
      simp [rowOf]
    · have : 2 * (Y / 2) = Y - 1 := by omega
      rw [this]
  rw [hc]
  rfl

/-- **C13.** The connections, each listed once, are exactly the pairs (qubit in an odd row, qubit in a neighbouring row in the same or the next
column) inside the grid; the qubit in row `r` and column `c` has number `r * X + c`. -/
theorem sycamore_connectivity (X Y : ℕ) (L : Layout) (h : sycamore X Y = .ok L) :
    L.connectivity.Nodup ∧ ∀ a b, (a, b) ∈ L.connectivity ↔
      ∃ r c r' c', a = r * X + c ∧ b = r' * X + c' ∧ r < Y ∧ r' < Y ∧ c < X ∧ c' < X ∧
        r % 2 = 1 ∧ (r' = r + 1 ∨ r = r' + 1) ∧ (c' = c ∨ c' = c + 1) := by
  obtain ⟨hX, hY⟩ := (sycamore_ok_iff X Y).1 ⟨L, h⟩
  rw [sycamore_eq X Y hX hY] at h
  cases h
  constructor
  · rw [List.nodup_flatMap]
    constructor
    · intro r _
      apply List.Nodup.map_on _ List.nodup_range
      intro p hp q hq he
      exact (edge_inj (List.mem_range.1 hp) (List.mem_range.1 hq) he).2
    · apply List.Nodup.pairwise_of_forall_ne List.nodup_range
      intro r _ r' _ hrr z hz hz'
      obtain ⟨p, hp, rfl⟩ := List.mem_map.1 hz
      obtain ⟨q, hq, he⟩ := List.mem_map.1 hz'
      exact hrr (edge_inj (List.mem_range.1 hp) (List.mem_range.1 hq) he.symm).1
  · intro a b
    simp only [List.mem_flatMap, List.mem_map, List.mem_range]
    constructor
    · rintro ⟨r, hr, p, hp, he⟩
      unfold edge at he
      split at he <;> cases he
      · exact ⟨r + 1, p / 2, r, (p + 1) / 2, rfl, rfl, by omega, by omega, by omega, by omega, by omega, by omega, by omega⟩
      · exact ⟨r, p / 2, r + 1, (p + 1) / 2, rfl, rfl, by omega, by omega, by omega, by omega, by omega, by omega, by omega⟩
    · rintro ⟨r, c, r', c', rfl, rfl, hr, hr', hc, hc', ho, hrr, hcc⟩
      have hp : ∃ p, p < 2 * X - 1 ∧ p / 2 = c ∧ (p + 1) / 2 = c' := by
        rcases hcc with e | e
        · exact ⟨2 * c, by omega, by omega, by omega⟩
        · exact ⟨2 * c + 1, by omega, by omega, by omega⟩
      obtain ⟨p, hp, h1, h2⟩ := hp
      rcases hrr with e | e
      · refine ⟨r, by omega, p, hp, ?_⟩
        unfold edge
        rw [if_neg (by omega), h1, h2, e]
      · refine ⟨r', by omega, p, hp, ?_⟩
        unfold edge
        rw [if_pos (by omega), h1, h2, ← e]

/-- The two ends of a connection are distinct qubits of the grid, in adjacent rows. -/
theorem sycamore_ends (X Y : ℕ) (L : Layout) (h : sycamore X Y = .ok L) (a b : ℕ) (hab : (a, b) ∈ L.connectivity) :
    a < X * Y ∧ b < X * Y ∧ a ≠ b ∧ (b / X = a / X + 1 ∨ a / X = b / X + 1) := by
  obtain ⟨r, c, r', c', rfl, rfl, hr, hr', hc, hc', ho, hrr, hcc⟩ := ((sycamore_connectivity X Y L h).2 a b).1 hab
  have b1 : r * X + c < X * Y := by
    calc r * X + c < r * X + X := by omega
      _ = X * (r + 1) := by ring
      _ ≤ X * Y := Nat.mul_le_mul_left _ hr
  have b2 : r' * X + c' < X * Y := by
    calc r' * X + c' < r' * X + X := by omega
      _ = X * (r' + 1) := by ring
      _ ≤ X * Y := Nat.mul_le_mul_left _ hr'
  have d : ∀ r c, c < X → (r * X + c) / X = r := by
    intro r c hc
    rw [Nat.mul_comm, Nat.mul_add_div (by omega), Nat.div_eq_of_lt hc, add_zero]
  refine ⟨b1, b2, ?_, ?_⟩
  · intro he
    have := congrArg (· / X) he
    simp only [d r c hc, d r' c' hc'] at this
    omega
  · rw [d r c hc, d r' c' hc']
    exact hrr

/-- **C13.** There are eight layers; each uses listed connections only, without repetition, and no qubit occurs twice in a layer. -/
theorem sycamore_layers (X Y : ℕ) (L : Layout) (h : sycamore X Y = .ok L) :
    L.layers.length = 8 ∧ ∀ layer ∈ L.layers, (∀ e ∈ layer, e ∈ L.connectivity) ∧ (qubitsOf layer).Nodup := by
  obtain ⟨hX, hY⟩ := (sycamore_ok_iff X Y).1 ⟨L, h⟩
  rw [sycamore_eq X Y hX hY] at h
  cases h
  refine ⟨rfl, ?_⟩
  intro layer hl
  have key := @grid_inj X
  -- a layer is given by a mask value, for one of the two patterns
  have gen : ∀ mask : Grid, ∀ v : ℤ,
      (∀ r p r' p', p < 2 * X - 1 → r < Y - 1 → p' < 2 * X - 1 → r' < Y - 1 → mask r p = v → mask r' p' = v → (r, p) ≠ (r', p') →
        ∀ s ∈ [(edge X r p).1, (edge X r p).2], ∀ s' ∈ [(edge X r' p').1, (edge X r' p').2], s ≠ s') →
      layer = ((positions X Y).filter fun xy => mask xy.2 xy.1 = v).map (fun xy => edge X xy.2 xy.1) →
      (∀ e ∈ layer, e ∈ (List.range (Y - 1)).flatMap fun r => (List.range (2 * X - 1)).map (edge X r)) ∧ (qubitsOf layer).Nodup := by
    rintro mask v hd rfl
    constructor
    · intro e he
      obtain ⟨xy, hxy, rfl⟩ := List.mem_map.1 he
      obtain ⟨h1, h2⟩ := (mem_positions X Y xy).1 (List.mem_filter.1 hxy).1
      exact List.mem_flatMap.2 ⟨xy.2, List.mem_range.2 h2, List.mem_map.2 ⟨xy.1, List.mem_range.2 h1, rfl⟩⟩
    · unfold qubitsOf
      rw [List.nodup_flatMap]
      constructor
      · intro ab hab
        obtain ⟨xy, hxy, rfl⟩ := List.mem_map.1 hab
        obtain ⟨h1, h2⟩ := (mem_positions X Y xy).1 (List.mem_filter.1 hxy).1
        simp only [List.nodup_cons, List.mem_cons, List.not_mem_nil, or_false, not_false_eq_true, List.nodup_nil, and_true]
        unfold edge
        split <;> intro he <;> have := key _ _ _ _ (by omega) (by omega) he <;> omega
      · rw [List.pairwise_map]
        apply List.Nodup.pairwise_of_forall_ne ((nodup_positions X Y).filter _)
        rintro ⟨p, r⟩ h1 ⟨p', r'⟩ h2 hne
        simp only [List.mem_filter, mem_positions, decide_eq_true_eq] at h1 h2
        intro s hs hs'
        exact hd r p r' p' h1.1.1 h1.1.2 h2.1.1 h2.1.2 h1.2 h2.2 (by rintro ⟨⟩; exact hne rfl) s hs s hs' rfl
  simp only [List.flatMap_cons, List.flatMap_nil, List.map_cons, List.map_nil, List.append_nil, List.cons_append, List.nil_append,
    List.mem_cons, List.not_mem_nil, or_false] at hl
  rcases hl with hl | hl | hl | hl | hl | hl | hl | hl
  · exact gen _ 0 (pat1_disjoint X Y 0 0 (by omega) (by omega)) hl
  · exact gen _ 1 (pat1_disjoint X Y 0 1 (by omega) (by omega)) hl
  · exact gen _ 0 (pat2_disjoint X Y 0 0 (by omega) (by omega)) hl
  · exact gen _ 1 (pat2_disjoint X Y 0 1 (by omega) (by omega)) hl
  · exact gen _ 0 (pat1_disjoint X Y 1 0 (by omega) (by omega)) hl
  · exact gen _ 1 (pat1_disjoint X Y 1 1 (by omega) (by omega)) hl
  · exact gen _ 0 (pat2_disjoint X Y 1 0 (by omega) (by omega)) hl
  · exact gen _ 1 (pat2_disjoint X Y 1 1 (by omega) (by omega)) hl

/-- **C13.** The four layers of the first colour pattern (numbers 0, 1, 4, 5) cover every connection exactly once, and so do the four of the second
(numbers 2, 3, 6, 7). -/
theorem sycamore_cover (X Y : ℕ) (L : Layout) (h : sycamore X Y = .ok L) :
    ([0, 1, 4, 5].flatMap fun i => L.layers.getD i []).Perm L.connectivity ∧
      ([2, 3, 6, 7].flatMap fun i => L.layers.getD i []).Perm L.connectivity := by
  have hnd := (sycamore_connectivity X Y L h).1
  obtain ⟨hX, hY⟩ := (sycamore_ok_iff X Y).1 ⟨L, h⟩
  rw [sycamore_eq X Y hX hY] at h
  cases h
  -- the connectivity is a permutation of the edges at all positions
  have hperm : ((positions X Y).map fun xy => edge X xy.2 xy.1).Perm
      ((List.range (Y - 1)).flatMap fun r => (List.range (2 * X - 1)).map (edge X r)) := by
    rw [List.perm_ext_iff_of_nodup _ hnd]
    · intro e
      simp only [List.mem_map, List.mem_flatMap, List.mem_range]
      constructor
      · rintro ⟨xy, hxy, rfl⟩
        obtain ⟨h1, h2⟩ := (mem_positions X Y xy).1 hxy
        exact ⟨xy.2, h2, xy.1, h1, rfl⟩
      · rintro ⟨r, hr, p, hp, rfl⟩
        exact ⟨(p, r), (mem_positions X Y _).2 ⟨hp, hr⟩, rfl⟩
    · apply List.Nodup.map_on _ (nodup_positions X Y)
      rintro ⟨p, r⟩ h1 ⟨p', r'⟩ h2 he
      obtain ⟨e1, e2⟩ := edge_inj ((mem_positions X Y _).1 h1).1 ((mem_positions X Y _).1 h2).1 he
      simp_all
  -- four disjoint exhaustive conditions partition the positions
  have part : ∀ (l : List (ℕ × ℕ)) (c : Fin 4 → ℕ × ℕ → Bool), (∀ a ∈ l, ∃ i, c i a = true ∧ ∀ j, j ≠ i → c j a = false) →
      (l.filter (c 0) ++ l.filter (c 1) ++ l.filter (c 2) ++ l.filter (c 3)).Perm l := by
    intro l c hc
    induction l with
    | nil => simp
    | cons a l ih =>
      have ih := ih fun b hb => hc b (by simp [hb])
      obtain ⟨i, hi, hj⟩ := hc a (by simp)
      fin_cases i
      · have h1 := hj 1 (by decide); have h2 := hj 2 (by decide); have h3 := hj 3 (by decide)
        simp only [Fin.zero_eta, Fin.isValue] at hi
        simp only [List.filter_cons, hi, h1, h2, h3, if_true, Bool.false_eq_true, if_false, List.cons_append]
        exact List.Perm.cons a ih
      · have h1 := hj 0 (by decide); have h2 := hj 2 (by decide); have h3 := hj 3 (by decide)
        simp only [Fin.mk_one, Fin.isValue] at hi
        simp only [List.filter_cons, hi, h1, h2, h3, if_true, Bool.false_eq_true, if_false]
        refine List.Perm.trans ?_ (List.Perm.cons a ih)
        simp only [List.append_assoc, List.cons_append]
        exact List.perm_middle
      · have h1 := hj 0 (by decide); have h2 := hj 1 (by decide); have h3 := hj 3 (by decide)
        simp only [Fin.reduceFinMk, Fin.isValue] at hi
        simp only [List.filter_cons, hi, h1, h2, h3, if_true, Bool.false_eq_true, if_false]
        refine List.Perm.trans ?_ (List.Perm.cons a ih)
        rw [List.append_assoc (l.filter (c 0) ++ l.filter (c 1)), List.append_assoc (l.filter (c 0) ++ l.filter (c 1)), List.cons_append]
        exact List.perm_middle
      · have h1 := hj 0 (by decide); have h2 := hj 1 (by decide); have h3 := hj 2 (by decide)
        simp only [Fin.reduceFinMk, Fin.isValue] at hi
        simp only [List.filter_cons, hi, h1, h2, h3, if_true, Bool.false_eq_true, if_false]
        exact List.Perm.trans List.perm_middle (List.Perm.cons a ih)
  have use : ∀ pat : Grid, (∀ p r, p < 2 * X - 1 → r < Y - 1 → pat r p = 0 ∨ pat r p = 1) →
      ((((positions X Y).filter fun xy => maskOut 0 pat xy.2 xy.1 = 0).map fun xy => edge X xy.2 xy.1) ++
       ((((positions X Y).filter fun xy => maskOut 0 pat xy.2 xy.1 = 1).map fun xy => edge X xy.2 xy.1) ++
       ((((positions X Y).filter fun xy => maskOut 1 pat xy.2 xy.1 = 0).map fun xy => edge X xy.2 xy.1) ++
       (((positions X Y).filter fun xy => maskOut 1 pat xy.2 xy.1 = 1).map fun xy => edge X xy.2 xy.1)))).Perm
      ((List.range (Y - 1)).flatMap fun r => (List.range (2 * X - 1)).map (edge X r)) := by
    intro pat hpat
    refine List.Perm.trans ?_ hperm
    rw [← List.append_assoc, ← List.append_assoc, ← List.map_append, ← List.map_append, ← List.map_append]
    apply List.Perm.map
    apply part (positions X Y) (fun i xy => decide (maskOut (if i.val < 2 then 0 else 1) pat xy.2 xy.1 = if i.val % 2 = 0 then 0 else 1))
    rintro ⟨p, r⟩ ha
    obtain ⟨hp, hr⟩ := (mem_positions X Y _).1 ha
    simp only at hp hr
    have h01 := hpat p r hp hr
    have m0 : maskOut 0 pat r p = if p % 2 = r % 2 then -1 else pat r p := by
      unfold maskOut
      by_cases e : p % 2 = r % 2
      · rw [if_pos e, if_pos (by omega)]
      · rw [if_neg e, if_neg (by omega)]
    have m1 : maskOut 1 pat r p = if p % 2 = r % 2 then pat r p else -1 := by
      unfold maskOut
      by_cases e : p % 2 = r % 2
      · rw [if_pos e, if_neg (by omega)]
      · rw [if_neg e, if_pos (by omega)]
    by_cases e : p % 2 = r % 2
    · rw [if_pos e] at m0 m1
      rcases h01 with h | h
      · refine ⟨2, by simp [m1, h], ?_⟩
        intro j hj
        fin_cases j <;> simp_all
      · refine ⟨3, by simp [m1, h], ?_⟩
        intro j hj
        fin_cases j <;> simp_all
    · rw [if_neg e] at m0 m1
      rcases h01 with h | h
      · refine ⟨0, by simp [m0, h], ?_⟩
        intro j hj
        fin_cases j <;> simp_all
      · refine ⟨1, by simp [m0, h], ?_⟩
        intro j hj
        fin_cases j <;> simp_all
  constructor
  · have := use (fun r p => if r < Y - 1 ∧ p < 2 * X - 1 then p1 r p else 0) (by
      intro p r hp hr
      rw [if_pos ⟨hr, hp⟩]
      unfold p1
      omega)
    simpa using this
  · have := use pattern2 (by
      intro p r hp hr
      unfold pattern2
      omega)
    simpa using this

/-- Non-trivial instance: the 2 by 3 grid has six connections in eight layers. -/
example : ∃ L, sycamore 2 3 = .ok L ∧ L.connectivity = [(2, 0), (2, 1), (3, 1), (2, 4), (2, 5), (3, 5)] ∧
    L.layers = [[(2, 1), (3, 5)], [(2, 4)], [(2, 1)], [(2, 4), (3, 5)], [(2, 0)], [(2, 5), (3, 1)], [(2, 0), (3, 1)], [(2, 5)]] :=
  ⟨_, rfl, rfl, by decide⟩

/-- An unknown layer type is not rejected: `None` is returned. -/
theorem build_unknown_type (x y : ℕ) (t : String) (h1 : t ≠ "sycamore") (h2 : t ≠ "nearest-neighbor") : build x y t = .ok none := by
  unfold build
  rw [if_neg h1, if_neg h2]

end ZQ.Layouts
