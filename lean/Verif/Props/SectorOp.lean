import Verif.Props.Sector
import Verif.Lemmas.NormalIndep
import Verif.Spec.FermionTools
import Mathlib.Data.List.TakeWhile

/-! # C91: the matrix of an operator in a symmetry sector -/

namespace ZQ.Sector

open ZQ ZQ.Op PyDict

/-! ### Encodings -/

theorem encode_lt (d : Det) : encode d < 2 ^ d.length := by
  induction d with
  | nil => simp [encode]
  | cons b d ih =>
    rw [encode, List.length_cons, pow_succ]
    cases b <;> simp <;> omega

theorem encode_inj {d e : Det} (hl : d.length = e.length) (h : encode d = encode e) : d = e := by
  induction d generalizing e with
  | nil => cases e with
    | nil => rfl
    | cons _ _ => simp at hl
  | cons b d ih =>
    cases e with
    | nil => simp at hl
    | cons c e =>
      have hl' : d.length = e.length := by simpa using hl
      rw [encode, encode, hl'] at h
      have h1 := encode_lt d
      have h2 := encode_lt e
      rw [hl'] at h1
      cases b <;> cases c <;> simp at h
      · rw [ih hl' h]
      · omega
      · omega
      · rw [ih hl' h]

theorem encode_le (d : Det) : encode d ≤ encode (List.replicate (d.count true) true ++ List.replicate (d.length - d.count true) false) := by
  induction d with
  | nil => simp
  | cons b d ih =>
    have hc : d.count true ≤ d.length := List.count_le_length
    cases b with
    | true =>
      rw [List.count_cons_self, List.length_cons, List.replicate_succ, List.cons_append, encode, encode,
        show d.length + 1 - (d.count true + 1) = d.length - d.count true by omega]
      have : (List.replicate (d.count true) true ++ List.replicate (d.length - d.count true) false).length = d.length := by simp; omega
      rw [this]
      omega
    | false =>
      rw [List.count_cons_of_ne (by simp), encode, List.length_cons]
      simp only [Bool.toNat_false, Nat.zero_mul, Nat.zero_add]
      cases hk : d.count true with
      | zero =>
        rw [hk] at ih
        rw [Nat.sub_zero, List.replicate_succ] 
        simpa [encode] using ih
      | succ k =>
        rw [List.replicate_succ, List.cons_append, encode]
        have : (List.replicate k true ++ List.replicate (d.length + 1 - (k + 1)) false).length = d.length := by simp; omega
        rw [this]
        have := encode_lt d
        simp; omega

theorem hartreeFock_eq (n : ℕ) (e : ℤ) : hartreeFock n e = List.replicate (min n e.toNat) true ++ List.replicate (n - min n e.toNat) false := by
  refine List.ext_getElem (by simp [hartreeFock]) fun i h1 h2 => ?_
  have hi : i < n := by simpa [hartreeFock] using h1
  simp only [hartreeFock, List.getElem_map, List.getElem_range, List.getElem_append, List.length_replicate, List.getElem_replicate]
  split_ifs with h
  · simp; omega
  · simp; omega

/-- The default reference has the largest encoding of all determinants with as many modes and electrons. -/
theorem hartreeFock_max (n : ℕ) (e : ℤ) (d : Det) (hl : d.length = n) (hc : (occupied d).card = (occupied (hartreeFock n e)).card) :
    encode d ≤ encode (hartreeFock n e) := by
  have h := encode_le d
  rw [count_occupied, hc, ← count_occupied, hartreeFock_eq, hl] at h
  rw [hartreeFock_eq]
  have : (List.replicate (min n e.toNat) true ++ List.replicate (n - min n e.toNat) false).count true = min n e.toNat := by
    rw [List.count_append, List.count_replicate_self, List.count_replicate]; simp
  rw [this] at h
  exact h

/-! ### Finding the target -/

theorem lookup_spec {states : List Det} {n : ℕ} (hn : states.Nodup) (hl : ∀ d ∈ states, d.length = n) {target : Det} (ht : target.length = n) :
    ((∃ d ∈ states, encode target ≤ encode d) → lookup (states.map encode) (argsort (states.map encode)) target =
        .ok (if target ∈ states then some (states.idxOf target) else none)) ∧
      ((∀ d ∈ states, encode d < encode target) → lookup (states.map encode) (argsort (states.map encode)) target = .error .indexError) := by
  have hint : ∀ k, k < states.length → (states.map encode).getD k 0 = encode (states.getD k []) := by
    intro k hk
    rw [List.getD_eq_getElem _ _ (by simpa using hk), List.getD_eq_getElem _ _ hk, List.getElem_map]
  set ints := states.map encode with hints
  set v := encode target with hv
  have hperm : (argsort ints).Perm (List.range ints.length) := List.perm_insertionSort _ _
  have hmem : ∀ k, k ∈ argsort ints ↔ k < states.length := by
    intro k; rw [hperm.mem_iff, List.mem_range, hints, List.length_map]
  have hsorted : (argsort ints).Pairwise fun i j => ints.getD i 0 ≤ ints.getD j 0 := by
    haveI : Std.Total (fun i j : ℕ => ints.getD i 0 ≤ ints.getD j 0) := ⟨fun i j => le_total _ _⟩
    haveI : IsTrans ℕ (fun i j : ℕ => ints.getD i 0 ≤ ints.getD j 0) := ⟨fun i j k h1 h2 => le_trans h1 h2⟩
    exact List.pairwise_insertionSort _ _
  set p := searchsorted ints v (argsort ints) with hp
  -- before position `p` entries are smaller than `v`, at `p` not
  have hsplit : (argsort ints) = (argsort ints).takeWhile (fun i => decide (ints.getD i 0 < v)) ++ (argsort ints).dropWhile (fun i => decide (ints.getD i 0 < v)) :=
    (List.takeWhile_append_dropWhile).symm
  have hget : (argsort ints)[p]? = ((argsort ints).dropWhile fun i => decide (ints.getD i 0 < v)).head? := by
    conv_lhs => rw [hsplit]
    rw [List.getElem?_append_right (by rw [hp, searchsorted])]
    rw [hp, searchsorted, Nat.sub_self, List.head?_eq_getElem?]
  have htw : ∀ k ∈ (argsort ints).takeWhile (fun i => decide (ints.getD i 0 < v)), ints.getD k 0 < v := by
    intro k hk
    simpa using List.mem_takeWhile_imp hk
  constructor
  · rintro ⟨d, hd, hle⟩
    cases hD : (argsort ints).dropWhile (fun i => decide (ints.getD i 0 < v)) with
    | nil =>
      rw [hD, List.append_nil] at hsplit
      obtain ⟨k, hk, rfl⟩ := List.getElem_of_mem hd
      have h1 := (hmem k).2 hk
      rw [hsplit] at h1
      have h2 := htw k h1
      rw [hint k hk, List.getD_eq_getElem _ _ hk] at h2
      omega
    | cons k rest =>
      rw [hD, List.head?_cons] at hget
      have hk : k < states.length := (hmem k).1 (by rw [hsplit, hD]; simp)
      have hge : v ≤ ints.getD k 0 := by
        have := List.head?_dropWhile_not (fun i => decide (ints.getD i 0 < v)) (argsort ints)
        rw [hD] at this
        simpa using this
      rw [lookup, ← hv, ← hp, hget]
      dsimp only
      congr 1
      by_cases hT : target ∈ states
      · rw [if_pos hT]
        have hj : states.idxOf target < states.length := List.idxOf_lt_length_iff.2 hT
        have hjv : ints.getD (states.idxOf target) 0 = v := by
          rw [hint _ hj, List.getD_eq_getElem _ _ hj, List.getElem_idxOf hj]
        have hmemj := (hmem _).2 hj
        rw [hsplit, hD, List.mem_append] at hmemj
        have hkj : ints.getD k 0 ≤ v := by
          rcases hmemj with h | h
          · have := htw _ h; omega
          · rcases List.mem_cons.1 h with h | h
            · rw [← h, hjv]
            · rw [hsplit, hD, List.pairwise_append] at hsorted
              have := (List.pairwise_cons.1 hsorted.2.1).1 _ h
              omega
        have he : ints.getD k 0 = v := le_antisymm hkj hge
        rw [if_pos he]
        congr 1
        rw [hint k hk, hv] at he
        have hkt : states.getD k [] = target := encode_inj (by rw [List.getD_eq_getElem _ _ hk, hl _ (List.getElem_mem hk), ht]) he
        rw [List.getD_eq_getElem _ _ hk] at hkt
        rw [← hkt, hn.idxOf_getElem]
      · rw [if_neg hT, if_neg]
        intro he
        rw [hint k hk, hv] at he
        refine hT ?_
        have hkt : states.getD k [] = target := encode_inj (by rw [List.getD_eq_getElem _ _ hk, hl _ (List.getElem_mem hk), ht]) he
        rw [List.getD_eq_getElem _ _ hk] at hkt
        rw [← hkt]
        exact List.getElem_mem hk
  · intro hall
    have : (argsort ints).dropWhile (fun i => decide (ints.getD i 0 < v)) = [] := by
      rw [List.dropWhile_eq_nil_iff]
      intro k hk
      have hk' := (hmem k).1 hk
      rw [decide_eq_true_iff, hint k hk', List.getD_eq_getElem _ _ hk']
      exact hall _ (List.getElem_mem hk')
    rw [this, List.head?_nil] at hget
    rw [lookup, ← hv, ← hp, hget]

/-! ### One term on one determinant -/

theorem update_occupation {d : Det} {i : ℕ} (hi : i < d.length) (v : Bool) : Function.update (occupation d) i v = occupation (d.set i v) := by
  funext j
  show _ = (d.set i v).getD j false
  rw [getD_set]
  by_cases h : j = i
  · subst h; rw [Function.update_self, if_pos ⟨rfl, hi⟩]
  · rw [Function.update_of_ne h, if_neg fun e => h e.1.symm]; rfl

theorem occupation_inj {d e : Det} (hl : d.length = e.length) (h : occupation d = occupation e) : d = e := by
  refine List.ext_getElem hl fun i h1 h2 => ?_
  have := congrFun h i
  rwa [occupation, occupation, List.getD_eq_getElem _ _ h1, List.getD_eq_getElem _ _ h2] at this

theorem sgn_occupation {d : Det} {i : ℕ} (hi : i ≤ d.length) : sgn (occupation d) i = (((-1) ^ (d.take i).count true : ℤ) : ℂ) := by
  rw [sgn, count_true, whereIs, occupiedBefore]
  push_cast
  congr 2
  rw [List.length_take, min_eq_left hi]
  refine List.filter_congr fun j hj => ?_
  rw [List.mem_range] at hj
  rw [List.getElem?_take_of_lt hj, occupation, List.getD_eq_getElem?_getD]
  have : j < d.length := by omega
  simp [this]

/-- The factors, the first one acting first, neither create in an occupied mode nor annihilate in an empty one. -/
def Applicable : List (ℕ × Bool) → Det → Prop
  | [], _ => True
  | f :: r, d => d.getD f.1 false = !f.2 ∧ Applicable r (d.set f.1 f.2)

theorem length_flip (r : List (ℕ × Bool)) (s : ℤ × Det) : (r.foldl flipStep s).2.length = s.2.length := by
  induction r generalizing s with
  | nil => rfl
  | cons f r ih => rw [List.foldl_cons, ih]; simp [flipStep]

open Classical in
theorem term_basisState (r : List (ℕ × Bool)) (d : Det) (p : ℤ) (hr : ∀ f ∈ r, f.1 < d.length) :
    (p : ℂ) • termAction ladderAction r.reverse (basisState (occupation d)) =
      if Applicable r d then ((r.foldl flipStep (p, d)).1 : ℂ) • basisState (occupation (r.foldl flipStep (p, d)).2) else 0 := by
  induction r generalizing d p with
  | nil => rw [if_pos (show Applicable [] d from trivial)]; rfl
  | cons f r ih =>
    have hf : f.1 < d.length := hr f (List.mem_cons_self ..)
    rw [List.reverse_cons, termAction_append, termAction_cons, termAction_nil, mul_one, Module.End.mul_apply, ladder_basisState]
    by_cases h : occupation d f.1 = f.2
    · rw [if_pos h, map_zero, smul_zero, if_neg]
      rintro ⟨h', _⟩
      rw [occupation] at h
      rw [h] at h'
      cases hb : f.2 <;> simp [hb] at h'
    · have h' : d.getD f.1 false = !f.2 := by
        rw [occupation] at h
        revert h
        cases d.getD f.1 false <;> cases f.2 <;> simp
      rw [if_neg h, map_smul, update_occupation hf, smul_smul, sgn_occupation hf.le]
      have := ih (d.set f.1 f.2) (p * (-1) ^ (d.take f.1).count true) (fun g hg => by
        rw [List.length_set]; exact hr g (List.mem_cons_of_mem _ hg))
      rw [← Int.cast_mul, this, List.foldl_cons]
      have e : flipStep (p, d) f = (p * (-1) ^ (d.take f.1).count true, d.set f.1 f.2) := by
        rw [flipStep]; dsimp only; rw [h', Bool.not_not]
      rw [e]
      by_cases ha : Applicable r (d.set f.1 f.2)
      · rw [if_pos ha, if_pos (show Applicable (f :: r) d from ⟨h', ha⟩)]
      · rw [if_neg ha, if_neg (show ¬ Applicable (f :: r) d from fun e => ha e.2)]

theorem applicable_append (r s : List (ℕ × Bool)) (d : Det) : Applicable (r ++ s) d ↔ Applicable r d ∧ Applicable s (r.foldl (fun d f => d.set f.1 f.2) d) := by
  induction r generalizing d with
  | nil => simp [Applicable]
  | cons f r ih => simp only [List.cons_append, Applicable, List.foldl_cons, ih, and_assoc]

theorem foldl_set_same (r : List (ℕ × Bool)) (b : Bool) (hb : ∀ f ∈ r, f.2 = b) (d : Det) :
    r.foldl (fun d f => d.set f.1 f.2) d = setAll d (r.map Prod.fst) b := by
  induction r generalizing d with
  | nil => rfl
  | cons f r ih =>
    rw [List.foldl_cons, ih (fun g hg => hb g (List.mem_cons_of_mem _ hg)), hb f (List.mem_cons_self ..)]
    rfl

theorem applicable_same (r : List (ℕ × Bool)) (b : Bool) (hb : ∀ f ∈ r, f.2 = b) (hn : (r.map Prod.fst).Nodup) (d : Det) :
    Applicable r d ↔ ∀ i ∈ r.map Prod.fst, d.getD i false = !b := by
  induction r generalizing d with
  | nil => simp [Applicable]
  | cons f r ih =>
    rw [List.map_cons, List.nodup_cons] at hn
    rw [Applicable, ih (fun g hg => hb g (List.mem_cons_of_mem _ hg)) hn.2, hb f (List.mem_cons_self ..), List.map_cons, List.forall_mem_cons]
    refine and_congr_right fun _ => forall₂_congr fun i hi => ?_
    rw [getD_set, if_neg (fun e : f.1 = i ∧ i < d.length => hn.1 (by rw [e.1]; exact hi))]

theorem needs_false (r : List (ℕ × Bool)) (hb : ∀ f ∈ r, f.2 = false) (s : Needs) :
    r.foldl needsStep s = ⟨s.occ ++ r.map Prod.fst, s.unocc, s.delta - r.length⟩ := by
  induction r generalizing s with
  | nil => simp
  | cons f r ih =>
    rw [List.foldl_cons, ih (fun g hg => hb g (List.mem_cons_of_mem _ hg)), needsStep, if_pos (hb f (List.mem_cons_self ..))]
    simp
    omega

theorem needs_true (r : List (ℕ × Bool)) (hb : ∀ f ∈ r, f.2 = true) (s : Needs) :
    r.foldl needsStep s = ⟨s.occ, s.unocc ++ (r.map Prod.fst).filter (fun i => decide (i ∉ s.occ)), s.delta + r.length⟩ := by
  induction r generalizing s with
  | nil => simp
  | cons f r ih =>
    rw [List.foldl_cons, ih (fun g hg => hb g (List.mem_cons_of_mem _ hg)), needsStep, if_neg (by rw [hb f (List.mem_cons_self ..)]; simp)]
    by_cases h : f.1 ∈ s.occ <;> simp [h] <;> omega

/-- The modes of the annihilation (`b = false`) or creation operators of a product. -/
def modes (t : Term Bool) (b : Bool) : List ℕ := ((t.filter fun f => f.2 == b).map Prod.fst).reverse

theorem mem_modes {t : Term Bool} {b : Bool} {i : ℕ} : i ∈ modes t b ↔ (i, b) ∈ t := by
  rw [modes, List.mem_reverse, List.mem_map]
  constructor
  · rintro ⟨⟨j, c⟩, h, rfl⟩
    rw [List.mem_filter] at h
    have : c = b := by simpa using h.2
    rw [← this]; exact h.1
  · intro h
    exact ⟨(i, b), List.mem_filter.2 ⟨h, by simp⟩, rfl⟩

theorem reverse_split {t : Term Bool} (h : NormalTerm t) : ∃ r1 r2 : List (ℕ × Bool), t.reverse = r1 ++ r2 ∧ (∀ f ∈ r1, f.2 = false) ∧ (∀ f ∈ r2, f.2 = true) ∧
    (r1.map Prod.fst).Nodup ∧ (r2.map Prod.fst).Nodup ∧ r1.map Prod.fst = modes t false ∧ r2.map Prod.fst = modes t true := by
  refine ⟨(t.filter fun f => !f.2).reverse, (t.filter fun f => f.2).reverse, ?_, ?_, ?_, ?_, ?_, ?_, ?_⟩
  · conv_lhs => rw [normal_split h]
    rw [List.reverse_append]
  · intro f hf; rw [List.mem_reverse, List.mem_filter] at hf; simpa using hf.2
  · intro f hf; rw [List.mem_reverse, List.mem_filter] at hf; simpa using hf.2
  · rw [List.map_reverse, List.nodup_reverse]
    exact normal_nodup_fst (List.Pairwise.filter _ h) false fun f hf => by simpa using (List.mem_filter.1 hf).2
  · rw [List.map_reverse, List.nodup_reverse]
    exact normal_nodup_fst (List.Pairwise.filter _ h) true fun f hf => by simpa using (List.mem_filter.1 hf).2
  · rw [List.map_reverse, modes]
    congr 3
    funext f; cases f.2 <;> rfl
  · rw [List.map_reverse, modes]
    congr 3
    funext f; cases f.2 <;> rfl

theorem needs_eq {t : Term Bool} (h : NormalTerm t) : t.reverse.foldl needsStep ⟨[], [], 0⟩ =
    ⟨modes t false, (modes t true).filter (fun i => decide (i ∉ modes t false)), (modes t true).length - (modes t false).length⟩ := by
  obtain ⟨r1, r2, e, h1, h2, _, _, m1, m2⟩ := reverse_split h
  rw [e, List.foldl_append, needs_false r1 h1, needs_true r2 h2, m1, m2]
  have l1 : r1.length = (modes t false).length := by rw [← m1, List.length_map]
  have l2 : r2.length = (modes t true).length := by rw [← m2, List.length_map]
  simp [l1, l2]
  omega

theorem applicable_iff {t : Term Bool} (h : NormalTerm t) (d : Det) : Applicable t.reverse d ↔
    (∀ i ∈ modes t false, d.getD i false = true) ∧ ∀ i ∈ modes t true, i ∉ modes t false → d.getD i false = false := by
  obtain ⟨r1, r2, e, h1, h2, n1, n2, m1, m2⟩ := reverse_split h
  rw [e, applicable_append, applicable_same r1 false h1 n1, foldl_set_same r1 false h1, applicable_same r2 true h2 n2, m1, m2]
  refine and_congr_right fun ha => forall₂_congr fun i hi => ?_
  rw [getD_setAll]
  by_cases hm : i ∈ modes t false
  · have := ha i hm
    have hlt : i < d.length := occupied_lt (mem_occupied.2 this)
    simp [hm, hlt]
  · simp [hm]

theorem mem_candidates {t : Term Bool} (h : NormalTerm t) (states : List Det) (j : ℕ) :
    j ∈ candidates states (t.reverse.foldl needsStep ⟨[], [], 0⟩) ↔ j < states.length ∧ Applicable t.reverse (states.getD j []) := by
  rw [candidates, needs_eq h, List.mem_filter, List.mem_range, applicable_iff h]
  refine and_congr_right fun _ => ?_
  simp only [Bool.and_eq_true, List.all_eq_true, Bool.not_eq_true', List.any_eq_false, List.mem_filter, decide_eq_true_iff]
  simp

/-! ### The matrix of one term -/

theorem sum_filtered {l : List ℕ} (hl : l.Nodup) (f : ℕ → List (ℤ × ℕ × ℕ)) (hf : ∀ j, ∀ x ∈ f j, x.2.2 = j) (i k : ℕ) :
    ((((l.map f).flatten.map fun x => ((x.1 : ℂ), x.2.1, x.2.2)).filter fun v => decide (v.2 = (i, k))).map Prod.fst).sum =
      if k ∈ l then (((f k).filter fun x => decide (x.2.1 = i)).map fun x => (x.1 : ℂ)).sum else 0 := by
  induction l with
  | nil => simp
  | cons a l ih =>
    rw [List.nodup_cons] at hl
    rw [List.map_cons, List.flatten_cons, List.map_append, List.filter_append, List.map_append, List.sum_append, ih hl.2]
    have hhead : ((((f a).map fun x => ((x.1 : ℂ), x.2.1, x.2.2)).filter fun v => decide (v.2 = (i, k))).map Prod.fst).sum =
        if k = a then (((f k).filter fun x => decide (x.2.1 = i)).map fun x => (x.1 : ℂ)).sum else 0 := by
      rw [List.filter_map, List.map_map]
      by_cases hk : k = a
      · subst hk
        rw [if_pos rfl]
        congr 1
        refine (congrArg _ (List.filter_congr fun x hx => ?_)).trans rfl
        have := hf k x hx
        obtain ⟨a, b, c⟩ := x
        dsimp only at this
        simp [this]
      · rw [if_neg hk]
        have : (f a).filter ((fun v : ℂ × ℕ × ℕ => decide (v.2 = (i, k))) ∘ fun x => ((x.1 : ℂ), x.2.1, x.2.2)) = [] := by
          rw [List.filter_eq_nil_iff]
          intro x hx
          have := hf a x hx
          simp only [Function.comp, Prod.mk.injEq, decide_eq_true_iff]
          rintro ⟨_, h⟩
          exact hk (h.symm.trans this)
        rw [this]; rfl
    rw [hhead]
    by_cases hk : k = a
    · subst hk
      rw [if_pos rfl, if_neg hl.1, if_pos (List.mem_cons_self ..), add_zero]
    · rw [if_neg hk, zero_add]
      by_cases hkl : k ∈ l
      · rw [if_pos hkl, if_pos (List.mem_cons_of_mem _ hkl)]
      · rw [if_neg hkl, if_neg (by simp [hk, hkl])]

/-- What a determinant adds, without the search. -/
def entry (states : List Det) (t : Term Bool) (j : ℕ) : List (ℤ × ℕ × ℕ) :=
  let r := t.reverse.foldl flipStep (1, states.getD j [])
  if r.2 ∈ states then [(r.1, states.idxOf r.2, j)] else []

/-- The determinant to which the term takes `d`. -/
def target (t : Term Bool) (d : Det) : Det := (t.reverse.foldl flipStep (1, d)).2

theorem mapM_ok_of {ε α β : Type} (f : α → Except ε β) (g : α → β) (l : List α) (h : ∀ a ∈ l, f a = .ok (g a)) : l.mapM f = .ok (l.map g) := by
  rw [ZQ.mapM_ok_iff, List.forall₂_map_right_iff, List.forall₂_same]
  exact h

theorem stateEntry_eq {states : List Det} {n : ℕ} (hn : states.Nodup) (hl : ∀ d ∈ states, d.length = n) (t : Term Bool) {j : ℕ} (hj : j < states.length) :
    ((∃ d ∈ states, encode (target t (states.getD j [])) ≤ encode d) →
      stateEntry states (states.map encode) (argsort (states.map encode)) t j = .ok (entry states t j)) ∧
    ((∀ d ∈ states, encode d < encode (target t (states.getD j []))) →
      stateEntry states (states.map encode) (argsort (states.map encode)) t j = .error .indexError) := by
  have hlen : (target t (states.getD j [])).length = n := by
    rw [target, length_flip, List.getD_eq_getElem _ _ hj]; exact hl _ (List.getElem_mem hj)
  obtain ⟨h1, h2⟩ := lookup_spec hn hl hlen
  constructor
  · intro h
    have := h1 h
    rw [target] at this
    rw [stateEntry, entry, this]
    split_ifs with hm <;> rfl
  · intro h
    have := h2 h
    rw [target] at this
    rw [stateEntry, this]
    rfl

/-- The list of the modes of the term is within `n` modes. -/
theorem modes_lt {t : Term Bool} (h : NormalTerm t) (n : ℕ) :
    (((t.reverse.foldl needsStep ⟨[], [], 0⟩).occ ++ (t.reverse.foldl needsStep ⟨[], [], 0⟩).unocc).all fun i => decide (i < n)) = true ↔ ∀ f ∈ t, f.1 < n := by
  rw [needs_eq h]
  simp only [List.all_eq_true, List.mem_append, List.mem_filter, decide_eq_true_iff, mem_modes]
  constructor
  · rintro hh ⟨i, b⟩ hf
    cases b with
    | false => exact hh i (Or.inl hf)
    | true =>
      by_cases h' : (i, false) ∈ t
      · exact hh i (Or.inl h')
      · exact hh i (Or.inr ⟨hf, h'⟩)
  · rintro hh i (h' | h')
    · exact hh _ h'
    · exact hh _ h'.1

theorem build_ok {states : List Det} {n : ℕ} (hn : states.Nodup) (hl : ∀ d ∈ states, d.length = n) {t : Term Bool} (ht : NormalTerm t)
    (hb : (modes t true).length = (modes t false).length) (hlt : ∀ f ∈ t, f.1 < n)
    (hmax : ∀ d ∈ states, Applicable t.reverse d → ∃ d' ∈ states, encode (target t d) ≤ encode d') :
    ∃ T, buildTermOp n states (states.map encode) (argsort (states.map encode)) t = .ok T ∧
      ∀ i j, i < states.length → j < states.length →
        T.e i j = termAction ladderAction t (basisState (occupation (states.getD j []))) (occupation (states.getD i [])) := by
  classical
  have hc := mem_candidates ht states
  set need := t.reverse.foldl needsStep ⟨[], [], 0⟩ with hneed
  have hmap : (candidates states need).mapM (stateEntry states (states.map encode) (argsort (states.map encode)) t) =
      .ok ((candidates states need).map (entry states t)) := by
    refine mapM_ok_of _ _ _ fun j hj => ?_
    obtain ⟨hj1, hj2⟩ := (hc j).1 hj
    refine (stateEntry_eq hn hl t hj1).1 (hmax _ ?_ hj2)
    rw [List.getD_eq_getElem _ _ hj1]; exact List.getElem_mem hj1
  have hent : ∀ j, ∀ x ∈ entry states t j, x.2.2 = j ∧ x.2.1 < states.length := by
    intro j x hx
    rw [entry] at hx
    split_ifs at hx with hm
    · rw [List.mem_singleton] at hx; subst hx
      exact ⟨rfl, List.idxOf_lt_length_iff.2 hm⟩
    · cases hx
  have hfl : ∀ x ∈ ((candidates states need).map (entry states t)).flatten, x.2.1 < states.length ∧ x.2.2 < states.length := by
    intro x hx
    rw [List.mem_flatten] at hx
    obtain ⟨l, hl', hx⟩ := hx
    obtain ⟨j, hj, rfl⟩ := List.mem_map.1 hl'
    exact ⟨(hent j x hx).2, by rw [(hent j x hx).1]; exact ((hc j).1 hj).1⟩
  have hzip : ∀ l : List (ℤ × ℕ × ℕ), (l.map fun x => (x.1 : ℂ)).zip ((l.map fun x => x.2.1).zip (l.map fun x => x.2.2)) =
      l.map fun x => ((x.1 : ℂ), x.2.1, x.2.2) := by
    intro l; rw [List.zip_map', List.zip_map']
  refine ⟨⟨states.length, states.length, fun i j => (((((candidates states need).map (entry states t)).flatten.map fun x =>
    ((x.1 : ℂ), x.2.1, x.2.2)).filter fun v => decide (v.2 = (i, j))).map Prod.fst).sum⟩, ?_, ?_⟩
  · rw [buildTermOp, ← hneed, if_neg (by rw [hneed, needs_eq ht]; simp only [hb, sub_self, ne_eq, not_true, not_false_eq_true]),
      if_neg (by rw [not_not, hneed, modes_lt ht]; exact hlt), hmap]
    show Sparse.ofTriplets _ _ _ _ = _
    rw [Sparse.ofTriplets, if_neg (by simp only [List.length_map, ne_eq, not_true, or_self, not_false_eq_true]), if_neg, hzip]
    rw [not_not]
    constructor
    · intro r hr
      obtain ⟨x, hx, rfl⟩ := List.mem_map.1 hr
      exact (hfl x hx).1
    · intro r hr
      obtain ⟨x, hx, rfl⟩ := List.mem_map.1 hr
      exact (hfl x hx).2
  · intro i j hi hj
    dsimp only
    rw [sum_filtered (show (candidates states need).Nodup from List.nodup_range.filter _) (entry states t) (fun k x hx => (hent k x hx).1)]
    have hjd : states.getD j [] ∈ states := by rw [List.getD_eq_getElem _ _ hj]; exact List.getElem_mem hj
    have hid : states.getD i [] ∈ states := by rw [List.getD_eq_getElem _ _ hi]; exact List.getElem_mem hi
    have hact := term_basisState t.reverse (states.getD j []) 1 (fun f hf => by
      rw [hl _ hjd]; exact hlt f (List.mem_reverse.1 hf))
    rw [List.reverse_reverse, Int.cast_one, one_smul] at hact
    rw [hact]
    have hcj := hc j
    rw [hneed] at hcj
    by_cases ha : Applicable t.reverse (states.getD j [])
    · rw [if_pos ha, if_pos (hcj.2 ⟨hj, ha⟩), entry]
      set r := t.reverse.foldl flipStep (1, states.getD j []) with hr
      have hrl : r.2.length = n := by rw [hr, length_flip]; exact hl _ hjd
      rw [Pi.smul_apply, smul_eq_mul]
      by_cases he : states.getD i [] = r.2
      · rw [he, basisState_self, mul_one, if_pos (he ▸ hid)]
        have : states.idxOf r.2 = i := by
          rw [← he, List.getD_eq_getElem _ _ hi, hn.idxOf_getElem]
        simp [this]
      · rw [basisState_ne (fun e => he (occupation_inj ((hl _ hid).trans hrl.symm) e)), mul_zero]
        split_ifs with hm
        · have : states.idxOf r.2 ≠ i := by
            intro e
            apply he
            subst e
            rw [List.getD_eq_getElem _ _ hi, List.getElem_idxOf hi]
          simp [this]
        · rfl
    · rw [if_neg ha, if_neg (fun h => ha (hcj.1 h).2)]
      rfl

end ZQ.Sector
