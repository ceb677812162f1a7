import Verif.Spec.TensorTools
import Verif.Lemmas.PolyTensor
import Verif.Lemmas.ExceptList
import Verif.Lemmas.Fermion
import Verif.Props.PolyTensor

/-!
# C89: iteration up to symmetry, projection and rotation of polynomial tensors
-/

namespace ZQ.PolyT

open ZQ ZQ.Op ZQ.PyDict

/-! ## Symmetry classes -/

theorem mem_symmetricTwo {p q r s : ℕ} {cv : Bool} {y : List ℕ} : y ∈ symmetricTwo [p, q, r, s] cv ↔
    (y = [p, q, r, s] ∨ y = [q, p, s, r] ∨ y = [s, r, q, p] ∨ y = [r, s, p, q]) ∨
      cv = false ∧ (y = [p, s, r, q] ∨ y = [q, r, s, p] ∨ y = [s, p, q, r] ∨ y = [r, q, p, s]) := by
  cases cv <;> simp [symmetricTwo] <;> tauto

theorem symmetricTwo_self {x : List ℕ} (hx : x.length = 4) (cv : Bool) : x ∈ symmetricTwo x cv := by
  obtain ⟨p, q, r, s, rfl⟩ : ∃ p q r s, x = [p, q, r, s] := by
    match x, hx with
    | [p, q, r, s], _ => exact ⟨p, q, r, s, rfl⟩
  exact mem_symmetricTwo.2 (Or.inl (Or.inl rfl))

theorem symmetricTwo_length {x y : List ℕ} {cv : Bool} (h : y ∈ symmetricTwo x cv) : x.length = 4 ∧ y.length = 4 := by
  match x, h with
  | [p, q, r, s], h =>
    rcases mem_symmetricTwo.1 h with (rfl | rfl | rfl | rfl) | ⟨_, rfl | rfl | rfl | rfl⟩ <;> exact ⟨rfl, rfl⟩

theorem symmetricTwo_symm {x y : List ℕ} {cv : Bool} (h : y ∈ symmetricTwo x cv) : x ∈ symmetricTwo y cv := by
  match x, h with
  | [p, q, r, s], h =>
    rcases mem_symmetricTwo.1 h with (rfl | rfl | rfl | rfl) | ⟨hc, rfl | rfl | rfl | rfl⟩ <;> rw [mem_symmetricTwo] <;> simp [*]

theorem symmetricTwo_trans {x y z : List ℕ} {cv : Bool} (h : y ∈ symmetricTwo x cv) (h' : z ∈ symmetricTwo y cv) : z ∈ symmetricTwo x cv := by
  match x, h with
  | [p, q, r, s], h =>
    rw [mem_symmetricTwo]
    rcases mem_symmetricTwo.1 h with (rfl | rfl | rfl | rfl) | ⟨hc, rfl | rfl | rfl | rfl⟩ <;>
      rcases mem_symmetricTwo.1 h' with (rfl | rfl | rfl | rfl) | ⟨hc', rfl | rfl | rfl | rfl⟩ <;> simp [*]

/-- The listed tuples are the symmetry class. -/
theorem symmetricTwo_spec {x : List ℕ} (hx : x.length = 4) (cv : Bool) (y : List ℕ) : y ∈ symmetricTwo x cv ↔ SameClass cv x y := by
  constructor
  · intro h
    match x, hx with
    | [p, q, r, s], _ =>
      have d := SameClass.exchange (complexValued := cv) p q r s
      have a := SameClass.adjoint (complexValued := cv) p q r s
      rcases mem_symmetricTwo.1 h with (rfl | rfl | rfl | rfl) | ⟨hc, rfl | rfl | rfl | rfl⟩
      · exact .refl _
      · exact d
      · exact a
      · exact d.trans (.adjoint ..)
      · exact .real hc ..
      · exact d.trans (.real hc ..)
      · exact a.trans (.real hc ..)
      · exact (d.trans (.adjoint ..)).trans (.real hc ..)
  · intro h
    have key : ∀ {x y : List ℕ}, SameClass cv x y → x = y ∨ y ∈ symmetricTwo x cv := by
      intro x y h
      induction h with
      | refl i => exact Or.inl rfl
      | symm _ ih => exact ih.elim (fun e => Or.inl e.symm) fun h => Or.inr (symmetricTwo_symm h)
      | trans _ _ ih1 ih2 =>
        rcases ih1 with rfl | h1
        · exact ih2
        · rcases ih2 with rfl | h2
          · exact Or.inr h1
          · exact Or.inr (symmetricTwo_trans h1 h2)
      | exchange p q r s => exact Or.inr (mem_symmetricTwo.2 (by simp))
      | adjoint p q r s => exact Or.inr (mem_symmetricTwo.2 (by simp))
      | real h p q r s => exact Or.inr (mem_symmetricTwo.2 (by simp [h]))
    rcases key h with rfl | h
    · exact symmetricTwo_self hx cv
    · exact h

/-! ## `unique_iter` -/

theorem unique_fold (two : Tensor) (cv : Bool) (l : List (List ℕ)) (hl : l.Nodup) (hlen : ∀ x ∈ l, x.length = 4) : ∃ seen out, l.foldl (uniqueStep two cv) ([], []) = (seen, out) ∧
    (∀ x, x ∈ seen ↔ ∃ y ∈ out, x ∈ symmetricTwo y cv) ∧ out.Nodup ∧ (∀ y ∈ out, y ∈ l ∧ two y ≠ 0) ∧ (∀ x ∈ l, two x ≠ 0 → x ∈ seen) ∧
    (∀ y ∈ out, ∀ y' ∈ out, y' ∈ symmetricTwo y cv → y = y') := by
  induction l using List.reverseRecOn with
  | nil => exact ⟨[], [], rfl, by simp, List.nodup_nil, by simp, by simp, by simp⟩
  | append_singleton l e ih =>
    have hnd := List.nodup_append.1 hl
    obtain ⟨seen, out, h0, h1, h2, h3, h4, h5⟩ := ih hnd.1 fun x hx => hlen x (List.mem_append_left _ hx)
    have hel : e ∉ l := fun h => hnd.2.2 e h e List.mem_cons_self rfl
    have he4 := hlen e (List.mem_append_right _ List.mem_cons_self)
    rw [List.foldl_append, h0, List.foldl_cons, List.foldl_nil, uniqueStep]
    by_cases hc : two e ≠ 0 ∧ e ∉ seen
    · rw [if_pos hc]
      refine ⟨_, _, rfl, fun x => ?_, ?_, ?_, ?_, ?_⟩
      · rw [List.mem_append, h1]
        constructor
        · rintro (⟨y, hy, hx⟩ | hx)
          · exact ⟨y, List.mem_append_left _ hy, hx⟩
          · exact ⟨e, List.mem_append_right _ List.mem_cons_self, hx⟩
        · rintro ⟨y, hy, hx⟩
          rcases List.mem_append.1 hy with hy | hy
          · exact Or.inl ⟨y, hy, hx⟩
          · rw [List.mem_singleton] at hy; exact Or.inr (hy ▸ hx)
      · refine List.nodup_append.2 ⟨h2, List.nodup_singleton e, ?_⟩
        intro a ha b hb hab
        rw [List.mem_singleton] at hb
        exact hel (hb ▸ hab ▸ (h3 a ha).1)
      · intro y hy
        rcases List.mem_append.1 hy with hy | hy
        · exact ⟨List.mem_append_left _ (h3 y hy).1, (h3 y hy).2⟩
        · rw [List.mem_singleton] at hy; subst hy; exact ⟨List.mem_append_right _ List.mem_cons_self, hc.1⟩
      · intro x hx hx0
        rcases List.mem_append.1 hx with hx | hx
        · exact List.mem_append_left _ (h4 x hx hx0)
        · rw [List.mem_singleton] at hx; subst hx; exact List.mem_append_right _ (symmetricTwo_self he4 cv)
      · intro y hy y' hy' hs
        rcases List.mem_append.1 hy with hy | hy <;> rcases List.mem_append.1 hy' with hy' | hy'
        · exact h5 y hy y' hy' hs
        · rw [List.mem_singleton] at hy'
          rw [hy'] at hs
          exact absurd ((h1 e).2 ⟨y, hy, hs⟩) hc.2
        · rw [List.mem_singleton] at hy
          rw [hy] at hs
          exact absurd ((h1 e).2 ⟨y', hy', symmetricTwo_symm hs⟩) hc.2
        · rw [List.mem_singleton] at hy hy'; rw [hy, hy']
    · rw [if_neg hc]
      refine ⟨_, _, rfl, h1, h2, fun y hy => ⟨List.mem_append_left _ (h3 y hy).1, (h3 y hy).2⟩, fun x hx hx0 => ?_, h5⟩
      rcases List.mem_append.1 hx with hx | hx
      · exact h4 x hx hx0
      · rw [List.mem_singleton] at hx; subst hx
        by_contra h
        exact hc ⟨hx0, h⟩

theorem uniqueTwo_spec (n : ℕ) (two : Tensor) (cv : Bool) : (uniqueTwo n two cv).Nodup ∧ (∀ y ∈ uniqueTwo n two cv, InRange n 4 y ∧ two y ≠ 0) ∧
    (∀ x, InRange n 4 x → two x ≠ 0 → ∃ y ∈ uniqueTwo n two cv, SameClass cv y x) ∧ (∀ y ∈ uniqueTwo n two cv, ∀ y' ∈ uniqueTwo n two cv, SameClass cv y y' → y = y') := by
  obtain ⟨seen, out, h0, h1, h2, h3, h4, h5⟩ := unique_fold two cv (allIndices n 4) (nodup_allIndices n 4) fun x hx => length_of_mem hx
  rw [uniqueTwo, h0]
  refine ⟨h2, fun y hy => ⟨mem_allIndices.1 (h3 y hy).1, (h3 y hy).2⟩, fun x hx hx0 => ?_, fun y hy y' hy' hs => ?_⟩
  · obtain ⟨y, hy, hxy⟩ := (h1 x).1 (h4 x (mem_allIndices.2 hx) hx0)
    exact ⟨y, hy, (symmetricTwo_spec (length_of_mem (h3 y hy).1) cv x).1 hxy⟩
  · exact h5 y hy y' hy' ((symmetricTwo_spec (length_of_mem (h3 y hy).1) cv y').2 hs)

theorem mem_uniqueOne {n : ℕ} {one : Tensor} {i : List ℕ} : i ∈ uniqueOne n one ↔ ∃ p q, i = [p, q] ∧ p < n ∧ q ≤ p ∧ one [p, q] ≠ 0 := by
  unfold uniqueOne
  simp only [List.mem_flatMap, List.mem_range, List.mem_map, List.mem_filter, decide_eq_true_eq]
  constructor
  · rintro ⟨p, hp, q, ⟨hq, h0⟩, rfl⟩
    exact ⟨p, q, rfl, hp, by omega, h0⟩
  · rintro ⟨p, q, rfl, hp, hq, h0⟩
    exact ⟨p, hp, q, ⟨by omega, h0⟩, rfl⟩

theorem uniqueOne_nodup (n : ℕ) (one : Tensor) : (uniqueOne n one).Nodup := by
  unfold uniqueOne
  rw [List.nodup_flatMap]
  refine ⟨fun p _ => (List.nodup_range.filter _).map fun a b h => by simpa using h, ?_⟩
  refine List.nodup_range.imp fun {p q} hpq i h1 h2 => ?_
  obtain ⟨a, _, rfl⟩ := List.mem_map.1 h1
  obtain ⟨b, _, h⟩ := List.mem_map.1 h2
  simp only [List.cons.injEq, and_true] at h
  exact hpq h.1.symm

theorem zip_injOn {key : Key} {i j : List ℕ} (hi : i.length = key.length) (hj : j.length = key.length) (h : i.zip key = j.zip key) : i = j := by
  have h1 := (List.map_fst_zip (l₁ := i) (l₂ := key) hi.le)
  have h2 := (List.map_fst_zip (l₁ := j) (l₂ := key) hj.le)
  rw [← h1, ← h2, h]

/-- C89.  `unique_iter` yields no term twice and only terms with a coefficient that is not zero; the constant, if it is not zero; one of two one-body terms with
exchanged indices; and exactly one two-body term of each symmetry class that has one. -/
theorem unique_spec (n : ℕ) (c : ℂ) (one two : Tensor) (cv : Bool) : (uniqueIter n c one two cv).Nodup ∧
    (∀ t, t ∈ uniqueIter n c one two cv ↔ (t = [] ∧ c ≠ 0) ∨ (∃ p q, t = [(p, true), (q, false)] ∧ p < n ∧ q ≤ p ∧ one [p, q] ≠ 0) ∨
      ∃ y ∈ uniqueTwo n two cv, t = y.zip [true, true, false, false]) ∧
    (∀ y ∈ uniqueTwo n two cv, InRange n 4 y ∧ two y ≠ 0) ∧
    (∀ x, InRange n 4 x → two x ≠ 0 → ∃! y, y.zip [true, true, false, false] ∈ uniqueIter n c one two cv ∧ SameClass cv y x) := by
  obtain ⟨u1, u2, u3, u4⟩ := uniqueTwo_spec n two cv
  have mem : ∀ t, t ∈ uniqueIter n c one two cv ↔ (t = [] ∧ c ≠ 0) ∨ (∃ p q, t = [(p, true), (q, false)] ∧ p < n ∧ q ≤ p ∧ one [p, q] ≠ 0) ∨
      ∃ y ∈ uniqueTwo n two cv, t = y.zip [true, true, false, false] := by
    intro t
    unfold uniqueIter
    rw [List.mem_append, List.mem_append, or_assoc]
    refine or_congr ?_ (or_congr ?_ ?_)
    · split_ifs with h <;> simp [h]
    · rw [List.mem_map]
      constructor
      · rintro ⟨i, hi, rfl⟩
        obtain ⟨p, q, rfl, h⟩ := mem_uniqueOne.1 hi
        exact ⟨p, q, rfl, h⟩
      · rintro ⟨p, q, rfl, h⟩
        exact ⟨[p, q], mem_uniqueOne.2 ⟨p, q, rfl, h⟩, rfl⟩
    · rw [List.mem_map]
      exact ⟨fun ⟨y, h1, h2⟩ => ⟨y, h1, h2.symm⟩, fun ⟨y, h1, h2⟩ => ⟨y, h1, h2.symm⟩⟩
  have len1 : ∀ t ∈ (uniqueOne n one).map (fun i => i.zip [true, false]), t.length = 2 := by
    intro t ht
    obtain ⟨i, hi, rfl⟩ := List.mem_map.1 ht
    obtain ⟨p, q, rfl, -⟩ := mem_uniqueOne.1 hi
    rfl
  have len2 : ∀ t ∈ (uniqueTwo n two cv).map (fun i => i.zip [true, true, false, false]), t.length = 4 := by
    intro t ht
    obtain ⟨i, hi, rfl⟩ := List.mem_map.1 ht
    rw [List.length_zip, (u2 i hi).1.1]; rfl
  have len0 : ∀ t ∈ (if c ≠ 0 then [[]] else [] : List (Term Bool)), t.length = 0 := by
    intro t ht
    split_ifs at ht
    · rw [List.mem_singleton] at ht; rw [ht]; rfl
    · simp at ht
  have two_mem : ∀ y, y.length = 4 → (y.zip [true, true, false, false] ∈ uniqueIter n c one two cv ↔ y ∈ uniqueTwo n two cv) := by
    intro y hy
    rw [mem]
    constructor
    · rintro (⟨h, -⟩ | ⟨p, q, h, -⟩ | ⟨z, hz, h⟩)
      · have := congrArg List.length h; rw [List.length_zip, hy] at this; simp at this
      · have := congrArg List.length h; rw [List.length_zip, hy] at this; simp at this
      · rw [zip_injOn hy (u2 z hz).1.1 h]; exact hz
    · exact fun h => Or.inr (Or.inr ⟨y, h, rfl⟩)
  refine ⟨?_, mem, u2, fun x hx hx0 => ?_⟩
  · unfold uniqueIter
    refine List.nodup_append.2 ⟨List.nodup_append.2 ⟨?_, ?_, ?_⟩, ?_, ?_⟩
    · split_ifs <;> simp
    · refine List.Nodup.map_on (fun a ha b hb h => ?_) (uniqueOne_nodup n one)
      obtain ⟨p, q, rfl, -⟩ := mem_uniqueOne.1 ha
      obtain ⟨p', q', rfl, -⟩ := mem_uniqueOne.1 hb
      exact zip_injOn rfl rfl h
    · intro a ha b hb e
      have := len0 a ha; rw [e, len1 b hb] at this; omega
    · exact List.Nodup.map_on (fun a ha b hb h => zip_injOn (key := [true, true, false, false]) (u2 a ha).1.1 (u2 b hb).1.1 h) u1
    · intro a ha b hb e
      have hb := len2 b hb
      rcases List.mem_append.1 ha with ha | ha
      · have := len0 a ha; rw [e, hb] at this; omega
      · have := len1 a ha; rw [e, hb] at this; omega
  · obtain ⟨y, hy, hyx⟩ := u3 x hx hx0
    refine ⟨y, ⟨(two_mem y (u2 y hy).1.1).2 hy, hyx⟩, ?_⟩
    rintro z ⟨hz, hzx⟩
    have hz4 : z.length = 4 := by
      have hm := (symmetricTwo_spec hx.1 cv z).2 hzx.symm
      exact (symmetricTwo_length hm).2
    exact u4 z ((two_mem z hz4).1 hz) y hy (hzx.trans hyx.symm)

/-- Arrays with the documented symmetry that agree on one index tuple agree on its class. -/
theorem class_agree {cv : Bool} {one two one' two' : Tensor} (h : Symmetric cv one two) (h' : Symmetric cv one' two') {x y : List ℕ} (hs : SameClass cv x y) :
    two x = two' x ↔ two y = two' y := by
  induction hs with
  | refl => exact Iff.rfl
  | symm _ ih => exact ih.symm
  | trans _ _ ih1 ih2 => exact ih1.trans ih2
  | exchange p q r s => rw [h.exchange, h'.exchange]
  | adjoint p q r s => rw [h.adjoint, h'.adjoint, (starRingEnd ℂ).injective.eq_iff]
  | real hc p q r s => rw [h.real hc, h'.real hc]

/-- C89.  An operator whose arrays have the documented symmetry is determined by the terms that `unique_iter` yields and their coefficients. -/
theorem unique_determines {n : ℕ} {c c' : ℂ} {cv : Bool} {one two one' two' : Tensor} (h : Symmetric cv one two) (h' : Symmetric cv one' two')
    (hu : uniqueIter n c one two cv = uniqueIter n c' one' two' cv)
    (hv : ∀ t ∈ uniqueIter n c one two cv, getItem (interaction n c one two) t = getItem (interaction n c' one' two') t) :
    c = c' ∧ (∀ p < n, ∀ q < n, one [p, q] = one' [p, q]) ∧ ∀ x, InRange n 4 x → two x = two' x := by
  obtain ⟨-, m1, r1, e1⟩ := unique_spec n c one two cv
  obtain ⟨-, m2, r2, e2⟩ := unique_spec n c' one' two' cv
  have inj : ∀ {a b : ℂ}, (Except.ok a : Except Err ℂ) = .ok b → a = b := fun h => by injection h
  have hc0 : ([] : Term Bool) ∈ uniqueIter n c one two cv ↔ c ≠ 0 := by
    rw [m1]
    constructor
    · rintro (⟨-, h⟩ | ⟨p, q, h, -⟩ | ⟨y, hy, h⟩)
      · exact h
      · cases h
      · have := congrArg List.length h; rw [List.length_zip, (r1 y hy).1.1] at this; simp at this
    · exact fun h => Or.inl ⟨rfl, h⟩
  have hc0' : ([] : Term Bool) ∈ uniqueIter n c one two cv ↔ c' ≠ 0 := by
    rw [hu, m2]
    constructor
    · rintro (⟨-, h⟩ | ⟨p, q, h, -⟩ | ⟨y, hy, h⟩)
      · exact h
      · cases h
      · have := congrArg List.length h; rw [List.length_zip, (r2 y hy).1.1] at this; simp at this
    · exact fun h => Or.inl ⟨rfl, h⟩
  have one_val : ∀ p q, p < n → q ≤ p → one [p, q] = one' [p, q] := by
    intro p q hp hq
    have key : [(p, true), (q, false)] ∈ uniqueIter n c one two cv → one [p, q] = one' [p, q] := by
      intro hm
      have := hv _ hm
      have g : ∀ (c : ℂ) (one two : Tensor), getItem (interaction n c one two) [(p, true), (q, false)] = .ok (one [p, q]) := by
        intro c one two
        show (if [p, q].all (fun i => decide (i < n)) then (.ok (one [p, q]) : Except Err ℂ) else .error .indexError) = _
        rw [if_pos (by simp; omega)]
      rw [g, g] at this
      exact inj this
    by_cases h0 : one [p, q] = 0
    · by_cases h0' : one' [p, q] = 0
      · rw [h0, h0']
      · exact key (by rw [hu, m2]; exact Or.inr (Or.inl ⟨p, q, rfl, hp, hq, h0'⟩))
    · exact key ((m1 _).2 (Or.inr (Or.inl ⟨p, q, rfl, hp, hq, h0⟩)))
  refine ⟨?_, fun p hp q hq => ?_, fun x hx => ?_⟩
  · by_cases h0 : c = 0
    · by_cases h0' : c' = 0
      · rw [h0, h0']
      · exact absurd (hc0.1 (hc0'.2 h0')) (by simpa using h0)
    · exact inj (hv [] (hc0.2 h0))
  · rcases le_total q p with hqp | hpq
    · exact one_val p q hp hqp
    · rw [h.one q p, h'.one q p, one_val q p hq hpq]
  · have g : ∀ (c : ℂ) (one two : Tensor) (y : List ℕ), InRange n 4 y → getItem (interaction n c one two) (y.zip [true, true, false, false]) = .ok (two y) := by
      intro c one two y hy
      have f1 : (y.zip [true, true, false, false]).map Prod.fst = y := List.map_fst_zip hy.1.le
      have f2 : (y.zip [true, true, false, false]).map Prod.snd = [true, true, false, false] := List.map_snd_zip hy.1.ge
      unfold getItem
      rw [f1, f2]
      show (if y.all (fun i => decide (i < n)) then (.ok (two y) : Except Err ℂ) else .error .indexError) = _
      rw [if_pos (List.all_eq_true.2 fun i hi => decide_eq_true (hy.2 i hi))]
    have key : ∀ y, InRange n 4 y → y.zip [true, true, false, false] ∈ uniqueIter n c one two cv → two y = two' y := by
      intro y hy hm
      have := hv _ hm
      rw [g c one two y hy, g c' one' two' y hy] at this
      exact inj this
    have rng : ∀ y, SameClass cv y x → InRange n 4 y := by
      intro y hs
      have hm := (symmetricTwo_spec hx.1 cv y).2 hs.symm
      obtain ⟨h4, hr⟩ := hx
      match x, h4 with
      | [p, q, r, s], _ =>
        have hp := hr p (by simp)
        have hq := hr q (by simp)
        have hr' := hr r (by simp)
        have hs' := hr s (by simp)
        rcases mem_symmetricTwo.1 hm with (rfl | rfl | rfl | rfl) | ⟨_, rfl | rfl | rfl | rfl⟩ <;> refine ⟨rfl, ?_⟩ <;> simp <;> omega
    by_cases h0 : two x = 0
    · by_cases h0' : two' x = 0
      · rw [h0, h0']
      · obtain ⟨y, ⟨hy, hs⟩, -⟩ := e2 x hx h0'
        exact (class_agree h h' hs).1 (key y (rng y hs) (hu ▸ hy))
    · obtain ⟨y, ⟨hy, hs⟩, -⟩ := e1 x hx h0
      exact (class_agree h h' hs).1 (key y (rng y hs) hy)

theorem unique_fold_mono (two : Tensor) (cv : Bool) (l : List (List ℕ)) (st : List (List ℕ) × List (List ℕ)) {y : List ℕ} (h : y ∈ st.2) : y ∈ (l.foldl (uniqueStep two cv) st).2 := by
  induction l generalizing st with
  | nil => exact h
  | cons e l ih =>
    rw [List.foldl_cons]
    refine ih _ ?_
    unfold uniqueStep
    split_ifs
    · exact List.mem_append_left _ h
    · exact h

/-- Coulomb integral 1, exchange integral 2 of two real orbitals. -/
private noncomputable def jk : Tensor := fun i =>
  if i = [0, 1, 1, 0] ∨ i = [1, 0, 0, 1] then 1 else if i = [0, 0, 1, 1] ∨ i = [1, 0, 1, 0] ∨ i = [0, 1, 0, 1] ∨ i = [1, 1, 0, 0] then 2 else 0

/-- The documented eightfold symmetry is not that of the two-electron integrals of real orbitals in the convention of this class: `unique_iter` skips the
Coulomb integral of two orbitals, taking it for equal to their exchange integral. -/
theorem unique_counterexample : ∃ (n : ℕ) (g : Tensor), RealOrbitals g ∧ ∃ x, InRange n 4 x ∧ g x ≠ 0 ∧ ∀ y ∈ uniqueTwo n g false, g y ≠ g x := by
  have hj : jk [0, 1, 1, 0] = 1 := if_pos (Or.inl rfl)
  refine ⟨2, jk, ⟨?_, ?_, ?_⟩, [0, 1, 1, 0], ⟨rfl, by simp⟩, by rw [hj]; exact one_ne_zero, ?_⟩
  · intro p q r s
    unfold jk
    simp only [List.cons.injEq, and_true]
    refine if_congr (by tauto) rfl (if_congr (by tauto) rfl rfl)
  · intro p q r s
    unfold jk
    simp only [List.cons.injEq, and_true]
    refine if_congr (by tauto) rfl (if_congr (by tauto) rfl rfl)
  · intro i
    unfold jk
    split_ifs <;> simp
  · have h2 : jk [0, 0, 1, 1] = 2 := by unfold jk; simp
    have first : [0, 0, 1, 1] ∈ uniqueTwo 2 jk false := by
      have hsplit : allIndices 2 4 = [[0, 0, 0, 0], [0, 0, 0, 1], [0, 0, 1, 0], [0, 0, 1, 1]] ++ (allIndices 2 4).drop 4 := by decide
      rw [uniqueTwo, hsplit, List.foldl_append]
      refine unique_fold_mono _ _ _ _ ?_
      have z : ∀ i, i = [0, 0, 0, 0] ∨ i = [0, 0, 0, 1] ∨ i = [0, 0, 1, 0] → jk i = 0 := by
        rintro i (rfl | rfl | rfl) <;> · unfold jk; simp
      have st : ∀ i st, jk i = 0 → uniqueStep jk false st i = st := fun i st h => if_neg fun h' => h'.1 h
      rw [List.foldl_cons, List.foldl_cons, List.foldl_cons, List.foldl_cons, List.foldl_nil, st [0, 0, 0, 0] _ (z _ (by simp)), st [0, 0, 0, 1] _ (z _ (by simp)), st [0, 0, 1, 0] _ (z _ (by simp)), uniqueStep,
        if_pos ⟨by rw [h2]; norm_num, by simp⟩]
      simp
    intro y hy he
    rw [hj] at he
    have hcls : ∀ y, y = [0, 1, 1, 0] ∨ y = [1, 0, 0, 1] → SameClass false [0, 0, 1, 1] y := by
      rintro y (rfl | rfl)
      · exact .real rfl 0 0 1 1
      · exact (SameClass.real rfl 0 0 1 1).trans (.exchange 0 1 1 0)
    have hy' : y = [0, 1, 1, 0] ∨ y = [1, 0, 0, 1] := by
      by_contra hn
      unfold jk at he
      rw [if_neg hn] at he
      split_ifs at he
      · norm_num at he
      · norm_num at he
    have := (uniqueTwo_spec 2 jk false).2.2.2 _ first y hy (hcls y hy')
    rcases hy' with rfl | rfl <;> simp at this

/-! ## Projection -/

theorem mem_productOver {dims : List ℕ} {d : ℕ} {idx : List ℕ} : idx ∈ productOver dims d ↔ idx.length = d ∧ ∀ i ∈ idx, i ∈ dims := by
  induction d generalizing idx with
  | zero => rw [productOver, List.mem_singleton, List.length_eq_zero_iff]; exact ⟨fun h => ⟨h, by simp [h]⟩, fun h => h.1⟩
  | succ d ih =>
    rw [productOver, List.mem_flatMap]
    constructor
    · rintro ⟨i, hi, h⟩
      obtain ⟨l, hl, rfl⟩ := List.mem_map.1 h
      obtain ⟨h1, h2⟩ := ih.1 hl
      refine ⟨by simp [h1], fun j hj => ?_⟩
      rcases List.mem_cons.1 hj with rfl | hj
      · exact hi
      · exact h2 j hj
    · rintro ⟨h1, h2⟩
      cases idx with
      | nil => simp at h1
      | cons i l =>
        exact ⟨i, h2 i (List.mem_cons_self ..), List.mem_map.2 ⟨l, ih.2 ⟨by simpa using h1, fun j hj => h2 j (List.mem_cons_of_mem _ hj)⟩, rfl⟩⟩

theorem pred_spec (sel : Selection) (exact : Bool) (idx : List ℕ) : sel.pred exact idx = true ↔ sel.Keeps exact idx := by
  cases sel with
  | count k =>
    unfold Selection.pred Selection.Keeps
    rw [List.card_toFinset]
    cases exact <;> simp
  | modes l =>
    unfold Selection.pred Selection.Keeps
    cases exact with
    | false => simp [Finset.subset_iff]
    | true =>
      simp only [if_true, Bool.and_eq_true, List.all_eq_true, decide_eq_true_eq]
      constructor
      · rintro ⟨h1, h2⟩; ext i; simp only [List.mem_toFinset]; exact ⟨h1 i, h2 i⟩
      · intro h
        rw [Finset.ext_iff] at h
        simp only [List.mem_toFinset] at h
        exact ⟨fun i => (h i).1, fun i => (h i).2⟩

theorem keeps_dims {n : ℕ} {sel : Selection} {exact : Bool} {idx : List ℕ} (h : sel.Keeps exact idx) (hr : ∀ i ∈ idx, i < n) : ∀ i ∈ idx, i ∈ sel.dims n := by
  intro i hi
  cases sel with
  | count k => exact List.mem_range.2 (hr i hi)
  | modes l =>
    rw [Selection.dims, List.mem_dedup, ← List.mem_toFinset]
    unfold Selection.Keeps at h
    cases exact with
    | false => exact h (List.mem_toFinset.2 hi)
    | true => exact (show idx.toFinset = l.toFinset from h) ▸ List.mem_toFinset.2 hi

theorem project_fold (n : ℕ) (sel : Selection) (exact : Bool) (t : Tensor) (l : List (List ℕ)) (acc : Tensor) :
    (∀ x ∈ l, sel.Keeps exact x → ∀ i ∈ x, i < n) → ∃ u, l.foldlM (fun (acc : Tensor) idx =>
      if sel.pred exact idx then (if idx.all (fun i => decide (i < n)) then (.ok (assign acc idx (t idx)) : Except Err Tensor) else .error .indexError) else .ok acc) acc = .ok u ∧
      (∀ x, x ∈ l → sel.Keeps exact x → u x = t x) ∧ ∀ x, ¬ (x ∈ l ∧ sel.Keeps exact x) → u x = acc x := by
  induction l generalizing acc with
  | nil => exact fun _ => ⟨acc, rfl, by simp, fun _ _ => rfl⟩
  | cons e l ih =>
    intro hr
    rw [List.foldlM_cons]
    by_cases hk : sel.Keeps exact e
    · rw [if_pos ((pred_spec ..).2 hk), if_pos (List.all_eq_true.2 fun i hi => decide_eq_true (hr e List.mem_cons_self hk i hi))]
      obtain ⟨u, h1, h2, h3⟩ := ih (assign acc e (t e)) fun x hx => hr x (List.mem_cons_of_mem _ hx)
      refine ⟨u, h1, fun x hx hkx => ?_, fun x hx => ?_⟩
      · by_cases hxl : x ∈ l
        · exact h2 x hxl hkx
        · rcases List.mem_cons.1 hx with rfl | hx
          · rw [h3 x (fun h => hxl h.1), assign, if_pos rfl]
          · exact absurd hx hxl
      · rw [h3 x (fun h => hx ⟨List.mem_cons_of_mem _ h.1, h.2⟩), assign, if_neg]
        rintro rfl
        exact hx ⟨List.mem_cons_self, hk⟩
    · rw [if_neg (fun h => hk ((pred_spec ..).1 h))]
      obtain ⟨u, h1, h2, h3⟩ := ih acc fun x hx => hr x (List.mem_cons_of_mem _ hx)
      refine ⟨u, h1, fun x hx hkx => ?_, fun x hx => ?_⟩
      · rcases List.mem_cons.1 hx with rfl | hx
        · exact absurd hkx hk
        · exact h2 x hx hkx
      · exact h3 x fun h => hx ⟨List.mem_cons_of_mem _ h.1, h.2⟩

/-- The modes named by a selection exist. -/
def Selection.Valid (n : ℕ) : Selection → Prop
  | .count _ => True
  | .modes l => ∀ i ∈ l, i < n

theorem valid_dims {n : ℕ} {sel : Selection} (h : sel.Valid n) : ∀ i ∈ sel.dims n, i < n := by
  cases sel with
  | count k => exact fun i hi => List.mem_range.1 hi
  | modes l => exact fun i hi => h i (List.mem_dedup.1 hi)

open Classical in
theorem projectKey_spec {n : ℕ} {sel : Selection} (hv : sel.Valid n) (exact : Bool) (key : Key) (t : Tensor) : ∃ u, projectKey n sel exact key t = .ok u ∧
    ∀ x, InRange n key.length x → u x = if sel.Keeps exact x then t x else 0 := by
  obtain ⟨u, h1, h2, h3⟩ := project_fold n sel exact t (productOver (sel.dims n) key.length) (fun _ => 0) fun x hx _ i hi => valid_dims hv i ((mem_productOver.1 hx).2 i hi)
  refine ⟨u, h1, fun x hx => ?_⟩
  by_cases hk : sel.Keeps exact x
  · rw [if_pos hk]; exact h2 x (mem_productOver.2 ⟨hx.1, keeps_dims hk hx.2⟩) hk
  · rw [if_neg hk]; exact h3 x fun h => hk h.2

theorem mapM_ok_of {α β ε : Type} (f : α → Except ε β) (g : α → β) (l : List α) (h : ∀ a ∈ l, f a = .ok (g a)) : l.mapM f = .ok (l.map g) := by
  rw [mapM_ok_iff]
  induction l with
  | nil => exact .nil
  | cons a l ih => exact .cons (h a List.mem_cons_self) (ih fun b hb => h b (List.mem_cons_of_mem _ hb))

theorem mapM_error_of {α β : Type} {e : Err} (f : α → Except Err β) (l : List α) (h : ∀ a ∈ l, f a = .error e ∨ ∃ b, f a = .ok b) (h' : ∃ a ∈ l, f a = .error e) : l.mapM f = .error e := by
  induction l with
  | nil => obtain ⟨a, ha, -⟩ := h'; simp at ha
  | cons a l ih =>
    rw [List.mapM_cons]
    rcases h a List.mem_cons_self with ha | ⟨b, ha⟩
    · rw [ha]; rfl
    · rw [ha]
      obtain ⟨c, hc, hce⟩ := h'
      rcases List.mem_cons.1 hc with rfl | hc
      · rw [ha] at hce; cases hce
      · rw [show (Except.ok b >>= fun b => (l.mapM f) >>= fun bs => pure (b :: bs)) = ((l.mapM f) >>= fun bs => pure (b :: bs)) from rfl,
          ih (fun x hx => h x (List.mem_cons_of_mem _ hx)) ⟨c, hc, hce⟩]
        rfl

open Classical in
/-- C89.  The projection keeps the entries that the selection names and sets all others to zero; the constant is dropped only by an exact selection that is not
empty. -/
theorem projectedTensors_spec (T : PolyTensor) {sel : Selection} (hv : sel.Valid T.n) (exact : Bool) : ∃ d, projectedTensors T sel exact = .ok d ∧ keys d = keys T.tensors ∧
    value ⟨T.n, d⟩ [] [] = (if exact = true ∧ sel.truthy = true then 0 else value T [] []) ∧
    ∀ key ≠ [], ∀ x, InRange T.n key.length x → value ⟨T.n, d⟩ key x = if sel.Keeps exact x then value T key x else 0 := by
  choose u hu using fun (key : Key) (t : Tensor) => projectKey_spec hv exact key t
  refine ⟨T.tensors.map fun kv => (kv.1, if kv.1 = [] then (if !(exact && sel.truthy) then kv.2 else fun _ => 0) else u kv.1 kv.2), ?_, ?_, ?_, ?_⟩
  · refine mapM_ok_of _ _ _ fun kv _ => ?_
    by_cases hk : kv.1 = []
    · rw [if_pos hk, if_pos hk]
    · rw [if_neg hk, if_neg hk, (hu kv.1 kv.2).1]; rfl
  · rw [keys, keys, List.map_map]; rfl
  · rw [value_map T (fun k t => if k = [] then (if !(exact && sel.truthy) then t else fun _ => 0) else u k t)]
    rw [value]
    cases get? T.tensors [] with
    | none => simp
    | some t => cases exact <;> cases sel.truthy <;> simp
  · intro key hk x hx
    rw [value_map T (fun k t => if k = [] then (if !(exact && sel.truthy) then t else fun _ => 0) else u k t), value]
    cases get? T.tensors key with
    | none => simp
    | some t => simp only [Option.map_some, Option.getD_some, if_neg hk]; exact (hu key t).2 x hx

open Classical in
/-- C89.  `InteractionOperator.projected`. -/
theorem projected_spec (n : ℕ) (c : ℂ) (one two : Tensor) {sel : Selection} (hv : sel.Valid n) (exact : Bool) : ∃ one' two',
    projected n c one two sel exact = .ok (interaction n (if exact = true ∧ sel.truthy = true then 0 else c) one' two') ∧
    (∀ x, InRange n 2 x → one' x = if sel.Keeps exact x then one x else 0) ∧ ∀ x, InRange n 4 x → two' x = if sel.Keeps exact x then two x else 0 := by
  obtain ⟨one', h1, k1⟩ := projectKey_spec hv exact [true, false] one
  obtain ⟨two', h2, k2⟩ := projectKey_spec hv exact [true, true, false, false] two
  refine ⟨one', two', ?_, k1, k2⟩
  have hd : projectedTensors (interaction n c one two) sel exact = .ok [([], if !(exact && sel.truthy) then (fun _ => c) else fun _ => 0), ([true, false], one'),
      ([true, true, false, false], two')] := by
    unfold projectedTensors
    rw [show (interaction n c one two).tensors = [([], fun _ => c), ([true, false], one), ([true, true, false, false], two)] from rfl, List.mapM_cons, List.mapM_cons,
      List.mapM_cons, List.mapM_nil]
    rw [if_pos (rfl : ([] : Key) = []), if_neg (by simp : ¬ ([true, false] : Key) = []), if_neg (by simp : ¬ ([true, true, false, false] : Key) = []),
      show (interaction n c one two).n = n from rfl, h1, h2]
    rfl
  unfold projected
  rw [hd]
  cases exact <;> cases sel.truthy <;> rfl

theorem project_fold_error (n : ℕ) (sel : Selection) (exact : Bool) (t : Tensor) (l : List (List ℕ)) (acc : Tensor) (h : ∃ x ∈ l, sel.Keeps exact x ∧ ∃ i ∈ x, n ≤ i) :
    l.foldlM (fun (acc : Tensor) idx => if sel.pred exact idx then (if idx.all (fun i => decide (i < n)) then (.ok (assign acc idx (t idx)) : Except Err Tensor) else
      .error .indexError) else .ok acc) acc = .error .indexError := by
  induction l generalizing acc with
  | nil => obtain ⟨x, hx, -⟩ := h; simp at hx
  | cons e l ih =>
    rw [List.foldlM_cons]
    by_cases hk : sel.Keeps exact e
    · rw [if_pos ((pred_spec ..).2 hk)]
      by_cases hr : ∀ i ∈ e, i < n
      · rw [if_pos (List.all_eq_true.2 fun i hi => decide_eq_true (hr i hi))]
        refine ih _ ?_
        obtain ⟨x, hx, hkx, i, hi, hni⟩ := h
        rcases List.mem_cons.1 hx with rfl | hx
        · exact absurd (hr i hi) (by omega)
        · exact ⟨x, hx, hkx, i, hi, hni⟩
      · rw [if_neg (fun h => hr fun i hi => of_decide_eq_true (List.all_eq_true.1 h i hi))]; rfl
    · rw [if_neg (fun h => hk ((pred_spec ..).1 h))]
      refine ih _ ?_
      obtain ⟨x, hx, hkx, hi⟩ := h
      rcases List.mem_cons.1 hx with rfl | hx
      · exact absurd hkx hk
      · exact ⟨x, hx, hkx, hi⟩

/-- C89.  A selection (not exact) that names a mode that does not exist raises `IndexError`. -/
theorem projected_error (n : ℕ) (c : ℂ) (one two : Tensor) {l : List ℕ} (h : ∃ i ∈ l, n ≤ i) : projected n c one two (.modes l) false = .error .indexError := by
  obtain ⟨i, hi, hn⟩ := h
  have h1 : projectKey n (.modes l) false [true, false] one = .error .indexError :=
    project_fold_error n _ _ _ _ _ ⟨[i, i], mem_productOver.2 ⟨rfl, by simp [Selection.dims, hi]⟩, by simp [Selection.Keeps, Finset.subset_iff, hi], i, by simp, hn⟩
  unfold projected projectedTensors
  rw [show (interaction n c one two).tensors = [([], fun _ => c), ([true, false], one), ([true, true, false, false], two)] from rfl, List.mapM_cons, List.mapM_cons]
  rw [if_pos (rfl : ([] : Key) = []), if_neg (by simp : ¬ ([true, false] : Key) = []), show (interaction n c one two).n = n from rfl, h1]
  rfl

/-! ### The exact projections add up -/

theorem tensorAction_sum {ι : Type} (s : Finset ι) (n : ℕ) (key : Key) (t : ι → Tensor) : tensorAction n key (fun i => ∑ k ∈ s, t k i) = ∑ k ∈ s, tensorAction n key (t k) := by
  classical
  induction s using Finset.induction_on with
  | empty => simp only [Finset.sum_empty]; exact tensorAction_zero n key
  | insert a s ha ih => simp only [Finset.sum_insert ha]; rw [tensorAction_add, ih]

theorem interaction_split (n : ℕ) (c : ℂ) (one two : Tensor) : polyAction (interaction n c one two) =
    c • 1 + tensorAction n [true, false] one + tensorAction n [true, true, false, false] two := by
  rw [polyAction, interaction, List.map_cons, List.map_cons, List.map_cons, List.map_nil, List.sum_cons, List.sum_cons, List.sum_cons, List.sum_nil, add_zero,
    tensorAction_const, ← add_assoc]

theorem interaction_sum {ι : Type} (s : Finset ι) (n : ℕ) (c : ℂ) (one two : Tensor) (c' : ι → ℂ) (one' two' : ι → Tensor) (hc : c = ∑ k ∈ s, c' k)
    (h1 : ∀ x, InRange n 2 x → one x = ∑ k ∈ s, one' k x) (h2 : ∀ x, InRange n 4 x → two x = ∑ k ∈ s, two' k x) :
    polyAction (interaction n c one two) = ∑ k ∈ s, polyAction (interaction n (c' k) (one' k) (two' k)) := by
  simp only [interaction_split, Finset.sum_add_distrib]
  rw [← Finset.sum_smul, ← hc, ← tensorAction_sum, ← tensorAction_sum, tensorAction_congr (key := [true, false]) h1, tensorAction_congr (key := [true, true, false, false]) h2]

/-- C89.  The terms with exactly 0, 1, 2, 3 and 4 different modes make up the operator. -/
theorem projected_counts (n : ℕ) (c : ℂ) (one two : Tensor) : ∃ R : ℕ → PolyTensor, (∀ k : ℕ, projected n c one two (.count k) true = .ok (R k)) ∧
    polyAction (interaction n c one two) = ∑ k ∈ Finset.range 5, polyAction (R k) := by
  classical
  choose one' two' h0 h1 h2 using fun k : ℕ => projected_spec n c one two (sel := .count k) trivial true
  refine ⟨_, h0, interaction_sum _ n c one two _ one' two' ?_ (fun x hx => ?_) fun x hx => ?_⟩
  · rw [Finset.sum_eq_single 0]
    · simp [Selection.truthy]
    · intro k _ hk; simp [Selection.truthy, hk]
    · simp
  · have hc : x.toFinset.card < 5 := lt_of_le_of_lt (List.toFinset_card_le x) (by rw [hx.1]; norm_num)
    rw [Finset.sum_eq_single x.toFinset.card]
    · rw [h1 _ x hx, if_pos (by simp [Selection.Keeps])]
    · intro k _ hk
      rw [h1 _ x hx, if_neg]
      simp only [Selection.Keeps, if_true, Nat.cast_inj]
      exact Ne.symm hk
    · intro h; exact absurd (Finset.mem_range.2 hc) h
  · have hc : x.toFinset.card < 5 := lt_of_le_of_lt (List.toFinset_card_le x) (by rw [hx.1]; norm_num)
    rw [Finset.sum_eq_single x.toFinset.card]
    · rw [h2 _ x hx, if_pos (by simp [Selection.Keeps])]
    · intro k _ hk
      rw [h2 _ x hx, if_neg]
      simp only [Selection.Keeps, if_true, Nat.cast_inj]
      exact Ne.symm hk
    · intro h; exact absurd (Finset.mem_range.2 hc) h

/-- C89.  The terms on modes from a set are made up of the terms on exactly the modes of each of its subsets. -/
theorem projected_subsets (n : ℕ) (c : ℂ) (one two : Tensor) {l : List ℕ} (hl : ∀ i ∈ l, i < n) : ∃ (T : PolyTensor) (R : Finset ℕ → PolyTensor),
    projected n c one two (.modes l) false = .ok T ∧ (∀ S ⊆ l.toFinset, projected n c one two (.modes (S.sort (· ≤ ·))) true = .ok (R S)) ∧
    polyAction T = ∑ S ∈ l.toFinset.powerset, polyAction (R S) := by
  classical
  obtain ⟨one0, two0, g0, g1, g2⟩ := projected_spec n c one two (sel := .modes l) hl false
  have hS : ∀ S : {S : Finset ℕ // S ⊆ l.toFinset}, (Selection.modes (S.1.sort (· ≤ ·))).Valid n := fun S i hi => hl i (List.mem_toFinset.1 (S.2 ((Finset.mem_sort _).1 hi)))
  choose one' two' h0 h1 h2 using fun S : {S : Finset ℕ // S ⊆ l.toFinset} => projected_spec n c one two (hS S) true
  let cS : Finset ℕ → ℂ := fun S => if true = true ∧ (Selection.modes (S.sort (· ≤ ·))).truthy = true then 0 else c
  let oS : Finset ℕ → Tensor := fun S => if h : S ⊆ l.toFinset then one' ⟨S, h⟩ else fun _ => 0
  let tS : Finset ℕ → Tensor := fun S => if h : S ⊆ l.toFinset then two' ⟨S, h⟩ else fun _ => 0
  refine ⟨_, fun S => interaction n (cS S) (oS S) (tS S), g0, fun S h => ?_, ?_⟩
  · rw [h0 ⟨S, h⟩]
    simp only [oS, tS, cS, dif_pos h]
  · have pick : ∀ (x : List ℕ) (d : ℕ) (f : Finset ℕ → ℂ) (a : ℂ), (∀ S ⊆ l.toFinset, f S = if (Selection.modes (S.sort (· ≤ ·))).Keeps true x then a else 0) →
        ∑ S ∈ l.toFinset.powerset, f S = if (Selection.modes l).Keeps false x then a else 0 := by
      intro x d f a hf
      have ks : ∀ S : Finset ℕ, (Selection.modes (S.sort (· ≤ ·))).Keeps true x ↔ x.toFinset = S := by
        intro S
        show x.toFinset = (S.sort (· ≤ ·)).toFinset ↔ _
        rw [Finset.sort_toFinset]
      by_cases hx : x.toFinset ⊆ l.toFinset
      · rw [Finset.sum_eq_single x.toFinset, hf _ hx, if_pos ((ks _).2 rfl)]
        · rw [if_pos]; exact hx
        · intro S hS' hne
          rw [hf S (Finset.mem_powerset.1 hS'), if_neg (fun h => hne ((ks S).1 h).symm)]
        · intro h; exact absurd (Finset.mem_powerset.2 hx) h
      · rw [if_neg (show ¬ (Selection.modes l).Keeps false x from hx)]
        refine Finset.sum_eq_zero fun S hS' => ?_
        rw [hf S (Finset.mem_powerset.1 hS'), if_neg]
        rw [ks]
        rintro rfl
        exact hx (Finset.mem_powerset.1 hS')
    refine interaction_sum _ n _ one0 two0 cS oS tS ?_ (fun x hx => ?_) fun x hx => ?_
    · rw [if_neg (by simp)]
      symm
      rw [Finset.sum_eq_single ∅]
      · simp [cS, Selection.truthy]
      · intro S _ hne
        simp only [cS]
        rw [if_pos]
        refine ⟨trivial, ?_⟩
        simp only [Selection.truthy, Bool.not_eq_true', List.isEmpty_eq_false_iff]
        intro he
        exact hne (by rw [← Finset.sort_toFinset S (· ≤ ·), he]; rfl)
      · intro h; exact absurd (Finset.empty_mem_powerset _) h
    · rw [g1 x hx]
      refine (pick x 2 (fun S => oS S x) (one x) fun S h => ?_).symm
      simp only [oS, dif_pos h]
      exact h1 ⟨S, h⟩ x hx
    · rw [g2 x hx]
      refine (pick x 4 (fun S => tS S x) (two x) fun S h => ?_).symm
      simp only [tS, dif_pos h]
      exact h2 ⟨S, h⟩ x hx

theorem zero_spec (n : ℕ) : polyAction (zeroInteraction n) = 0 := by
  rw [zeroInteraction, interaction_split, tensorAction_zero, tensorAction_zero, zero_smul, add_zero, add_zero]

/-! ## Rotation -/

theorem list_sum_range {M : Type} [AddCommMonoid M] (n : ℕ) (f : ℕ → M) : ((List.range n).map f).sum = ∑ i ∈ Finset.range n, f i := by
  rw [sum_range_list, Finset.sum_range]

theorem list_mul_sum {A : Type} [Semiring A] {α : Type} (a : A) (l : List α) (f : α → A) : a * (l.map f).sum = (l.map fun x => a * f x).sum := by
  induction l with
  | nil => simp
  | cons x l ih => rw [List.map_cons, List.sum_cons, mul_add, ih, List.map_cons, List.sum_cons]

theorem term_rot (n : ℕ) (R : Rot) (key : Key) (a : List ℕ) (ha : a.length = key.length) :
    termAction (rotLadder n R) (a.zip key) = ((allIndices n key.length).map fun x => rotProd R key a x • termAction ladderAction (x.zip key)).sum := by
  induction key generalizing a with
  | nil => simp [allIndices, rotProd, termAction]
  | cons b key ih =>
    match a, ha with
    | a :: as, ha =>
      have ha' : as.length = key.length := by simpa using ha
      rw [List.zip_cons_cons, termAction_cons, ih as ha', List.length_cons, allIndices, sum_flatMap, rotLadder, list_sum_range, Finset.sum_mul]
      refine Finset.sum_congr rfl fun x _ => ?_
      rw [list_mul_sum, List.map_map]
      congr 1
      refine List.map_congr_left fun xs _ => ?_
      show _ = rotProd R (b :: key) (a :: as) (x :: xs) • termAction ladderAction ((x :: xs).zip (b :: key))
      rw [List.zip_cons_cons, termAction_cons, rotProd, smul_mul_assoc, mul_smul_comm, smul_smul]

theorem tensorActionWith_eq (ev : ℕ × Bool → Module.End ℂ State) (n : ℕ) (key : Key) (t : Tensor) :
    tensorActionWith ev n key t = ((allIndices n key.length).map fun i => t i • termAction ev (i.zip key)).sum := by
  rw [sum_allIndices]; rfl

/-- The operator of a rotated array is that of the original one in terms of rotated ladder operators. -/
theorem rotate_action (n : ℕ) (R : Rot) (key : Key) (t : Tensor) :
    tensorAction n key (fun x => ((allIndices n key.length).map fun a => t a * rotProd R key a x).sum) = tensorActionWith (rotLadder n R) n key t := by
  rw [tensorAction_eq, tensorActionWith_eq]
  have h1 : ((allIndices n key.length).map fun i => t i • termAction (rotLadder n R) (i.zip key)) =
      (allIndices n key.length).map fun i => t i • ((allIndices n key.length).map fun x => rotProd R key i x • termAction ladderAction (x.zip key)).sum :=
    List.map_congr_left fun i hi => by rw [term_rot n R key i (length_of_mem hi)]
  rw [h1]
  simp only [sum_allIndices, Finset.sum_smul, Finset.smul_sum, smul_smul]
  exact Finset.sum_comm

theorem basisChange_ok {n m : ℕ} (R : Rot) {key : Key} (hk : key.length ≤ 26) (hn : n = 2 * m ∨ n = m) (t : Tensor) :
    basisChange n m R key t = .ok fun x => ((allIndices n key.length).map fun a => t a * rotProd (onModes n m R) key a x).sum := by
  unfold basisChange onModes
  rw [if_neg (by omega)]
  by_cases h : n = 2 * m
  · rw [if_pos h, if_pos h]
  · rw [if_neg h, if_neg h, if_pos (hn.resolve_left h)]

/-- The rotated object. -/
noncomputable def rotated (T : PolyTensor) (R : Rot) : PolyTensor :=
  ⟨T.n, T.tensors.map fun kv => (kv.1, fun x => ((allIndices T.n kv.1.length).map fun a => kv.2 a * rotProd R kv.1 a x).sum)⟩

/-- Objects with the same arrays. -/
def SameArrays (T U : PolyTensor) : Prop := T.n = U.n ∧ keys T.tensors = keys U.tensors ∧ ∀ key x, InRange T.n key.length x → value T key x = value U key x

theorem value_rotated (T : PolyTensor) (R : Rot) (key : Key) (x : List ℕ) : value (rotated T R) key x = ((allIndices T.n key.length).map fun a => value T key a * rotProd R key a x).sum := by
  rw [rotated, value_map T (fun k t => fun x => ((allIndices T.n k.length).map fun a => t a * rotProd R k a x).sum)]
  unfold value
  cases get? T.tensors key with
  | none => simp
  | some t => rfl

theorem rotateBasis_ok {T : PolyTensor} {m : ℕ} (R : Rot) (hk : ∀ k ∈ keys T.tensors, k.length ≤ 26) (hn : T.n = 2 * m ∨ T.n = m) :
    ∃ T', rotateBasis T m R = .ok T' ∧ T'.n = T.n ∧ keys T'.tensors = keys T.tensors ∧ (∀ key x, InRange T.n key.length x → value T' key x = value (rotated T (onModes T.n m R)) key x) ∧
      polyAction T' = polyActionWith (rotLadder T.n (onModes T.n m R)) T := by
  refine ⟨⟨T.n, T.tensors.map fun kv => (kv.1, if kv.1 = [] then kv.2 else fun x => ((allIndices T.n kv.1.length).map fun a => kv.2 a * rotProd (onModes T.n m R) kv.1 a x).sum)⟩,
    ?_, rfl, ?_, fun key x hx => ?_, ?_⟩
  · unfold rotateBasis
    rw [mapM_ok_of _ (fun kv : Key × Tensor => (kv.1, if kv.1 = [] then kv.2 else fun x => ((allIndices T.n kv.1.length).map fun a => kv.2 a * rotProd (onModes T.n m R) kv.1 a x).sum))]
    · rfl
    · intro kv hkv
      by_cases h : kv.1 = []
      · rw [if_pos h, if_pos h]
      · rw [if_neg h, if_neg h, basisChange_ok R (hk _ (List.mem_map.2 ⟨kv, hkv, rfl⟩)) hn]; rfl
  · rw [keys, keys, List.map_map]; rfl
  · rw [value_rotated, value_map T (fun k t => if k = [] then t else fun x => ((allIndices T.n k.length).map fun a => t a * rotProd (onModes T.n m R) k a x).sum)]
    unfold value
    cases get? T.tensors key with
    | none => simp
    | some t =>
      by_cases h : key = []
      · subst h
        have : x = [] := List.length_eq_zero_iff.1 hx.1
        subst this
        simp [allIndices, rotProd]
      · simp [h]
  · rw [polyAction, polyActionWith, List.map_map]
    congr 1
    refine List.map_congr_left fun kv _ => ?_
    show tensorAction T.n kv.1 (if kv.1 = [] then kv.2 else _) = _
    by_cases h : kv.1 = []
    · rw [if_pos h, h, tensorAction_const, tensorActionWith_eq]
      simp [allIndices, termAction]
    · rw [if_neg h, rotate_action]

/-- C89.  `rotate_basis` replaces every ladder operator by the one of the rotated basis, `b†_a = Σ conj(R_ax) a†_x`, `b_a = Σ R_ax a_x`, and keeps the constant.
For arrays over spin orbitals the matrix acts on both spins. -/
theorem rotate_spec {T : PolyTensor} {m : ℕ} (R : Rot) (hk : ∀ k ∈ keys T.tensors, k.length ≤ 26) (hn : T.n = 2 * m ∨ T.n = m) :
    ∃ T', rotateBasis T m R = .ok T' ∧ T'.n = T.n ∧ keys T'.tensors = keys T.tensors ∧ polyAction T' = polyActionWith (rotLadder T.n (onModes T.n m R)) T := by
  obtain ⟨T', h1, h2, h3, -, h4⟩ := rotateBasis_ok R hk hn
  exact ⟨T', h1, h2, h3, h4⟩

/-- C89.  Matrices of another dimension and arrays with more than 26 indices are rejected. -/
theorem rotate_error {T : PolyTensor} {m : ℕ} (R : Rot) (h : (T.n ≠ 2 * m ∧ T.n ≠ m ∧ ∃ k ∈ keys T.tensors, k ≠ []) ∨ ∃ k ∈ keys T.tensors, 26 < k.length) :
    rotateBasis T m R = .error .valueError := by
  have dich : ∀ (key : Key) (t : Tensor), basisChange T.n m R key t = .error .valueError ∨ ∃ b, basisChange T.n m R key t = .ok b := by
    intro key t
    unfold basisChange
    split_ifs
    · exact Or.inl rfl
    · exact Or.inr ⟨_, rfl⟩
    · exact Or.inr ⟨_, rfl⟩
    · exact Or.inl rfl
  unfold rotateBasis
  rw [mapM_error_of (e := .valueError)]
  · rfl
  · intro kv _
    by_cases hk : kv.1 = []
    · rw [if_pos hk]; exact Or.inr ⟨_, rfl⟩
    · rw [if_neg hk]
      rcases dich kv.1 kv.2 with h | ⟨b, h⟩
      · rw [h]; exact Or.inl rfl
      · rw [h]; exact Or.inr ⟨_, rfl⟩
  · rcases h with ⟨h1, h2, k, hk, hne⟩ | ⟨k, hk, hlt⟩
    · obtain ⟨kv, hkv, rfl⟩ := List.mem_map.1 hk
      refine ⟨kv, hkv, ?_⟩
      rw [if_neg hne, basisChange, if_neg h1, if_neg h2, ite_self]
      rfl
    · obtain ⟨kv, hkv, rfl⟩ := List.mem_map.1 hk
      refine ⟨kv, hkv, ?_⟩
      rw [if_neg (by intro h; rw [h] at hlt; simp at hlt), basisChange, if_pos hlt]
      rfl

/-! ### Composition -/

theorem rotProd_congr {n : ℕ} {R S : Rot} (h : RotEq n R S) (key : Key) {a x : List ℕ} (ha : ∀ i ∈ a, i < n) (hx : ∀ i ∈ x, i < n) : rotProd R key a x = rotProd S key a x := by
  induction key generalizing a x with
  | nil => cases a <;> cases x <;> rfl
  | cons b key ih =>
    cases a with
    | nil => rfl
    | cons a as =>
      cases x with
      | nil => rfl
      | cons x xs =>
        rw [rotProd, rotProd, h a (ha a List.mem_cons_self) x (hx x List.mem_cons_self),
          ih (fun i hi => ha i (List.mem_cons_of_mem _ hi)) fun i hi => hx i (List.mem_cons_of_mem _ hi)]

theorem rotProd_mul (n : ℕ) (R S : Rot) (key : Key) (a x : List ℕ) (ha : a.length = key.length) (hx : x.length = key.length) :
    ((allIndices n key.length).map fun b => rotProd R key a b * rotProd S key b x).sum = rotProd (rotMul n R S) key a x := by
  induction key generalizing a x with
  | nil => simp [allIndices, rotProd]
  | cons b key ih =>
    match a, x, ha, hx with
    | a :: as, x :: xs, ha, hx =>
      rw [List.length_cons, allIndices, sum_flatMap, list_sum_range]
      have e : ∀ i, (((allIndices n key.length).map (i :: ·)).map fun c => rotProd R (b :: key) (a :: as) c * rotProd S (b :: key) c (x :: xs)).sum =
          ((if b then (starRingEnd ℂ) (R a i) else R a i) * (if b then (starRingEnd ℂ) (S i x) else S i x)) * rotProd (rotMul n R S) key as xs := by
        intro i
        rw [← ih as xs (by simpa using ha) (by simpa using hx), list_mul_sum, List.map_map]
        congr 1
        refine List.map_congr_left fun c _ => ?_
        show rotProd R (b :: key) (a :: as) (i :: c) * rotProd S (b :: key) (i :: c) (x :: xs) = _
        rw [rotProd, rotProd]
        ring
      simp only [e]
      rw [← Finset.sum_mul, rotProd]
      congr 1
      cases b
      · simp [rotMul]
      · simp [rotMul, map_sum]

theorem rotProd_one (key : Key) (a x : List ℕ) (ha : a.length = key.length) (hx : x.length = key.length) : rotProd rotOne key a x = if a = x then 1 else 0 := by
  induction key generalizing a x with
  | nil => rw [List.length_eq_zero_iff.1 ha, List.length_eq_zero_iff.1 hx]; simp [rotProd]
  | cons b key ih =>
    match a, x, ha, hx with
    | a :: as, x :: xs, ha, hx =>
      rw [rotProd, ih as xs (by simpa using ha) (by simpa using hx)]
      have h1 : (if b then (starRingEnd ℂ) (rotOne a x) else rotOne a x) = if a = x then 1 else 0 := by unfold rotOne; cases b <;> simp
      rw [h1]
      by_cases e1 : a = x <;> by_cases e2 : as = xs <;> simp [e1, e2]

theorem sum_pairs {M : Type} [AddCommMonoid M] (m : ℕ) (f : ℕ → M) : ∑ x ∈ Finset.range (2 * m), f x = ∑ p ∈ Finset.range m, (f (2 * p) + f (2 * p + 1)) := by
  induction m with
  | zero => rfl
  | succ m ih => rw [show 2 * (m + 1) = 2 * m + 1 + 1 by ring, Finset.sum_range_succ, Finset.sum_range_succ, ih, Finset.sum_range_succ _ m, add_assoc]

theorem kron_mul (m : ℕ) (R S : Rot) : rotMul (2 * m) (kronEye R) (kronEye S) = kronEye (rotMul m R S) := by
  funext a x
  unfold rotMul kronEye
  rw [sum_pairs, Finset.sum_mul]
  refine Finset.sum_congr rfl fun p _ => ?_
  rw [show 2 * p / 2 = p by omega, show (2 * p + 1) / 2 = p by omega, show 2 * p % 2 = 0 by omega, show (2 * p + 1) % 2 = 1 by omega]
  rcases Nat.mod_two_eq_zero_or_one a with ha | ha <;> rcases Nat.mod_two_eq_zero_or_one x with hx | hx <;> simp [ha, hx]

theorem onModes_mul {n m : ℕ} (hn : n = 2 * m ∨ n = m) (R S : Rot) : rotMul n (onModes n m R) (onModes n m S) = onModes n m (rotMul m R S) := by
  unfold onModes
  by_cases h : n = 2 * m
  · rw [if_pos h, if_pos h, if_pos h, h, kron_mul]
  · rw [if_neg h, if_neg h, if_neg h, hn.resolve_left h]

theorem onModes_congr {n m : ℕ} (hn : n = 2 * m ∨ n = m) {R S : Rot} (h : RotEq m R S) : RotEq n (onModes n m R) (onModes n m S) := by
  intro a ha x hx
  unfold onModes
  by_cases e : n = 2 * m
  · rw [if_pos e, if_pos e, kronEye, kronEye, h _ (by omega) _ (by omega)]
  · rw [if_neg e, if_neg e]
    have := hn.resolve_left e
    exact h a (by omega) x (by omega)

theorem onModes_one (n m : ℕ) : onModes n m rotOne = rotOne := by
  unfold onModes
  split_ifs
  · funext a x
    unfold kronEye rotOne
    by_cases e : a = x
    · subst e; simp
    · rw [if_neg e]
      by_cases e1 : a / 2 = x / 2
      · rw [if_neg (show ¬ a % 2 = x % 2 by omega), mul_zero]
      · rw [if_neg e1, zero_mul]
  · rfl

theorem rotated_mul (T : PolyTensor) (R S : Rot) (key : Key) (x : List ℕ) (hx : x.length = key.length) :
    ((allIndices T.n key.length).map fun a => value (rotated T R) key a * rotProd S key a x).sum = value (rotated T (rotMul T.n R S)) key x := by
  rw [value_rotated]
  have e : ((allIndices T.n key.length).map fun a => value T key a * rotProd (rotMul T.n R S) key a x) =
      (allIndices T.n key.length).map fun a => value T key a * ((allIndices T.n key.length).map fun b => rotProd R key a b * rotProd S key b x).sum :=
    List.map_congr_left fun a ha => by rw [rotProd_mul T.n R S key a x (length_of_mem ha) hx]
  rw [e]
  simp only [value_rotated, sum_allIndices, Finset.sum_mul, Finset.mul_sum]
  rw [Finset.sum_comm]
  exact Finset.sum_congr rfl fun a _ => Finset.sum_congr rfl fun b _ => by ring

/-- C89.  Rotating by `R` and then by `S` is rotating by `R S`. -/
theorem rotate_compose {T : PolyTensor} {m : ℕ} (R S : Rot) (hk : ∀ k ∈ keys T.tensors, k.length ≤ 26) (hn : T.n = 2 * m ∨ T.n = m) :
    ∃ T1 T2 T3, rotateBasis T m R = .ok T1 ∧ rotateBasis T1 m S = .ok T2 ∧ rotateBasis T m (rotMul m R S) = .ok T3 ∧ SameArrays T2 T3 := by
  obtain ⟨T1, h1, n1, k1, v1, -⟩ := rotateBasis_ok R hk hn
  obtain ⟨T2, h2, n2, k2, v2, -⟩ := rotateBasis_ok (T := T1) (m := m) S (by rw [k1]; exact hk) (by rw [n1]; exact hn)
  obtain ⟨T3, h3, n3, k3, v3, -⟩ := rotateBasis_ok (T := T) (rotMul m R S) hk hn
  refine ⟨T1, T2, T3, h1, h2, h3, by rw [n2, n1, n3], by rw [k2, k1, k3], fun key x hx => ?_⟩
  rw [n2, n1] at hx
  rw [v2 key x (by rw [n1]; exact hx), v3 key x hx, value_rotated, n1, ← onModes_mul hn, ← rotated_mul T _ _ key x hx.1]
  congr 1
  exact List.map_congr_left fun a ha => by rw [v1 key a (mem_allIndices.1 ha)]

theorem sum_delta_list {α : Type} [DecidableEq α] {l : List α} (hl : l.Nodup) {x : α} (hx : x ∈ l) (v : ℂ) : (l.map fun a => if a = x then v else 0).sum = v := by
  induction l with
  | nil => simp at hx
  | cons b l ih =>
    rw [List.map_cons, List.sum_cons]
    rw [List.nodup_cons] at hl
    by_cases e : b = x
    · subst e
      rw [if_pos rfl, List.sum_eq_zero, add_zero]
      intro y hy
      obtain ⟨c, hc, rfl⟩ := List.mem_map.1 hy
      have hne : c ≠ b := fun h => hl.1 (by rw [← h]; exact hc)
      exact if_neg hne
    · rw [if_neg e, zero_add]
      rcases List.mem_cons.1 hx with h | h
      · exact absurd h.symm e
      · exact ih hl.2 h

theorem rotated_one (T : PolyTensor) {R : Rot} (hR : RotEq T.n R rotOne) (key : Key) {x : List ℕ} (hx : InRange T.n key.length x) : value (rotated T R) key x = value T key x := by
  rw [value_rotated]
  have : ((allIndices T.n key.length).map fun a => value T key a * rotProd R key a x) = (allIndices T.n key.length).map fun a => if a = x then value T key x else 0 := by
    refine List.map_congr_left fun a ha => ?_
    rw [rotProd_congr hR key (mem_allIndices.1 ha).2 hx.2, rotProd_one key a x (length_of_mem ha) hx.1]
    by_cases e : a = x
    · rw [if_pos e, if_pos e, e, mul_one]
    · rw [if_neg e, if_neg e, mul_zero]
  rw [this, sum_delta_list (nodup_allIndices ..) (mem_allIndices.2 hx)]

/-- C89.  Rotating by a matrix and then by its inverse gives the original arrays back. -/
theorem rotate_inverse {T : PolyTensor} {m : ℕ} {R S : Rot} (hRS : RotEq m (rotMul m R S) rotOne) (hk : ∀ k ∈ keys T.tensors, k.length ≤ 26) (hn : T.n = 2 * m ∨ T.n = m) :
    ∃ T1 T2, rotateBasis T m R = .ok T1 ∧ rotateBasis T1 m S = .ok T2 ∧ SameArrays T2 T := by
  obtain ⟨T1, T2, T3, h1, h2, h3, e1, e2, e3⟩ := rotate_compose R S hk hn
  obtain ⟨T3', h3', n3, k3, v3, -⟩ := rotateBasis_ok (T := T) (rotMul m R S) hk hn
  rw [h3] at h3'
  cases h3'
  refine ⟨T1, T2, h1, h2, by rw [e1, n3], by rw [e2, k3], fun key x hx => ?_⟩
  rw [e3 key x hx]
  rw [e1, n3] at hx
  have := onModes_congr hn hRS
  rw [onModes_one] at this
  rw [v3 key x hx, rotated_one T this key hx]

/-- C89.  Rotating by the identity changes nothing. -/
theorem rotate_identity {T : PolyTensor} {m : ℕ} (hk : ∀ k ∈ keys T.tensors, k.length ≤ 26) (hn : T.n = 2 * m ∨ T.n = m) :
    ∃ T1, rotateBasis T m rotOne = .ok T1 ∧ SameArrays T1 T := by
  obtain ⟨T1, h1, n1, k1, v1, -⟩ := rotateBasis_ok (T := T) (m := m) rotOne hk hn
  refine ⟨T1, h1, n1, k1, fun key x hx => ?_⟩
  rw [n1] at hx
  rw [v1 key x hx, rotated_one T (by rw [onModes_one]; exact fun _ _ _ _ => rfl) key hx]

/-- C89.  Contracting two rotated arrays, such as those of a Hamiltonian and of a density matrix, gives the same number as contracting the original ones, if the matrix
is real and orthogonal. -/
theorem rotate_contract {T U : PolyTensor} {m : ℕ} {R : Rot} (hreal : ∀ a < m, ∀ x < m, (R a x).im = 0) (horth : RotEq m (rotMul m R (rotAdj R)) rotOne)
    (hk : ∀ k ∈ keys T.tensors, k.length ≤ 26) (hk' : ∀ k ∈ keys U.tensors, k.length ≤ 26) (hn : T.n = 2 * m ∨ T.n = m) (hU : U.n = T.n) :
    ∃ T' U', rotateBasis T m R = .ok T' ∧ rotateBasis U m R = .ok U' ∧ ∀ key,
      ((allIndices T.n key.length).map fun x => value T' key x * value U' key x).sum = ((allIndices T.n key.length).map fun x => value T key x * value U key x).sum := by
  obtain ⟨T', h1, n1, k1, v1, -⟩ := rotateBasis_ok (T := T) R hk hn
  obtain ⟨U', h2, n2, k2, v2, -⟩ := rotateBasis_ok (T := U) (m := m) R hk' (by rw [hU]; exact hn)
  refine ⟨T', U', h1, h2, fun key => ?_⟩
  rw [hU] at v2 n2
  set Q := onModes T.n m R with hQ
  -- the rotated copy of `U` contracted with `Q` gives `U` back
  have hcr : ∀ a < m, ∀ x < m, (starRingEnd ℂ) (R a x) = R a x := fun a ha x hx => Complex.conj_eq_iff_im.2 (hreal a ha x hx)
  have hQc : ∀ a < T.n, ∀ x < T.n, (starRingEnd ℂ) (Q a x) = Q a x := by
    intro a ha x hx
    rw [hQ]
    unfold onModes
    by_cases e : T.n = 2 * m
    · rw [if_pos e, kronEye, map_mul, hcr _ (by omega) _ (by omega)]
      split_ifs <;> simp
    · rw [if_neg e]
      have := hn.resolve_left e
      exact hcr a (by omega) x (by omega)
  have hadj : ∀ (key : Key) (a x : List ℕ), a.length = key.length → x.length = key.length → (∀ i ∈ a, i < T.n) → (∀ i ∈ x, i < T.n) → rotProd Q key a x = rotProd (rotAdj Q) key x a := by
    intro key
    induction key with
    | nil => intro a x _ _ _ _; simp [rotProd]
    | cons b key ih =>
      intro a x ha hx hra hrx
      match a, x, ha, hx with
      | a :: as, x :: xs, ha, hx =>
        rw [rotProd, rotProd, ih as xs (by simpa using ha) (by simpa using hx) (fun i hi => hra i (List.mem_cons_of_mem _ hi)) fun i hi => hrx i (List.mem_cons_of_mem _ hi)]
        have e := hQc a (hra a List.mem_cons_self) x (hrx x List.mem_cons_self)
        cases b <;> simp [rotAdj, e]
  have hmul : RotEq T.n (rotMul T.n Q (rotAdj Q)) rotOne := by
    have e1 : rotAdj Q = onModes T.n m (rotAdj R) := by
      rw [hQ]
      unfold onModes
      split_ifs
      · funext a x
        unfold rotAdj kronEye
        rw [map_mul]
        congr 1
        by_cases e : a % 2 = x % 2
        · rw [if_pos e, if_pos e.symm, map_one]
        · rw [if_neg e, if_neg (Ne.symm e), map_zero]
      · rfl
    rw [e1, hQ, onModes_mul hn]
    have := onModes_congr hn horth
    rwa [onModes_one] at this
  have e1 : ((allIndices T.n key.length).map fun x => value T' key x * value U' key x) =
      (allIndices T.n key.length).map fun x => ((allIndices T.n key.length).map fun a => value T key a * rotProd Q key a x).sum *
        ((allIndices T.n key.length).map fun b => value U key b * rotProd (rotAdj Q) key x b).sum := by
    refine List.map_congr_left fun x hx => ?_
    have hx' := mem_allIndices.1 hx
    rw [v1 key x hx', v2 key x hx', value_rotated, value_rotated, hU]
    congr 2
    exact List.map_congr_left fun b hb => by rw [hadj key b x (length_of_mem hb) hx'.1 (mem_allIndices.1 hb).2 hx'.2]
  have e2 : ((allIndices T.n key.length).map fun x => value T key x * value U key x) =
      (allIndices T.n key.length).map fun b => ((allIndices T.n key.length).map fun x =>
        ((allIndices T.n key.length).map fun a => value T key a * rotProd Q key a x).sum * rotProd (rotAdj Q) key x b).sum * value U key b := by
    refine List.map_congr_left fun b hb => ?_
    have hb' := mem_allIndices.1 hb
    congr 1
    have := rotated_mul T Q (rotAdj Q) key b hb'.1
    rw [rotated_one T hmul key hb'] at this
    rw [← this]
    congr 1
    exact List.map_congr_left fun x _ => by rw [value_rotated]
  rw [e1, e2]
  simp only [sum_allIndices, Finset.sum_mul, Finset.mul_sum]
  rw [Finset.sum_comm]
  refine Finset.sum_congr rfl fun b _ => Finset.sum_congr rfl fun x _ => Finset.sum_congr rfl fun a _ => ?_
  ring

/-! ### Anticommutation relations -/

theorem ladder_bracket (x y : ℕ) : ladderAction (x, false) * ladderAction (y, true) + ladderAction (y, true) * ladderAction (x, false) = (if x = y then (1 : ℂ) else 0) • 1 := by
  by_cases e : x = y
  · subst e
    rw [if_pos rfl, one_smul]
    exact ladder_same x false
  · rw [if_neg e, zero_smul, ladder_anticomm (f := (x, false)) (g := (y, true)) e]
    exact neg_add_cancel _

theorem ladder_same_kind (x y : ℕ) (b : Bool) : ladderAction (x, b) * ladderAction (y, b) + ladderAction (y, b) * ladderAction (x, b) = 0 := by
  by_cases e : x = y
  · subst e; rw [ladder_sq, add_zero]
  · rw [ladder_anticomm (f := (x, b)) (g := (y, b)) e]
    exact neg_add_cancel _

/-- C89.  For a unitary matrix the rotated ladder operators are again those of independent fermionic modes. -/
theorem rotate_anticommute {n : ℕ} {R : Rot} (hR : RotEq n (rotMul n R (rotAdj R)) rotOne) :
    (∀ a < n, ∀ b < n, rotLadder n R (a, false) * rotLadder n R (b, true) + rotLadder n R (b, true) * rotLadder n R (a, false) = if a = b then 1 else 0) ∧
    ∀ a b k, rotLadder n R (a, k) * rotLadder n R (b, k) + rotLadder n R (b, k) * rotLadder n R (a, k) = 0 := by
  constructor
  · intro a ha b hb
    simp only [rotLadder, if_true, Bool.false_eq_true, if_false]
    rw [Finset.sum_mul_sum, Finset.sum_mul_sum, Finset.sum_comm (s := Finset.range n) (t := Finset.range n) (f := fun y x => _ • ladderAction (y, true) * _ • ladderAction (x, false)),
      ← Finset.sum_add_distrib]
    have e : ∀ x ∈ Finset.range n, (∑ y ∈ Finset.range n, R a x • ladderAction (x, false) * (starRingEnd ℂ) (R b y) • ladderAction (y, true)) +
        ∑ y ∈ Finset.range n, (starRingEnd ℂ) (R b y) • ladderAction (y, true) * R a x • ladderAction (x, false) = (R a x * rotAdj R x b) • (1 : Module.End ℂ State) := by
      intro x hx
      rw [← Finset.sum_add_distrib, Finset.sum_eq_single x]
      · rw [smul_mul_smul_comm, smul_mul_smul_comm, mul_comm ((starRingEnd ℂ) (R b x)), ← smul_add, ladder_bracket, if_pos rfl, one_smul]; rfl
      · intro y _ hy
        rw [smul_mul_smul_comm, smul_mul_smul_comm, mul_comm ((starRingEnd ℂ) (R b y)), ← smul_add, ladder_bracket, if_neg (Ne.symm hy), zero_smul, smul_zero]
      · exact fun h => absurd hx h
    rw [Finset.sum_congr rfl e, ← Finset.sum_smul]
    have := hR a ha b hb
    unfold rotMul rotOne at this
    rw [this]
    by_cases h : a = b
    · rw [if_pos h, if_pos h, one_smul]
    · rw [if_neg h, if_neg h, zero_smul]
  · intro a b k
    simp only [rotLadder]
    rw [Finset.sum_mul_sum, Finset.sum_mul_sum, Finset.sum_comm (s := Finset.range n) (t := Finset.range n) (f := fun y x => _ • ladderAction (y, k) * _ • ladderAction (x, k)),
      ← Finset.sum_add_distrib]
    refine Finset.sum_eq_zero fun x _ => ?_
    rw [← Finset.sum_add_distrib]
    refine Finset.sum_eq_zero fun y _ => ?_
    rw [smul_mul_smul_comm, smul_mul_smul_comm, mul_comm (if k = true then (starRingEnd ℂ) (R b x) else R b x), ← smul_add, ladder_same_kind, smul_zero]

/-! ## Examples -/

/-- Arrays with the documented symmetry, not all zero. -/
example : Symmetric false (fun _ => 1) (fun _ => 2) ∧ Symmetric true (fun i => if i = [0, 1] then Complex.I else if i = [1, 0] then -Complex.I else 0) (fun _ => 2) := by
  have h2 : (starRingEnd ℂ) 2 = 2 := Complex.conj_ofNat 2
  refine ⟨⟨fun _ _ => (map_one _).symm, fun _ _ _ _ => rfl, fun _ _ _ _ => h2.symm, fun _ _ _ _ _ => rfl⟩, ⟨fun p q => ?_, fun _ _ _ _ => rfl, fun _ _ _ _ => h2.symm, fun h => by simp at h⟩⟩
  simp only [List.cons.injEq, and_true]
  by_cases h1 : p = 0 ∧ q = 1
  · obtain ⟨rfl, rfl⟩ := h1; simp
  · by_cases h2 : p = 1 ∧ q = 0
    · obtain ⟨rfl, rfl⟩ := h2; simp
    · rw [if_neg (by tauto), if_neg (by tauto), if_neg h1, if_neg h2, map_zero]

/-- A rotation of two orbitals that is real, orthogonal and not the identity meets the hypotheses; the arrays may be over two or four modes. -/
example : let R : Rot := fun a x => if a = x then 3 / 5 else if a < x then 4 / 5 else -4 / 5
    (∀ a < 2, ∀ x < 2, (R a x).im = 0) ∧ RotEq 2 (rotMul 2 R (rotAdj R)) rotOne ∧ ¬ RotEq 2 R rotOne ∧ ∃ T : PolyTensor, T.n = 2 * 2 ∧ ∀ k ∈ keys T.tensors, k.length ≤ 26 := by
  refine ⟨?_, ?_, ?_, ⟨4, [([true, false], fun _ => 1)]⟩, rfl, by simp [keys]⟩
  · intro a _ x _
    dsimp only
    split_ifs <;> norm_num
  · intro a ha x hx
    have ha' : a = 0 ∨ a = 1 := by omega
    have hx' : x = 0 ∨ x = 1 := by omega
    have h3 : (starRingEnd ℂ) 3 = 3 := Complex.conj_ofNat 3
    have h4 : (starRingEnd ℂ) 4 = 4 := Complex.conj_ofNat 4
    have h5 : (starRingEnd ℂ) 5 = 5 := Complex.conj_ofNat 5
    rcases ha' with rfl | rfl <;> rcases hx' with rfl | rfl <;> simp [rotMul, rotAdj, rotOne, Finset.sum_range_succ, h3, h4, h5] <;> norm_num
  · intro h
    have := h 0 (by norm_num) 0 (by norm_num)
    simp [rotOne] at this
    norm_num at this

/-- A selection of modes. -/
example : (Selection.modes [0, 2]).Valid 3 := by intro i hi; simp at hi; omega

end ZQ.PolyT
