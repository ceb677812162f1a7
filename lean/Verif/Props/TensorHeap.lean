import Verif.Model.TensorHeap
import Verif.Lemmas.PyDict

/-! C74: which objects an in-place update of a polynomial tensor reaches. -/

namespace ZQ.TensorHeap

open ZQ ZQ.Op ZQ.PolyT ZQ.PyDict

/-- What a user reads from an object: the coefficient of an array entry. -/
noncomputable def entry (h : Heap) (o : Obj) (key : Key) (i : List ℕ) : ℂ := ((get? o.refs key).map fun r => h.mem r i).getD 0

/-- What a user reads from an object: the constant. -/
noncomputable def constantOf (o : Obj) : ℂ := o.const.getD 0

/-- The object's arrays exist, and its dictionary has no repeated key. -/
def Allocated (h : Heap) (o : Obj) : Prop := (keys o.refs).Nodup ∧ ∀ kv ∈ o.refs, kv.2 < h.next

/-- Different keys hold different arrays. -/
def Separate (o : Obj) : Prop := (o.refs.map Prod.snd).Nodup

theorem entry_congr {h h' : Heap} {o : Obj} (hm : ∀ kv ∈ o.refs, h'.mem kv.2 = h.mem kv.2) : ∀ k i, entry h' o k i = entry h o k i := by
  intro k i
  rw [entry, entry]
  cases hg : get? o.refs k with
  | none => rfl
  | some r =>
    show h'.mem r i = h.mem r i
    rw [hm _ (mem_of_get? hg)]

theorem copy_loop : ∀ (l : PyDict Key ℕ) (h : Heap) (acc : PyDict Key ℕ), (∀ kv ∈ l, kv.2 < h.next) →
    let s := l.foldl copyStep (h, acc)
    h.next ≤ s.1.next ∧ (∀ r < h.next, s.1.mem r = h.mem r) ∧
    ∃ new : PyDict Key ℕ, s.2 = acc ++ new ∧ keys new = keys l ∧ (∀ kv ∈ new, h.next ≤ kv.2 ∧ kv.2 < s.1.next) ∧ (new.map Prod.snd).Nodup ∧
      ∀ k, (get? new k).map s.1.mem = (get? l k).map h.mem := by
  intro l
  induction l with
  | nil => intro h acc _; exact ⟨le_rfl, fun _ _ => rfl, [], by simp, rfl, fun _ h => by simp at h, by simp, fun _ => rfl⟩
  | cons kv l ih =>
    intro h acc hl
    obtain ⟨h1, h2, new, e, hk, hr, hn, hg⟩ := ih (alloc h (h.mem kv.2)).1 (acc ++ [(kv.1, h.next)]) fun x hx =>
      (hl x (List.mem_cons_of_mem _ hx)).trans (Nat.lt_succ_self _)
    have hmem : ∀ r, r ≠ h.next → (alloc h (h.mem kv.2)).1.mem r = h.mem r := fun r hr => Function.update_of_ne hr ..
    have hself : (alloc h (h.mem kv.2)).1.mem h.next = h.mem kv.2 := Function.update_self ..
    have h1 : h.next + 1 ≤ (l.foldl copyStep ((alloc h (h.mem kv.2)).1, acc ++ [(kv.1, h.next)])).1.next := h1
    rw [List.foldl_cons]
    refine ⟨(Nat.le_succ _).trans h1, fun r hr' => ?_, (kv.1, h.next) :: new, ?_, ?_, ?_, ?_, fun k => ?_⟩
    · exact (h2 r (hr'.trans (Nat.lt_succ_self _))).trans (hmem r (Nat.ne_of_lt hr'))
    · exact e.trans (by rw [List.append_assoc]; rfl)
    · show kv.1 :: keys new = _
      rw [hk]; rfl
    · intro x hx
      rcases List.mem_cons.1 hx with rfl | hx
      · exact ⟨le_rfl, h1⟩
      · exact ⟨(Nat.le_succ _).trans (hr x hx).1, (hr x hx).2⟩
    · show (h.next :: new.map Prod.snd).Nodup
      refine List.nodup_cons.2 ⟨fun hc => ?_, hn⟩
      obtain ⟨x, hx, hx'⟩ := List.mem_map.1 hc
      have : h.next + 1 ≤ x.2 := (hr x hx).1
      omega
    · rw [get?, get?]
      by_cases hkk : kv.1 = k
      · rw [if_pos hkk, if_pos hkk]
        show some ((l.foldl copyStep ((alloc h (h.mem kv.2)).1, acc ++ [(kv.1, h.next)])).1.mem h.next) = some (h.mem kv.2)
        rw [h2 h.next (Nat.lt_succ_self _), hself]
      · rw [if_neg hkk, if_neg hkk]
        refine (hg k).trans ?_
        cases hx : get? l k with
        | none => rfl
        | some r =>
          show some ((alloc h (h.mem kv.2)).1.mem r) = some (h.mem r)
          rw [hmem r (Nat.ne_of_lt (hl _ (List.mem_cons_of_mem _ (mem_of_get? hx))))]

/-- C74: a deep copy holds the same values in arrays of its own. -/
theorem deepcopy_spec {h : Heap} {o : Obj} (ho : Allocated h o) :
    Allocated (deepcopy h o).1 (deepcopy h o).2 ∧ Separate (deepcopy h o).2 ∧ h.next ≤ (deepcopy h o).1.next ∧
    keys (deepcopy h o).2.refs = keys o.refs ∧ (∀ kv ∈ (deepcopy h o).2.refs, h.next ≤ kv.2) ∧ (∀ r < h.next, (deepcopy h o).1.mem r = h.mem r) ∧
    (∀ k i, entry (deepcopy h o).1 (deepcopy h o).2 k i = entry h o k i) ∧ (deepcopy h o).2.const = o.const ∧ (deepcopy h o).2.n = o.n := by
  obtain ⟨h1, h2, new, e, hk, hr, hn, hg⟩ := copy_loop o.refs h [] ho.2
  have e : (deepcopy h o).2.refs = new := e.trans (List.nil_append _)
  refine ⟨⟨?_, ?_⟩, ?_, h1, ?_, ?_, h2, fun k i => ?_, rfl, rfl⟩
  · rw [e, hk]; exact ho.1
  · rw [e]; exact fun kv hkv => (hr kv hkv).2
  · rw [Separate, e]; exact hn
  · rw [e, hk]
  · rw [e]; exact fun kv hkv => (hr kv hkv).1
  · have := hg k
    rw [entry, entry, e]
    cases hx : get? new k with
    | none =>
      rw [hx] at this
      cases hy : get? o.refs k with
      | none => rfl
      | some r => rw [hy] at this; cases this
    | some r =>
      rw [hx] at this
      cases hy : get? o.refs k with
      | none => rw [hy] at this; cases this
      | some r' =>
        rw [hy] at this
        show (deepcopy h o).1.mem r i = h.mem r' i
        exact congrFun (Option.some.inj this) i

theorem iadd_loop : ∀ (l : PyDict Key ℕ) (h : Heap) (d : PyDict Key ℕ), (keys l).Nodup → (keys d).Nodup → (∀ kv ∈ l, kv.2 < h.next) → (∀ kv ∈ d, kv.2 < h.next) →
    let s := l.foldl iaddStep (h, d)
    h.next ≤ s.1.next ∧ (∀ r < h.next, s.1.mem r = h.mem r) ∧ (keys s.2).Nodup ∧ (∀ kv ∈ s.2, kv.2 < s.1.next) ∧
    (∀ kv ∈ s.2, kv ∈ d ∧ kv.1 ∉ keys l ∨ h.next ≤ kv.2 ∨ kv ∈ l ∧ kv.1 ∉ keys d) ∧
    ∀ k i, ((get? s.2 k).map fun r => s.1.mem r i).getD 0 = ((get? d k).map fun r => h.mem r i).getD 0 + ((get? l k).map fun r => h.mem r i).getD 0 := by
  intro l
  induction l with
  | nil => intro h d _ hd _ hr; exact ⟨le_rfl, fun _ _ => rfl, hd, hr, fun kv hkv => Or.inl ⟨hkv, by simp [keys]⟩, fun k i => by simp [get?]⟩
  | cons kv l ih =>
    intro h d hl hd hlr hdr
    obtain ⟨hkl, hl2⟩ : kv.1 ∉ keys l ∧ (keys l).Nodup := List.nodup_cons.1 hl
    have hgl : get? l kv.1 = none := (get?_eq_none_iff _ _).2 hkl
    have hlr2 : ∀ x ∈ l, x.2 < h.next := fun x hx => hlr x (List.mem_cons_of_mem _ hx)
    rw [List.foldl_cons]
    cases hg : get? d kv.1 with
    | some r =>
      have hst : iaddStep (h, d) kv = ((alloc h fun i => h.mem r i + h.mem kv.2 i).1, PyDict.set d kv.1 h.next) := by
        rw [iaddStep]
        show (match get? d kv.1 with | some r => _ | none => _) = _
        rw [hg]; rfl
      rw [hst]
      have hmem : ∀ x, x ≠ h.next → (alloc h fun i => h.mem r i + h.mem kv.2 i).1.mem x = h.mem x := fun x hx => Function.update_of_ne hx ..
      have hself : (alloc h fun i => h.mem r i + h.mem kv.2 i).1.mem h.next = fun i => h.mem r i + h.mem kv.2 i := Function.update_self ..
      have hset : ∀ x ∈ PyDict.set d kv.1 h.next, x = (kv.1, h.next) ∨ (x ∈ d ∧ x.1 ≠ kv.1) := by
        intro x hx
        have := get?_of_mem (nodup_set hd kv.1 h.next) (show (x.1, x.2) ∈ _ from hx)
        rw [get?_set] at this
        by_cases hk : kv.1 = x.1
        · rw [if_pos hk] at this
          exact Or.inl (Prod.ext hk.symm (Option.some.inj this).symm)
        · rw [if_neg hk] at this
          exact Or.inr ⟨mem_of_get? this, Ne.symm hk⟩
      obtain ⟨h1, h2, h3, h4, h5, h6⟩ := ih (alloc h fun i => h.mem r i + h.mem kv.2 i).1 (PyDict.set d kv.1 h.next) hl2 (nodup_set hd _ _)
        (fun x hx => (hlr2 x hx).trans (Nat.lt_succ_self _)) (fun x hx => by
          rcases hset x hx with rfl | ⟨hx, _⟩
          · exact Nat.lt_succ_self _
          · exact (hdr x hx).trans (Nat.lt_succ_self _))
      refine ⟨(Nat.le_succ _).trans h1, fun x hx => (h2 x (hx.trans (Nat.lt_succ_self _))).trans (hmem x (Nat.ne_of_lt hx)), h3, h4, fun x hx => ?_, fun k i => ?_⟩
      · rcases h5 x hx with ⟨hx1, hx2⟩ | hx1 | ⟨hx1, hx2⟩
        · rcases hset x hx1 with rfl | ⟨hx3, hx4⟩
          · exact Or.inr (Or.inl le_rfl)
          · refine Or.inl ⟨hx3, fun hc => ?_⟩
            rcases List.mem_cons.1 hc with hc | hc
            · exact hx4 hc
            · exact hx2 hc
        · exact Or.inr (Or.inl ((Nat.le_succ _).trans hx1))
        · refine Or.inr (Or.inr ⟨List.mem_cons_of_mem _ hx1, fun hc => hx2 ?_⟩)
          rw [mem_keys_iff] at hc ⊢
          obtain ⟨v, hv⟩ := hc
          rw [get?_set]
          by_cases hk : kv.1 = x.1
          · exact ⟨_, if_pos hk⟩
          · exact ⟨v, by rw [if_neg hk, hv]⟩
      · rw [h6 k i, get?_set]
        have hrr : r < h.next := hdr _ (mem_of_get? hg)
        by_cases hk : kv.1 = k
        · rw [if_pos hk, ← hk, hgl, hg, show get? (kv :: l) kv.1 = some kv.2 by rw [get?, if_pos rfl]]
          show (alloc h fun i => h.mem r i + h.mem kv.2 i).1.mem h.next i + 0 = h.mem r i + h.mem kv.2 i
          rw [hself, add_zero]
        · rw [if_neg hk, show get? (kv :: l) k = get? l k by rw [get?, if_neg hk]]
          congr 1
          · cases hx : get? d k with
            | none => rfl
            | some x =>
              show (alloc h fun i => h.mem r i + h.mem kv.2 i).1.mem x i = h.mem x i
              rw [hmem x (Nat.ne_of_lt (hdr _ (mem_of_get? hx)))]
          · cases hx : get? l k with
            | none => rfl
            | some x =>
              show (alloc h fun i => h.mem r i + h.mem kv.2 i).1.mem x i = h.mem x i
              rw [hmem x (Nat.ne_of_lt (hlr2 _ (mem_of_get? hx)))]
    | none =>
      have hst : iaddStep (h, d) kv = (h, PyDict.set d kv.1 kv.2) := by
        rw [iaddStep]
        show (match get? d kv.1 with | some r => _ | none => _) = _
        rw [hg]
      rw [hst]
      have hset : ∀ x ∈ PyDict.set d kv.1 kv.2, x = kv ∨ (x ∈ d ∧ x.1 ≠ kv.1) := by
        intro x hx
        have := get?_of_mem (nodup_set hd kv.1 kv.2) (show (x.1, x.2) ∈ _ from hx)
        rw [get?_set] at this
        by_cases hk : kv.1 = x.1
        · rw [if_pos hk] at this
          exact Or.inl (Prod.ext hk.symm (Option.some.inj this).symm)
        · rw [if_neg hk] at this
          exact Or.inr ⟨mem_of_get? this, Ne.symm hk⟩
      obtain ⟨h1, h2, h3, h4, h5, h6⟩ := ih h (PyDict.set d kv.1 kv.2) hl2 (nodup_set hd _ _) hlr2 (fun x hx => by
          rcases hset x hx with rfl | ⟨hx, _⟩
          · exact hlr x (List.mem_cons_self ..)
          · exact hdr x hx)
      refine ⟨h1, h2, h3, h4, fun x hx => ?_, fun k i => ?_⟩
      · rcases h5 x hx with ⟨hx1, hx2⟩ | hx1 | ⟨hx1, hx2⟩
        · rcases hset x hx1 with rfl | ⟨hx3, hx4⟩
          · exact Or.inr (Or.inr ⟨List.mem_cons_self .., (get?_eq_none_iff _ _).1 hg⟩)
          · refine Or.inl ⟨hx3, fun hc => ?_⟩
            rcases List.mem_cons.1 hc with hc | hc
            · exact hx4 hc
            · exact hx2 hc
        · exact Or.inr (Or.inl hx1)
        · refine Or.inr (Or.inr ⟨List.mem_cons_of_mem _ hx1, fun hc => hx2 ?_⟩)
          rw [mem_keys_iff] at hc ⊢
          obtain ⟨v, hv⟩ := hc
          rw [get?_set]
          by_cases hk : kv.1 = x.1
          · exact ⟨_, if_pos hk⟩
          · exact ⟨v, by rw [if_neg hk, hv]⟩
      · rw [h6 k i, get?_set]
        by_cases hk : kv.1 = k
        · rw [if_pos hk, ← hk, hgl, hg, show get? (kv :: l) kv.1 = some kv.2 by rw [get?, if_pos rfl]]
          show h.mem kv.2 i + 0 = 0 + h.mem kv.2 i
          rw [add_zero, zero_add]
        · rw [if_neg hk, show get? (kv :: l) k = get? l k by rw [get?, if_neg hk]]

/-- C74: `a + b` is the coefficient-wise sum and changes neither operand.  Its arrays are new, except that the array of `b` is used where `a` has none. -/
theorem add_spec {h : Heap} {a b : Obj} (ha : Allocated h a) (hb : Allocated h b) (hn : a.n = b.n) :
    ∃ h' r, add h a b = .ok (h', r) ∧ Allocated h' r ∧ h.next ≤ h'.next ∧
      (∀ k i, entry h' r k i = entry h a k i + entry h b k i) ∧ constantOf r = constantOf a + constantOf b ∧
      (∀ k i, entry h' a k i = entry h a k i) ∧ (∀ k i, entry h' b k i = entry h b k i) ∧
      ∀ kv ∈ r.refs, h.next ≤ kv.2 ∨ kv ∈ b.refs ∧ kv.1 ∉ keys a.refs := by
  obtain ⟨c1, c2, c3, c4, c5, c6, c7, c8, c9⟩ := deepcopy_spec ha
  obtain ⟨h1, h2, h3, h4, h5, h6⟩ := iadd_loop b.refs (deepcopy h a).1 (deepcopy h a).2.refs hb.1 c1.1 (fun kv hkv => (hb.2 kv hkv).trans_le c3) c1.2
  have hbmem : ∀ r < h.next, (b.refs.foldl iaddStep ((deepcopy h a).1, (deepcopy h a).2.refs)).1.mem r = h.mem r := fun r hr =>
    (h2 r (hr.trans_le c3)).trans (c6 r hr)
  refine ⟨(b.refs.foldl iaddStep ((deepcopy h a).1, (deepcopy h a).2.refs)).1,
    ⟨a.n, addConst a.const b.const, (b.refs.foldl iaddStep ((deepcopy h a).1, (deepcopy h a).2.refs)).2⟩, ?_, ⟨h3, h4⟩, c3.trans h1, fun k i => ?_, ?_,
    entry_congr fun kv hkv => hbmem _ (ha.2 kv hkv), entry_congr fun kv hkv => hbmem _ (hb.2 kv hkv), fun kv hkv => ?_⟩
  · rw [add]
    exact if_neg (not_not.2 hn)
  · rw [entry]
    refine (h6 k i).trans ?_
    congr 1
    · exact c7 k i
    · exact entry_congr (h' := (deepcopy h a).1) (o := b) (fun kv hkv => c6 _ (hb.2 kv hkv)) k i
  · show (addConst a.const b.const).getD 0 = a.const.getD 0 + b.const.getD 0
    cases a.const <;> cases b.const <;> simp [addConst]
  · rcases h5 kv hkv with ⟨hx, _⟩ | hx | ⟨hx, hk⟩
    · exact Or.inl (c5 kv hx)
    · exact Or.inl (c3.trans hx)
    · exact Or.inr ⟨hx, by rwa [c4] at hk⟩

theorem mapArrays_other {refs : PyDict Key ℕ} {f : ℂ → ℂ} {r : ℕ} : ∀ (h : Heap), (∀ kv ∈ refs, kv.2 ≠ r) → (mapArrays h refs f).mem r = h.mem r := by
  induction refs with
  | nil => intro h _; rfl
  | cons kv l ih =>
    intro h hr
    refine (ih _ fun x hx => hr x (List.mem_cons_of_mem _ hx)).trans ?_
    exact Function.update_of_ne (hr kv (List.mem_cons_self ..)).symm ..

theorem mapArrays_self {refs : PyDict Key ℕ} {f : ℂ → ℂ} : ∀ (h : Heap), (refs.map Prod.snd).Nodup → ∀ kv ∈ refs, (mapArrays h refs f).mem kv.2 = fun i => f (h.mem kv.2 i) := by
  induction refs with
  | nil => intro h _ kv hkv; simp at hkv
  | cons x l ih =>
    intro h hn kv hkv
    obtain ⟨h1, h2⟩ : x.2 ∉ l.map Prod.snd ∧ (l.map Prod.snd).Nodup := List.nodup_cons.1 hn
    rcases List.mem_cons.1 hkv with rfl | hkv
    · have e : (mapArrays h (kv :: l) f).mem kv.2 = (Function.update h.mem kv.2 fun i => f (h.mem kv.2 i)) kv.2 :=
        mapArrays_other (r := kv.2) ⟨h.next, Function.update h.mem kv.2 fun i => f (h.mem kv.2 i)⟩ fun y hy hc => h1 (hc ▸ List.mem_map_of_mem hy)
      rw [e, Function.update_self]
    · refine (ih _ h2 kv hkv).trans ?_
      have : kv.2 ≠ x.2 := fun hc => h1 (hc ▸ List.mem_map_of_mem hkv)
      funext i
      show f ((Function.update h.mem x.2 fun i => f (h.mem x.2 i)) kv.2 i) = _
      rw [Function.update_of_ne this]

/-- C74: scaling an object whose arrays are different scales every coefficient. -/
theorem scale_spec (h : Heap) (o : Obj) (hs : Separate o) (c : ℂ) :
    (∀ k i, entry (update (h, o) (.scale c)).1 (update (h, o) (.scale c)).2 k i = entry h o k i * c) ∧
    constantOf (update (h, o) (.scale c)).2 = constantOf o * c ∧
    (∀ k i, entry (update (h, o) (.divide c)).1 (update (h, o) (.divide c)).2 k i = entry h o k i / c) ∧
    constantOf (update (h, o) (.divide c)).2 = constantOf o / c := by
  have key : ∀ (f : ℂ → ℂ), f 0 = 0 → ∀ k i, ((get? o.refs k).map fun r => (mapArrays h o.refs f).mem r i).getD 0 = f (entry h o k i) := by
    intro f h0 k i
    rw [entry]
    cases hg : get? o.refs k with
    | none => exact h0.symm
    | some r =>
      show (mapArrays h o.refs f).mem r i = f (h.mem r i)
      rw [mapArrays_self h hs _ (mem_of_get? hg)]
  refine ⟨key (fun x => x * c) (zero_mul c), ?_, key (fun x => x / c) (zero_div c), ?_⟩
  · show (o.const.map fun x => x * c).getD 0 = o.const.getD 0 * c
    cases o.const <;> simp
  · show (o.const.map fun x => x / c).getD 0 = o.const.getD 0 / c
    cases o.const <;> simp

theorem update_refs (s : Heap × Obj) (u : Update) : (update s u).2.refs = s.2.refs := by
  cases u with
  | scale c => rfl
  | divide c => rfl
  | addScalar c => rfl
  | setItem args c =>
    rw [update]
    by_cases ha : args = []
    · rw [if_pos ha]
    · rw [if_neg ha]
      cases get? s.2.refs (args.map Prod.snd) with
      | none => rfl
      | some r => dsimp only; split <;> rfl

theorem update_frame (s : Heap × Obj) (u : Update) {r : ℕ} (hr : ∀ kv ∈ s.2.refs, kv.2 ≠ r) : (update s u).1.mem r = s.1.mem r := by
  cases u with
  | scale c => exact mapArrays_other _ hr
  | divide c => exact mapArrays_other _ hr
  | addScalar c => rfl
  | setItem args c =>
    rw [update]
    by_cases ha : args = []
    · rw [if_pos ha]
    · rw [if_neg ha]
      cases hg : get? s.2.refs (args.map Prod.snd) with
      | none => rfl
      | some r' =>
        dsimp only
        split
        · exact Function.update_of_ne (hr _ (mem_of_get? hg)).symm ..
        · rfl

/-- C74: updates in place of an object change no object that shares no array with it. -/
theorem updates_frame (us : List Update) (s : Heap × Obj) (o : Obj) (hd : ∀ kv ∈ s.2.refs, ∀ x ∈ o.refs, kv.2 ≠ x.2) :
    ∀ k i, entry (us.foldl update s).1 o k i = entry s.1 o k i := by
  induction us generalizing s with
  | nil => intro k i; rfl
  | cons u us ih =>
    intro k i
    rw [List.foldl_cons, ih (update s u) (by rw [update_refs]; exact hd)]
    exact entry_congr (fun x hx => update_frame s u fun kv hkv => hd kv hkv x hx) k i

/-- C74: after `r = a + b`, no sequence of in-place updates of `r` changes `a`; it changes `b` neither if `a` has every array that `b` has.  Missing:
arrays of `b` that `a` lacks are shared (`add_aliasing_counterexample`). -/
theorem add_independent_partial {h h' : Heap} {a b r : Obj} (ha : Allocated h a) (hb : Allocated h b) (he : add h a b = .ok (h', r)) (us : List Update) :
    ((∀ kv ∈ b.refs, ∀ x ∈ a.refs, kv.2 ≠ x.2) → ∀ k i, entry (us.foldl update (h', r)).1 a k i = entry h a k i) ∧
    ((∀ k ∈ keys b.refs, k ∈ keys a.refs) → ∀ k i, entry (us.foldl update (h', r)).1 a k i = entry h a k i ∧ entry (us.foldl update (h', r)).1 b k i = entry h b k i) := by
  have hn : a.n = b.n := by
    by_contra hc
    rw [add, iadd] at he
    rw [if_pos (by exact hc)] at he
    cases he
  obtain ⟨h'', r', e, h1, h2, _, _, h5, h6, h7⟩ := add_spec ha hb hn
  rw [he] at e
  cases e
  constructor
  · intro hsep k i
    rw [updates_frame us (h', r) a, h5]
    intro kv hkv x hx
    rcases h7 kv hkv with hk | ⟨hk, _⟩
    · have := ha.2 x hx
      have hk : h.next ≤ kv.2 := hk
      omega
    · exact hsep kv hk x hx
  · intro hk k i
    have hfresh : ∀ kv ∈ r.refs, h.next ≤ kv.2 := by
      intro kv hkv
      rcases h7 kv hkv with h | ⟨h, hno⟩
      · exact h
      · exact absurd (hk kv.1 (List.mem_map_of_mem h)) hno
    constructor
    · rw [updates_frame us (h', r) a, h5]
      intro kv hkv x hx
      have := ha.2 x hx
      have := hfresh kv hkv
      omega
    · rw [updates_frame us (h', r) b, h6]
      intro kv hkv x hx
      have := hb.2 x hx
      have := hfresh kv hkv
      omega

/-- C74: `r = a + b; r *= 2` doubles a coefficient of `b`, when `a` has no array for its key. -/
theorem add_aliasing_counterexample : ∃ (h : Heap) (a b : Obj) (h' : Heap) (r : Obj), Allocated h a ∧ Allocated h b ∧ (∀ kv ∈ b.refs, ∀ x ∈ a.refs, kv.2 ≠ x.2) ∧
    add h a b = .ok (h', r) ∧ entry h b [true, true, false, false] [0, 0, 0, 0] = 1 ∧
    entry (update (h', r) (.scale 2)).1 b [true, true, false, false] [0, 0, 0, 0] = 2 := by
  refine ⟨⟨2, fun _ _ => 1⟩, ⟨1, none, [([true, false], 0)]⟩, ⟨1, none, [([true, true, false, false], 1)]⟩,
    ⟨3, Function.update (fun _ _ => 1) 2 fun _ => 1⟩, ⟨1, none, [([true, false], 2), ([true, true, false, false], 1)]⟩, ⟨?_, ?_⟩, ⟨?_, ?_⟩, ?_, rfl, rfl, ?_⟩
  · simp [keys]
  · simp
  · simp [keys]
  · simp
  · simp
  · simp [entry, update, mapArrays, get?]

/-- Two objects with the same keys and different arrays. -/
example : ∃ (h : Heap) (a b : Obj), Allocated h a ∧ Allocated h b ∧ a.n = b.n ∧ (∀ k ∈ keys b.refs, k ∈ keys a.refs) ∧ Separate a ∧ a.refs ≠ [] :=
  ⟨⟨2, fun _ _ => 1⟩, ⟨1, none, [([true, false], 0)]⟩, ⟨1, some 3, [([true, false], 1)]⟩, ⟨by simp [keys], by simp⟩, ⟨by simp [keys], by simp⟩, rfl,
    by simp [keys], by simp [Separate], by simp⟩

end ZQ.TensorHeap
