import Verif.Model.WfHeap
import Verif.Props.Wavefunction

/-! C116: wavefunctions and arrays that share memory. -/

namespace ZQ.WfHeap

open ZQ ZQ.Wavefunction

/-! ### Writing -/

theorem writes_nil (f : ℕ → ℂ) (zs : List ℂ) : writes f [] zs = f := by simp [writes]

theorem writes_cons (f : ℕ → ℂ) (p : ℕ) (ps : List ℕ) (z : ℂ) (zs : List ℂ) : writes f (p :: ps) (z :: zs) = writes (Function.update f p z) ps zs := rfl

theorem writes_outside (ps : List ℕ) : ∀ (f : ℕ → ℂ) (zs : List ℂ) (k : ℕ), k ∉ ps → writes f ps zs k = f k := by
  induction ps with
  | nil => intro f zs k _; rw [writes_nil]
  | cons p ps ih =>
    intro f zs k hk
    cases zs with
    | nil => rfl
    | cons z zs =>
      rw [writes_cons, ih _ _ _ fun h => hk (List.mem_cons_of_mem _ h), Function.update_of_ne fun h => hk (by rw [h]; exact List.mem_cons_self ..)]

/-- Writing back what was there undoes all changes at the positions. -/
theorem writes_back (ps : List ℕ) : ∀ (f g : ℕ → ℂ), (∀ k, k ∉ ps → g k = f k) → writes g ps (ps.map f) = f := by
  induction ps with
  | nil => intro f g h; rw [writes_nil]; funext k; exact h k (by simp)
  | cons p ps ih =>
    intro f g h
    rw [List.map_cons, writes_cons]
    apply ih
    intro k hk
    by_cases hkp : k = p
    · subst hkp; simp
    · rw [Function.update_of_ne hkp]
      exact h k (by simp [hkp, hk])

theorem put_self (h : Heap) (b : ℕ) : put h b (h.mem b) = h := by simp [put]

theorem put_put (h : Heap) (b : ℕ) (f g : ℕ → ℂ) : put (put h b f) b g = put h b g := by simp [put]

theorem put_mem (h : Heap) (b : ℕ) (f : ℕ → ℂ) : (put h b f).mem b = f := by simp [put]

/-- Specification: the index is not a slice. -/
def Index.plain : Index → Prop
  | .slice _ _ => False
  | _ => True

/-- C116: an assignment with a number or a list of numbers as index is accepted only if the wavefunction is normalised afterwards; if it raises, nothing has
changed anywhere. -/
theorem setItem_atomic (h : Heap) (v : View) (idx : Index) (zs : List ℂ) (hidx : idx.plain) :
    ((setItem h v idx zs).1 = none → normal (read (setItem h v idx zs).2 v) = true) ∧
    (∀ e, (setItem h v idx zs).1 = some e → (setItem h v idx zs).2 = h) := by
  unfold setItem
  cases entries v.pos.length idx with
  | error e => simp
  | ok ks =>
    dsimp only
    cases broadcast ks.length zs with
    | error e => simp
    | ok zs =>
      dsimp only
      have hold : oldValue h (put h v.buf (writes (h.mem v.buf) (places v ks) zs)) v ks idx = (places v ks).map (h.mem v.buf) := by
        cases idx <;> first | rfl | exact hidx.elim
      by_cases hn : normal (read (put h v.buf (writes (h.mem v.buf) (places v ks) zs)) v) = true
      · rw [if_pos hn]
        exact ⟨fun _ => hn, fun e he => (nomatch he)⟩
      · rw [if_neg hn]
        refine ⟨fun he => (nomatch he), fun e _ => ?_⟩
        dsimp only
        rw [put_put, put_mem, hold, writes_back _ _ _ (fun k hk => writes_outside _ _ _ _ hk), put_self]

theorem setItem_next (h : Heap) (v : View) (idx : Index) (zs : List ℂ) : (setItem h v idx zs).2.next = h.next := by
  unfold setItem
  cases entries v.pos.length idx with
  | error e => rfl
  | ok ks =>
    dsimp only
    cases broadcast ks.length zs with
    | error e => rfl
    | ok zs => dsimp only; split <;> rfl

theorem setItem_frame (h : Heap) (v : View) (idx : Index) (zs : List ℂ) (b : ℕ) (hb : b ≠ v.buf) : (setItem h v idx zs).2.mem b = h.mem b := by
  unfold setItem
  cases entries v.pos.length idx with
  | error e => rfl
  | ok ks =>
    dsimp only
    cases broadcast ks.length zs with
    | error e => rfl
    | ok zs => dsimp only; split <;> simp [put, Function.update_of_ne hb]

theorem read_set (h : Heap) (v : View) (hv : v.pos.Nodup) (k : ℕ) (hk : k < v.pos.length) (z : ℂ) :
    read (put h v.buf (writes (h.mem v.buf) (places v [k]) [z])) v = (read h v).set k z := by
  apply List.ext_getElem
  · simp [read]
  · intro j h1 h2
    have hj : j < v.pos.length := by simpa [read] using h1
    have hp : v.pos.getD k 0 = v.pos[k] := by simp [hk]
    simp only [read, List.getElem_map, put_mem, places, List.map_cons, List.map_nil, hp, writes, List.zip_cons_cons, List.zip_nil_right, List.foldl_cons,
      List.foldl_nil, List.getElem_set]
    by_cases hjk : k = j
    · subst hjk; simp
    · rw [if_neg hjk, Function.update_of_ne]
      intro he
      exact hjk ((List.Nodup.getElem_inj_iff hv).1 he).symm

/-- C116: the assignment `w[i] = z`, for an index in range, is accepted exactly if the amplitudes with the entry replaced are normalised. -/
theorem setItem_one (h : Heap) (v : View) (hv : v.pos.Nodup) (i : ℤ) (k : ℕ) (z : ℂ) (hk : pyIndex v.pos.length i = some k) (hlt : k < v.pos.length) :
    ((setItem h v (.one i) [z]).1 = if normal ((read h v).set k z) then none else some .valueError) ∧
    read (setItem h v (.one i) [z]).2 v = if normal ((read h v).set k z) then (read h v).set k z else read h v := by
  have hat := setItem_atomic h v (.one i) [z] trivial
  have hr := read_set h v hv k hlt z
  have he : (setItem h v (.one i) [z]).1 = if normal ((read h v).set k z) then none else some .valueError := by
    simp only [setItem, entries, hk, broadcast, List.length_singleton, if_true, hr]
    split <;> rfl
  refine ⟨he, ?_⟩
  by_cases hn : normal ((read h v).set k z) = true
  · rw [if_pos hn]
    simp only [setItem, entries, hk, broadcast, List.length_singleton, if_true, hr, if_pos hn]
  · rw [if_neg hn] at he ⊢
    rw [hat.2 _ he]

/-- C116, negation for slices: if `w[i:j] = zs` would make the wavefunction violate the normalisation, `ValueError` is raised, and the new values stay: the
old value that is written back is a view of the array that has just been overwritten. -/
theorem slice_rejected_counterexample (h : Heap) (v : View) (i j : ℕ) (zs : List ℂ)
    (hlen : zs.length = ((List.range v.pos.length).filter fun k => i ≤ k && k < j).length)
    (hbad : normal (read (put h v.buf (writes (h.mem v.buf) (places v ((List.range v.pos.length).filter fun k => i ≤ k && k < j)) zs)) v) = false) :
    (setItem h v (.slice i j) zs).1 = some .valueError ∧ normal (read (setItem h v (.slice i j) zs).2 v) = false ∧
      (setItem h v (.slice i j) zs).2 = put h v.buf (writes (h.mem v.buf) (places v ((List.range v.pos.length).filter fun k => i ≤ k && k < j)) zs) := by
  have key : setItem h v (.slice i j) zs = (some .valueError,
      put h v.buf (writes (h.mem v.buf) (places v ((List.range v.pos.length).filter fun k => i ≤ k && k < j)) zs)) := by
    simp only [setItem, entries, broadcast, if_pos hlen]
    rw [if_neg (by rw [hbad]; simp)]
    rw [put_put, put_mem, oldValue, put_mem, writes_back _ _ _ (fun _ _ => rfl)]
  rw [key]
  exact ⟨rfl, hbad, rfl⟩

/-! ### Histories -/

/-- The array of a variable. -/
def Val.view : Val → View
  | .arr _ v => v
  | .wf v => v

/-- Specification: a statement that takes no slice of anything and writes to wavefunctions only, with numbers or lists of numbers as index. -/
def Careful (st : Stmt) (s : State) : Prop :=
  match st with
  | .view _ _ _ _ => False
  | .set x idx _ => idx.plain ∧ ∀ c v, s.vars x ≠ some (.arr c v)
  | _ => True

/-- Specification: all statements of a run are such. -/
def CarefulRun : List Stmt → State → Prop
  | [], _ => True
  | st :: rest, s => Careful st s ∧ CarefulRun rest (exec st s).2

/-- Every variable holds a complete buffer, and the wavefunctions are acceptable. -/
def Inv (s : State) : Prop :=
  ∃ len : ℕ → ℕ, ∀ x val, s.vars x = some val → val.view.buf < s.heap.next ∧ val.view.pos = List.range (len val.view.buf) ∧
    ∀ v, val = .wf v → acceptable (read s.heap v) = true

theorem read_alloc (h : Heap) (zs : List ℂ) : read (alloc h zs).2 (alloc h zs).1 = zs := by
  apply List.ext_getElem
  · simp [read, alloc]
  · intro j h1 h2
    simp [read, alloc, h2]

theorem read_alloc_old (h : Heap) (zs : List ℂ) (v : View) (hv : v.buf < h.next) : read (alloc h zs).2 v = read h v := by
  unfold read
  congr 1
  simp only [alloc]
  rw [Function.update_of_ne (by omega)]

theorem inv_alloc {s : State} (hs : Inv s) (x : String) (zs : List ℂ) (mk : View → Val) (hmk : mk = .wf ∨ ∃ c, mk = .arr c)
    (hacc : mk = .wf → acceptable zs = true) : Inv (s.assign x (mk (alloc s.heap zs).1) (alloc s.heap zs).2) := by
  obtain ⟨len, hl⟩ := hs
  have hview : ∀ v, (mk v).view = v := by rcases hmk with rfl | ⟨c, rfl⟩ <;> intro v <;> rfl
  refine ⟨Function.update len s.heap.next zs.length, ?_⟩
  intro y val hy
  by_cases hyx : y = x
  · subst hyx
    simp only [State.assign, Function.update_self, Option.some.injEq] at hy
    subst hy
    rw [hview]
    refine ⟨by simp [State.assign, alloc], by simp [alloc], ?_⟩
    intro v hv
    have : v = (alloc s.heap zs).1 := by rw [← hview (alloc s.heap zs).1, hv]; rfl
    subst this
    simp only [State.assign]
    rw [read_alloc]
    apply hacc
    rcases hmk with h | ⟨c, rfl⟩
    · exact h
    · cases hv
  · simp only [State.assign, Function.update_of_ne hyx] at hy
    obtain ⟨h1, h2, h3⟩ := hl y val hy
    refine ⟨by simp only [State.assign, alloc]; omega, ?_, ?_⟩
    · rw [Function.update_of_ne (by omega)]; exact h2
    · intro v hv
      have := h3 v hv
      subst hv
      simp only [State.assign]
      rw [show read (alloc s.heap zs).2 v = read s.heap v from read_alloc_old _ _ _ h1]
      exact this

theorem inv_assign {s : State} (hs : Inv s) (x y : String) (val val' : Val) (hy : s.vars y = some val) (hv : val'.view = val.view)
    (hacc : ∀ v, val' = .wf v → acceptable (read s.heap v) = true) : Inv (s.assign x val' s.heap) := by
  obtain ⟨len, hl⟩ := hs
  refine ⟨len, ?_⟩
  intro z w hz
  by_cases hzx : z = x
  · subst hzx
    simp only [State.assign, Function.update_self, Option.some.injEq] at hz
    subst hz
    obtain ⟨h1, h2, _⟩ := hl y val hy
    rw [hv]
    exact ⟨h1, h2, hacc⟩
  · simp only [State.assign, Function.update_of_ne hzx] at hz
    exact hl z w hz

theorem acceptable_congr (zs zs' : List ℂ) (hl : zs.length = zs'.length) (ha : acceptable zs = true) (hn : normal zs' = true) : acceptable zs' = true := by
  unfold acceptable at *
  rw [← hl, hn]
  simp only [Bool.and_eq_true] at ha ⊢
  exact ⟨ha.1, trivial⟩

theorem exec_inv (st : Stmt) (s : State) (hs : Inv s) (hc : Careful st s) : Inv (exec st s).2 := by
  cases st with
  | array x c zs =>
    simp only [exec]
    split
    · exact inv_alloc hs x zs (.arr c) (Or.inr ⟨c, rfl⟩) (fun h => by have := congrFun h ⟨0, []⟩; cases this)
    · exact hs
  | share x y =>
    simp only [exec]
    cases hy : s.vars y with
    | none => exact hs
    | some val =>
      refine inv_assign hs x y val val hy rfl ?_
      obtain ⟨len, hl⟩ := hs
      exact (hl y val hy).2.2
  | view x y i j => exact hc.elim
  | wavefunction x y =>
    simp only [exec]
    cases hy : s.vars y with
    | none => exact hs
    | some val =>
      dsimp only
      cases val with
      | arr c v =>
        cases c with
        | true =>
          simp only [construct]
          split
          · rename_i ha
            exact inv_assign hs x y _ _ hy rfl (fun v' hv' => by cases hv'; exact ha)
          · exact hs
        | false =>
          simp only [construct]
          split
          · rename_i ha
            exact inv_alloc hs x _ .wf (Or.inl rfl) (fun _ => ha)
          · exact hs
      | wf v =>
        simp only [construct]
        split
        · rename_i ha
          exact inv_alloc hs x _ .wf (Or.inl rfl) (fun _ => ha)
        · exact hs
  | amplitudes x y =>
    simp only [exec]
    cases hy : s.vars y with
    | none => exact hs
    | some val =>
      cases val with
      | arr c v => exact hs
      | wf v => exact inv_assign hs x y _ _ hy rfl (fun v' hv' => by cases hv')
  | bind x y =>
    simp only [exec]
    cases hy : s.vars y with
    | none => exact hs
    | some val =>
      cases val with
      | arr c v => exact hs
      | wf v =>
        refine inv_assign hs x y _ _ hy rfl ?_
        obtain ⟨len, hl⟩ := hs
        exact (hl y _ hy).2.2
  | flip x y =>
    simp only [exec]
    cases hy : s.vars y with
    | none => exact hs
    | some val =>
      cases val with
      | arr c v => exact hs
      | wf v =>
        dsimp only
        cases hf : Bits.flipAmplitudes (read s.heap v) with
        | none => exact hs
        | some zs =>
          dsimp only
          split
          · rename_i ha
            exact inv_alloc hs x _ .wf (Or.inl rfl) (fun _ => ha)
          · exact hs
  | set x idx zs =>
    simp only [exec]
    cases hx : s.vars x with
    | none => exact hs
    | some val =>
      cases val with
      | arr c v => exact absurd hx (hc.2 c v)
      | wf v =>
        dsimp only
        obtain ⟨h1, h2⟩ := setItem_atomic s.heap v idx zs hc.1
        cases he : (setItem s.heap v idx zs).1 with
        | some e => rw [h2 e he]; exact hs
        | none =>
          have hn := h1 he
          obtain ⟨len, hl⟩ := hs
          refine ⟨len, ?_⟩
          intro y val hy
          obtain ⟨a1, a2, a3⟩ := hl y val hy
          dsimp only at hy ⊢
          rw [setItem_next]
          refine ⟨a1, a2, ?_⟩
          intro u hu
          subst hu
          obtain ⟨b1, b2, b3⟩ := hl x _ hx
          by_cases hb : u.buf = v.buf
          · have huv : u = v := by
              obtain ⟨ub, up⟩ := u
              obtain ⟨vb, vp⟩ := v
              simp only [Val.view] at a2 b2 hb
              subst hb
              rw [a2, b2]
            subst huv
            refine acceptable_congr (read s.heap u) _ (by simp [read]) (a3 u rfl) hn
          · have : read (setItem s.heap v idx zs).2 u = read s.heap u := by
              unfold read
              rw [setItem_frame _ _ _ _ _ hb]
            rw [this]
            exact a3 u rfl

theorem inv_empty (h : Heap) : Inv ⟨fun _ => none, h⟩ := ⟨fun _ => 0, by simp⟩

theorem run_inv (prog : List Stmt) : ∀ s, Inv s → CarefulRun prog s → Inv (run prog s).2 := by
  induction prog with
  | nil => intro s hs _; exact hs
  | cons st rest ih => intro s hs hc; exact ih _ (exec_inv st s hs hc.1) hc.2

/-- C116: in every program that makes arrays and wavefunctions, shares, flips and binds them, and writes only to wavefunctions and without slices, every
wavefunction is normalised at every time and has a power of two of amplitudes.  Missing: programs that write to arrays that share memory with a wavefunction
(`array_counterexample`, `amplitudes_counterexample`), or with slices (`slice_rejected_counterexample`, `overlap_counterexample`). -/
theorem normalised_partial (prog : List Stmt) (h : Heap) (hc : CarefulRun prog ⟨fun _ => none, h⟩) (x : String) (v : View)
    (hx : (run prog ⟨fun _ => none, h⟩).2.vars x = some (.wf v)) :
    let zs := read (run prog ⟨fun _ => none, h⟩).2.heap v
    |(zs.map Complex.normSq).sum - 1| ≤ (1 : ℝ) / 10 ^ 8 + 1 / 10 ^ 5 ∧ ∃ n, zs.length = 2 ^ n := by
  obtain ⟨len, hl⟩ := run_inv prog _ (inv_empty h) hc
  have ha := (hl x _ hx).2.2 v rfl
  unfold acceptable at ha
  rw [Bool.and_eq_true] at ha
  refine ⟨by simpa [normal] using ha.2, ?_⟩
  apply Bits.exists_eq_two_pow_of_popcount
  rw [← Bits.count_one_pyBin]
  simpa using ha.1

/-! ### What is shared -/

/-- C116: a wavefunction made from a complex array is that array: what is written to the array is an amplitude, whatever its norm. -/
theorem shared_write (s : State) (x y : String) (hxy : y ≠ x) (v : View) (hv : v.pos.Nodup) (hy : s.vars y = some (.arr true v))
    (ha : acceptable (read s.heap v) = true) (i : ℤ) (k : ℕ) (hk : pyIndex v.pos.length i = some k) (hlt : k < v.pos.length) (z : ℂ) :
    let out := run [.wavefunction x y, .set y (.one i) [z]] s
    out.1 = [none, none] ∧ out.2.vars x = some (.wf v) ∧ read out.2.heap v = (read s.heap v).set k z := by
  have hr := read_set s.heap v hv k hlt z
  simp only [run, exec, hy, construct, if_pos ha, State.assign, Function.update_of_ne hxy, setArray, entries, hk, broadcast, List.length_singleton, if_true,
    Bool.true_or, Function.update_self, hr, and_self]

theorem run_append (p q : List Stmt) : ∀ s, (run (p ++ q) s).2 = (run q (run p s).2).2 := by
  induction p with
  | nil => exact fun s => rfl
  | cons st rest ih => exact fun s => ih _

/-- The variables of a statement. -/
def Stmt.names : Stmt → List String
  | .array x _ _ => [x]
  | .share x y => [x, y]
  | .view x y _ _ => [x, y]
  | .wavefunction x y => [x, y]
  | .amplitudes x y => [x, y]
  | .bind x y => [x, y]
  | .flip x y => [x, y]
  | .set x _ _ => [x]

/-- What a statement does: nothing, a name for memory one of its variables has, a name for new memory, or a change of memory one of its variables has. -/
theorem exec_shape (st : Stmt) (s : State) :
    (exec st s).2 = s ∨
    (∃ x ∈ st.names, ∃ y ∈ st.names, ∃ val val', s.vars y = some val ∧ val'.view.buf = val.view.buf ∧ (exec st s).2 = s.assign x val' s.heap) ∨
    (∃ x ∈ st.names, ∃ zs val', val'.view = (alloc s.heap zs).1 ∧ (exec st s).2 = s.assign x val' (alloc s.heap zs).2) ∨
    (∃ y ∈ st.names, ∃ val h', s.vars y = some val ∧ h'.next = s.heap.next ∧ (∀ b, b ≠ val.view.buf → h'.mem b = s.heap.mem b) ∧
      (exec st s).2 = ⟨s.vars, h'⟩) := by
  cases st with
  | array x c zs =>
    simp only [exec]
    split
    · exact Or.inr (Or.inr (Or.inl ⟨x, by simp [Stmt.names], zs, .arr c (alloc s.heap zs).1, rfl, rfl⟩))
    · exact Or.inl rfl
  | share x y =>
    simp only [exec]
    cases hy : s.vars y with
    | none => exact Or.inl rfl
    | some val => exact Or.inr (Or.inl ⟨x, by simp [Stmt.names], y, by simp [Stmt.names], val, val, hy, rfl, rfl⟩)
  | view x y i j =>
    simp only [exec]
    cases hy : s.vars y with
    | none => exact Or.inl rfl
    | some val =>
      cases val with
      | arr c v =>
        exact Or.inr (Or.inl ⟨x, by simp [Stmt.names], y, by simp [Stmt.names], _, .arr c ⟨v.buf, (v.pos.drop i).take (j - i)⟩, hy, rfl, rfl⟩)
      | wf v =>
        exact Or.inr (Or.inl ⟨x, by simp [Stmt.names], y, by simp [Stmt.names], _, .arr true ⟨v.buf, (v.pos.drop i).take (j - i)⟩, hy, rfl, rfl⟩)
  | wavefunction x y =>
    simp only [exec]
    cases hy : s.vars y with
    | none => exact Or.inl rfl
    | some val =>
      match val with
      | .arr true v =>
        simp only [construct]
        split
        · exact Or.inr (Or.inl ⟨x, by simp [Stmt.names], y, by simp [Stmt.names], _, .wf v, hy, rfl, rfl⟩)
        · exact Or.inl rfl
      | .arr false v =>
        simp only [construct]
        split
        · exact Or.inr (Or.inr (Or.inl ⟨x, by simp [Stmt.names], read s.heap v, .wf (alloc s.heap (read s.heap v)).1, rfl, rfl⟩))
        · exact Or.inl rfl
      | .wf v =>
        simp only [construct]
        split
        · exact Or.inr (Or.inr (Or.inl ⟨x, by simp [Stmt.names], read s.heap v, .wf (alloc s.heap (read s.heap v)).1, rfl, rfl⟩))
        · exact Or.inl rfl
  | amplitudes x y =>
    simp only [exec]
    cases hy : s.vars y with
    | none => exact Or.inl rfl
    | some val =>
      cases val with
      | arr c v => exact Or.inl rfl
      | wf v => exact Or.inr (Or.inl ⟨x, by simp [Stmt.names], y, by simp [Stmt.names], _, .arr true v, hy, rfl, rfl⟩)
  | bind x y =>
    simp only [exec]
    cases hy : s.vars y with
    | none => exact Or.inl rfl
    | some val =>
      cases val with
      | arr c v => exact Or.inl rfl
      | wf v => exact Or.inr (Or.inl ⟨x, by simp [Stmt.names], y, by simp [Stmt.names], _, .wf v, hy, rfl, rfl⟩)
  | flip x y =>
    simp only [exec]
    cases hy : s.vars y with
    | none => exact Or.inl rfl
    | some val =>
      cases val with
      | arr c v => exact Or.inl rfl
      | wf v =>
        dsimp only
        cases Bits.flipAmplitudes (read s.heap v) with
        | none => exact Or.inl rfl
        | some zs =>
          dsimp only
          split
          · exact Or.inr (Or.inr (Or.inl ⟨x, by simp [Stmt.names], zs, .wf (alloc s.heap zs).1, rfl, rfl⟩))
          · exact Or.inl rfl
  | set y idx zs =>
    simp only [exec]
    cases hy : s.vars y with
    | none => exact Or.inl rfl
    | some val =>
      cases val with
      | arr c v =>
        refine Or.inr (Or.inr (Or.inr ⟨y, by simp [Stmt.names], _, (setArray s.heap c v idx zs).2, hy, ?_, fun b hb => ?_, rfl⟩))
        · unfold setArray
          cases entries v.pos.length idx with
          | error e => rfl
          | ok ks =>
            dsimp only
            cases broadcast ks.length zs with
            | error e => rfl
            | ok zs => dsimp only; split <;> rfl
        · unfold setArray
          cases entries v.pos.length idx with
          | error e => rfl
          | ok ks =>
            dsimp only
            cases broadcast ks.length zs with
            | error e => rfl
            | ok zs =>
              dsimp only
              split
              · exact Function.update_of_ne hb _ _
              · rfl
      | wf v =>
        exact Or.inr (Or.inr (Or.inr ⟨y, by simp [Stmt.names], _, (setItem s.heap v idx zs).2, hy, setItem_next _ _ _ _, fun b hb => setItem_frame _ _ _ _ b hb, rfl⟩))

/-- The variables name existing memory. -/
def Valid (s : State) : Prop := ∀ x val, s.vars x = some val → val.view.buf < s.heap.next

theorem valid_empty (h : Heap) : Valid ⟨fun _ => none, h⟩ := by simp [Valid]

theorem exec_valid (st : Stmt) (s : State) (hs : Valid s) : Valid (exec st s).2 := by
  rcases exec_shape st s with h | ⟨x, _, y, _, val, val', hy, hb, h⟩ | ⟨x, _, zs, val', hb, h⟩ | ⟨y, _, val, h', hy, hn, _, h⟩ <;> rw [h]
  · exact hs
  · intro z v hz
    simp only [State.assign] at hz ⊢
    by_cases hzx : z = x
    · subst hzx
      rw [Function.update_self] at hz
      cases hz
      rw [hb]
      exact hs y val hy
    · rw [Function.update_of_ne hzx] at hz
      exact hs z v hz
  · intro z v hz
    simp only [State.assign] at hz ⊢
    by_cases hzx : z = x
    · subst hzx
      rw [Function.update_self] at hz
      cases hz
      rw [hb]
      exact Nat.lt_succ_self _
    · rw [Function.update_of_ne hzx] at hz
      exact (hs z v hz).trans (Nat.lt_succ_self _)
  · intro z v hz
    dsimp only
    rw [hn]
    exact hs z v hz

/-- C116: every program leaves variables with existing memory only. -/
theorem run_valid (prog : List Stmt) : ∀ s, Valid s → Valid (run prog s).2 := by
  induction prog with
  | nil => exact fun s h => h
  | cons st rest ih => exact fun s h => ih _ (exec_valid st s h)

/-- The variable `x` names a wavefunction, and no other variable has its memory. -/
def Alone (s : State) (x : String) (v : View) : Prop :=
  s.vars x = some (.wf v) ∧ v.buf < s.heap.next ∧ ∀ y val, y ≠ x → s.vars y = some val → val.view.buf ≠ v.buf

theorem exec_alone (st : Stmt) (s : State) (x : String) (v : View) (hx : x ∉ st.names) (hs : Alone s x v) :
    Alone (exec st s).2 x v ∧ read (exec st s).2.heap v = read s.heap v := by
  obtain ⟨h1, h2, h3⟩ := hs
  rcases exec_shape st s with h | ⟨z, hz, y, hy, val, val', hv, hb, h⟩ | ⟨z, hz, zs, val', hb, h⟩ | ⟨y, hy, val, h', hv, hn, hf, h⟩ <;> rw [h]
  · exact ⟨⟨h1, h2, h3⟩, rfl⟩
  · have hxz : x ≠ z := fun e => hx (e ▸ hz)
    have hyx : y ≠ x := fun e => hx (e ▸ hy)
    refine ⟨⟨?_, h2, fun u val hu hval => ?_⟩, rfl⟩
    · simp only [State.assign, Function.update_of_ne hxz, h1]
    · simp only [State.assign] at hval
      by_cases huz : u = z
      · subst huz
        rw [Function.update_self] at hval
        cases hval
        rw [hb]
        exact h3 y _ hyx hv
      · rw [Function.update_of_ne huz] at hval
        exact h3 u val hu hval
  · have hxz : x ≠ z := fun e => hx (e ▸ hz)
    refine ⟨⟨?_, h2.trans (Nat.lt_succ_self _), fun u val hu hval => ?_⟩, read_alloc_old _ _ _ h2⟩
    · simp only [State.assign, Function.update_of_ne hxz, h1]
    · simp only [State.assign] at hval
      by_cases huz : u = z
      · subst huz
        rw [Function.update_self] at hval
        cases hval
        rw [hb]
        exact (ne_of_lt h2).symm
      · rw [Function.update_of_ne huz] at hval
        exact h3 u val hu hval
  · have hyx : y ≠ x := fun e => hx (e ▸ hy)
    refine ⟨⟨h1, by dsimp only; rw [hn]; exact h2, h3⟩, ?_⟩
    unfold read
    dsimp only
    rw [hf _ (h3 y val hyx hv).symm]

theorem run_alone (prog : List Stmt) : ∀ s x v, (∀ st ∈ prog, x ∉ st.names) → Alone s x v →
    (run prog s).2.vars x = some (.wf v) ∧ read (run prog s).2.heap v = read s.heap v := by
  induction prog with
  | nil => exact fun s x v _ h => ⟨h.1, rfl⟩
  | cons st rest ih =>
    intro s x v hp h
    obtain ⟨a, e⟩ := exec_alone st s x v (hp st (List.mem_cons_self ..)) h
    obtain ⟨c, d⟩ := ih _ x v (fun st' hst => hp st' (List.mem_cons_of_mem _ hst)) a
    exact ⟨c, d.trans e⟩

theorem alone_alloc (s : State) (hs : Valid s) (x : String) (zs : List ℂ) : Alone (s.assign x (.wf (alloc s.heap zs).1) (alloc s.heap zs).2) x (alloc s.heap zs).1 := by
  refine ⟨by simp [State.assign], Nat.lt_succ_self _, fun y val hy hval => ?_⟩
  simp only [State.assign, Function.update_of_ne hy] at hval
  exact (ne_of_lt (hs y val hval))

/-- C116: a wavefunction made from an array of real type or from a wavefunction has its own memory: no program that does not mention it changes it. -/
theorem copied_alone (before after : List Stmt) (h : Heap) (x y : String) (val : Val) (hval : ∀ v, val ≠ .arr true v)
    (hy : (run before ⟨fun _ => none, h⟩).2.vars y = some val) (ha : acceptable (read (run before ⟨fun _ => none, h⟩).2.heap val.view) = true)
    (hafter : ∀ st ∈ after, x ∉ st.names) :
    ∃ v, (run (before ++ .wavefunction x y :: after) ⟨fun _ => none, h⟩).2.vars x = some (.wf v) ∧
      read (run (before ++ .wavefunction x y :: after) ⟨fun _ => none, h⟩).2.heap v = read (run before ⟨fun _ => none, h⟩).2.heap val.view := by
  rw [run_append]
  have hs := run_valid before _ (valid_empty h)
  generalize (run before ⟨fun _ => none, h⟩).2 = s at *
  have hc : exec (.wavefunction x y) s = (none, s.assign x (.wf (alloc s.heap (read s.heap val.view)).1) (alloc s.heap (read s.heap val.view)).2) := by
    simp only [exec, hy]
    cases val with
    | arr c v =>
      cases c with
      | true => exact absurd rfl (hval v)
      | false => simp only [construct]; exact if_pos ha
    | wf v => simp only [construct]; exact if_pos ha
  obtain ⟨h1, h2⟩ := run_alone after _ x _ hafter (alone_alloc s hs x (read s.heap val.view))
  refine ⟨_, by rw [run, hc]; exact h1, ?_⟩
  rw [run, hc]
  exact h2.trans (read_alloc _ _)

/-- C116: a flipped wavefunction has its own memory: no program that does not mention it changes it. -/
theorem flipped_alone (before after : List Stmt) (h : Heap) (x y : String) (v : View) (zs : List ℂ)
    (hy : (run before ⟨fun _ => none, h⟩).2.vars y = some (.wf v)) (hf : Bits.flipAmplitudes (read (run before ⟨fun _ => none, h⟩).2.heap v) = some zs)
    (ha : acceptable zs = true) (hafter : ∀ st ∈ after, x ∉ st.names) :
    ∃ v', (run (before ++ .flip x y :: after) ⟨fun _ => none, h⟩).2.vars x = some (.wf v') ∧
      read (run (before ++ .flip x y :: after) ⟨fun _ => none, h⟩).2.heap v' = zs := by
  rw [run_append]
  have hs := run_valid before _ (valid_empty h)
  generalize (run before ⟨fun _ => none, h⟩).2 = s at *
  have hc : exec (.flip x y) s = (none, s.assign x (.wf (alloc s.heap zs).1) (alloc s.heap zs).2) := by
    simp only [exec, hy, hf]
    exact if_pos ha
  obtain ⟨h1, h2⟩ := run_alone after _ x _ hafter (alone_alloc s hs x zs)
  refine ⟨_, by rw [run, hc]; exact h1, ?_⟩
  rw [run, hc]
  exact h2.trans (read_alloc _ _)

/-- C116: `amplitudes` and, without free symbols, `bind` give access to the memory of the wavefunction itself. -/
theorem amplitudes_shared (s : State) (x y : String) (v : View) (hy : s.vars y = some (.wf v)) :
    exec (.amplitudes x y) s = (none, s.assign x (.arr true v) s.heap) ∧ exec (.bind x y) s = (none, s.assign x (.wf v) s.heap) := by
  simp only [exec, hy, and_self]

/-! ### Counterexamples -/

theorem acceptable_one_zero : acceptable [1, 0] = true := by
  unfold acceptable normal
  rw [Bool.and_eq_true, Bits.count_one_pyBin]
  constructor
  · rw [show ([1, 0] : List ℂ).length = 2 ^ 1 from rfl, Bits.popcount_two_pow]; rfl
  · norm_num

theorem acceptable_one_zeros : acceptable [1, 0, 0, 0] = true := by
  unfold acceptable normal
  rw [Bool.and_eq_true, Bits.count_one_pyBin]
  constructor
  · rw [show ([1, 0, 0, 0] : List ℂ).length = 2 ^ 2 from rfl, Bits.popcount_two_pow]; rfl
  · norm_num

theorem not_normal_five : normal [5, 0] = false := by
  unfold normal
  norm_num [Complex.normSq_apply]

/-- C116 fails for arrays: after `a = np.array([1, 0], dtype=complex); w = Wavefunction(a); a[0] = 5` the amplitudes of `w` are `[5, 0]`. -/
theorem array_counterexample (h : Heap) :
    let out := run [.array "a" true [1, 0], .wavefunction "w" "a", .set "a" (.one 0) [5]] ⟨fun _ => none, h⟩
    out.1 = [none, none, none] ∧ ∃ v, out.2.vars "w" = some (.wf v) ∧ read out.2.heap v = [5, 0] ∧ normal (read out.2.heap v) = false := by
  have hr : read (alloc h [1, 0]).2 (alloc h [1, 0]).1 = [1, 0] := read_alloc h _
  have hs := shared_write ⟨Function.update (fun _ => none) "a" (some (.arr true (alloc h [1, 0]).1)), (alloc h [1, 0]).2⟩ "w" "a" (by decide)
    (alloc h [1, 0]).1 (by simp [alloc, List.nodup_range]) (by simp) (by rw [hr]; exact acceptable_one_zero) 0 0 (by simp [alloc, pyIndex])
    (by simp [alloc]) 5
  obtain ⟨h1, h2, h3⟩ := hs
  rw [hr] at h3
  have hrun : run [.array "a" true [1, 0], .wavefunction "w" "a", .set "a" (.one 0) [5]] ⟨fun _ => none, h⟩ =
      (none :: (run [.wavefunction "w" "a", .set "a" (.one 0) [5]]
        ⟨Function.update (fun _ => none) "a" (some (.arr true (alloc h [1, 0]).1)), (alloc h [1, 0]).2⟩).1,
       (run [.wavefunction "w" "a", .set "a" (.one 0) [5]]
        ⟨Function.update (fun _ => none) "a" (some (.arr true (alloc h [1, 0]).1)), (alloc h [1, 0]).2⟩).2) := by
    rfl
  rw [hrun]
  refine ⟨by rw [h1], _, h2, by rw [h3]; rfl, by rw [h3]; exact not_normal_five⟩

/-- C116 fails for `amplitudes`: after `w.amplitudes[0] = 5` the wavefunction `w`, whatever it was, has the amplitude 5. -/
theorem amplitudes_counterexample (s : State) (x y : String) (hxy : y ≠ x) (v : View) (hv : v.pos.Nodup) (hne : v.pos ≠ [])
    (hy : s.vars y = some (.wf v)) :
    let out := run [.amplitudes x y, .set x (.one 0) [5]] s
    out.1 = [none, none] ∧ out.2.vars y = some (.wf v) ∧ (read out.2.heap v)[0]? = some 5 ∧ normal (read out.2.heap v) = false := by
  have hlen : 0 < v.pos.length := List.length_pos_iff.2 hne
  have hk : pyIndex v.pos.length 0 = some 0 := by
    unfold pyIndex
    rw [if_pos ⟨le_refl _, by exact_mod_cast hlen⟩]
    rfl
  have hr := read_set s.heap v hv 0 hlen 5
  have hout : (run [.amplitudes x y, .set x (.one 0) [5]] s) = ([none, none],
      ⟨Function.update s.vars x (some (.arr true v)), put s.heap v.buf (writes (s.heap.mem v.buf) (places v [0]) [5])⟩) := by
    simp only [run, exec, hy, State.assign, Function.update_self, setArray, entries, hk, broadcast, List.length_singleton, if_true, Bool.true_or]
  rw [hout]
  refine ⟨rfl, by simp only [Function.update_of_ne hxy, hy], ?_, ?_⟩
  · rw [hr]
    simp [read, hlen]
  · rw [hr]
    cases hz : read s.heap v with
    | nil => simp [read] at hz; exact absurd hz hne
    | cons a l =>
      unfold normal
      simp only [List.set_cons_zero, List.map_cons, List.sum_cons, decide_eq_false_iff_not, not_le]
      have hnn : 0 ≤ (l.map Complex.normSq).sum := List.sum_nonneg (by simp; intro a _; exact Complex.normSq_nonneg a)
      have h5 : Complex.normSq 5 = 25 := by norm_num [Complex.normSq_apply]
      rw [h5, abs_of_nonneg (by linarith)]
      norm_num
      linarith

/-- C116 fails for slices: after `w = Wavefunction(np.array([1, 0])); w[0:1] = [5]` a `ValueError` says that the assignment violates the normalisation, and
the amplitudes are `[5, 0]`. -/
theorem slice_counterexample (h : Heap) :
    let out := run [.array "a" false [1, 0], .wavefunction "w" "a", .set "w" (.slice 0 1) [5]] ⟨fun _ => none, h⟩
    out.1 = [none, none, some .valueError] ∧ ∃ v, out.2.vars "w" = some (.wf v) ∧ read out.2.heap v = [5, 0] := by
  have hr : read (alloc h [1, 0]).2 (alloc h [1, 0]).1 = [1, 0] := read_alloc h _
  have hr2 := read_alloc (alloc h [1, 0]).2 [1, 0]
  have hset := read_set (alloc (alloc h [1, 0]).2 [1, 0]).2 (alloc (alloc h [1, 0]).2 [1, 0]).1 (by simp [alloc, List.nodup_range]) 0 (by simp [alloc]) 5
  rw [hr2] at hset
  have hfil : ((List.range (alloc (alloc h [1, 0]).2 [1, 0]).1.pos.length).filter fun k => decide (0 ≤ k) && decide (k < 1)) = [0] := by
    simp [alloc, List.range_succ]
  have hbad := slice_rejected_counterexample (alloc (alloc h [1, 0]).2 [1, 0]).2 (alloc (alloc h [1, 0]).2 [1, 0]).1 0 1 [5] (by rw [hfil]; rfl)
    (by rw [hfil, hset]; exact not_normal_five)
  rw [hfil] at hbad
  obtain ⟨b1, _, b3⟩ := hbad
  have him : ([1, 0] : List ℂ).all (fun z => z.im == 0) = true := by simp
  have hne : ("w" : String) ≠ "a" := by decide
  simp only [run, exec, him, Bool.false_or, if_true, State.assign, Function.update_self, construct, hr, if_pos acceptable_one_zero, b1]
  exact ⟨trivial, _, rfl, by rw [b3, hset]; rfl⟩

/-- C116 fails for wavefunctions on overlapping parts of an array: `u = Wavefunction(a[0:2])` and `w = Wavefunction(a)` for `a = [1, 0, 0, 0]` are both
normalised, and the accepted assignment `w[[0, 2]] = [0, 1]` makes all amplitudes of `u` 0. -/
theorem overlap_counterexample (h : Heap) :
    let out := run [.array "a" true [1, 0, 0, 0], .view "b" "a" 0 2, .wavefunction "u" "b", .wavefunction "w" "a", .set "w" (.many [0, 2]) [0, 1]]
      ⟨fun _ => none, h⟩
    out.1 = [none, none, none, none, none] ∧ ∃ v, out.2.vars "u" = some (.wf v) ∧ read out.2.heap v = [0, 0] := by
  have e1 : read (alloc h [1, 0, 0, 0]).2 ⟨(alloc h [1, 0, 0, 0]).1.buf, [0, 1]⟩ = [1, 0] := by simp [read, alloc]
  have e2 : read (alloc h [1, 0, 0, 0]).2 (alloc h [1, 0, 0, 0]).1 = [1, 0, 0, 0] := read_alloc h _
  have e3 : ((alloc h [1, 0, 0, 0]).1.pos.drop 0).take (2 - 0) = [0, 1] := by simp [alloc, List.range_succ]
  have e4 : entries (alloc h [1, 0, 0, 0]).1.pos.length (.many [0, 2]) = .ok [0, 2] := by rfl
  have e5 : read (put (alloc h [1, 0, 0, 0]).2 (alloc h [1, 0, 0, 0]).1.buf (writes ((alloc h [1, 0, 0, 0]).2.mem (alloc h [1, 0, 0, 0]).1.buf)
      (places (alloc h [1, 0, 0, 0]).1 [0, 2]) [0, 1])) (alloc h [1, 0, 0, 0]).1 = [0, 0, 1, 0] := by
    simp [read, alloc, put, writes, places, List.range_succ]
  have e6 : normal [0, 0, 1, 0] = true := by unfold normal; norm_num
  have e7 : read (put (alloc h [1, 0, 0, 0]).2 (alloc h [1, 0, 0, 0]).1.buf (writes ((alloc h [1, 0, 0, 0]).2.mem (alloc h [1, 0, 0, 0]).1.buf)
      (places (alloc h [1, 0, 0, 0]).1 [0, 2]) [0, 1])) ⟨(alloc h [1, 0, 0, 0]).1.buf, [0, 1]⟩ = [0, 0] := by
    simp [read, alloc, put, writes, places, List.range_succ]
  have n1 : ("a" : String) ≠ "b" := by decide
  have n2 : ("a" : String) ≠ "u" := by decide
  have n3 : ("u" : String) ≠ "w" := by decide
  have e8 : setItem (alloc h [1, 0, 0, 0]).2 (alloc h [1, 0, 0, 0]).1 (.many [0, 2]) [0, 1] = (none, put (alloc h [1, 0, 0, 0]).2
      (alloc h [1, 0, 0, 0]).1.buf (writes ((alloc h [1, 0, 0, 0]).2.mem (alloc h [1, 0, 0, 0]).1.buf) (places (alloc h [1, 0, 0, 0]).1 [0, 2]) [0, 1])) := by
    simp only [setItem, e4, broadcast, List.length_cons, List.length_nil, if_true]
    rw [e5, if_pos e6]
  simp only [run, exec, Bool.true_or, if_true, State.assign, Function.update_self, e3, construct, e1, if_pos acceptable_one_zero, Function.update_of_ne n1,
    Function.update_of_ne n2, e2, if_pos acceptable_one_zeros, e8, Function.update_of_ne n3]
  exact ⟨trivial, _, rfl, e7⟩

/-! ### Comparison -/

/-- C116: `==` on wavefunctions of the same size gives an array that says which amplitudes are equal; they all are exactly if the amplitudes are the same. -/
theorem equal_array (mismatch : Except Exc EqResult) (a b : List ℂ) (hl : a.length = b.length) :
    ∃ bs, equal mismatch a (some b) = .ok (.array bs) ∧ bs.length = a.length ∧ (bs.all id = true ↔ a = b) := by
  refine ⟨_, by rw [equal]; exact if_pos hl, by simp [hl], ?_⟩
  induction a generalizing b with
  | nil => cases b with | nil => simp | cons y b => simp at hl
  | cons x a ih =>
    cases b with
    | nil => simp at hl
    | cons y b =>
      have := ih b (by simpa using hl)
      simp only [List.zipWith_cons_cons, List.all_cons, id, Bool.and_eq_true, decide_eq_true_eq, List.cons.injEq]
      rw [← this]

/-- C116 fails for comparisons: `==` is no truth value, and `if a == b` and `a != b` raise `ValueError` for all wavefunctions of one or more qubits, even if
`a` and `b` are the same object. -/
theorem equal_counterexample (mismatch : Except Exc EqResult) (a b : List ℂ) (hl : a.length = b.length) (h2 : 2 ≤ a.length) :
    ifEqual mismatch a (some b) = .error .valueError ∧ notEqual mismatch a (some b) = .error .valueError := by
  obtain ⟨bs, h, hlen, _⟩ := equal_array mismatch a b hl
  have ht : truth (.array bs) = .error .valueError := by
    match bs, hlen with
    | [], hlen => simp at hlen; omega
    | [_], hlen => simp at hlen; omega
    | _ :: _ :: _, _ => rfl
  have hi : ifEqual mismatch a (some b) = .error .valueError := by
    rw [ifEqual, h]
    exact ht
  exact ⟨hi, by rw [notEqual, hi]; rfl⟩

/-- C116: an object that is not a wavefunction is different. -/
theorem equal_other (mismatch : Except Exc EqResult) (a : List ℂ) :
    ifEqual mismatch a none = .ok false ∧ notEqual mismatch a none = .ok true := ⟨rfl, rfl⟩

/-! ### Cases -/

/-- A case of `copied_alone`: an array of real type is changed after a wavefunction has been made from it. -/
example (h : Heap) : ∃ v, (run ([.array "a" false [1, 0]] ++ .wavefunction "w" "a" :: [.set "a" (.one 0) [5]]) ⟨fun _ => none, h⟩).2.vars "w" = some (.wf v) ∧
    read (run ([.array "a" false [1, 0]] ++ .wavefunction "w" "a" :: [.set "a" (.one 0) [5]]) ⟨fun _ => none, h⟩).2.heap v = [1, 0] := by
  have hr : read (alloc h [1, 0]).2 (alloc h [1, 0]).1 = [1, 0] := read_alloc h _
  have hx : exec (.array "a" false [1, 0]) ⟨fun _ => none, h⟩ = (none, (⟨fun _ => none, h⟩ : State).assign "a" (.arr false (alloc h [1, 0]).1) (alloc h [1, 0]).2) := by
    simp [exec]
  have hrun : (run [.array "a" false [1, 0]] ⟨fun _ => none, h⟩).2 = (⟨fun _ => none, h⟩ : State).assign "a" (.arr false (alloc h [1, 0]).1) (alloc h [1, 0]).2 := by
    rw [run, hx]; rfl
  obtain ⟨v, h1, h2⟩ := copied_alone [.array "a" false [1, 0]] [.set "a" (.one 0) [5]] h "w" "a" (.arr false (alloc h [1, 0]).1) (by simp)
    (by rw [hrun]; simp [State.assign]) (by rw [hrun]; exact hr.symm ▸ acceptable_one_zero) (by simp [Stmt.names])
  refine ⟨v, h1, h2.trans ?_⟩
  rw [hrun]
  exact hr

/-- A case: a careful program with a shared wavefunction, a flipped copy, and an assignment that is rejected. -/
example (h : Heap) : CarefulRun [.array "a" true [1, 0], .wavefunction "w" "a", .bind "u" "w", .flip "f" "w", .set "u" (.one (-1)) [5],
    .set "w" (.many [0, 1]) [0, Complex.I]] ⟨fun _ => none, h⟩ := by
  have hr : read (alloc h [1, 0]).2 (alloc h [1, 0]).1 = [1, 0] := read_alloc h _
  have n1 : ("w" : String) ≠ "u" := by decide
  have key : ∀ (s : State) (v : View), s.vars "w" = some (.wf v) → s.vars "u" = some (.wf v) → ∀ rest : State → Prop,
      (∀ s' : State, s'.vars "w" = some (.wf v) → s'.vars "u" = some (.wf v) → rest s') → rest (exec (.flip "f" "w") s).2 := by
    intro s v hw hu rest hrest
    apply hrest
    · simp only [exec, hw]
      cases Bits.flipAmplitudes (read s.heap v) with
      | none => exact hw
      | some zs =>
        dsimp only
        split
        · simp [State.assign, hw]
        · exact hw
    · simp only [exec, hw]
      cases Bits.flipAmplitudes (read s.heap v) with
      | none => exact hu
      | some zs =>
        dsimp only
        split
        · simp [State.assign, hu]
        · exact hu
  refine ⟨trivial, trivial, trivial, trivial, ?_⟩
  refine key _ (alloc h [1, 0]).1 ?_ ?_ (fun s => CarefulRun [.set "u" (.one (-1)) [5], .set "w" (.many [0, 1]) [0, Complex.I]] s) ?_
  · simp [exec, State.assign, construct, hr, acceptable_one_zero]
  · simp [exec, State.assign, construct, hr, acceptable_one_zero]
  · intro s hw hu
    refine ⟨⟨trivial, by simp [hu]⟩, ⟨trivial, ?_⟩, trivial⟩
    simp [exec, hu, hw]

end ZQ.WfHeap
