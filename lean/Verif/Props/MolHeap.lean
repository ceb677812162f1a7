import Verif.Model.MolHeap
import Verif.Props.Molecule

/-!
# C132: what a molecule hands out, and what that does to its data
-/

namespace ZQ.MolHeap

open ZQ ZQ.Mol ZQ.Files

/-! ### What a user sees -/

/-- The value of an attribute of the molecule; an array that has not been used yet is in the file. -/
def view (w : World) (a : Slot) : Option RTensor :=
  match w.slot a with
  | some r => some (w.mem r)
  | none => w.file a

/-- The contents of result number `v`: its number and its arrays. -/
def contents (w : World) (v : ℕ) : Option (Option ℝ × List RTensor) := (w.results[v]?).map fun x => (x.const, x.refs.map w.mem)

/-- The methods whose results are the caller's own. -/
def Method.own (k : Method) : Prop := k ≠ .integrals ∧ k ≠ .rdm

/-- Whether a step updates result number `v` in place. -/
def Op.writesTo (v : ℕ) : Op → Bool
  | .write u _ _ => u == v
  | _ => false

/-- `t` with some entries smaller than the tolerance set to zero. -/
def Rounded (t t' : RTensor) : Prop := ∀ i, t' i = t i ∨ (t' i = 0 ∧ |t i| < 1 / 10 ^ 8)

/-! ### Invariant -/

/-- Arrays exist; attributes hold different arrays; results of methods other than `get_integrals` and `get_molecular_rdm` share arrays with nothing. -/
structure Inv (w : World) : Prop where
  slotLt : ∀ a r, w.slot a = some r → r < w.next
  refLt : ∀ x ∈ w.results, ∀ r ∈ x.refs, r < w.next
  slotInj : ∀ a b r, w.slot a = some r → w.slot b = some r → a = b
  own : ∀ (v : ℕ) (x : Result), w.results[v]? = some x → x.made.own → ∀ r ∈ x.refs, (∀ a, w.slot a ≠ some r) ∧ ∀ (u : ℕ) (y : Result), w.results[u]? = some y → r ∈ y.refs → u = v

theorem start_inv (file : Slot → Option RTensor) : Inv (start file) := ⟨by simp [start], by simp [start], by simp [start], by simp [start]⟩

theorem getArr_results (w : World) (a : Slot) : (getArr w a).1.results = w.results := by
  unfold getArr; split
  · rfl
  · split <;> rfl

theorem getArr_file (w : World) (a : Slot) : (getArr w a).1.file = w.file := by
  unfold getArr; split
  · rfl
  · split <;> rfl

theorem getArr_next (w : World) (a : Slot) : w.next ≤ (getArr w a).1.next := by
  unfold getArr; split
  · exact le_rfl
  · split
    · exact le_rfl
    · exact Nat.le_succ _

theorem getArr_mem (w : World) (a : Slot) {r : ℕ} (h : r < w.next) : (getArr w a).1.mem r = w.mem r := by
  unfold getArr; split
  · rfl
  · split
    · rfl
    · exact Function.update_of_ne h.ne ..

theorem getArr_slot (w : World) (a : Slot) : (getArr w a).1.slot a = (getArr w a).2 := by
  unfold getArr; split
  · assumption
  · split
    · assumption
    · exact Function.update_self ..

theorem getArr_keeps (w : World) (a b : Slot) {r : ℕ} (h : w.slot b = some r) : (getArr w a).1.slot b = some r := by
  unfold getArr; split
  · exact h
  · rename_i h0
    split
    · exact h
    · refine (Function.update_of_ne ?_ ..).trans h
      rintro rfl
      rw [h0] at h; cases h

theorem getArr_view (w : World) (hw : Inv w) (a b : Slot) : view (getArr w a).1 b = view w b := by
  unfold getArr
  split
  · rfl
  · rename_i h0
    split
    · rfl
    · rename_i t ht
      by_cases hb : b = a
      · subst hb
        simp [view, h0, ht]
      · simp only [view, Function.update_of_ne hb]
        cases hs : w.slot b with
        | none => rfl
        | some r => simp only [Function.update_of_ne (hw.slotLt b r hs).ne]

theorem getArr_value (w : World) (a : Slot) : ((getArr w a).2).map (getArr w a).1.mem = view w a := by
  unfold getArr view
  cases h0 : w.slot a with
  | some r => rfl
  | none =>
    cases ht : w.file a with
    | none => rfl
    | some t => simp

theorem getArr_inv {w : World} (hw : Inv w) (a : Slot) : Inv (getArr w a).1 := by
  unfold getArr
  split
  · exact hw
  · rename_i h0
    split
    · exact hw
    · rename_i t ht
      have upd : ∀ b r, Function.update w.slot a (some w.next) b = some r → (b = a ∧ r = w.next) ∨ (b ≠ a ∧ w.slot b = some r) := by
        intro b r h
        by_cases hb : b = a
        · subst hb
          rw [Function.update_self] at h
          exact Or.inl ⟨rfl, (Option.some.inj h).symm⟩
        · rw [Function.update_of_ne hb] at h
          exact Or.inr ⟨hb, h⟩
      refine ⟨fun b r h => ?_, fun x hx r hr => (hw.refLt x hx r hr).trans (Nat.lt_succ_self _), fun b c r h h' => ?_, fun v x hv hx r hr => ⟨fun b h => ?_, (hw.own v x hv hx r hr).2⟩⟩
      · rcases upd b r h with ⟨-, rfl⟩ | ⟨-, h⟩
        · exact Nat.lt_succ_self _
        · exact (hw.slotLt b r h).trans (Nat.lt_succ_self _)
      · rcases upd b r h with ⟨e1, e2⟩ | ⟨_, h1⟩ <;> rcases upd c _ h' with ⟨e3, e4⟩ | ⟨_, h2⟩
        · rw [e1, e3]
        · exact absurd (hw.slotLt _ _ h2) (by omega)
        · exact absurd (hw.slotLt _ _ h1) (by omega)
        · exact hw.slotInj b c r h1 h2
      · have hlt := hw.refLt x (List.mem_of_getElem? hv) r hr
        rcases upd b r h with ⟨-, rfl⟩ | ⟨-, h⟩
        · exact lt_irrefl _ hlt
        · exact (hw.own v x hv hx r hr).1 b h

theorem results_append {l : List Result} {y x : Result} {v : ℕ} (h : (l ++ [y])[v]? = some x) : (l[v]? = some x ∧ v < l.length) ∨ (v = l.length ∧ x = y) := by
  rcases lt_trichotomy v l.length with hv | hv | hv
  · rw [List.getElem?_append_left hv] at h
    exact Or.inl ⟨h, hv⟩
  · subst hv
    rw [List.getElem?_append_right le_rfl] at h
    simp at h
    exact Or.inr ⟨rfl, h.symm⟩
  · rw [List.getElem?_append_right hv.le] at h
    obtain ⟨h', -⟩ := List.getElem?_eq_some_iff.1 h
    simp at h'
    omega

theorem give_inv {w : World} (hw : Inv w) (k : Method) (hk : ¬ k.own) (refs : List ℕ) (hr : ∀ r ∈ refs, ∃ a, w.slot a = some r) : Inv (give w k refs) := by
  refine ⟨hw.slotLt, fun x hx r h => ?_, hw.slotInj, fun v x hv hx r h => ?_⟩
  · rcases List.mem_append.1 hx with hx | hx
    · exact hw.refLt x hx r h
    · rw [List.mem_singleton] at hx
      subst hx
      obtain ⟨a, ha⟩ := hr r h
      exact hw.slotLt a r ha
  · rcases results_append hv with ⟨hv, -⟩ | ⟨-, rfl⟩
    · obtain ⟨h1, h2⟩ := hw.own v x hv hx r h
      refine ⟨h1, fun u y hu hy => ?_⟩
      rcases results_append hu with ⟨hu, -⟩ | ⟨-, rfl⟩
      · exact h2 u y hu hy
      · obtain ⟨a, ha⟩ := hr r hy
        exact absurd ha (h1 a)
    · exact absurd hx hk

theorem giveNew_inv {w : World} (hw : Inv w) (k : Method) (c : Option ℝ) (ts : List RTensor) : Inv (giveNew w k c ts) := by
  have new : ∀ r ∈ (List.range ts.length).map (w.next + ·), w.next ≤ r ∧ r < w.next + ts.length := by
    intro r hr
    obtain ⟨i, hi, rfl⟩ := List.mem_map.1 hr
    exact ⟨Nat.le_add_right _ _, Nat.add_lt_add_left (List.mem_range.1 hi) _⟩
  refine ⟨fun a r h => (hw.slotLt a r h).trans_le (Nat.le_add_right _ _), fun x hx r h => ?_, hw.slotInj, fun v x hv hx r h => ?_⟩
  · rcases List.mem_append.1 hx with hx | hx
    · exact (hw.refLt x hx r h).trans_le (Nat.le_add_right _ _)
    · rw [List.mem_singleton] at hx
      subst hx
      exact (new r h).2
  · rcases results_append hv with ⟨hv, hlt⟩ | ⟨rfl, rfl⟩
    · obtain ⟨h1, h2⟩ := hw.own v x hv hx r h
      refine ⟨h1, fun u y hu hy => ?_⟩
      rcases results_append hu with ⟨hu, -⟩ | ⟨-, rfl⟩
      · exact h2 u y hu hy
      · exact absurd (hw.refLt x (List.mem_of_getElem? hv) r h) (not_lt.2 (new r hy).1)
    · refine ⟨fun a ha => absurd (hw.slotLt a r ha) (not_lt.2 (new r h).1), fun u y hu hy => ?_⟩
      rcases results_append hu with ⟨hu, -⟩ | ⟨hu, -⟩
      · exact absurd (hw.refLt y (List.mem_of_getElem? hu) r hy) (not_lt.2 (new r h).1)
      · exact hu

theorem mem_inv {w : World} (hw : Inv w) (m : ℕ → RTensor) (f : Slot → Option RTensor) : Inv { w with mem := m, file := f } := ⟨hw.slotLt, hw.refLt, hw.slotInj, hw.own⟩

/-- Reading attributes: nothing that a user can see changes. -/
structure Quiet (w w' : World) : Prop where
  inv : Inv w'
  results : w'.results = w.results
  file : w'.file = w.file
  view : ∀ a, view w' a = view w a
  next : w.next ≤ w'.next
  mem : ∀ r < w.next, w'.mem r = w.mem r
  keeps : ∀ a r, w.slot a = some r → w'.slot a = some r
  newSlot : ∀ a r, w'.slot a = some r → w.slot a = some r ∨ w.next ≤ r

theorem Quiet.refl {w : World} (hw : Inv w) : Quiet w w := ⟨hw, rfl, rfl, fun _ => rfl, le_rfl, fun _ _ => rfl, fun _ _ h => h, fun _ _ h => Or.inl h⟩

theorem Quiet.trans {a b c : World} (h : Quiet a b) (h' : Quiet b c) : Quiet a c :=
  ⟨h'.inv, h'.results.trans h.results, h'.file.trans h.file, fun x => (h'.view x).trans (h.view x), h.next.trans h'.next,
    fun r hr => (h'.mem r (hr.trans_le h.next)).trans (h.mem r hr), fun x r hr => h'.keeps x r (h.keeps x r hr), fun x r hr => by
      rcases h'.newSlot x r hr with hr | hr
      · exact h.newSlot x r hr
      · exact Or.inr (h.next.trans hr)⟩

theorem getArr_quiet {w : World} (hw : Inv w) (a : Slot) : Quiet w (getArr w a).1 := by
  refine ⟨getArr_inv hw a, getArr_results w a, getArr_file w a, getArr_view w hw a, getArr_next w a, fun _ h => getArr_mem w a h, fun _ _ h => getArr_keeps w a _ h, fun b r h => ?_⟩
  unfold getArr at h
  split at h
  · exact Or.inl h
  · split at h
    · exact Or.inl h
    · by_cases hb : b = a
      · subst hb
        dsimp only at h
        rw [Function.update_self] at h
        exact Or.inr (Option.some.inj h).le
      · dsimp only at h
        rw [Function.update_of_ne hb] at h
        exact Or.inl h

theorem getIntegrals_quiet {w : World} (hw : Inv w) : Quiet w (getIntegrals w).1 ∧
    ∀ r s, (getIntegrals w).2 = .ok (r, s) → (getIntegrals w).1.slot .one = some r ∧ (getIntegrals w).1.slot .two = some s := by
  have q1 := getArr_quiet hw .one
  have e1 := getArr_slot w .one
  unfold getIntegrals
  revert q1 e1
  generalize getArr w .one = x
  obtain ⟨w1, r1⟩ := x
  intro q1 e1
  cases r1 with
  | none => exact ⟨q1, fun r s h => by cases h⟩
  | some r =>
    have q2 := getArr_quiet q1.inv .two
    have e2 := getArr_slot w1 .two
    have k2 := getArr_keeps w1 .two .one e1
    revert q2 e2 k2
    dsimp only
    generalize getArr w1 .two = y
    obtain ⟨w2, r2⟩ := y
    intro q2 e2 k2
    cases r2 with
    | none => exact ⟨q1.trans q2, fun r s h => by cases h⟩
    | some s =>
      refine ⟨q1.trans q2, fun r' s' h => ?_⟩
      cases h
      exact ⟨k2, e2⟩

/-- The integrals are there exactly if both attributes are. -/
theorem getIntegrals_value {w : World} (hw : Inv w) :
    (∀ h g, view w .one = some h → view w .two = some g → ∃ r s, (getIntegrals w).2 = .ok (r, s) ∧ (getIntegrals w).1.mem r = h ∧ (getIntegrals w).1.mem s = g) ∧
    ((view w .one = none ∨ view w .two = none) → (getIntegrals w).2 = .error (.py .runtimeError)) := by
  have q1 := getArr_quiet hw .one
  have e1 := getArr_slot w .one
  have v1 := getArr_value w .one
  unfold getIntegrals
  revert q1 e1 v1
  generalize getArr w .one = x
  obtain ⟨w1, r1⟩ := x
  intro q1 e1 v1
  cases r1 with
  | none =>
    refine ⟨fun h g h1 _ => ?_, fun _ => rfl⟩
    rw [h1] at v1; cases v1
  | some r =>
    have q2 := getArr_quiet q1.inv .two
    have v2 := getArr_value w1 .two
    rw [q1.view] at v2
    revert q2 v2
    dsimp only
    generalize getArr w1 .two = y
    obtain ⟨w2, r2⟩ := y
    intro q2 v2
    have hr := q1.inv.slotLt _ _ e1
    cases r2 with
    | none =>
      refine ⟨fun h g _ h2 => ?_, fun _ => rfl⟩
      rw [h2] at v2; cases v2
    | some s =>
      refine ⟨fun h g h1 h2 => ⟨r, s, rfl, ?_, ?_⟩, ?_⟩
      · rw [h1] at v1
        exact (q2.mem r hr).trans (Option.some.inj v1)
      · rw [h2] at v2
        exact Option.some.inj v2
      · rintro (h | h)
        · rw [h] at v1; cases v1
        · rw [h] at v2; cases v2

theorem giveNew_view {w : World} (hw : Inv w) (k : Method) (c : Option ℝ) (ts : List RTensor) (a : Slot) : view (giveNew w k c ts) a = view w a := by
  unfold view
  show (match w.slot a with | some r => some ((giveNew w k c ts).mem r) | none => w.file a) = _
  cases h : w.slot a with
  | none => rfl
  | some r => 
    show some (if w.next ≤ r then _ else _) = _
    rw [if_neg (not_le.2 (hw.slotLt a r h))]

theorem giveNew_contents (w : World) (k : Method) (c : Option ℝ) (ts : List RTensor) : contents (giveNew w k c ts) w.results.length = some (c, ts) := by
  have : (giveNew w k c ts).results[w.results.length]? = some ⟨k, c, (List.range ts.length).map (w.next + ·)⟩ := by simp [giveNew]
  rw [contents, this]
  simp only [Option.map_some, Option.some.injEq, Prod.mk.injEq, true_and, List.map_map]
  refine List.ext_getElem (by simp) fun i h1 h2 => ?_
  simp [giveNew, List.getD_eq_getElem?_getD]
  rw [List.getElem?_eq_getElem h2]
  rfl

/-- What a step other than an update, a density matrix, saving and opening does: it reads attributes and may return new or, for the integrals, the molecule's own arrays. -/
inductive Reads (w : World) : World → Option FErr → Prop
  | fail (w' : World) (e : FErr) (h : Quiet w w') : Reads w w' (some e)
  | new (w' : World) (k : Method) (hk : k.own) (c : Option ℝ) (ts : List RTensor) (h : Quiet w w') : Reads w (giveNew w' k c ts) none
  | own (w' : World) (r s : ℕ) (h : Quiet w w') (hr : w'.slot .one = some r) (hs : w'.slot .two = some s) : Reads w (give w' .integrals [r, s]) none

theorem withIntegrals_reads {w : World} (hw : Inv w) (k : Method) (hk : k.own) (f : RTensor → RTensor → Except Err (Option ℝ × List RTensor)) :
    Reads w (withIntegrals w k f).1 (withIntegrals w k f).2 := by
  have q := (getIntegrals_quiet hw).1
  unfold withIntegrals
  revert q
  generalize getIntegrals w = x
  obtain ⟨w1, e | ⟨r, s⟩⟩ := x
  · intro q
    exact .fail w1 e q
  · intro q
    dsimp only
    cases f (w1.mem r) (w1.mem s) with
    | error e => exact .fail w1 _ q
    | ok x => exact .new w1 k hk _ _ q

/-- The steps described by `Reads`. -/
def Op.reads : Op → Bool
  | .integrals | .activeSpace .. | .hamiltonian .. | .coulomb | .exchange | .antisym => true
  | _ => false

theorem fromTwo_reads {w : World} (hw : Inv w) (k : Method) (hk : k.own) (f : RTensor → RTensor) : Reads w (fromTwo w k f).1 (fromTwo w k f).2 := by
  have q := getArr_quiet hw .two
  unfold fromTwo
  revert q
  generalize getArr w .two = x
  obtain ⟨w1, _ | s⟩ := x
  · exact fun q => .fail w1 _ q
  · exact fun q => .new w1 k hk _ _ q

theorem exec_reads (F : Fixed) {w : World} (hw : Inv w) (op : Op) (h : op.reads = true) : Reads w (exec F w op).1 (exec F w op).2 := by
  cases op with
  | integrals =>
    obtain ⟨q, hs⟩ := getIntegrals_quiet hw
    unfold exec
    revert q hs
    generalize getIntegrals w = x
    obtain ⟨w1, e | ⟨r, s⟩⟩ := x
    · exact fun q _ => .fail w1 e q
    · exact fun q hs => .own w1 r s q (hs r s rfl).1 (hs r s rfl).2
  | activeSpace occupied active =>
    unfold exec
    dsimp only
    cases checkActive active with
    | some e => exact .fail w _ (Quiet.refl hw)
    | none => exact withIntegrals_reads hw _ (by simp [Method.own]) _
  | hamiltonian occupied active =>
    unfold exec
    dsimp only
    cases (if occupied = none ∧ active = none then none else checkActive active) with
    | some e => exact .fail w _ (Quiet.refl hw)
    | none => exact withIntegrals_reads hw _ (by simp [Method.own]) _
  | coulomb => exact fromTwo_reads hw _ (by simp [Method.own]) _
  | exchange => exact fromTwo_reads hw _ (by simp [Method.own]) _
  | antisym =>
    have q1 := getArr_quiet hw .two
    show Reads w (getAntisym F w).1 (getAntisym F w).2
    unfold getAntisym
    revert q1
    generalize getArr w .two = x
    obtain ⟨w1, _ | s⟩ := x
    · exact fun q => .fail w1 _ q
    · intro q1
      have q2 := getArr_quiet q1.inv .one
      dsimp only
      revert q2
      generalize getArr w1 .one = y
      obtain ⟨w2, _ | r⟩ := y
      · exact fun q2 => .fail w2 _ (q1.trans q2)
      · exact fun q2 => .new w2 _ (by simp [Method.own]) _ _ (q1.trans q2)
  | _ => cases h

/-- The density matrices: both attributes are read, then rounded in place if they are there. -/
theorem getRdm_cases (F : Fixed) {w : World} (hw : Inv w) (b : Bool) :
    (∃ w' e, Quiet w w' ∧ getRdm F w b = (w', some e)) ∨
    (∃ w' r, Quiet w w' ∧ w'.slot (if b then .fciOne else .cisdOne) = some r ∧ getRdm F w b = (truncAt w' r, some (.py .typeError))) ∨
    ∃ w' r s, Quiet w w' ∧ w'.slot (if b then .fciOne else .cisdOne) = some r ∧ w'.slot (if b then .fciTwo else .cisdTwo) = some s ∧
      getRdm F w b = (give (truncAt (truncAt w' r) s) .rdm [r, s], none) := by
  unfold getRdm
  cases (if b then F.fciEnergy else F.cisdEnergy) with
  | none => exact Or.inl ⟨w, _, Quiet.refl hw, rfl⟩
  | some E =>
    dsimp only
    generalize (if b then Slot.fciOne else .cisdOne) = a1
    generalize (if b then Slot.fciTwo else .cisdTwo) = a2
    have q1 := getArr_quiet hw a1
    have e1 := getArr_slot w a1
    revert q1 e1
    generalize getArr w a1 = x
    obtain ⟨w1, r1⟩ := x
    intro q1 e1
    have q2 := getArr_quiet q1.inv a2
    have e2 := getArr_slot w1 a2
    have k2 : ∀ r, w1.slot a1 = some r → (getArr w1 a2).1.slot a1 = some r := fun r => getArr_keeps w1 a2 a1
    revert q2 e2 k2
    dsimp only at e1 ⊢
    generalize getArr w1 a2 = y
    obtain ⟨w2, r2⟩ := y
    intro q2 e2 k2
    cases r1 with
    | none => exact Or.inl ⟨w2, _, q1.trans q2, rfl⟩
    | some r =>
      cases r2 with
      | none => exact Or.inr (Or.inl ⟨w2, r, q1.trans q2, k2 r e1, rfl⟩)
      | some s => exact Or.inr (Or.inr ⟨w2, r, s, q1.trans q2, k2 r e1, e2, rfl⟩)

theorem loadAll_quiet {w : World} (hw : Inv w) : Quiet w (loadAll w) := by
  unfold loadAll
  generalize [Slot.one, .two, .cisdOne, .cisdTwo, .fciOne, .fciTwo] = l
  induction l generalizing w with
  | nil => exact Quiet.refl hw
  | cons a l ih => exact (getArr_quiet hw a).trans (ih (getArr_quiet hw a).inv)

theorem reads_inv {w w' : World} {e : Option FErr} (h : Reads w w' e) : Inv w' := by
  cases h with
  | fail _ _ q => exact q.inv
  | new w' k hk c ts q => exact giveNew_inv q.inv k c ts
  | own w' r s q hr hs =>
    refine give_inv q.inv _ (by simp [Method.own]) _ ?_
    intro t ht
    rcases List.mem_pair.1 ht with rfl | rfl
    exacts [⟨_, hr⟩, ⟨_, hs⟩]

theorem exec_inv (F : Fixed) {w : World} (hw : Inv w) (op : Op) : Inv (exec F w op).1 := by
  by_cases h : op.reads = true
  · exact reads_inv (exec_reads F hw op h)
  · cases op with
    | rdm b =>
      show Inv (getRdm F w b).1
      rcases getRdm_cases F hw b with ⟨w', e, q, h⟩ | ⟨w', r, q, hr, h⟩ | ⟨w', r, s, q, hr, hs, h⟩
      · rw [h]; exact q.inv
      · rw [h]; exact mem_inv q.inv _ _
      · rw [h]
        refine give_inv (w := truncAt (truncAt w' r) s) (mem_inv (mem_inv q.inv _ _) _ _) _ (by simp [Method.own]) _ ?_
        intro t ht
        rcases List.mem_pair.1 ht with rfl | rfl
        exacts [⟨_, hr⟩, ⟨_, hs⟩]
    | write v j f =>
      unfold exec
      dsimp only
      cases (w.results[v]?).bind fun x => x.refs[j]? with
      | none => exact hw
      | some r => exact mem_inv hw _ _
    | save => exact mem_inv (loadAll_quiet hw).inv _ _
    | reopen => exact ⟨by simp [exec], hw.refLt, by simp [exec], fun v x hv hx r hr => ⟨by simp [exec], (hw.own v x hv hx r hr).2⟩⟩
    | _ => exact absurd rfl h

theorem run_inv (F : Fixed) {w : World} (hw : Inv w) (ops : List Op) : Inv (run F w ops) := by
  induction ops generalizing w with
  | nil => exact hw
  | cons op ops ih => exact ih (exec_inv F hw op)

theorem quiet_contents {w w' : World} (hw : Inv w) (q : Quiet w w') (v : ℕ) : contents w' v = contents w v := by
  unfold contents
  rw [q.results]
  cases hv : w.results[v]? with
  | none => rfl
  | some x =>
    simp only [Option.map_some, Option.some.injEq, Prod.mk.injEq, true_and]
    exact List.map_congr_left fun r hr => q.mem r (hw.refLt x (List.mem_of_getElem? hv) r hr)

theorem giveNew_old {w : World} (hw : Inv w) (k : Method) (c : Option ℝ) (ts : List RTensor) {v : ℕ} (hv : v < w.results.length) : contents (giveNew w k c ts) v = contents w v := by
  unfold contents
  have : (giveNew w k c ts).results[v]? = w.results[v]? := List.getElem?_append_left hv
  rw [this, List.getElem?_eq_getElem hv]
  simp only [Option.map_some, Option.some.injEq, Prod.mk.injEq, true_and]
  refine List.map_congr_left fun r hr => ?_
  show (if w.next ≤ r then _ else _) = _
  rw [if_neg (not_le.2 (hw.refLt _ (List.getElem_mem hv) r hr))]

theorem give_old (w : World) (k : Method) (refs : List ℕ) {v : ℕ} (hv : v < w.results.length) : contents (give w k refs) v = contents w v := by
  unfold contents
  have : (give w k refs).results[v]? = w.results[v]? := List.getElem?_append_left hv
  rw [this]
  rfl

theorem reads_keeps {w w' : World} {e : Option FErr} (hw : Inv w) (h : Reads w w' e) :
    (∀ a, view w' a = view w a) ∧ w'.file = w.file ∧ (∃ l, w'.results = w.results ++ l) ∧ ∀ v < w.results.length, contents w' v = contents w v := by
  cases h with
  | fail _ _ q => exact ⟨q.view, q.file, ⟨[], by rw [q.results, List.append_nil]⟩, fun v _ => quiet_contents hw q v⟩
  | new w' k hk c ts q =>
    refine ⟨fun a => (giveNew_view q.inv k c ts a).trans (q.view a), q.file, ⟨_, congrArg (· ++ _) q.results⟩, fun v hv => ?_⟩
    rw [giveNew_old q.inv k c ts (by rw [q.results]; exact hv)]
    exact quiet_contents hw q v
  | own w' r s q hr hs =>
    refine ⟨q.view, q.file, ⟨_, congrArg (· ++ _) q.results⟩, fun v hv => ?_⟩
    rw [give_old w' _ _ (by rw [q.results]; exact hv)]
    exact quiet_contents hw q v

/-! ### Worlds that differ in one result only -/

/-- Two worlds that differ at most in the contents of the arrays in `S`, none of which the molecule holds. -/
structure Sim (S : Set ℕ) (w u : World) : Prop where
  next : u.next = w.next
  slot : u.slot = w.slot
  file : u.file = w.file
  results : u.results = w.results
  mem : ∀ r ∉ S, u.mem r = w.mem r
  off : ∀ a r, w.slot a = some r → r ∉ S
  below : ∀ r ∈ S, r < w.next

theorem getArr_sim {S : Set ℕ} {w u : World} (h : Sim S w u) (a : Slot) : Sim S (getArr w a).1 (getArr u a).1 ∧ (getArr u a).2 = (getArr w a).2 := by
  unfold getArr
  rw [h.slot, h.file]
  cases hs : w.slot a with
  | some r => exact ⟨h, rfl⟩
  | none =>
    cases hf : w.file a with
    | none => exact ⟨h, rfl⟩
    | some t =>
      refine ⟨⟨congrArg (· + 1) h.next, ?_, rfl, h.results, fun r hr => ?_, fun b r hb => ?_, fun r hr => (h.below r hr).trans (Nat.lt_succ_self _)⟩, congrArg some h.next⟩
      · show Function.update w.slot a (some u.next) = _
        rw [h.next]
      · show Function.update u.mem u.next t r = Function.update w.mem w.next t r
        rw [h.next]
        by_cases e : r = w.next
        · rw [e, Function.update_self, Function.update_self]
        · rw [Function.update_of_ne e, Function.update_of_ne e, h.mem r hr]
      · by_cases e : b = a
        · subst e
          dsimp only at hb
          rw [Function.update_self] at hb
          intro hS
          exact absurd (h.below r hS) (by rw [← Option.some.inj hb]; exact lt_irrefl _)
        · dsimp only at hb
          rw [Function.update_of_ne e] at hb
          exact h.off b r hb

theorem getIntegrals_sim {S : Set ℕ} {w u : World} (h : Sim S w u) : Sim S (getIntegrals w).1 (getIntegrals u).1 ∧ (getIntegrals u).2 = (getIntegrals w).2 := by
  have g1 := getArr_sim h .one
  unfold getIntegrals
  revert g1
  generalize getArr w .one = x
  generalize getArr u .one = y
  obtain ⟨w1, r1⟩ := x
  obtain ⟨u1, r1'⟩ := y
  rintro ⟨g1, rfl : r1' = r1⟩
  cases r1' with
  | none => exact ⟨g1, rfl⟩
  | some r =>
    have g2 := getArr_sim g1 .two
    dsimp only at g2 ⊢
    revert g2
    generalize getArr w1 .two = x
    generalize getArr u1 .two = y
    obtain ⟨w2, r2⟩ := x
    obtain ⟨u2, r2'⟩ := y
    rintro ⟨g2, rfl : r2' = r2⟩
    cases r2' with
    | none => exact ⟨g2, rfl⟩
    | some s => exact ⟨g2, rfl⟩

theorem give_sim {S : Set ℕ} {w u : World} (h : Sim S w u) (k : Method) (refs : List ℕ) : Sim S (give w k refs) (give u k refs) :=
  ⟨h.next, h.slot, h.file, congrArg (· ++ _) h.results, h.mem, h.off, h.below⟩

theorem giveNew_sim {S : Set ℕ} {w u : World} (h : Sim S w u) (k : Method) (c : Option ℝ) (ts : List RTensor) : Sim S (giveNew w k c ts) (giveNew u k c ts) := by
  refine ⟨congrArg (· + _) h.next, h.slot, h.file, ?_, fun r hr => ?_, h.off, fun r hr => (h.below r hr).trans_le (Nat.le_add_right _ _)⟩
  · show u.results ++ [⟨k, c, (List.range ts.length).map (u.next + ·)⟩] = _
    rw [h.results, h.next]
    rfl
  · show (if u.next ≤ r then ts.getD (r - u.next) (u.mem r) else u.mem r) = if w.next ≤ r then ts.getD (r - w.next) (w.mem r) else w.mem r
    rw [h.next, h.mem r hr]

theorem update_sim {S : Set ℕ} {w u : World} (h : Sim S w u) {r : ℕ} (hr : r ∉ S) (f : RTensor → RTensor) :
    Sim S { w with mem := Function.update w.mem r (f (w.mem r)) } { u with mem := Function.update u.mem r (f (u.mem r)) } := by
  refine ⟨h.next, h.slot, h.file, h.results, fun t ht => ?_, h.off, h.below⟩
  show Function.update u.mem r (f (u.mem r)) t = Function.update w.mem r (f (w.mem r)) t
  rw [h.mem r hr]
  by_cases e : t = r
  · rw [e, Function.update_self, Function.update_self]
  · rw [Function.update_of_ne e, Function.update_of_ne e, h.mem t ht]

theorem withIntegrals_sim {S : Set ℕ} {w u : World} (hw : Inv w) (h : Sim S w u) (k : Method) (f : RTensor → RTensor → Except Err (Option ℝ × List RTensor)) :
    Sim S (withIntegrals w k f).1 (withIntegrals u k f).1 ∧ (withIntegrals u k f).2 = (withIntegrals w k f).2 := by
  have g := getIntegrals_sim h
  have hs := (getIntegrals_quiet hw).2
  unfold withIntegrals
  revert g hs
  generalize getIntegrals w = x
  generalize getIntegrals u = y
  obtain ⟨w1, r1⟩ := x
  obtain ⟨u1, r1'⟩ := y
  rintro ⟨g, rfl : r1' = r1⟩ hs
  rcases r1' with e | ⟨r, s⟩
  · exact ⟨g, rfl⟩
  · obtain ⟨hr, hs⟩ := hs r s rfl
    dsimp only at hr hs ⊢
    rw [g.mem r (g.off _ _ hr), g.mem s (g.off _ _ hs)]
    cases f (w1.mem r) (w1.mem s) with
    | error e => exact ⟨g, rfl⟩
    | ok x => exact ⟨giveNew_sim g _ _ _, rfl⟩

theorem fromTwo_sim {S : Set ℕ} {w u : World} (h : Sim S w u) (k : Method) (f : RTensor → RTensor) :
    Sim S (fromTwo w k f).1 (fromTwo u k f).1 ∧ (fromTwo u k f).2 = (fromTwo w k f).2 := by
  have g := getArr_sim h .two
  have hs := getArr_slot w .two
  unfold fromTwo
  revert g hs
  generalize getArr w .two = x
  generalize getArr u .two = y
  obtain ⟨w1, r1⟩ := x
  obtain ⟨u1, r1'⟩ := y
  rintro ⟨g, rfl : r1' = r1⟩ hs
  cases r1' with
  | none => exact ⟨g, rfl⟩
  | some s =>
    dsimp only at hs ⊢
    rw [g.mem s (g.off _ _ hs)]
    exact ⟨giveNew_sim g _ _ _, rfl⟩

theorem getRdm_sim (F : Fixed) {S : Set ℕ} {w u : World} (h : Sim S w u) (b : Bool) :
    Sim S (getRdm F w b).1 (getRdm F u b).1 ∧ (getRdm F u b).2 = (getRdm F w b).2 := by
  unfold getRdm
  cases (if b then F.fciEnergy else F.cisdEnergy) with
  | none => exact ⟨h, rfl⟩
  | some E =>
    dsimp only
    generalize (if b then Slot.fciOne else .cisdOne) = a1
    generalize (if b then Slot.fciTwo else .cisdTwo) = a2
    have g1 := getArr_sim h a1
    have e1 := getArr_slot w a1
    revert g1 e1
    generalize getArr w a1 = x
    generalize getArr u a1 = y
    obtain ⟨w1, r1⟩ := x
    obtain ⟨u1, r1'⟩ := y
    rintro ⟨g1, rfl : r1' = r1⟩ e1
    have g2 := getArr_sim g1 a2
    have e2 := getArr_slot w1 a2
    have k2 : ∀ r, w1.slot a1 = some r → (getArr w1 a2).1.slot a1 = some r := fun r => getArr_keeps w1 a2 a1
    dsimp only at g2 e1 e2 k2 ⊢
    revert g2 e2 k2
    generalize getArr w1 a2 = x
    generalize getArr u1 a2 = y
    obtain ⟨w2, r2⟩ := x
    obtain ⟨u2, r2'⟩ := y
    rintro ⟨g2, rfl : r2' = r2⟩ e2 k2
    cases r1' with
    | none => exact ⟨g2, rfl⟩
    | some r =>
      have t1 := update_sim g2 (g2.off _ _ (k2 r e1)) truncate
      cases r2' with
      | none => exact ⟨t1, rfl⟩
      | some s => exact ⟨give_sim (update_sim t1 (g2.off _ _ e2) truncate) _ _, rfl⟩

theorem loadAll_sim {S : Set ℕ} {w u : World} (h : Sim S w u) : Sim S (loadAll w) (loadAll u) := by
  unfold loadAll
  generalize [Slot.one, .two, .cisdOne, .cisdTwo, .fciOne, .fciTwo] = l
  induction l generalizing w u with
  | nil => exact h
  | cons a l ih => exact ih (getArr_sim h a).1

theorem exec_sim (F : Fixed) {S : Set ℕ} {w u : World} (hw : Inv w) (h : Sim S w u) (op : Op)
    (hop : ∀ v j f, op = .write v j f → ∀ x, w.results[v]? = some x → ∀ r ∈ x.refs, r ∉ S) : Sim S (exec F w op).1 (exec F u op).1 := by
  cases op with
  | integrals =>
    have g := getIntegrals_sim h
    unfold exec
    revert g
    generalize getIntegrals w = x
    generalize getIntegrals u = y
    obtain ⟨w1, r1⟩ := x
    obtain ⟨u1, r1'⟩ := y
    rintro ⟨g, rfl : r1' = r1⟩
    rcases r1' with e | ⟨r, s⟩
    · exact g
    · exact give_sim g _ _
  | activeSpace occupied active =>
    unfold exec
    dsimp only
    cases checkActive active with
    | some e => exact h
    | none => exact (withIntegrals_sim hw h _ _).1
  | hamiltonian occupied active =>
    unfold exec
    dsimp only
    cases (if occupied = none ∧ active = none then none else checkActive active) with
    | some e => exact h
    | none => exact (withIntegrals_sim hw h _ _).1
  | rdm b => exact (getRdm_sim F h b).1
  | coulomb => exact (fromTwo_sim h _ _).1
  | exchange => exact (fromTwo_sim h _ _).1
  | antisym =>
    have g1 := getArr_sim h .two
    have e1 := getArr_slot w .two
    show Sim S (getAntisym F w).1 (getAntisym F u).1
    unfold getAntisym
    revert g1 e1
    generalize getArr w .two = x
    generalize getArr u .two = y
    obtain ⟨w1, r1⟩ := x
    obtain ⟨u1, r1'⟩ := y
    rintro ⟨g1, rfl : r1' = r1⟩ e1
    cases r1' with
    | none => exact g1
    | some s =>
      have g2 := getArr_sim g1 .one
      have e2 := getArr_slot w1 .one
      have k2 := getArr_keeps w1 .one .two e1
      dsimp only at g2 e2 k2 ⊢
      revert g2 e2 k2
      generalize getArr w1 .one = x
      generalize getArr u1 .one = y
      obtain ⟨w2, r2⟩ := x
      obtain ⟨u2, r2'⟩ := y
      rintro ⟨g2, rfl : r2' = r2⟩ e2 k2
      cases r2' with
      | none => exact g2
      | some r =>
        dsimp only at e2 k2 ⊢
        rw [g2.mem r (g2.off _ _ e2), g2.mem s (g2.off _ _ k2)]
        exact giveNew_sim g2 _ _ _
  | write v j f =>
    unfold exec
    dsimp only
    have hb : ((u.results[v]?).bind fun x => x.refs[j]?) = (w.results[v]?).bind fun x => x.refs[j]? := by rw [h.results]
    rw [hb]
    cases hv : (w.results[v]?).bind fun x => x.refs[j]? with
    | none => exact h
    | some r =>
      obtain ⟨x, hx, hj⟩ := Option.bind_eq_some_iff.1 hv
      exact update_sim h (hop v j f rfl x hx r (List.mem_of_getElem? hj)) f
  | save =>
    have g := loadAll_sim h
    refine ⟨g.next, g.slot, ?_, g.results, g.mem, g.off, g.below⟩
    show (fun a => ((loadAll u).slot a).map (loadAll u).mem) = fun a => ((loadAll w).slot a).map (loadAll w).mem
    funext a
    rw [g.slot]
    cases hs : (loadAll w).slot a with
    | none => rfl
    | some r => exact congrArg some (g.mem r (g.off a r hs))
  | reopen => exact ⟨h.next, rfl, h.file, h.results, h.mem, fun a r hr => (by cases hr), h.below⟩

/-! ### C132 -/

/-- C132. Integrals, active spaces, Hamiltonians, Coulomb, exchange and antisymmetrized integrals: calling these methods changes neither the molecule nor its file nor any earlier result, whether or not
the call fails. -/
theorem reading_changes_nothing (F : Fixed) (file : Slot → Option RTensor) (before : List Op) (op : Op) (h : op.reads = true) :
    let w := run F (start file) before
    (∀ a, view (exec F w op).1 a = view w a) ∧ (exec F w op).1.file = w.file ∧ ∀ v < w.results.length, contents (exec F w op).1 v = contents w v := by
  have hw := run_inv F (start_inv file) before
  obtain ⟨h1, h2, -, h3⟩ := reads_keeps hw (exec_reads F hw op h)
  exact ⟨h1, h2, h3⟩

theorem results_grow (F : Fixed) {w : World} (hw : Inv w) (op : Op) : ∃ l, (exec F w op).1.results = w.results ++ l := by
  by_cases h : op.reads = true
  · exact (reads_keeps hw (exec_reads F hw op h)).2.2.1
  · cases op with
    | rdm b =>
      show ∃ l, (getRdm F w b).1.results = _
      rcases getRdm_cases F hw b with ⟨w', e, q, h⟩ | ⟨w', r, q, hr, h⟩ | ⟨w', r, s, q, hr, hs, h⟩
      · rw [h]; exact ⟨[], by rw [q.results, List.append_nil]⟩
      · rw [h]; exact ⟨[], by show w'.results = _; rw [q.results, List.append_nil]⟩
      · rw [h]; exact ⟨_, congrArg (· ++ _) q.results⟩
    | write v j f =>
      unfold exec
      dsimp only
      cases (w.results[v]?).bind fun x => x.refs[j]? with
      | none => exact ⟨[], (List.append_nil _).symm⟩
      | some r => exact ⟨[], (List.append_nil _).symm⟩
    | save => exact ⟨[], by show (loadAll w).results = _; rw [(loadAll_quiet hw).results, List.append_nil]⟩
    | reopen => exact ⟨[], (List.append_nil _).symm⟩
    | _ => exact absurd rfl h

theorem results_stay (F : Fixed) {w : World} (hw : Inv w) (op : Op) {v : ℕ} {x : Result} (hv : w.results[v]? = some x) : (exec F w op).1.results[v]? = some x := by
  obtain ⟨l, hl⟩ := results_grow F hw op
  rw [hl, List.getElem?_append_left (List.getElem?_eq_some_iff.1 hv).1, hv]

theorem truncAt_contents {w : World} {v : ℕ} {x : Result} (hv : w.results[v]? = some x) {r : ℕ} (hr : r ∉ x.refs) : contents (truncAt w r) v = contents w v := by
  unfold contents
  have : (truncAt w r).results = w.results := rfl
  rw [this, hv]
  simp only [Option.map_some, Option.some.injEq, Prod.mk.injEq, true_and]
  refine List.map_congr_left fun t ht => ?_
  refine Function.update_of_ne ?_ ..
  rintro rfl
  exact hr ht

theorem exec_own (F : Fixed) {w : World} (hw : Inv w) {v : ℕ} {x : Result} (hv : w.results[v]? = some x) (hx : x.made.own) (op : Op) (h : op.writesTo v = false) :
    contents (exec F w op).1 v = contents w v := by
  have hlt := (List.getElem?_eq_some_iff.1 hv).1
  by_cases hr : op.reads = true
  · exact (reads_keeps hw (exec_reads F hw op hr)).2.2.2 v hlt
  · cases op with
    | rdm b =>
      show contents (getRdm F w b).1 v = _
      have main : ∀ w', Quiet w w' → ∀ a r, w'.slot a = some r → w'.results[v]? = some x ∧ r ∉ x.refs := by
        intro w' q a r ha
        refine ⟨by rw [q.results]; exact hv, fun hrx => ?_⟩
        exact (q.inv.own v x (by rw [q.results]; exact hv) hx r hrx).1 a ha
      rcases getRdm_cases F hw b with ⟨w', e, q, h⟩ | ⟨w', r, q, hr, h⟩ | ⟨w', r, s, q, hr, hs, h⟩
      · rw [h]; exact quiet_contents hw q v
      · rw [h]
        obtain ⟨m1, m2⟩ := main w' q _ r hr
        exact (truncAt_contents m1 m2).trans (quiet_contents hw q v)
      · rw [h]
        obtain ⟨m1, m2⟩ := main w' q _ r hr
        obtain ⟨-, m3⟩ := main w' q _ s hs
        show contents (give (truncAt (truncAt w' r) s) .rdm [r, s]) v = _
        rw [give_old _ _ _ (by show v < w'.results.length; rw [q.results]; exact hlt), truncAt_contents (w := truncAt w' r) m1 m3, truncAt_contents m1 m2]
        exact quiet_contents hw q v
    | write u j f =>
      unfold exec
      dsimp only
      cases hb : (w.results[u]?).bind fun x => x.refs[j]? with
      | none => rfl
      | some r =>
        obtain ⟨y, hy, hj⟩ := Option.bind_eq_some_iff.1 hb
        unfold contents
        dsimp only
        rw [hv]
        simp only [Option.map_some, Option.some.injEq, Prod.mk.injEq, true_and]
        refine List.map_congr_left fun t ht => ?_
        refine Function.update_of_ne ?_ ..
        rintro rfl
        have := (hw.own v x hv hx t ht).2 u y hy (List.mem_of_getElem? hj)
        simp [Op.writesTo, this] at h
    | save => exact quiet_contents hw (loadAll_quiet hw) v
    | reopen => rfl
    | _ => exact absurd rfl hr

/-- C132. A result of a method other than `get_integrals` and `get_molecular_rdm` is the caller's own: whatever is called or updated later, it stays as it is unless it is updated itself. -/
theorem result_stays (F : Fixed) (file : Slot → Option RTensor) (before after : List Op) {v : ℕ} {x : Result}
    (hv : (run F (start file) before).results[v]? = some x) (hx : x.made.own) (ha : ∀ op ∈ after, op.writesTo v = false) :
    contents (run F (run F (start file) before) after) v = contents (run F (start file) before) v := by
  have hw := run_inv F (start_inv file) before
  revert hw hv
  generalize run F (start file) before = w
  intro hv hw
  induction after generalizing w with
  | nil => rfl
  | cons op ops ih =>
    refine (ih (fun o ho => ha o (List.mem_cons_of_mem _ ho)) (exec F w op).1 (results_stay F hw op hv) (exec_inv F hw op)).trans ?_
    exact exec_own F hw hv hx op (ha op (List.mem_cons_self ..))

theorem sim_view {S : Set ℕ} {w u : World} (h : Sim S w u) (a : Slot) : view u a = view w a := by
  unfold view
  rw [h.slot, h.file]
  cases hs : w.slot a with
  | none => rfl
  | some r => exact congrArg some (h.mem r (h.off a r hs))

/-- C132. Updates of such a result are seen nowhere else: the molecule, its file and all other results are what they would be without the updates. -/
theorem updates_unseen (F : Fixed) (file : Slot → Option RTensor) (before after : List Op) {v : ℕ} {x : Result}
    (hv : (run F (start file) before).results[v]? = some x) (hx : x.made.own) :
    let w := run F (run F (start file) before) after
    let u := run F (run F (start file) before) (after.filter fun op => !op.writesTo v)
    (∀ a, view w a = view u a) ∧ w.file = u.file ∧ ∀ k ≠ v, contents w k = contents u k := by
  have hw := run_inv F (start_inv file) before
  revert hw hv
  generalize run F (start file) before = w₀
  intro hv hw
  have key : ∀ (ops : List Op) (w u : World), Inv u → u.results[v]? = some x → Sim {r | r ∈ x.refs} u w →
      Sim {r | r ∈ x.refs} (run F u (ops.filter fun op => !op.writesTo v)) (run F w ops) ∧ Inv (run F u (ops.filter fun op => !op.writesTo v)) ∧
        (run F u (ops.filter fun op => !op.writesTo v)).results[v]? = some x := by
    intro ops
    induction ops with
    | nil => exact fun w u hu hv h => ⟨h, hu, hv⟩
    | cons op ops ih =>
      intro w u hu hv h
      by_cases hop : op.writesTo v = true
      · rw [List.filter_cons_of_neg (by simp [hop])]
        refine ih (exec F w op).1 u hu hv ?_
        cases op with
        | write k j f =>
          have : k = v := by simpa [Op.writesTo] using hop
          subst this
          unfold exec
          dsimp only
          rw [h.results, hv, Option.bind_some]
          cases hj : x.refs[j]? with
          | none => exact h
          | some r =>
            refine ⟨h.next, h.slot, h.file, h.results.symm ▸ h.results, fun t ht => ?_, h.off, h.below⟩
            refine (Function.update_of_ne ?_ ..).trans (h.mem t ht)
            rintro rfl
            exact ht (List.mem_of_getElem? hj)
        | _ => cases hop
      · rw [List.filter_cons_of_pos (by simp [hop])]
        refine ih _ _ (exec_inv F hu op) (results_stay F hu op hv) (exec_sim F hu h op ?_)
        rintro k j f rfl y hy r hr hS
        exact hop (by simp [Op.writesTo, (hu.own v x hv hx r hS).2 k y hy hr])
  obtain ⟨h, hi, hv'⟩ := key after w₀ w₀ hw hv ⟨rfl, rfl, rfl, rfl, fun _ _ => rfl, fun a r ha hr => (hw.own v x hv hx r hr).1 a ha, fun r hr => hw.refLt x (List.mem_of_getElem? hv) r hr⟩
  refine ⟨sim_view h, h.file, fun k hk => ?_⟩
  unfold contents
  rw [h.results]
  cases hy : (run F w₀ (after.filter fun op => !op.writesTo v)).results[k]? with
  | none => rfl
  | some y =>
    simp only [Option.map_some, Option.some.injEq, Prod.mk.injEq, true_and]
    exact List.map_congr_left fun r hr => h.mem r fun hS => hk ((hi.own v x hv' hx r hS).2 k y hy hr)

/-- The integrals of the molecule, if it has them. -/
def integralsOf (w : World) : Option (RTensor × RTensor) := (view w .one).bind fun h => (view w .two).map fun g => (h, g)

theorem withIntegrals_value {w : World} (hw : Inv w) (k : Method) (f : RTensor → RTensor → Except Err (Option ℝ × List RTensor)) :
    match integralsOf w with
    | none => (withIntegrals w k f).2 = some (.py .runtimeError)
    | some (h, g) => match f h g with
      | .error e => (withIntegrals w k f).2 = some (.py e)
      | .ok x => (withIntegrals w k f).2 = none ∧ contents (withIntegrals w k f).1 w.results.length = some x := by
  obtain ⟨v1, v2⟩ := getIntegrals_value hw
  have q := (getIntegrals_quiet hw).1
  unfold integralsOf withIntegrals
  revert v1 v2 q
  generalize getIntegrals w = y
  obtain ⟨w1, y⟩ := y
  intro v1 v2 q
  cases ho : view w .one with
  | none =>
    have := v2 (Or.inl ho)
    dsimp only at this
    subst this
    rfl
  | some h =>
    cases ht : view w .two with
    | none =>
      have := v2 (Or.inr ht)
      dsimp only at this
      subst this
      rfl
    | some g =>
      obtain ⟨r, s, e, e1, e2⟩ := v1 h g ho ht
      dsimp only at e e1 e2
      subst e
      simp only [Option.bind_some, Option.map_some, e1, e2]
      cases f h g with
      | error e => rfl
      | ok x =>
        refine ⟨rfl, ?_⟩
        rw [← q.results]
        exact giveNew_contents _ _ _ _

/-- C132. The Hamiltonian handed out is the one of the molecule's present integrals (C88 says what operator this is), or the call fails like it. -/
theorem hamiltonian_value (F : Fixed) (file : Slot → Option RTensor) (before : List Op) (occupied active : Option (List ℕ)) :
    let w := run F (start file) before
    let w' := exec F w (.hamiltonian occupied active)
    match getMolecularHamiltonian F.orbitals F.nuclearRepulsion (integralsOf w) occupied active with
    | .error e => w'.2 = some (.py e)
    | .ok P => w'.2 = none ∧ ∃ (n : ℕ) (c : ℝ) (one two : RTensor), contents w'.1 w.results.length = some (some c, [one, two]) ∧
        P = PolyT.interaction n c (fun i => (one i : ℂ)) (fun i => (two i : ℂ)) := by
  have hw := run_inv F (start_inv file) before
  revert hw
  generalize run F (start file) before = w
  intro hw
  have hv := withIntegrals_value hw .hamiltonian (hamiltonianArrays F occupied active)
  dsimp only
  have full : ∀ (hc : (if occupied = none ∧ active = none then none else checkActive active) = none), exec F w (.hamiltonian occupied active) = withIntegrals w .hamiltonian (hamiltonianArrays F occupied active) := by
    intro hc
    unfold exec
    dsimp only
    rw [hc]
  cases active with
  | none =>
    cases occupied with
    | none =>
      rw [full (by simp)]
      revert hv
      cases integralsOf w with
      | none => exact fun hv => hv
      | some hg =>
        obtain ⟨h, g⟩ := hg
        intro hv
        exact ⟨hv.1, _, _, _, _, hv.2, rfl⟩
    | some occ => 
      unfold exec
      simp [getMolecularHamiltonian, checkActive]
  | some act =>
    by_cases hl : act.length < 1
    · unfold exec
      cases occupied <;> simp [getMolecularHamiltonian, checkActive, hl]
    · have hc : (if occupied = none ∧ some act = none then none else checkActive (some act)) = none := by simp [checkActive, hl]
      rw [full hc]
      revert hv
      cases integralsOf w with
      | none =>
        intro hv
        cases occupied <;> simpa [getMolecularHamiltonian, hl] using hv
      | some hg =>
        obtain ⟨h, g⟩ := hg
        dsimp only
        have ha : hamiltonianArrays F occupied (some act) h g = (do
            let r ← getActiveSpaceIntegrals F.orbitals h g occupied (some act)
            return operatorArrays act.length (F.nuclearRepulsion + r.1) r.2.1 r.2.2) := by
          cases occupied <;> rfl
        have hm : ∀ r, getActiveSpaceIntegrals F.orbitals h g occupied (some act) = r → getMolecularHamiltonian F.orbitals F.nuclearRepulsion (some (h, g)) occupied (some act) = (do
            let r ← r
            .ok (PolyT.interaction (2 * act.length) ((F.nuclearRepulsion + r.1 : ℝ) : ℂ) (fun i => ((spinorbFromSpatial act.length r.2.1 r.2.2).1 i : ℂ))
              (fun i => ((1 / 2 * (spinorbFromSpatial act.length r.2.1 r.2.2).2 i : ℝ) : ℂ)))) := by
          rintro r rfl
          cases occupied <;> simp only [getMolecularHamiltonian, if_neg hl]
        rw [ha]
        intro hv
        cases hr : getActiveSpaceIntegrals F.orbitals h g occupied (some act) with
        | error e =>
          rw [hr] at hv
          rw [hm _ hr]
          exact hv
        | ok r =>
          rw [hr] at hv
          rw [hm _ hr]
          exact ⟨hv.1, _, _, _, _, hv.2, rfl⟩

/-- C132. The integrals of an active space handed out are those made of the molecule's present integrals. -/
theorem activeSpace_value (F : Fixed) (file : Slot → Option RTensor) (before : List Op) (occupied : Option (List ℕ)) (active : List ℕ) (ha : active ≠ []) {h g : RTensor} :
    let w := run F (start file) before
    let w' := exec F w (.activeSpace occupied (some active))
    view w .one = some h → view w .two = some g →
    match getActiveSpaceIntegrals F.orbitals h g occupied (some active) with
    | .error e => w'.2 = some (.py e)
    | .ok r => w'.2 = none ∧ contents w'.1 w.results.length = some (some r.1, [r.2.1, r.2.2]) := by
  have hw := run_inv F (start_inv file) before
  revert hw
  generalize run F (start file) before = w
  intro hw
  dsimp only
  intro h1 h2
  have hl : ¬ active.length < 1 := by
    have := List.length_pos_iff.2 ha
    omega
  have hv := withIntegrals_value hw .activeSpace (activeArrays F occupied (some active))
  have e : exec F w (.activeSpace occupied (some active)) = withIntegrals w .activeSpace (activeArrays F occupied (some active)) := by
    unfold exec
    simp [checkActive, hl]
  rw [e]
  simp only [integralsOf, h1, h2, Option.bind_some, Option.map_some, activeArrays] at hv
  cases hr : getActiveSpaceIntegrals F.orbitals h g occupied (some active) with
  | error e => rw [hr] at hv; exact hv
  | ok r => rw [hr] at hv; exact hv

theorem fromTwo_value {w : World} (hw : Inv w) (k : Method) (f : RTensor → RTensor) {g : RTensor} (h : view w .two = some g) :
    (fromTwo w k f).2 = none ∧ contents (fromTwo w k f).1 w.results.length = some (none, [f g]) := by
  have q := getArr_quiet hw .two
  have v := getArr_value w .two
  rw [h] at v
  unfold fromTwo
  revert q v
  generalize getArr w .two = x
  obtain ⟨w1, _ | s⟩ := x
  · intro _ v; cases v
  · intro q v
    refine ⟨rfl, ?_⟩
    rw [← Option.some.inj v, ← q.results]
    exact giveNew_contents _ _ _ _

/-- C132. The Coulomb and exchange integrals handed out: `J_pq = (pp|qq)` and `K_pq = (pq|qp)` of the present two-electron integrals `<pq|rs>`, stored at `[p, q, s, r]`. -/
theorem coulomb_exchange_value (F : Fixed) (file : Slot → Option RTensor) (before : List Op) {g : RTensor} :
    let w := run F (start file) before
    view w .two = some g →
    (exec F w .coulomb).2 = none ∧ (exec F w .exchange).2 = none ∧
    ∃ J K : RTensor, contents (exec F w .coulomb).1 w.results.length = some (none, [J]) ∧ contents (exec F w .exchange).1 w.results.length = some (none, [K]) ∧
      ∀ p q, J [p, q] = g [p, q, q, p] ∧ K [p, q] = g [p, q, p, q] := by
  have hw := run_inv F (start_inv file) before
  revert hw
  generalize run F (start file) before = w
  intro hw
  dsimp only
  intro h
  obtain ⟨a1, a2⟩ := fromTwo_value hw .coulomb jMat h
  obtain ⟨b1, b2⟩ := fromTwo_value hw .exchange kMat h
  exact ⟨a1, b1, _, _, a2, b2, fun p q => ⟨rfl, rfl⟩⟩

/-- An entry of the two-electron integrals over spin orbitals: both electrons keep their spin, and small values are dropped. -/
noncomputable def spinEntry (g : RTensor) (x y z t : ℕ) : ℝ :=
  if x % 2 = t % 2 ∧ y % 2 = z % 2 ∧ 1 / 10 ^ 8 ≤ |g [x / 2, y / 2, z / 2, t / 2]| then g [x / 2, y / 2, z / 2, t / 2] else 0

/-- C132. The antisymmetrized integrals over spin orbitals handed out. -/
theorem antisym_value (F : Fixed) (file : Slot → Option RTensor) (before : List Op) {h g : RTensor} :
    let w := run F (start file) before
    view w .one = some h → view w .two = some g →
    (exec F w .antisym).2 = none ∧ ∃ A : RTensor, contents (exec F w .antisym).1 w.results.length = some (none, [A]) ∧
      ∀ x y z t, x < 2 * F.orbitals → y < 2 * F.orbitals → z < 2 * F.orbitals → t < 2 * F.orbitals → A [x, y, z, t] = spinEntry g x y t z - spinEntry g x y z t := by
  have hw := run_inv F (start_inv file) before
  revert hw
  generalize run F (start file) before = w
  intro hw
  dsimp only
  intro h1 h2
  have entry : ∀ x y z t, x < 2 * F.orbitals → y < 2 * F.orbitals → z < 2 * F.orbitals → t < 2 * F.orbitals → (spinorbFromSpatial F.orbitals h g).2 [x, y, z, t] = spinEntry g x y z t := by
    intro x y z t hx hy hz ht
    refine (spinTwo_entry 1 F.orbitals g hx hy hz ht).trans ?_
    unfold spinEntry
    rw [one_mul]
    unfold chop
    by_cases hp : x % 2 = t % 2 ∧ y % 2 = z % 2
    · rw [if_pos hp]
      by_cases hq : |g [x / 2, y / 2, z / 2, t / 2]| < 1 / 10 ^ 8
      · rw [if_pos hq, if_neg fun hc => absurd hq (not_lt.2 hc.2.2)]
      · rw [if_neg hq, if_pos ⟨hp.1, hp.2, not_lt.1 hq⟩]
    · rw [if_neg hp, if_neg fun hc => hp ⟨hc.1, hc.2.1⟩]
  show (getAntisym F w).2 = none ∧ ∃ A : RTensor, contents (getAntisym F w).1 w.results.length = some (none, [A]) ∧ _
  have q1 := getArr_quiet hw .two
  have v1 := getArr_value w .two
  have e1 := getArr_slot w .two
  rw [h2] at v1
  unfold getAntisym
  revert q1 v1 e1
  generalize getArr w .two = x
  obtain ⟨w1, _ | s⟩ := x
  · intro _ v1; cases v1
  · intro q1 v1 e1
    have q2 := getArr_quiet q1.inv .one
    have v2 := getArr_value w1 .one
    rw [q1.view, h1] at v2
    dsimp only at v1 e1 ⊢
    revert q2 v2
    generalize getArr w1 .one = y
    obtain ⟨w2, _ | r⟩ := y
    · intro _ v2; cases v2
    · intro q2 v2
      have m1 : w2.mem s = g := (q2.mem s (q1.inv.slotLt _ _ e1)).trans (Option.some.inj v1)
      have m2 : w2.mem r = h := Option.some.inj v2
      refine ⟨rfl, antisymtei (spinorbFromSpatial F.orbitals h g).2, ?_, ?_⟩
      · dsimp only
        rw [m1, m2, ← q1.results, ← q2.results]
        exact giveNew_contents _ _ _ _
      · intro x y z t hx hy hz ht
        show (spinorbFromSpatial F.orbitals h g).2 [x, y, t, z] - (spinorbFromSpatial F.orbitals h g).2 [x, y, z, t] = _
        rw [entry x y t z hx hy ht hz, entry x y z t hx hy hz ht]

theorem truncAt_view {w : World} (hw : Inv w) {a : Slot} {r : ℕ} (hr : w.slot a = some r) (b : Slot) :
    view (truncAt w r) b = if b = a then (view w a).map truncate else view w b := by
  by_cases hb : b = a
  · subst hb
    rw [if_pos rfl]
    simp [view, truncAt, hr]
  · rw [if_neg hb]
    unfold view
    show (match w.slot b with | some t => some (Function.update w.mem r (truncate (w.mem r)) t) | none => w.file b) = _
    cases hs : w.slot b with
    | none => rfl
    | some t =>
      dsimp only
      rw [Function.update_of_ne]
      rintro rfl
      exact hb (hw.slotInj _ _ _ hs hr)

theorem rounded_truncate (t : RTensor) (i : List ℕ) : truncate t i = if |t i| < 1 / 10 ^ 8 then 0 else t i := rfl

/-- C132. The density matrices handed out are the molecule's, with entries below the tolerance set to zero; and so are the molecule's afterwards. -/
theorem rdm_value (F : Fixed) (file : Slot → Option RTensor) (before : List Op) (useFci : Bool) {t₁ t₂ : RTensor} (hE : (if useFci then F.fciEnergy else F.cisdEnergy) ≠ none) :
    let w := run F (start file) before
    let w' := exec F w (.rdm useFci)
    let a₁ := if useFci then Slot.fciOne else .cisdOne
    let a₂ := if useFci then Slot.fciTwo else .cisdTwo
    view w a₁ = some t₁ → view w a₂ = some t₂ →
    w'.2 = none ∧ ∃ d₁ d₂ : RTensor, contents w'.1 w.results.length = some (none, [d₁, d₂]) ∧
      (∀ i, d₁ i = if |t₁ i| < 1 / 10 ^ 8 then 0 else t₁ i) ∧ (∀ i, d₂ i = if |t₂ i| < 1 / 10 ^ 8 then 0 else t₂ i) ∧
      view w'.1 a₁ = some d₁ ∧ view w'.1 a₂ = some d₂ ∧ ∀ a, a ≠ a₁ → a ≠ a₂ → view w'.1 a = view w a := by
  have hw := run_inv F (start_inv file) before
  revert hw
  generalize run F (start file) before = w
  intro hw
  dsimp only
  intro h1 h2
  have hne : (if useFci then Slot.fciOne else .cisdOne) ≠ if useFci then Slot.fciTwo else .cisdTwo := by cases useFci <;> simp
  show (getRdm F w useFci).2 = none ∧ _
  have hno : ∀ w' e, getRdm F w useFci ≠ (w', some e) := by
    intro w' e h
    unfold getRdm at h
    revert h hE h1 h2 hne
    cases (if useFci then F.fciEnergy else F.cisdEnergy) with
    | none => intro h; exact absurd rfl h
    | some E =>
      intro _
      dsimp only
      generalize (if useFci then Slot.fciOne else .cisdOne) = a1
      generalize (if useFci then Slot.fciTwo else .cisdTwo) = a2
      intro h1 h2 hne
      have v1 := getArr_value w a1
      have v2 := getArr_value (getArr w a1).1 a2
      rw [h1] at v1
      rw [getArr_view w hw a1, h2] at v2
      obtain ⟨r, hr, -⟩ := Option.map_eq_some_iff.1 v1
      obtain ⟨s, hs, -⟩ := Option.map_eq_some_iff.1 v2
      rw [hr, hs]
      intro h
      cases h
  have hexec : exec F w (.rdm useFci) = getRdm F w useFci := rfl
  rw [hexec]
  rcases getRdm_cases F hw useFci with ⟨w', e, q, h⟩ | ⟨w', r, q, hr, h⟩ | ⟨w', r, s, q, hr, hs, h⟩
  · exact absurd h (hno _ _)
  · exact absurd h (hno _ _)
  · rw [h]
    have hi := mem_inv q.inv (Function.update w'.mem r (truncate (w'.mem r))) w'.file
    have x1 := q.view (if useFci then .fciOne else .cisdOne)
    have x2 := q.view (if useFci then .fciTwo else .cisdTwo)
    rw [h1] at x1
    rw [h2] at x2
    revert hne hr hs x1 x2
    generalize (if useFci then Slot.fciOne else .cisdOne) = a1
    generalize (if useFci then Slot.fciTwo else .cisdTwo) = a2
    intro hne hr hs x1 x2
    have y1 : ∀ b, view (truncAt (truncAt w' r) s) b = if b = a2 then some (truncate t₂) else if b = a1 then some (truncate t₁) else view w' b := by
      intro b
      rw [truncAt_view (w := truncAt w' r) hi (a := a2) hs b, truncAt_view q.inv hr a2, truncAt_view q.inv hr b, if_neg hne.symm, x1, x2]
      rfl
    have z : ∀ b t, w'.slot b = some t → some ((truncAt (truncAt w' r) s).mem t) = view (truncAt (truncAt w' r) s) b := by
      intro b t hb
      show _ = match w'.slot b with | some t => some ((truncAt (truncAt w' r) s).mem t) | none => w'.file b
      rw [hb]
    refine ⟨rfl, truncate t₁, truncate t₂, ?_, rounded_truncate t₁, rounded_truncate t₂, ?_, ?_, ?_⟩
    · have zr := z a1 r hr
      have zs := z a2 s hs
      rw [y1, if_neg hne, if_pos rfl] at zr
      rw [y1, if_pos rfl] at zs
      have hl : (give (truncAt (truncAt w' r) s) .rdm [r, s]).results[w.results.length]? = some ⟨.rdm, none, [r, s]⟩ := by
        show (w'.results ++ [_])[w.results.length]? = _
        rw [q.results]
        simp
      rw [contents, hl]
      show some (none, [(truncAt (truncAt w' r) s).mem r, (truncAt (truncAt w' r) s).mem s]) = _
      rw [Option.some.inj zr, Option.some.inj zs]
    · exact (y1 a1).trans (by rw [if_neg hne, if_pos rfl])
    · exact (y1 a2).trans (by rw [if_pos rfl])
    · intro a ha1 ha2
      refine (y1 a).trans ?_
      rw [if_neg ha2, if_neg ha1, q.view]

/-- Each update in the program is of a result that is the caller's own. -/
def OwnUpdates (F : Fixed) : World → List Op → Prop
  | _, [] => True
  | w, op :: ops => (∀ v j f, op = .write v j f → ∀ x, w.results[v]? = some x → x.made.own) ∧ OwnUpdates F (exec F w op).1 ops

/-- How an attribute may have changed: integrals not at all; in density matrices, entries below the tolerance may have become zero. -/
def Kept (a : Slot) : Option RTensor → Option RTensor → Prop
  | none, none => True
  | some t, some t' => if a = .one ∨ a = .two then t' = t else Rounded t t'
  | _, _ => False

theorem Kept.refl (a : Slot) (t : Option RTensor) : Kept a t t := by
  cases t with
  | none => trivial
  | some t =>
    show if _ then _ else _
    split
    · rfl
    · exact fun i => Or.inl rfl

theorem Kept.truncate {a : Slot} (h : a ≠ .one) (h' : a ≠ .two) {t t' : Option RTensor} (hk : Kept a t t') : Kept a t (t'.map truncate) := by
  cases t with
  | none =>
    cases t' with
    | none => trivial
    | some t' => cases hk
  | some t =>
    cases t' with
    | none => cases hk
    | some t' =>
      have hn : ¬ (a = .one ∨ a = .two) := by rintro (h0 | h0) <;> contradiction
      have hk : if a = .one ∨ a = .two then t' = t else Rounded t t' := hk
      show if a = .one ∨ a = .two then ZQ.Mol.truncate t' = t else Rounded t (ZQ.Mol.truncate t')
      rw [if_neg hn] at hk ⊢
      intro i
      rw [rounded_truncate]
      by_cases hs : |t' i| < 1 / 10 ^ 8
      · rw [if_pos hs]
        rcases hk i with hi | ⟨_, hi⟩
        · exact Or.inr ⟨rfl, by rw [← hi]; exact hs⟩
        · exact Or.inr ⟨rfl, hi⟩
      · rw [if_neg hs]
        exact hk i

theorem exec_kept (F : Fixed) {w : World} (hw : Inv w) (d : Slot → Option RTensor) (hv : ∀ a, Kept a (d a) (view w a)) (hf : ∀ a, Kept a (d a) (w.file a)) (op : Op)
    (ho : ∀ v j f, op = .write v j f → ∀ x, w.results[v]? = some x → x.made.own) :
    (∀ a, Kept a (d a) (view (exec F w op).1 a)) ∧ ∀ a, Kept a (d a) ((exec F w op).1.file a) := by
  by_cases h : op.reads = true
  · obtain ⟨h1, h2, -⟩ := reads_keeps hw (exec_reads F hw op h)
    exact ⟨fun a => by rw [h1]; exact hv a, fun a => by rw [h2]; exact hf a⟩
  · cases op with
    | rdm b =>
      show (∀ a, Kept a (d a) (view (getRdm F w b).1 a)) ∧ ∀ a, Kept a (d a) ((getRdm F w b).1.file a)
      have n1 : (if b then Slot.fciOne else .cisdOne) ≠ .one ∧ (if b then Slot.fciOne else .cisdOne) ≠ .two := by cases b <;> simp
      have n2 : (if b then Slot.fciTwo else .cisdTwo) ≠ .one ∧ (if b then Slot.fciTwo else .cisdTwo) ≠ .two := by cases b <;> simp
      have step : ∀ (u : World) (a : Slot) (r : ℕ), Inv u → u.slot a = some r → a ≠ .one ∧ a ≠ .two → (∀ c, Kept c (d c) (view u c)) → ∀ c, Kept c (d c) (view (truncAt u r) c) := by
        intro u a r hu hr hn hk c
        rw [truncAt_view hu hr c]
        by_cases hc : c = a
        · rw [if_pos hc]
          subst hc
          exact (hk c).truncate hn.1 hn.2
        · rw [if_neg hc]
          exact hk c
      rcases getRdm_cases F hw b with ⟨w', e, q, h⟩ | ⟨w', r, q, hr, h⟩ | ⟨w', r, s, q, hr, hs, h⟩
      · rw [h]
        exact ⟨fun a => by rw [q.view]; exact hv a, fun a => by rw [q.file]; exact hf a⟩
      · rw [h]
        exact ⟨step w' _ r q.inv hr n1 fun c => by rw [q.view]; exact hv c, fun a => by show Kept a (d a) (w'.file a); rw [q.file]; exact hf a⟩
      · rw [h]
        refine ⟨step (truncAt w' r) _ s (mem_inv q.inv _ _) hs n2 (step w' _ r q.inv hr n1 fun c => by rw [q.view]; exact hv c), fun a => ?_⟩
        show Kept a (d a) (w'.file a)
        rw [q.file]
        exact hf a
    | write v j f =>
      unfold exec
      dsimp only
      cases hb : (w.results[v]?).bind fun x => x.refs[j]? with
      | none => exact ⟨hv, hf⟩
      | some r =>
        obtain ⟨x, hx, hj⟩ := Option.bind_eq_some_iff.1 hb
        have hoff := (hw.own v x hx (ho v j f rfl x hx) r (List.mem_of_getElem? hj)).1
        refine ⟨fun a => ?_, hf⟩
        have : view { w with mem := Function.update w.mem r (f (w.mem r)) } a = view w a := by
          unfold view
          dsimp only
          cases hs : w.slot a with
          | none => rfl
          | some t =>
            dsimp only
            rw [Function.update_of_ne]
            rintro rfl
            exact hoff a hs
        exact this ▸ hv a
    | save =>
      have q := loadAll_quiet hw
      have e : ∀ a, ((loadAll w).slot a).map (loadAll w).mem = view w a := by
        intro a
        have loaded : ∀ (l : List Slot) (w : World), (∀ b ∈ l, ((l.foldl (fun w a => (getArr w a).1) w).slot b = none → w.file b = none)) := by
          intro l
          induction l with
          | nil => intro w b hb; cases hb
          | cons c l ih =>
            intro w b hb hn
            rw [List.foldl_cons] at hn
            by_cases hbl : b ∈ l
            · have := ih (getArr w c).1 b hbl hn
              rw [getArr_file] at this
              exact this
            · have hbc : b = c := (List.mem_cons.1 hb).resolve_right hbl
              subst hbc
              by_contra hne
              have hs : (getArr w b).1.slot b ≠ none := by
                rw [getArr_slot]
                intro hg
                have hv := getArr_value w b
                rw [hg, view] at hv
                cases hw : w.slot b with
                | none => rw [hw] at hv; exact hne hv.symm
                | some r => rw [hw] at hv; cases hv
              obtain ⟨r, hr⟩ := Option.ne_none_iff_exists'.1 hs
              have keep : ∀ (l : List Slot) (w : World), w.slot b = some r → (l.foldl (fun w a => (getArr w a).1) w).slot b = some r := by
                intro l
                induction l with
                | nil => exact fun w h => h
                | cons c l ih => exact fun w h => ih _ (getArr_keeps w c b h)
              rw [keep l _ hr] at hn
              cases hn
        rw [← q.view a]
        unfold view
        cases hs : (loadAll w).slot a with
        | some r => rfl
        | none =>
          rw [q.file]
          exact (loaded _ w a (by cases a <;> simp) hs).symm
      refine ⟨fun a => ?_, fun a => ?_⟩
      · have : view (exec F w .save).1 a = view w a := by
          show (match (loadAll w).slot a with | some r => some ((loadAll w).mem r) | none => ((loadAll w).slot a).map (loadAll w).mem) = _
          rw [← e a]
          cases (loadAll w).slot a with
          | none => rfl
          | some r => rfl
        rw [this]
        exact hv a
      · show Kept a (d a) (((loadAll w).slot a).map (loadAll w).mem)
        rw [e a]
        exact hv a
    | reopen => exact ⟨hf, hf⟩
    | _ => exact absurd rfl h

/-- C132. In every program that updates only results which are its own, the molecule keeps its data and so does its file: the integrals exactly, the density matrices up to entries below the tolerance,
which can become zero. Missing: entries below the tolerance are not kept, and updates of other results change the molecule (`molecule_changes_counterexample`). -/
theorem data_kept_partial (F : Fixed) (file : Slot → Option RTensor) (ops : List Op) (h : OwnUpdates F (start file) ops) :
    ∀ a, Kept a (file a) (view (run F (start file) ops) a) ∧ Kept a (file a) ((run F (start file) ops).file a) := by
  have key : ∀ (ops : List Op) (w : World), Inv w → OwnUpdates F w ops → (∀ a, Kept a (file a) (view w a)) → (∀ a, Kept a (file a) (w.file a)) →
      (∀ a, Kept a (file a) (view (run F w ops) a)) ∧ ∀ a, Kept a (file a) ((run F w ops).file a) := by
    intro ops
    induction ops with
    | nil => exact fun w _ _ h1 h2 => ⟨h1, h2⟩
    | cons op ops ih =>
      intro w hw ho h1 h2
      obtain ⟨k1, k2⟩ := exec_kept F hw file h1 h2 op ho.1
      exact ih _ (exec_inv F hw op) ho.2 k1 k2
  obtain ⟨k1, k2⟩ := key ops (start file) (start_inv file) h (fun a => Kept.refl a _) fun a => Kept.refl a _
  exact fun a => ⟨k1 a, k2 a⟩

/-- A file with all six arrays; every entry is `c`. -/
def uniform (c : ℝ) : Slot → Option RTensor := fun _ => some fun _ => c

/-- A molecule for which everything has been calculated. -/
noncomputable def calculated : Fixed := ⟨2, 1, some (-1), some (-1)⟩

/-- C132, counterexample. Asking for density matrices loses small entries of the molecule's own, also in its file once it is saved; and updating the integrals or the density matrices handed out changes the
molecule and, once it is saved, its file. -/
theorem molecule_changes_counterexample :
    (view (run calculated (start (uniform (1 / 10 ^ 9))) [.rdm true]) .fciOne = some fun _ => 0) ∧
    ((run calculated (start (uniform (1 / 10 ^ 9))) [.rdm true, .save]).file .fciOne = some fun _ => 0) ∧
    (view (run calculated (start (uniform 1)) [.rdm true, .write 0 0 fun _ _ => 7]) .fciOne = some fun _ => 7) ∧
    ((run calculated (start (uniform 1)) [.rdm true, .write 0 0 fun _ _ => 7, .save]).file .fciOne = some fun _ => 7) ∧
    (view (run calculated (start (uniform 1)) [.integrals, .write 0 1 fun _ _ => 7]) .two = some fun _ => 7) ∧
    ((run calculated (start (uniform 1)) [.integrals, .write 0 1 fun _ _ => 7, .save]).file .two = some fun _ => 7) := by
  have t : truncate (fun _ => (1 / 10 ^ 9 : ℝ)) = fun _ => 0 := by
    funext i
    rw [rounded_truncate, if_pos (by rw [abs_of_pos (by norm_num)]; norm_num)]
  refine ⟨?_, ?_, ?_, ?_, ?_, ?_⟩ <;>
    simp [run, exec, getRdm, calculated, start, uniform, getArr, view, truncAt, give, getIntegrals, loadAll, Function.update] <;>
    simpa [Function.update] using t

/-- Non-vacuity: a program that makes a Hamiltonian, doubles its first array in place, asks for density matrices and saves. -/
example : OwnUpdates calculated (start (uniform 1)) [.hamiltonian none none, .write 0 0 fun t i => 2 * t i, .rdm false, .save] := by
  refine ⟨fun v j f h => (by cases h), fun v j f h x hx => ?_, fun v j f h => (by cases h), fun v j f h => (by cases h), trivial⟩
  simp only [Op.write.injEq] at h
  obtain ⟨rfl, -, -⟩ := h
  simp [exec, withIntegrals, getIntegrals, getArr, start, uniform, hamiltonianArrays, operatorArrays, giveNew] at hx
  rw [← hx]
  simp [Method.own]

/-- Non-vacuity: the Hamiltonian of that program is a result of the caller's own. -/
example : ∃ x : Result, (run calculated (start (uniform 1)) [.hamiltonian none none]).results[0]? = some x ∧ x.made.own := by
  refine ⟨⟨.hamiltonian, some 1, [2, 3]⟩, ?_, by simp [Method.own]⟩
  simp [run, exec, withIntegrals, getIntegrals, getArr, start, uniform, hamiltonianArrays, operatorArrays, giveNew, calculated]
  rfl

/-- Non-vacuity: the attributes read by the theorems about values exist. -/
example : view (run calculated (start (uniform 1)) []) .one = some (fun _ => 1) ∧ view (run calculated (start (uniform 1)) []) .fciTwo = some (fun _ => 1) ∧ calculated.fciEnergy ≠ none :=
  ⟨rfl, rfl, by simp [calculated]⟩

end ZQ.MolHeap
