import Verif.Model.MolStore

/-! C98: molecules and their files. -/

namespace ZQ.MolStore

open ZQ ZQ.Results ZQ.Files

variable {D : Type}

/-- What reading the attribute gives. -/
def view (fs : FS D) (o : Obj D) (a : Lazy) : Option (Val D) := (getLazy fs o a).1

/-- Strings that HDF5 can hold: not empty. -/
def Storable (i : Info) : Prop :=
  i.basis ≠ [] ∧ i.name ≠ [] ∧ '\x00' ∉ i.description ∧ ∀ s, i.geometry = .text s → s ≠ []

/-- The value is kept by a file: it is not a boolean. -/
def keep (v : Option (Val D)) : Option (Val D) := v.bind fromData

theorem fromData_dset (v : Option (Val D)) : fromData (dset v) = keep v := by
  cases v with
  | none => rfl
  | some v => rfl

theorem rstripZero_id {s : Str} (h : '\x00' ∉ s) : rstripZero s = s := by
  have : s.reverse.dropWhile (· = '\x00') = s.reverse := by
    cases hs : s.reverse with
    | nil => rfl
    | cons c l =>
      have hc : c ∈ s := by rw [← List.mem_reverse, hs]; simp
      rw [List.dropWhile_cons]
      have : ¬ (decide (c = '\x00')) = true := by
        intro h'; rw [decide_eq_true_eq] at h'; exact h (h' ▸ hc)
      rw [if_neg this]
  rw [rstripZero, this, List.reverse_reverse]

theorem storedInfo_id {i : Info} (h : Storable i) : storedInfo i = i := by
  obtain ⟨h1, h2, h3, h4⟩ := h
  obtain ⟨g, b, m, c, d, n, na, at', pr, ne⟩ := i
  have hg : storedGeometry g = g := by
    cases g with
    | text s => rw [storedGeometry, storedText, if_neg (h4 s rfl)]
    | atoms l => rfl
  have hd : rstripZero (storedText d) = d := by
    by_cases hd : d = []
    · subst hd; decide
    · rw [storedText, if_neg hd, rstripZero_id h3]
  simp only [storedInfo]
  rw [hg, hd, storedText, if_neg h1, storedText, if_neg h2]

/-! ## Saving -/

/-- C98: when `save` succeeds. -/
theorem save_ok_iff (fs : FS D) (tmp : Str) (o : Obj D) : (save fs tmp o).2.2 = none ↔ o.info.nElectrons ≠ none ∧ ∃ l, o.general = some (some l) := by
  rw [save, tempFile]
  cases o.info.nElectrons with
  | none => simp
  | some n =>
    cases o.general with
    | none => simp
    | some g =>
      cases g with
      | none => simp
      | some l => cases l <;> simp

/-- The file that `save` makes. -/
def fileOf (fs : FS D) (o : Obj D) (l : List (Str × D)) : File D :=
  ⟨some o.info, fun a => some (dset (o.eager a)), fun a => some (dset (view fs o a)), some (if l = [] then none else some l)⟩

theorem tempFile_ok {fs : FS D} {o : Obj D} {l : List (Str × D)} (hn : o.info.nElectrons ≠ none) (hg : o.general = some (some l)) :
    tempFile fs o = (fileOf fs o l, filled fs o, none) := by
  rw [tempFile]
  cases h : o.info.nElectrons with
  | none => exact absurd h hn
  | some n =>
    rw [hg]
    cases l <;> rfl

theorem save_ok {fs : FS D} {tmp : Str} {o : Obj D} {l : List (Str × D)} (hn : o.info.nElectrons ≠ none) (hg : o.general = some (some l)) :
    save fs tmp o = (move (remove (put fs tmp (fileOf fs o l)) o.filename) tmp o.filename, filled fs o, none) := by
  rw [save, tempFile_ok hn hg]

/-- C98: `save` changes no file but its own, whether or not it raises an exception; the temporary file apart. -/
theorem save_other (fs : FS D) (tmp : Str) (o : Obj D) {p : Str} (h1 : p ≠ o.filename) (h2 : p ≠ tmp) : (save fs tmp o).1 p = fs p := by
  rw [save]
  split
  · exact if_neg h2
  · show move _ _ _ p = _
    rw [move, if_neg h1, if_neg h2, remove, if_neg h1, put, if_neg h2]

/-- C98: a call that raises an exception leaves the file as it was. -/
theorem save_failed (fs : FS D) (tmp : Str) (o : Obj D) (ht : o.filename ≠ tmp) (h : (save fs tmp o).2.2 ≠ none) : (save fs tmp o).1 o.filename = fs o.filename := by
  rw [save] at h ⊢
  split
  · exact if_neg ht
  · rename_i f o' he
    rw [he] at h
    exact absurd rfl h

theorem save_self {fs : FS D} {tmp : Str} {o : Obj D} {l : List (Str × D)} (ht : o.filename ≠ tmp) (hn : o.info.nElectrons ≠ none) (hg : o.general = some (some l)) :
    (save fs tmp o).1 o.filename = some (fileOf fs o l) ∧ (save fs tmp o).1 tmp = none := by
  rw [save_ok hn hg]
  refine ⟨?_, ?_⟩
  · show move _ _ _ _ = _
    rw [move, if_pos rfl, remove, if_neg ht.symm, put, if_pos rfl]
  · show move _ _ _ _ = _
    rw [move, if_neg ht.symm, if_pos rfl]

/-- C98: `save` does not change what the attributes of the object are. -/
theorem save_view {fs : FS D} {tmp : Str} {o : Obj D} (ht : o.filename ≠ tmp) (a : Lazy) (h : (save fs tmp o).2.2 = none) :
    view (save fs tmp o).1 (save fs tmp o).2.1 a = view fs o a ∧ (save fs tmp o).2.1.eager = o.eager ∧ (save fs tmp o).2.1.info = o.info := by
  obtain ⟨hn, l, hg⟩ := (save_ok_iff fs tmp o).1 h
  have hf := (save_self (fs := fs) ht hn hg).1
  have ho : (save fs tmp o).2.1 = filled fs o := by rw [save_ok hn hg]
  rw [ho]
  refine ⟨?_, rfl, rfl⟩
  cases hv : view fs o a with
  | some v =>
    have : (filled fs o).cache a = some v := hv
    rw [view, getLazy, this]
  | none =>
    have hc : (filled fs o).cache a = none := hv
    rw [view, getLazy, hc]
    dsimp only
    rw [getFromFile, show (filled fs o).filename = o.filename from rfl, hf]
    dsimp only [fileOf]
    rw [hv]
    rfl

/-! ## Opening -/

/-- The object found by opening the file holds the data of `o`, whose attributes loaded on demand are `v`. -/
def Opens (fs : FS D) (name : Str) (o : Obj D) (v : Lazy → Option (Val D)) : Prop :=
  ∃ o', openFile fs name = .ok o' ∧ o'.filename = o.filename ∧ o'.info = o.info ∧ (∀ a, o'.eager a = keep (o.eager a)) ∧ (∀ a, view fs o' a = keep (v a)) ∧
    o'.general = (match o.general with | some (some (kv :: l)) => some (some (kv :: l)) | _ => none)

/-- What opening a file finds of the general calculations. -/
def loadedGeneral (l : List (Str × D)) : Option (Option (List (Str × D))) := if l = [] then none else some (some l)

theorem open_file {fs fs0 : FS D} {o : Obj D} {l : List (Str × D)} {name : Str} (hname : name ≠ []) (hstem : stem name = o.filename) (hi : Storable o.info)
    (hg : o.general = some (some l)) (h : fs o.filename = some (fileOf fs0 o l)) : Opens fs name o (view fs0 o) := by
  have hl : load fs (blank o.filename) = ({ (blank o.filename : Obj D) with
      info := o.info
      eager := fun a => keep (o.eager a)
      general := loadedGeneral l }, none) := by
    rw [load, show (blank o.filename : Obj D).filename = o.filename from rfl, h]
    dsimp only [fileOf]
    rw [storedInfo_id hi]
    simp only [Option.isNone_some, Bool.or_self, Bool.false_eq_true, if_false, Option.bind_some, fromData_dset]
    cases l <;> rfl
  refine ⟨{ (blank o.filename : Obj D) with
      info := o.info
      eager := fun a => keep (o.eager a)
      general := loadedGeneral l }, ?_, rfl, rfl, fun a => rfl, fun a => ?_, ?_⟩
  · rw [openFile, if_neg hname, hstem, hl]
    rfl
  · rw [view, getLazy]
    dsimp only
    rw [getFromFile, show (blank o.filename : Obj D).filename = o.filename from rfl, h]
    dsimp only [fileOf]
    rw [fromData_dset]
    rfl
  · rw [hg]
    cases l <;> rfl

theorem stem_suffix (s : Str) : stem (s ++ ".hdf5".toList) = s := by
  have h : (s ++ ".hdf5".toList).length - 5 = s.length := by simp
  rw [stem, h, List.drop_left, if_pos rfl, List.take_left]

/-- C98: after `save`, opening the file (with or without its ending) gives the attributes of the object. -/
theorem save_open {fs : FS D} {tmp : Str} {o : Obj D} (ht : o.filename ≠ tmp) (hi : Storable o.info) (h : (save fs tmp o).2.2 = none) :
    Opens (save fs tmp o).1 (o.filename ++ ".hdf5".toList) o (view fs o) ∧
    (o.filename ≠ [] → stem o.filename = o.filename → Opens (save fs tmp o).1 o.filename o (view fs o)) := by
  obtain ⟨hn, l, hg⟩ := (save_ok_iff fs tmp o).1 h
  have hf := (save_self (fs := fs) ht hn hg).1
  exact ⟨open_file (by simp) (stem_suffix _) hi hg hf, fun h1 h2 => open_file h1 h2 hi hg hf⟩

theorem step_fs (w : World D) (x : Action D) {p : Str}
    (h : ∀ j t, x = .save j t → t ≠ p ∧ ∀ o', w.objs j = some o' → o'.filename ≠ p) : (step w x).fs p = w.fs p := by
  cases x with
  | create i o => rfl
  | openFile i n => rw [step]; split <;> rfl
  | setEager i a v => rw [step]; split <;> rfl
  | setLazy i a v => rw [step]; split <;> rfl
  | setGeneral i l => rw [step]; split <;> rfl
  | getLazy i a => rw [step]; split <;> rfl
  | load i => rw [step]; split <;> rfl
  | save j t =>
    obtain ⟨h1, h2⟩ := h j t rfl
    rw [step]
    split
    · rename_i o' ho
      exact save_other w.fs t o' (h2 o' ho).symm h1.symm
    · rfl

theorem run_fs (as : List (Action D)) (w : World D) {p : Str}
    (h : ∀ as1 j t as2, as = as1 ++ .save j t :: as2 → t ≠ p ∧ ∀ o', (run w as1).objs j = some o' → o'.filename ≠ p) : (run w as).fs p = w.fs p := by
  induction as generalizing w with
  | nil => rfl
  | cons x as ih =>
    have h1 : (step w x).fs p = w.fs p := step_fs w x fun j t hx => h [] j t as (by rw [hx]; rfl)
    rw [run, List.foldl_cons, ← h1]
    exact ih (step w x) fun as1 j t as2 he => h (x :: as1) j t as2 (by rw [he]; rfl)

/-- C98, histories: whatever a program with any number of objects does afterwards, as long as no object is saved to the file, opening the file gives what was
saved. -/
theorem open_last (w : World D) (i : ℕ) (tmp : Str) (o : Obj D) (ho : w.objs i = some o) (ht : o.filename ≠ tmp) (hi : Storable o.info)
    (hs : (save w.fs tmp o).2.2 = none) (as : List (Action D))
    (h : ∀ as1 j t as2, as = as1 ++ .save j t :: as2 → t ≠ o.filename ∧ ∀ o', (run w (.save i tmp :: as1)).objs j = some o' → o'.filename ≠ o.filename) :
    Opens (run w (.save i tmp :: as)).fs (o.filename ++ ".hdf5".toList) o (view w.fs o) := by
  obtain ⟨hn, l, hg⟩ := (save_ok_iff w.fs tmp o).1 hs
  refine open_file (by simp) (stem_suffix _) hi hg ?_
  rw [run, List.foldl_cons]
  rw [show as.foldl step (step w (.save i tmp)) = run (step w (.save i tmp)) as from rfl, run_fs as _ h]
  have : (step w (.save i tmp)).fs = (save w.fs tmp o).1 := by rw [step, ho]
  rw [this]
  exact (save_self ht hn hg).1

/-! ## Attributes in memory -/

/-- The action gives the object or its attribute a new value. -/
def Assigns (i : ℕ) (a : Lazy) : Action D → Prop
  | .create j _ => j = i
  | .openFile j _ => j = i
  | .setLazy j b _ => j = i ∧ b = a
  | _ => False

theorem filled_cache {fs : FS D} {o : Obj D} {a : Lazy} {v : Val D} (h : o.cache a = some v) : (filled fs o).cache a = some v := by
  show (getLazy fs o a).1 = some v
  rw [getLazy, h]

theorem step_cache (w : World D) (x : Action D) {i : ℕ} {a : Lazy} {v : Val D} (hx : ¬ Assigns i a x) (h : ∃ o, w.objs i = some o ∧ o.cache a = some v) :
    ∃ o, (step w x).objs i = some o ∧ o.cache a = some v := by
  obtain ⟨o, ho, hc⟩ := h
  have key : ∀ (j : ℕ) (o' : Obj D), (j = i → o'.cache a = some v) → ∃ o, (w.setObj j o').objs i = some o ∧ o.cache a = some v := by
    intro j o' h'
    by_cases hj : j = i
    · exact ⟨o', if_pos hj.symm, h' hj⟩
    · exact ⟨o, (if_neg fun h => hj h.symm).trans ho, hc⟩
  have same : ∀ (j : ℕ) (o' : Obj D), w.objs j = some o' → j = i → o'.cache a = some v := by
    intro j o' h1 h2
    subst h2
    rw [ho] at h1
    cases h1
    exact hc
  cases x with
  | create j o' => exact key j o' fun h => absurd h hx
  | openFile j n =>
    rw [step]
    split
    · exact key j _ fun h => absurd h hx
    · exact ⟨o, ho, hc⟩
  | setEager j b u =>
    rw [step]
    split
    · rename_i o' h1
      exact key j _ fun h => same j o' h1 h
    · exact ⟨o, ho, hc⟩
  | setLazy j b u =>
    rw [step]
    split
    · rename_i o' h1
      refine key j _ fun h => ?_
      have hb : ¬ a = b := fun h' => hx ⟨h, h'.symm⟩
      show (if a = b then u else o'.cache a) = _
      rw [if_neg hb]
      exact same j o' h1 h
    · exact ⟨o, ho, hc⟩
  | setGeneral j l =>
    rw [step]
    split
    · rename_i o' h1
      exact key j _ fun h => same j o' h1 h
    · exact ⟨o, ho, hc⟩
  | getLazy j b =>
    rw [step]
    split
    · rename_i o' h1
      refine key j _ fun h => ?_
      have h2 := same j o' h1 h
      rw [getLazy]
      split
      · exact h2
      · rename_i hb
        have hab : ¬ a = b := by rintro rfl; rw [h2] at hb; cases hb
        show (if a = b then _ else o'.cache a) = _
        rw [if_neg hab]; exact h2
    · exact ⟨o, ho, hc⟩
  | save j t =>
    rw [step]
    split
    · rename_i o' h1
      refine key j _ fun h => ?_
      have h2 := same j o' h1 h
      rw [save, tempFile]
      cases o'.info.nElectrons with
      | none => exact h2
      | some n =>
        cases o'.general with
        | none => exact filled_cache h2
        | some g =>
          cases g with
          | none => exact filled_cache h2
          | some l => cases l <;> exact filled_cache h2
    · exact ⟨o, ho, hc⟩
  | load j =>
    rw [step]
    split
    · rename_i o' h1
      refine key j _ fun h => ?_
      have h2 := same j o' h1 h
      rw [load]
      split
      · exact h2
      · split
        · exact h2
        · split <;> exact h2
    · exact ⟨o, ho, hc⟩

/-- C98, histories: an attribute that was given a value has this value, whatever the program does to other attributes, objects and files, until it is assigned
again. -/
theorem view_assigned (w : World D) (i : ℕ) (a : Lazy) (v : Val D) (hw : (w.objs i).isSome) (as : List (Action D)) (h : ∀ x ∈ as, ¬ Assigns i a x) :
    ∃ o, (run w (.setLazy i a (some v) :: as)).objs i = some o ∧ ∀ fs, view fs o a = some v := by
  obtain ⟨o, ho⟩ := Option.isSome_iff_exists.1 hw
  have h0 : ∃ o, (step w (.setLazy i a (some v))).objs i = some o ∧ o.cache a = some v := by
    rw [step, ho]
    exact ⟨setLazy o a (some v), if_pos rfl, if_pos rfl⟩
  rw [run, List.foldl_cons]
  generalize step w (.setLazy i a (some v)) = w1 at h0
  have : ∃ o, (as.foldl step w1).objs i = some o ∧ o.cache a = some v := by
    induction as generalizing w1 with
    | nil => exact h0
    | cons x as ih => exact ih (fun y hy => h y (by simp [hy])) _ (step_cache w1 x (h x (by simp)) h0)
  obtain ⟨o', h1, h2⟩ := this
  refine ⟨o', h1, fun fs => ?_⟩
  rw [view, getLazy, h2]

/-- The action gives the object or its other attribute a new value. -/
def Replaces (i : ℕ) (a : Eager) : Action D → Prop
  | .create j _ => j = i
  | .openFile j _ => j = i
  | .setEager j b _ => j = i ∧ b = a
  | .load j => j = i
  | _ => False

theorem step_eager (w : World D) (x : Action D) {i : ℕ} {a : Eager} {v : Option (Val D)} (hx : ¬ Replaces i a x) (h : ∃ o, w.objs i = some o ∧ o.eager a = v) :
    ∃ o, (step w x).objs i = some o ∧ o.eager a = v := by
  obtain ⟨o, ho, hc⟩ := h
  have key : ∀ (j : ℕ) (o' : Obj D), (j = i → o'.eager a = v) → ∃ o, (w.setObj j o').objs i = some o ∧ o.eager a = v := by
    intro j o' h'
    by_cases hj : j = i
    · exact ⟨o', if_pos hj.symm, h' hj⟩
    · exact ⟨o, (if_neg fun h => hj h.symm).trans ho, hc⟩
  have same : ∀ (j : ℕ) (o' : Obj D), w.objs j = some o' → j = i → o'.eager a = v := by
    intro j o' h1 h2
    subst h2
    rw [ho] at h1
    cases h1
    exact hc
  cases x with
  | create j o' => exact key j o' fun h => absurd h hx
  | openFile j n =>
    rw [step]
    split
    · exact key j _ fun h => absurd h hx
    · exact ⟨o, ho, hc⟩
  | setEager j b u =>
    rw [step]
    split
    · rename_i o' h1
      refine key j _ fun h => ?_
      have hb : ¬ a = b := fun h' => hx ⟨h, h'.symm⟩
      show (if a = b then u else o'.eager a) = _
      rw [if_neg hb]
      exact same j o' h1 h
    · exact ⟨o, ho, hc⟩
  | setLazy j b u =>
    rw [step]
    split
    · rename_i o' h1
      exact key j _ fun h => same j o' h1 h
    · exact ⟨o, ho, hc⟩
  | setGeneral j l =>
    rw [step]
    split
    · rename_i o' h1
      exact key j _ fun h => same j o' h1 h
    · exact ⟨o, ho, hc⟩
  | getLazy j b =>
    rw [step]
    split
    · rename_i o' h1
      refine key j _ fun h => ?_
      have h2 := same j o' h1 h
      rw [getLazy]
      split <;> exact h2
    · exact ⟨o, ho, hc⟩
  | save j t =>
    rw [step]
    split
    · rename_i o' h1
      refine key j _ fun h => ?_
      have h2 := same j o' h1 h
      rw [save, tempFile]
      cases o'.info.nElectrons with
      | none => exact h2
      | some n =>
        cases o'.general with
        | none => exact h2
        | some g =>
          cases g with
          | none => exact h2
          | some l => cases l <;> exact h2
    · exact ⟨o, ho, hc⟩
  | load j =>
    rw [step]
    split
    · exact key j _ fun h => absurd h hx
    · exact ⟨o, ho, hc⟩

/-- C98, histories: the attributes that are not loaded on demand (energies and sizes), too, have the value they were given, until they are assigned again or the object is
loaded again. -/
theorem eager_assigned (w : World D) (i : ℕ) (a : Eager) (v : Option (Val D)) (hw : (w.objs i).isSome) (as : List (Action D)) (h : ∀ x ∈ as, ¬ Replaces i a x) :
    ∃ o, (run w (.setEager i a v :: as)).objs i = some o ∧ o.eager a = v := by
  obtain ⟨o, ho⟩ := Option.isSome_iff_exists.1 hw
  have h0 : ∃ o, (step w (.setEager i a v)).objs i = some o ∧ o.eager a = v := by
    rw [step, ho]
    exact ⟨setEager o a v, if_pos rfl, if_pos rfl⟩
  rw [run, List.foldl_cons]
  generalize step w (.setEager i a v) = w1 at h0
  induction as generalizing w1 with
  | nil => exact h0
  | cons x as ih => exact ih (fun y hy => h y (by simp [hy])) _ (step_eager w1 x (h x (by simp)) h0)

/-- Nothing a program does to another object replaces an attribute. -/
example (tmp : Str) (l : List (Str × D)) : ∀ x ∈ [Action.save (D := D) 0 tmp, .setEager 1 .hfEnergy none, .setEager 0 .nQubits none, .setGeneral 0 l, .load 1], ¬ Replaces 0 .hfEnergy x := by
  simp [Replaces]

/-- C98, the negation for `None`: an attribute loaded on demand that has been saved cannot be removed. Assigning `None` has no effect: reading gives the old
value, and saving keeps it in the file. -/
theorem none_counterexample {fs : FS D} {tmp tmp' : Str} {o : Obj D} (ht : o.filename ≠ tmp) (ht' : o.filename ≠ tmp') (h : (save fs tmp o).2.2 = none) {a : Lazy} {d : D}
    (hv : view fs o a = some (.data d)) :
    let fs1 := (save fs tmp o).1
    let o1 := setLazy (save fs tmp o).2.1 a none
    view fs1 o1 a = some (.data d) ∧ (save fs1 tmp' o1).2.2 = none ∧ ∃ f, (save fs1 tmp' o1).1 o.filename = some f ∧ f.lazyData a = some (.data d) := by
  obtain ⟨hn, l, hg⟩ := (save_ok_iff fs tmp o).1 h
  have hf := (save_self (fs := fs) ht hn hg).1
  have ho : (save fs tmp o).2.1 = filled fs o := by rw [save_ok hn hg]
  have hview : view (save fs tmp o).1 (setLazy (filled fs o) a none) a = some (.data d) := by
    have hc : (setLazy (filled fs o) a none).cache a = none := if_pos rfl
    rw [view, getLazy, hc]
    dsimp only
    rw [getFromFile, show (setLazy (filled fs o) a none).filename = o.filename from rfl, hf]
    dsimp only [fileOf]
    rw [hv]
    rfl
  dsimp only
  rw [ho]
  have hs : (save (save fs tmp o).1 tmp' (setLazy (filled fs o) a none)).2.2 = none := (save_ok_iff _ _ _).2 ⟨hn, l, hg⟩
  refine ⟨hview, hs, _, (save_self (o := setLazy (filled fs o) a none) ht' hn hg).1, ?_⟩
  rw [fileOf]
  dsimp only
  rw [hview]
  rfl

/-- C98, the negation for molecules without general calculations: a molecule loaded from its file cannot be saved (`AttributeError`); the file stays. -/
theorem resave_counterexample {fs : FS D} {tmp tmp' : Str} {o : Obj D} (ht : o.filename ≠ tmp) (ht' : o.filename ≠ tmp') (hi : Storable o.info)
    (hn : o.info.nElectrons ≠ none) (hg : o.general = some (some [])) :
    (save fs tmp o).2.2 = none ∧ ∃ o', openFile (save fs tmp o).1 (o.filename ++ ".hdf5".toList) = .ok o' ∧
      (save (save fs tmp o).1 tmp' o').2.2 = some .attributeError ∧ (save (save fs tmp o).1 tmp' o').1 o.filename = (save fs tmp o).1 o.filename := by
  have hs : (save fs tmp o).2.2 = none := (save_ok_iff _ _ _).2 ⟨hn, [], hg⟩
  obtain ⟨o', h1, hfn, h2, _, _, h5⟩ := (save_open ht hi hs).1
  rw [hg] at h5
  have h6 : (save (save fs tmp o).1 tmp' o').2.2 = some .attributeError := by
    have hn' : o'.info.nElectrons ≠ none := by rw [h2]; exact hn
    rw [save, tempFile]
    cases hne : o'.info.nElectrons with
    | none => exact absurd hne hn'
    | some n => rw [h5]
  refine ⟨hs, o', h1, h6, ?_⟩
  rw [← hfn]
  exact save_failed _ _ _ (by rw [hfn]; exact ht') (by rw [h6]; simp)

/-- C98: a molecule with general calculations can be loaded and saved again; nothing changes, booleans apart. -/
theorem resave {fs : FS D} {tmp tmp' : Str} {o : Obj D} (ht : o.filename ≠ tmp) (ht' : o.filename ≠ tmp') (hi : Storable o.info) {kv : Str × D} {l : List (Str × D)}
    (hn : o.info.nElectrons ≠ none) (hg : o.general = some (some (kv :: l))) :
    ∃ o', openFile (save fs tmp o).1 (o.filename ++ ".hdf5".toList) = .ok o' ∧ (save (save fs tmp o).1 tmp' o').2.2 = none ∧
      Opens (save (save fs tmp o).1 tmp' o').1 (o.filename ++ ".hdf5".toList) o (view fs o) := by
  have hs : (save fs tmp o).2.2 = none := (save_ok_iff _ _ _).2 ⟨hn, _, hg⟩
  obtain ⟨o', h1, hfn, h2, h3, h4, h5⟩ := (save_open ht hi hs).1
  rw [hg] at h5
  have hn' : o'.info.nElectrons ≠ none := by rw [h2]; exact hn
  have hs' : (save (save fs tmp o).1 tmp' o').2.2 = none := (save_ok_iff _ _ _).2 ⟨hn', _, h5⟩
  have hi' : Storable o'.info := by rw [h2]; exact hi
  obtain ⟨o'', g1, gfn, g2, g3, g4, g5⟩ := (save_open (o := o') (by rw [hfn]; exact ht') hi' hs').1
  have hkeep : ∀ v : Option (Val D), keep (keep v) = keep v := by
    intro v
    cases v with
    | none => rfl
    | some v => cases v <;> rfl
  refine ⟨o', h1, hs', o'', by rw [← hfn]; exact g1, gfn.trans hfn, g2.trans h2, fun a => by rw [g3, h3, hkeep], fun a => by rw [g4, h4, hkeep], ?_⟩
  rw [g5, h5, hg]

/-! ## Several objects -/

/-- C98, the negation for `load`: an object that has read an attribute loaded on demand, or been given a value for it, keeps it when `load` is called. After
another object has been saved to the file, the first object has the new energies and the old integrals. -/
theorem stale_counterexample {fs : FS D} {tmp : Str} {o o' : Obj D} (hname : o'.filename = o.filename) (ht : o'.filename ≠ tmp) (hs : (save fs tmp o').2.2 = none)
    {a : Lazy} {v : Val D} (hv : o.cache a = some v) :
    (load (save fs tmp o').1 o).2 = none ∧ (∀ e, (load (save fs tmp o').1 o).1.eager e = keep (o'.eager e)) ∧
      view (save fs tmp o').1 (load (save fs tmp o').1 o).1 a = some v := by
  obtain ⟨hn, l, hg⟩ := (save_ok_iff fs tmp o').1 hs
  have hf := (save_self (fs := fs) ht hn hg).1
  rw [hname] at hf
  have hl : ∃ g, load (save fs tmp o').1 o = ({ o with info := storedInfo o'.info, eager := fun e => keep (o'.eager e), general := g }, none) := by
    refine ⟨(match (fileOf fs o' l).general with
              | none => some none
              | some none => o.general
              | some (some l) => some (some l)), ?_⟩
    rw [load, hf]
    dsimp only [fileOf]
    simp only [Option.isNone_some, Bool.or_self, Bool.false_eq_true, if_false, Option.bind_some, fromData_dset]
    rfl
  obtain ⟨g, hl⟩ := hl
  rw [hl]
  refine ⟨rfl, fun e => rfl, ?_⟩
  rw [view, getLazy]
  show (match o.cache a with | some v => _ | none => _ : Option (Val D) × Obj D).1 = _
  rw [hv]

/-- C98, the negation for general calculations: `load` keeps the general calculations of the object when the file has none. -/
theorem general_counterexample {fs : FS D} {tmp : Str} {o o' : Obj D} (hname : o'.filename = o.filename) (ht : o'.filename ≠ tmp)
    (hn : o'.info.nElectrons ≠ none) (hg : o'.general = some (some [])) : (load (save fs tmp o').1 o).1.general = o.general := by
  have hf := (save_self (fs := fs) ht hn hg).1
  rw [hname] at hf
  rw [load, hf]
  dsimp only [fileOf]
  simp only [Option.isNone_some, Bool.or_self, Bool.false_eq_true, if_false, if_true]

/-! ## Crashes -/

/-- C98, crash points: wherever `save` is stopped, the file has its old or its new content, or it is missing and the temporary file has the new content; all
other files are as they were. -/
theorem crash_partial {fs fs' : FS D} {tmp : Str} {o : Obj D} (ht : o.filename ≠ tmp) (h : Stopped fs tmp o fs') :
    (fs' o.filename = fs o.filename ∨ fs' o.filename = some (tempFile fs o).1 ∨ fs' o.filename = none ∧ fs' tmp = some (tempFile fs o).1) ∧
    ∀ p, p ≠ o.filename → p ≠ tmp → fs' p = fs p := by
  cases h with
  | before => exact ⟨.inl rfl, fun _ _ _ => rfl⟩
  | writing g => exact ⟨.inl (if_neg ht), fun p _ h2 => if_neg h2⟩
  | written => exact ⟨.inl (if_neg ht), fun p _ h2 => if_neg h2⟩
  | removed _ =>
    refine ⟨.inr (.inr ⟨if_pos rfl, ?_⟩), fun p h1 h2 => ?_⟩
    · rw [remove, if_neg ht.symm, put, if_pos rfl]
    · rw [remove, if_neg h1, put, if_neg h2]
  | moved _ =>
    refine ⟨.inr (.inl ?_), fun p h1 h2 => ?_⟩
    · rw [move, if_pos rfl, remove, if_neg ht.symm, put, if_pos rfl]
    · rw [move, if_neg h1, if_neg h2, remove, if_neg h1, put, if_neg h2]

/-- C98, the negation for crashes: there is a point at which a file that existed does not exist, so that opening it is an `OSError`. -/
theorem crash_counterexample {fs : FS D} {tmp : Str} {o : Obj D} (hs : (save fs tmp o).2.2 = none) :
    ∃ fs', Stopped fs tmp o fs' ∧ openFile fs' (o.filename ++ ".hdf5".toList) = .error .os := by
  obtain ⟨hn, l, hg⟩ := (save_ok_iff fs tmp o).1 hs
  refine ⟨_, .removed (by rw [tempFile_ok hn hg]), ?_⟩
  rw [openFile, if_neg (by simp), stem_suffix, load, show (blank o.filename : Obj D).filename = o.filename from rfl, remove, if_pos rfl]

/-- The hypotheses of C98 are met: hydrogen with an energy and integrals is saved, another object saves another molecule, and the file is opened. -/
example : ∃ (o : Obj ℕ) (w : World ℕ), w.objs 0 = some o ∧ o.filename = "h2".toList ∧ o.eager .hfEnergy = some (.data 7) ∧ o.cache .oneBodyIntegrals = some (.data 9) ∧
    Opens (run w [.save 0 "tmp1".toList, .openFile 1 "h2".toList, .create 2 { o with filename := "other".toList }, .save 2 "tmp2".toList]).fs
      ("h2".toList ++ ".hdf5".toList) o (view w.fs o) := by
  let i : Info := ⟨.atoms [("H".toList, [0, 0, 0]), ("H".toList, [0, 0, 1])], "sto-3g".toList, 1, 0, [], "H2_sto-3g_singlet".toList, 2, ["H".toList, "H".toList], [1, 1], some 2⟩
  let o : Obj ℕ := ⟨"h2".toList, i, fun a => if a = .hfEnergy then some (.data 7) else none, fun a => if a = .oneBodyIntegrals then some (.data 9) else none, some (some [])⟩
  refine ⟨o, ⟨fun _ => none, fun j => if j = 0 then some o else none⟩, rfl, rfl, rfl, rfl, ?_⟩
  refine open_last _ 0 _ o rfl (by decide) ⟨by decide, by decide, by decide, fun s hs => by cases hs⟩ ((save_ok_iff _ _ _).2 ⟨by simp [o, i], [], rfl⟩) _ ?_
  intro as1 j t as2 he
  rcases as1 with _ | ⟨x, _ | ⟨y, _ | ⟨z, as1⟩⟩⟩
  · simp at he
  · simp at he
  · simp only [List.cons_append, List.nil_append, List.cons.injEq, Action.save.injEq] at he
    obtain ⟨rfl, rfl, ⟨rfl, rfl⟩, rfl⟩ := he
    refine ⟨by decide, fun o' ho' => ?_⟩
    have h2 : o' = { o with filename := "other".toList } := by
      have : some { o with filename := "other".toList } = some o' := ho'
      exact (Option.some.inj this).symm
    rw [h2]
    decide
  · have := congrArg List.length he
    simp at this

end ZQ.MolStore
