import Verif.Model.Backend

/-!
# C31: the measurement tracking backend
-/

namespace ZQ.Backend

open ZQ ZQ.Circuits

variable {W : Type}

/-- Specification: what is to be recorded about one measured circuit. -/
def measured (cfg : Config W) (cm : Circuit × List (List ℕ)) (r : Record) : Prop :=
  ∃ d, cfg.toDict cm.1 = .ok d ∧ r = .measurement cfg.inner.name d (Meas.getCounts cm.2) cm.1.ops.length cm.2.length
    (if cfg.recordBitstrings then some cm.2 else none)

/-- Circuits can be converted to dictionaries (they have no conflicting gate definitions). -/
def Convertible (cfg : Config W) : Prop := ∀ c, ∃ d, cfg.toDict c = .ok d

theorem record_spec {cfg : Config W} (h : Convertible cfg) (c : Circuit) (m : List (List ℕ)) (st : Tracker W) :
    ∃ r, measured cfg (c, m) r ∧ record cfg c m st = .ok { st with rawData := st.rawData ++ [r] } := by
  obtain ⟨d, hd⟩ := h c
  exact ⟨_, ⟨d, hd, rfl⟩, by rw [record, hd]; rfl⟩

theorem recordAll_spec {cfg : Config W} (h : Convertible cfg) : ∀ (l : List (Circuit × List (List ℕ))) (st : Tracker W),
    ∃ rs, List.Forall₂ (measured cfg) l rs ∧ recordAll cfg l st = (none, { st with rawData := st.rawData ++ rs }) := by
  intro l
  induction l with
  | nil => intro st; exact ⟨[], .nil, by simp [recordAll]⟩
  | cons cm l ih =>
    intro st
    obtain ⟨r, h1, h2⟩ := record_spec h cm.1 cm.2 st
    obtain ⟨rs, h3, h4⟩ := ih { st with rawData := st.rawData ++ [r] }
    refine ⟨r :: rs, .cons h1 h3, ?_⟩
    rw [recordAll, h2]
    dsimp only
    rw [h4]
    simp

/-- C31. A tracked run returns what the wrapped backend returns; if it succeeds, the file afterwards holds the record of this run (preceded by records that were
pending), and nothing is pending. -/
theorem trackRun_spec {cfg : Config W} (h : Convertible cfg) (c : Circuit) (n : ℤ) (st : Tracker W) :
    (trackRun cfg c n st).1 = (cfg.inner.run st.world c n).1 ∧ (trackRun cfg c n st).2.world = (cfg.inner.run st.world c n).2 ∧
      match (cfg.inner.run st.world c n).1 with
      | .error _ => (trackRun cfg c n st).2.file = st.file ∧ (trackRun cfg c n st).2.rawData = st.rawData
      | .ok m => ∃ r, measured cfg (c, m) r ∧ (trackRun cfg c n st).2.file = some (st.rawData ++ [r]) ∧ (trackRun cfg c n st).2.rawData = [] := by
  rw [trackRun]
  cases hr : cfg.inner.run st.world c n with
  | mk o w =>
    cases o with
    | error e => exact ⟨rfl, rfl, rfl, rfl⟩
    | ok m =>
      obtain ⟨r, h1, h2⟩ := record_spec h c m { st with world := w }
      simp only [h2]
      exact ⟨trivial, rfl, r, h1, rfl, rfl⟩

/-- C31, for sets of circuits: one record for each circuit that has a result, in order. -/
theorem trackRunSet_spec {cfg : Config W} (h : Convertible cfg) (cs : List Circuit) (ns : List ℤ) (st : Tracker W) :
    (trackRunSet cfg cs ns st).1 = (cfg.inner.runSet st.world cs ns).1 ∧ (trackRunSet cfg cs ns st).2.world = (cfg.inner.runSet st.world cs ns).2 ∧
      match (cfg.inner.runSet st.world cs ns).1 with
      | .error _ => (trackRunSet cfg cs ns st).2.file = st.file ∧ (trackRunSet cfg cs ns st).2.rawData = st.rawData
      | .ok ms => ∃ rs, List.Forall₂ (measured cfg) (cs.zip ms) rs ∧ (trackRunSet cfg cs ns st).2.file = some (st.rawData ++ rs) ∧
        (trackRunSet cfg cs ns st).2.rawData = [] := by
  rw [trackRunSet]
  cases hr : cfg.inner.runSet st.world cs ns with
  | mk o w =>
    cases o with
    | error e => exact ⟨rfl, rfl, rfl, rfl⟩
    | ok ms =>
      obtain ⟨rs, h1, h2⟩ := recordAll_spec h (cs.zip ms) { st with world := w }
      simp only [h2]
      exact ⟨trivial, rfl, rs, h1, rfl, rfl⟩

/-- C31, for the two distribution methods. -/
theorem trackDistribution_spec {cfg : Config W} (h : Convertible cfg) (dataType : String) (inner : W → Circuit → ℤ → Except Err String × W) (c : Circuit)
    (n : ℤ) (st : Tracker W) :
    (trackDistribution dataType inner cfg c n st).1 = (inner st.world c n).1 ∧ (trackDistribution dataType inner cfg c n st).2.world = (inner st.world c n).2 ∧
      match (inner st.world c n).1 with
      | .error _ => (trackDistribution dataType inner cfg c n st).2.file = st.file ∧ (trackDistribution dataType inner cfg c n st).2.rawData = st.rawData
      | .ok d => ∃ cd, cfg.toDict c = .ok cd ∧
        (trackDistribution dataType inner cfg c n st).2.file = some (st.rawData ++ [.distribution dataType cfg.inner.name cd d c.ops.length n]) ∧
        (trackDistribution dataType inner cfg c n st).2.rawData = [] := by
  rw [trackDistribution]
  cases hr : inner st.world c n with
  | mk o w =>
    cases o with
    | error e => exact ⟨rfl, rfl, rfl, rfl⟩
    | ok d =>
      obtain ⟨cd, hcd⟩ := h c
      simp only [hcd]
      exact ⟨trivial, rfl, cd, rfl, rfl, rfl⟩

/-- Specification: the records that a use produces, given the results of the wrapped backend in the state `w`; `none` if it fails. -/
def Produces (cfg : Config W) (w : W) : TrackerUse → Option (List Record) → Prop
  | .run c n, o => match (cfg.inner.run w c n).1 with
    | .error _ => o = none
    | .ok m => ∃ r, measured cfg (c, m) r ∧ o = some [r]
  | .runSet cs ns, o => match (cfg.inner.runSet w cs ns).1 with
    | .error _ => o = none
    | .ok ms => ∃ rs, List.Forall₂ (measured cfg) (cs.zip ms) rs ∧ o = some rs
  | .bitstringDistribution c n, o => match (cfg.inner.bitstringDistribution w c n).1 with
    | .error _ => o = none
    | .ok d => ∃ cd, cfg.toDict c = .ok cd ∧ o = some [.distribution "bitstring distribution" cfg.inner.name cd d c.ops.length n]
  | .outcomeDistribution c n, o => match (cfg.inner.outcomeDistribution w c n).1 with
    | .error _ => o = none
    | .ok d => ∃ cd, cfg.toDict c = .ok cd ∧ o = some [.distribution "measurement outcome distribution" cfg.inner.name cd d c.ops.length n]

/-- Specification: the effect of a use on the world of the wrapped backend. -/
def innerWorld (cfg : Config W) (w : W) : TrackerUse → W
  | .run c n => (cfg.inner.run w c n).2
  | .runSet cs ns => (cfg.inner.runSet w cs ns).2
  | .bitstringDistribution c n => (cfg.inner.bitstringDistribution w c n).2
  | .outcomeDistribution c n => (cfg.inner.outcomeDistribution w c n).2

/-- Specification: the records produced by each use of a history on the wrapped backend, in order. -/
inductive History (cfg : Config W) : W → List TrackerUse → List (Option (List Record)) → Prop
  | nil (w : W) : History cfg w [] []
  | cons {w : W} {u : TrackerUse} {us : List TrackerUse} {o : Option (List Record)} {os : List (Option (List Record))} :
      Produces cfg w u o → History cfg (innerWorld cfg w u) us os → History cfg w (u :: us) (o :: os)

/-- The records of the last successful use. -/
def lastRecords : List (Option (List Record)) → Option (List Record) → Option (List Record)
  | [], file => file
  | none :: os, file => lastRecords os file
  | some rs :: os, _ => lastRecords os (some rs)

theorem trackerStep_spec {cfg : Config W} (h : Convertible cfg) (st : Tracker W) (hp : st.rawData = []) (u : TrackerUse) :
    ∃ o, Produces cfg st.world u o ∧ (trackerStep cfg st u).2.world = innerWorld cfg st.world u ∧ (trackerStep cfg st u).2.rawData = [] ∧
      (trackerStep cfg st u).2.file = lastRecords [o] st.file ∧ (trackerStep cfg st u).1 = o.isSome := by
  cases u with
  | run c n =>
    obtain ⟨h1, h2, h3⟩ := trackRun_spec h c n st
    cases hr : (cfg.inner.run st.world c n).1 with
    | error e =>
      rw [hr] at h3
      refine ⟨none, by rw [Produces, hr], h2, h3.2.trans hp, h3.1, ?_⟩
      show (trackRun cfg c n st).1.toBool = _
      rw [h1, hr]; rfl
    | ok m =>
      rw [hr] at h3
      obtain ⟨r, h4, h5, h6⟩ := h3
      refine ⟨some [r], by rw [Produces, hr]; exact ⟨r, h4, rfl⟩, h2, h6, by rw [hp] at h5; exact h5, ?_⟩
      show (trackRun cfg c n st).1.toBool = _
      rw [h1, hr]; rfl
  | runSet cs ns =>
    obtain ⟨h1, h2, h3⟩ := trackRunSet_spec h cs ns st
    cases hr : (cfg.inner.runSet st.world cs ns).1 with
    | error e =>
      rw [hr] at h3
      refine ⟨none, by rw [Produces, hr], h2, h3.2.trans hp, h3.1, ?_⟩
      show (trackRunSet cfg cs ns st).1.toBool = _
      rw [h1, hr]; rfl
    | ok m =>
      rw [hr] at h3
      obtain ⟨r, h4, h5, h6⟩ := h3
      refine ⟨some r, by rw [Produces, hr]; exact ⟨r, h4, rfl⟩, h2, h6, by rw [hp] at h5; exact h5, ?_⟩
      show (trackRunSet cfg cs ns st).1.toBool = _
      rw [h1, hr]; rfl
  | bitstringDistribution c n =>
    obtain ⟨h1, h2, h3⟩ := trackDistribution_spec h "bitstring distribution" cfg.inner.bitstringDistribution c n st
    cases hr : (cfg.inner.bitstringDistribution st.world c n).1 with
    | error e =>
      rw [hr] at h3
      refine ⟨none, by rw [Produces, hr], h2, h3.2.trans hp, h3.1, ?_⟩
      show (trackDistribution _ _ cfg c n st).1.toBool = _
      rw [h1, hr]; rfl
    | ok m =>
      rw [hr] at h3
      obtain ⟨r, h4, h5, h6⟩ := h3
      refine ⟨_, by rw [Produces, hr]; exact ⟨r, h4, rfl⟩, h2, h6, by rw [hp] at h5; exact h5, ?_⟩
      show (trackDistribution _ _ cfg c n st).1.toBool = _
      rw [h1, hr]; rfl
  | outcomeDistribution c n =>
    obtain ⟨h1, h2, h3⟩ := trackDistribution_spec h "measurement outcome distribution" cfg.inner.outcomeDistribution c n st
    cases hr : (cfg.inner.outcomeDistribution st.world c n).1 with
    | error e =>
      rw [hr] at h3
      refine ⟨none, by rw [Produces, hr], h2, h3.2.trans hp, h3.1, ?_⟩
      show (trackDistribution _ _ cfg c n st).1.toBool = _
      rw [h1, hr]; rfl
    | ok m =>
      rw [hr] at h3
      obtain ⟨r, h4, h5, h6⟩ := h3
      refine ⟨_, by rw [Produces, hr]; exact ⟨r, h4, rfl⟩, h2, h6, by rw [hp] at h5; exact h5, ?_⟩
      show (trackDistribution _ _ cfg c n st).1.toBool = _
      rw [h1, hr]; rfl

theorem lastRecords_append (o : Option (List Record)) (os : List (Option (List Record))) (file : Option (List Record)) :
    lastRecords (o :: os) file = lastRecords os (lastRecords [o] file) := by
  cases o <;> rfl

/-- C31, partial: for every history of uses, the file holds the records of the last successful use (and only those).
Missing: the records of all earlier uses, which are overwritten (`tracker_counterexample`). -/
theorem tracker_file_partial {cfg : Config W} (h : Convertible cfg) : ∀ (us : List TrackerUse) (st : Tracker W), st.rawData = [] →
    ∃ os, History cfg st.world us os ∧ (us.foldl (fun st u => (trackerStep cfg st u).2) st).file = lastRecords os st.file ∧
      (us.foldl (fun st u => (trackerStep cfg st u).2) st).rawData = [] := by
  intro us
  induction us with
  | nil => intro st hp; exact ⟨[], .nil _, rfl, hp⟩
  | cons u us ih =>
    intro st hp
    obtain ⟨o, h1, h2, h3, h4, -⟩ := trackerStep_spec h st hp u
    obtain ⟨os, h5, h6, h7⟩ := ih (trackerStep cfg st u).2 h3
    refine ⟨o :: os, .cons h1 (h2 ▸ h5), ?_, h7⟩
    rw [List.foldl_cons, h6, h4, ← lastRecords_append]

/-- The tracker's own counters are never increased: they do not count what the wrapped backend runs. -/
theorem tracker_counters (cfg : Config W) (us : List TrackerUse) (st : Tracker W) :
    (us.foldl (fun st u => (trackerStep cfg st u).2) st).circuits = st.circuits ∧ (us.foldl (fun st u => (trackerStep cfg st u).2) st).jobs = st.jobs := by
  have hrec : ∀ (c : Circuit) (m : List (List ℕ)) (st st' : Tracker W), record cfg c m st = .ok st' → st'.circuits = st.circuits ∧ st'.jobs = st.jobs := by
    intro c m st st' h
    rw [record] at h
    cases hd : cfg.toDict c with
    | error e => rw [hd] at h; cases h
    | ok d => rw [hd] at h; cases h; exact ⟨rfl, rfl⟩
  have hall : ∀ (l : List (Circuit × List (List ℕ))) (st : Tracker W), (recordAll cfg l st).2.circuits = st.circuits ∧ (recordAll cfg l st).2.jobs = st.jobs := by
    intro l
    induction l with
    | nil => intro st; exact ⟨rfl, rfl⟩
    | cons cm l ih =>
      intro st
      rw [recordAll]
      cases hr : record cfg cm.1 cm.2 st with
      | error e => exact ⟨rfl, rfl⟩
      | ok st' =>
        obtain ⟨h1, h2⟩ := hrec _ _ _ _ hr
        obtain ⟨h3, h4⟩ := ih st'
        exact ⟨h3.trans h1, h4.trans h2⟩
  have hdist : ∀ (t : String) (inner : W → Circuit → ℤ → Except Err String × W) (c : Circuit) (n : ℤ) (st : Tracker W),
      (trackDistribution t inner cfg c n st).2.circuits = st.circuits ∧ (trackDistribution t inner cfg c n st).2.jobs = st.jobs := by
    intro t inner c n st
    rw [trackDistribution]
    split
    · exact ⟨rfl, rfl⟩
    · split <;> exact ⟨rfl, rfl⟩
  have hstep : ∀ (st : Tracker W) (u : TrackerUse), (trackerStep cfg st u).2.circuits = st.circuits ∧ (trackerStep cfg st u).2.jobs = st.jobs := by
    intro st u
    cases u with
    | run c n =>
      show (trackRun cfg c n st).2.circuits = _ ∧ (trackRun cfg c n st).2.jobs = _
      rw [trackRun]
      split
      · exact ⟨rfl, rfl⟩
      · split
        · exact ⟨rfl, rfl⟩
        · rename_i h
          obtain ⟨a, b⟩ := hrec _ _ _ _ h
          exact ⟨a, b⟩
    | runSet cs ns =>
      show (trackRunSet cfg cs ns st).2.circuits = _ ∧ (trackRunSet cfg cs ns st).2.jobs = _
      rw [trackRunSet]
      split
      · exact ⟨rfl, rfl⟩
      · rename_i ms w _
        have := hall (cs.zip ms) { st with world := w }
        split
        · rename_i h
          rw [h] at this; exact this
        · rename_i h
          rw [h] at this; exact this
    | bitstringDistribution c n => exact hdist _ _ c n st
    | outcomeDistribution c n => exact hdist _ _ c n st
  induction us generalizing st with
  | nil => exact ⟨rfl, rfl⟩
  | cons u us ih =>
    rw [List.foldl_cons]
    obtain ⟨h1, h2⟩ := ih (trackerStep cfg st u).2
    obtain ⟨h3, h4⟩ := hstep st u
    exact ⟨h1.trans h3, h2.trans h4⟩

/-- A backend that always measures `11`. -/
def exampleConfig : Config Unit where
  inner := ⟨"Example", fun w _ n => (.ok (List.replicate n.toNat [1, 1]), w), fun w cs ns => (.ok ((cs.zip ns).map fun cn => List.replicate cn.2.toNat [1, 1]), w),
    fun w _ _ => (.ok "{(1, 1): 1.0}", w), fun w _ _ => (.ok "{(1, 1): 1.0}", w)⟩
  recordBitstrings := true
  toDict := fun c => .ok ⟨Serde.circuitSchema, c.n, none, none⟩

theorem exampleConfig_convertible : Convertible exampleConfig := fun _ => ⟨_, rfl⟩

/-- The full claim of C31 fails: after two successful runs the file does not hold the data of the first one (trackers.py:160-167 opens the file with
"w+" and empties `raw_data`). -/
theorem tracker_counterexample : ∃ (cfg : Config Unit) (us : List TrackerUse) (r₁ r₂ : Record),
    Convertible cfg ∧ History cfg () us [some [r₁], some [r₂]] ∧ r₁ ≠ r₂ ∧
      (us.foldl (fun st u => (trackerStep cfg st u).2) (Tracker.init none ())).file = some [r₂] := by
  refine ⟨exampleConfig, [.run ⟨[], 2⟩ 1, .run ⟨[], 2⟩ 3],
    .measurement "Example" ⟨Serde.circuitSchema, 2, none, none⟩ (Meas.getCounts [[1, 1]]) 0 1 (some [[1, 1]]),
    .measurement "Example" ⟨Serde.circuitSchema, 2, none, none⟩ (Meas.getCounts [[1, 1], [1, 1], [1, 1]]) 0 3 (some [[1, 1], [1, 1], [1, 1]]),
    exampleConfig_convertible, ?_, ?_, rfl⟩
  · exact .cons ⟨_, ⟨_, rfl, rfl⟩, rfl⟩ (.cons ⟨_, ⟨_, rfl, rfl⟩, rfl⟩ (.nil _))
  · intro h
    injection h with _ _ _ _ h5 _
    cases h5

/-- The loop over the measured circuits stops at the first circuit that cannot be converted. -/
theorem recordAll_error {cfg : Config W} {c : Circuit} {m : List (List ℕ)} {e : Err} (he : cfg.toDict c = .error e) (post : List (Circuit × List (List ℕ))) :
    ∀ (pre : List (Circuit × List (List ℕ))), (∀ p ∈ pre, ∃ d, cfg.toDict p.1 = .ok d) → ∀ st : Tracker W,
      ∃ rs, List.Forall₂ (measured cfg) pre rs ∧ recordAll cfg (pre ++ (c, m) :: post) st = (some e, { st with rawData := st.rawData ++ rs }) := by
  intro pre
  induction pre with
  | nil =>
    intro _ st
    refine ⟨[], .nil, ?_⟩
    have : record cfg c m st = .error e := by rw [record, he]; rfl
    rw [List.nil_append, recordAll, this]
    simp
  | cons cm l ih =>
    intro h st
    obtain ⟨d, hd⟩ := h cm (by simp)
    have hr : record cfg cm.1 cm.2 st = .ok { st with rawData := st.rawData ++ [.measurement cfg.inner.name d (Meas.getCounts cm.2) cm.1.ops.length
        cm.2.length (if cfg.recordBitstrings then some cm.2 else none)] } := by
      rw [record, hd]; rfl
    obtain ⟨rs, h3, h4⟩ := ih (fun p hp => h p (by simp [hp])) _
    refine ⟨_ :: rs, .cons ⟨d, hd, rfl⟩ h3, ?_⟩
    rw [List.cons_append, recordAll, hr]
    dsimp only
    rw [h4]
    simp

/-- C31: when a measured circuit cannot be converted to a dictionary, the tracker raises that exception although the wrapped backend has succeeded; the file is
not touched, and the records of the circuits before it stay pending (they are written by the next use that succeeds). -/
theorem trackRunSet_unconvertible {cfg : Config W} {cs : List Circuit} {ns : List ℤ} {st : Tracker W} {ms : List (List (List ℕ))}
    (hr : (cfg.inner.runSet st.world cs ns).1 = .ok ms) {pre post : List (Circuit × List (List ℕ))} {c : Circuit} {m : List (List ℕ)}
    (hz : cs.zip ms = pre ++ (c, m) :: post) (hpre : ∀ p ∈ pre, ∃ d, cfg.toDict p.1 = .ok d) {e : Err} (he : cfg.toDict c = .error e) :
    (trackRunSet cfg cs ns st).1 = .error e ∧ (trackRunSet cfg cs ns st).2.file = st.file ∧
      (trackRunSet cfg cs ns st).2.world = (cfg.inner.runSet st.world cs ns).2 ∧
      ∃ rs, List.Forall₂ (measured cfg) pre rs ∧ (trackRunSet cfg cs ns st).2.rawData = st.rawData ++ rs := by
  rw [trackRunSet]
  cases hc : cfg.inner.runSet st.world cs ns with
  | mk o w =>
    rw [hc] at hr
    dsimp only at hr
    subst hr
    obtain ⟨rs, h1, h2⟩ := recordAll_error he (m := m) post pre hpre { st with world := w }
    dsimp only
    rw [hz, h2]
    exact ⟨rfl, rfl, rfl, rs, h1, rfl⟩

/-- C31: the same for a single circuit and for the two distribution methods; nothing is recorded then. -/
theorem track_unconvertible {cfg : Config W} {c : Circuit} {n : ℤ} {st : Tracker W} {e : Err} (he : cfg.toDict c = .error e) :
    ((cfg.inner.run st.world c n).1.toBool = true → trackRun cfg c n st = (.error e, { st with world := (cfg.inner.run st.world c n).2 })) ∧
      ∀ (dataType : String) (inner : W → Circuit → ℤ → Except Err String × W), (inner st.world c n).1.toBool = true →
        trackDistribution dataType inner cfg c n st = (.error e, { st with world := (inner st.world c n).2 }) := by
  constructor
  · intro h
    rw [trackRun]
    cases hc : cfg.inner.run st.world c n with
    | mk o w =>
      rw [hc] at h
      cases o with
      | error e' => simp [Except.toBool] at h
      | ok m =>
        have : record cfg c m { st with world := w } = .error e := by rw [record, he]; rfl
        dsimp only
        rw [this]
  · intro dataType inner h
    rw [trackDistribution]
    cases hc : inner st.world c n with
    | mk o w =>
      rw [hc] at h
      cases o with
      | error e' => simp [Except.toBool] at h
      | ok d =>
        dsimp only
        rw [he]

/-- The hypotheses are met: circuits on more than two qubits cannot be converted, and the second of two measured circuits has three qubits. -/
example : (trackRunSet { exampleConfig with toDict := fun c => if c.n ≤ 2 then .ok ⟨Serde.circuitSchema, c.n, none, none⟩ else .error .valueError }
    [⟨[], 2⟩, ⟨[], 3⟩] [1, 1] (Tracker.init none ())).1 = .error .valueError :=
  (trackRunSet_unconvertible (pre := [(⟨[], 2⟩, [[1, 1]])]) (post := []) (c := ⟨[], 3⟩) (m := [[1, 1]]) rfl rfl
    (by intro p hp; simp only [List.mem_singleton] at hp; subst hp; exact ⟨_, rfl⟩) rfl).1

end ZQ.Backend
