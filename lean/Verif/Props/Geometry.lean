import Verif.Model.Geometry
import Verif.Props.OpString

/-!
# C126: geometries in text files and units of length
-/

namespace ZQ.Geometry

open ZQ ZQ.OpStr

/-! ### Specification -/

/-- Specification: white space. -/
def Blank (s : Text) : Prop := ∀ ch ∈ s, ch.isWhitespace = true

/-- Specification: a word. -/
def Word (w : Text) : Prop := w ≠ [] ∧ ∀ ch ∈ w, ch.isWhitespace = false

/-- Specification: the line consists of these words, separated by white space, with white space around. -/
inductive Reads : Text → List Text → Prop
  | nil {b : Text} : Blank b → Reads b []
  | last {b w : Text} : Blank b → Word w → Reads (b ++ w) [w]
  | cons {b w rest : Text} {ch : Char} {ws : List Text} : Blank b → Word w → ch.isWhitespace = true → Reads rest ws → Reads (b ++ w ++ ch :: rest) (w :: ws)

/-- Specification: the line is that of the atom. -/
def Shows (float : Text → Option ℝ) (line : Text) (a : Atom) : Prop :=
  ∃ tx ty tz, Reads line [a.1, tx, ty, tz] ∧ float tx = some a.2.1 ∧ float ty = some a.2.2.1 ∧ float tz = some a.2.2.2

/-- Specification: the line has not four words. -/
def Skipped (line : Text) : Prop := ∀ ws, Reads line ws → ws.length ≠ 4

/-! ### Proofs -/

theorem words_blank_append {b : Text} (h : Blank b) (s : Text) : words (b ++ s) = words s := by
  induction b with
  | nil => rfl
  | cons c b ih =>
    have hc := h c (by simp)
    rw [← ih fun x hx => h x (by simp [hx])]
    show words (([] : Text) ++ c :: (b ++ s)) = _
    rw [words, List.splitOnP_append_cons_of_forall_mem (by simp) _ hc, List.filter_cons_of_neg (by simp)]
    rfl

theorem words_word {w : Text} (h : Word w) {c : Char} (hc : c.isWhitespace = true) (rest : Text) : words (w ++ c :: rest) = w :: words rest := by
  rw [words, List.splitOnP_append_cons_of_forall_mem h.2 _ hc, List.filter_cons_of_pos (by simpa using h.1), words]

theorem reads_words {s : Text} {ws : List Text} (h : Reads s ws) : words s = ws := by
  induction h with
  | @nil b hb =>
    have := words_blank_append hb []
    rw [List.append_nil] at this
    rw [this]; rfl
  | last hb hw => rw [words_blank_append hb, words_single hw.2 hw.1]
  | cons hb hw hc _ ih => rw [List.append_assoc, words_blank_append hb, words_word hw hc, ih]

theorem words_reads (s : Text) : Reads s (words s) := by
  induction hn : s.length using Nat.strong_induction_on generalizing s with
  | _ n ih =>
    -- the white space in front, the word, and the rest
    obtain ⟨b, s', rfl, hb, hs'⟩ : ∃ b s', s = b ++ s' ∧ Blank b ∧ (s' = [] ∨ ∃ c t, s' = c :: t ∧ c.isWhitespace = false) := by
      refine ⟨s.takeWhile Char.isWhitespace, s.dropWhile Char.isWhitespace, List.takeWhile_append_dropWhile.symm, fun ch h => List.mem_takeWhile_imp h, ?_⟩
      cases h : s.dropWhile Char.isWhitespace with
      | nil => exact Or.inl rfl
      | cons c t =>
        refine Or.inr ⟨c, t, rfl, ?_⟩
        have := List.head?_dropWhile_not Char.isWhitespace s
        rw [h] at this
        simpa using this
    rw [words_blank_append hb]
    rcases hs' with rfl | ⟨c, t, rfl, hc⟩
    · rw [List.append_nil]; exact .nil hb
    · obtain ⟨w, r, e, hw, hr⟩ : ∃ w r, c :: t = w ++ r ∧ Word w ∧ (r = [] ∨ ∃ d u, r = d :: u ∧ d.isWhitespace = true) := by
        refine ⟨(c :: t).takeWhile fun x => !x.isWhitespace, (c :: t).dropWhile fun x => !x.isWhitespace, List.takeWhile_append_dropWhile.symm, ⟨?_, ?_⟩, ?_⟩
        · rw [List.takeWhile_cons_of_pos (by simp [hc])]; simp
        · intro x hx; simpa using List.mem_takeWhile_imp hx
        · cases h : (c :: t).dropWhile fun x => !x.isWhitespace with
          | nil => exact Or.inl rfl
          | cons d u =>
            refine Or.inr ⟨d, u, rfl, ?_⟩
            have := List.head?_dropWhile_not (fun x : Char => !x.isWhitespace) (c :: t)
            rw [h] at this
            simpa using this
      rw [e]
      rcases hr with rfl | ⟨d, u, rfl, hd⟩
      · rw [List.append_nil, words_single hw.2 hw.1]; exact .last hb hw
      · rw [words_word hw hd, ← List.append_assoc]
        refine .cons hb hw hd (ih u.length ?_ u rfl)
        rw [← hn, e]
        simp
        omega

/-- Every line is made of its words, in one way. -/
theorem reads_iff (s : Text) (ws : List Text) : Reads s ws ↔ words s = ws := ⟨reads_words, fun h => h ▸ words_reads s⟩

theorem readLine_shows {float : Text → Option ℝ} {line : Text} {a : Atom} (h : Shows float line a) : readLine float line = .ok [a] := by
  obtain ⟨tx, ty, tz, h1, h2, h3, h4⟩ := h
  rw [readLine, reads_words h1]
  dsimp only
  rw [h2, h3, h4]

theorem readLine_skipped {float : Text → Option ℝ} {line : Text} (h : Skipped line) : readLine float line = .ok [] := by
  have := h _ (words_reads line)
  rw [readLine]
  split
  · rename_i e; rw [e] at this; exact absurd rfl this
  · rfl

theorem readLines_append (float : Text → Option ℝ) (ls ls' : List Text) : ∀ g g', readLines float ls g = .ok g' → readLines float (ls ++ ls') g = readLines float ls' g' := by
  induction ls with
  | nil => intro g g' h; cases h; rfl
  | cons l ls ih =>
    intro g g' h
    rw [readLines] at h
    rw [List.cons_append, readLines]
    cases hl : readLine float l with
    | error e => rw [hl] at h; cases h
    | ok new => rw [hl] at h; exact ih _ _ h

/-- C126. The geometry is that of the atoms in the file, line by line; lines that do not have four words are left out. -/
theorem geometry_spec (float : Text → Option ℝ) (entries : List (Text × Option Atom)) (hne : entries ≠ []) (hl : ∀ e ∈ entries, '\n' ∉ e.1)
    (h : ∀ e ∈ entries, match e.2 with | some a => Shows float e.1 a | none => Skipped e.1) :
    geometryFromFile float (['\n'].intercalate (entries.map Prod.fst)) = .ok (entries.filterMap Prod.snd) := by
  rw [geometryFromFile, List.splitOn_intercalate '\n' (by simpa using hl) (by simpa using hne)]
  have key : ∀ (es : List (Text × Option Atom)) g, (∀ e ∈ es, match e.2 with | some a => Shows float e.1 a | none => Skipped e.1) →
      readLines float (es.map Prod.fst) g = .ok (g ++ es.filterMap Prod.snd) := by
    intro es
    induction es with
    | nil => intro g _; simp [readLines]
    | cons e es ih =>
      intro g he
      obtain ⟨line, o⟩ := e
      have h1 := he (line, o) (by simp)
      rw [List.map_cons, readLines]
      cases o with
      | some a =>
        rw [readLine_shows h1]
        dsimp only
        rw [ih _ fun e h => he e (by simp [h])]
        simp
      | none =>
        rw [readLine_skipped h1]
        dsimp only
        rw [ih _ fun e h => he e (by simp [h])]
        simp
  rw [key entries [] h, List.nil_append]

/-- C126. A line of four words whose last three are not all numbers is a `ValueError`, if the lines before it can be read. -/
theorem geometry_rejects (float : Text → Option ℝ) (before : List (Text × Option Atom)) (line : Text) (after : List Text) (hl : ∀ e ∈ before, '\n' ∉ e.1) (hl' : '\n' ∉ line) (hl'' : ∀ l ∈ after, '\n' ∉ l)
    (h : ∀ e ∈ before, match e.2 with | some a => Shows float e.1 a | none => Skipped e.1)
    (ws : Text × Text × Text × Text) (hr : Reads line [ws.1, ws.2.1, ws.2.2.1, ws.2.2.2]) (hn : float ws.2.1 = none ∨ float ws.2.2.1 = none ∨ float ws.2.2.2 = none) :
    geometryFromFile float (['\n'].intercalate (before.map Prod.fst ++ line :: after)) = .error .valueError := by
  rw [geometryFromFile, List.splitOn_intercalate '\n' (by
    intro l hm
    rcases List.mem_append.1 hm with hm | hm
    · obtain ⟨e, he, rfl⟩ := List.mem_map.1 hm; exact hl e he
    · rcases List.mem_cons.1 hm with rfl | hm
      · exact hl'
      · exact hl'' l hm) (by simp)]
  have hbefore : ∃ g, readLines float (before.map Prod.fst) [] = .ok g := by
    rcases eq_or_ne before [] with rfl | hne
    · exact ⟨[], rfl⟩
    · have := geometry_spec float before hne hl h
      rw [geometryFromFile, List.splitOn_intercalate '\n' (by simpa using hl) (by simpa using hne)] at this
      exact ⟨_, this⟩
  obtain ⟨g, hg⟩ := hbefore
  rw [readLines_append _ _ _ _ _ hg, readLines, readLine, reads_words hr]
  dsimp only
  rcases hn with hn | hn | hn
  · rw [hn]
  · rw [hn]; cases float ws.2.1 <;> rfl
  · rw [hn]; cases float ws.2.1 <;> cases float ws.2.2.1 <;> rfl

/-- Specification: a geometry as text, one atom on each line. -/
def written (print : ℝ → Text) (g : List Atom) : Text :=
  (g.map fun a => a.1 ++ ' ' :: (print a.2.1 ++ ' ' :: (print a.2.2.1 ++ ' ' :: (print a.2.2.2 ++ ['\n'])))).flatten

/-- Specification: the number is printed as a word from which it can be read back. -/
def Printed (float : Text → Option ℝ) (print : ℝ → Text) (x : ℝ) : Prop := Word (print x) ∧ float (print x) = some x

/-- C126. Reading a geometry that was written one atom on each line gives the geometry, whenever its numbers can be read back. -/
theorem geometry_roundtrip (float : Text → Option ℝ) (print : ℝ → Text) (g : List Atom) (hg : ∀ a ∈ g, Word a.1)
    (hp : ∀ a ∈ g, Printed float print a.2.1 ∧ Printed float print a.2.2.1 ∧ Printed float print a.2.2.2) :
    geometryFromFile float (written print g) = .ok g := by
  let line (a : Atom) : Text := a.1 ++ ' ' :: (print a.2.1 ++ ' ' :: (print a.2.2.1 ++ ' ' :: print a.2.2.2))
  have hw : ∀ {w : Text}, Word w → '\n' ∉ w := fun h hc => by
    have := h.2 '\n' hc
    revert this
    decide
  have hline : ∀ a ∈ g, '\n' ∉ line a := by
    intro a ha
    have h0 := hw (hg a ha); have h1 := hw (hp a ha).1.1; have h2 := hw (hp a ha).2.1.1; have h3 := hw (hp a ha).2.2.1
    simp [line, h0, h1, h2, h3]
  have hshow : ∀ a ∈ g, Shows float (line a) a := by
    intro a ha
    refine ⟨_, _, _, ?_, (hp a ha).1.2, (hp a ha).2.1.2, (hp a ha).2.2.2⟩
    have hb : Blank [] := by intro _ h; cases h
    exact .cons hb (hg a ha) (by decide) (.cons hb (hp a ha).1.1 (by decide) (.cons hb (hp a ha).2.1.1 (by decide) (.last hb (hp a ha).2.2.1)))
  have htext : written print g = ['\n'].intercalate ((g.map fun a => (line a, some a)) ++ [([], none)] |>.map Prod.fst) := by
    rw [written]
    clear hline hshow hg hp
    induction g with
    | nil => rfl
    | cons a g ih =>
      rw [List.map_cons, List.flatten_cons, ih]
      have : ∀ (x : Text) (l : List Text), l ≠ [] → ['\n'].intercalate (x :: l) = x ++ '\n' :: ['\n'].intercalate l := by
        intro x l hl
        cases l with
        | nil => exact absurd rfl hl
        | cons y l => simp [List.intercalate]
      rw [List.map_cons, List.cons_append, List.map_cons, this _ _ (by simp)]
      simp [line]
  rw [htext, geometry_spec]
  · simp
  · simp
  · intro e he
    rcases List.mem_append.1 he with he | he
    · obtain ⟨a, ha, rfl⟩ := List.mem_map.1 he
      exact hline a ha
    · rw [List.mem_singleton.1 he]; simp
  · intro e he
    rcases List.mem_append.1 he with he | he
    · obtain ⟨a, ha, rfl⟩ := List.mem_map.1 he
      exact hshow a ha
    · rw [List.mem_singleton.1 he]
      intro ws hws
      rw [← reads_words hws]
      decide

/-- C126. The two changes of units undo each other up to a relative error of 4e-17, which is below the precision of a float; they keep order and zero. -/
theorem units_spec (d e : ℝ) :
    |bohrToAngstroms (angstromsToBohr d) - d| ≤ 4 / 10 ^ 17 * |d| ∧ |angstromsToBohr (bohrToAngstroms d) - d| ≤ 4 / 10 ^ 17 * |d| ∧
      (bohrToAngstroms d < bohrToAngstroms e ↔ d < e) ∧ (angstromsToBohr d < angstromsToBohr e ↔ d < e) ∧ bohrToAngstroms 0 = 0 ∧
      |angstromsToBohr 1 - 1.8897261| ≤ 1 / 10 ^ 6 := by
  have h1 : bohrToAngstroms (angstromsToBohr d) - d = (0.5291772458017723 * 1.889726 - 1) * d := by rw [bohrToAngstroms, angstromsToBohr]; ring
  have h2 : angstromsToBohr (bohrToAngstroms d) - d = (0.5291772458017723 * 1.889726 - 1) * d := by rw [bohrToAngstroms, angstromsToBohr]; ring
  have h3 : |(0.5291772458017723 * 1.889726 - 1 : ℝ)| ≤ 4 / 10 ^ 17 := by rw [abs_le]; constructor <;> norm_num
  refine ⟨?_, ?_, ?_, ?_, ?_, ?_⟩
  · rw [h1, abs_mul]; exact mul_le_mul_of_nonneg_right h3 (abs_nonneg d)
  · rw [h2, abs_mul]; exact mul_le_mul_of_nonneg_right h3 (abs_nonneg d)
  · rw [bohrToAngstroms, bohrToAngstroms]; constructor <;> intro h <;> linarith
  · rw [angstromsToBohr, angstromsToBohr]; constructor <;> intro h <;> linarith
  · rw [bohrToAngstroms, mul_zero]
  · rw [angstromsToBohr, abs_le]; constructor <;> norm_num

/-- A line with tabs, a line of a comment, and the last line without an end. -/
example (float : Text → Option ℝ) (h0 : float "0".toList = some 0) (h7 : float "0.7".toList = some 0.7) :
    geometryFromFile float "H 0\t0  0\n# two hydrogen atoms here\n H 0 0 0.7".toList = .ok [("H".toList, 0, 0, 0), ("H".toList, 0, 0, 0.7)] := by
  have hw : ∀ s : String, s.toList.all (fun c => !c.isWhitespace) = true → s.toList ≠ [] → Word s.toList := fun s h1 h2 => ⟨h2, by simpa using h1⟩
  exact geometry_spec float [("H 0\t0  0".toList, some ("H".toList, 0, 0, 0)), ("# two hydrogen atoms here".toList, none), (" H 0 0 0.7".toList, some ("H".toList, 0, 0, 0.7))]
    (by simp) (by decide) (by
      intro e he
      simp only [List.mem_cons, List.not_mem_nil, or_false] at he
      rcases he with rfl | rfl | rfl
      · exact ⟨"0".toList, "0".toList, "0".toList, (reads_iff _ _).2 (by decide), h0, h0, h0⟩
      · intro ws hws
        rw [← reads_words hws]
        decide
      · exact ⟨"0".toList, "0".toList, "0.7".toList, (reads_iff _ _).2 (by decide), h0, h0, h7⟩)

/-- An atom that is written and read back. -/
example : geometryFromFile (fun t => if t = ['0'] then some 0 else none) (written (fun _ => ['0']) [("He".toList, 0, 0, 0)]) = .ok [("He".toList, 0, 0, 0)] := by
  have h0 : Word ['0'] := ⟨by simp, by decide⟩
  exact geometry_roundtrip _ _ _ (by simp only [List.mem_singleton, forall_eq]; exact ⟨by decide, by decide⟩)
    (by simp only [List.mem_singleton, forall_eq]; exact ⟨⟨h0, if_pos rfl⟩, ⟨h0, if_pos rfl⟩, ⟨h0, if_pos rfl⟩⟩)

end ZQ.Geometry
