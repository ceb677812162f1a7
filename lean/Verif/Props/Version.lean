import Verif.Model.Version

/-! C139: the next version. -/

namespace ZQ.Version

/-- A number in decimal digits. -/
def Number (t : Text) : Prop := t ≠ [] ∧ ∀ c ∈ t, c.isDigit

/-- Specification: the text begins with two numbers separated by a dot. -/
def Versioned (s : Text) : Prop := ∃ M m rest, Number M ∧ Number m ∧ s = M ++ '.' :: m ++ rest

/-- Specification: the patch number at the beginning of a text, and the rest. -/
def PatchOf (s : Text) (patch : Option ℕ) (rest : Text) : Prop :=
  (∃ ds, Number ds ∧ s = '.' :: ds ++ rest ∧ (∀ c t, rest = c :: t → ¬ c.isDigit) ∧ patch = some (int ds)) ∨
  (patch = none ∧ rest = s ∧ ∀ c t, s = '.' :: c :: t → ¬ c.isDigit)

/-- Specification: the label after the numbers, up to the end of the line. -/
def LabelOf (s : Text) (pre : Option Text) : Prop :=
  (∃ x ds rest, (x = '-' ∨ x = '.') ∧ ds ≠ [] ∧ '\n' ∉ ds ∧ (∀ c t, rest = c :: t → c = '\n') ∧ s = x :: ds ++ rest ∧ pre = some ds) ∨
  (pre = none ∧ ∀ x c t, s = x :: c :: t → x = '-' ∨ x = '.' → c = '\n')

/-- Specification: what a printed version says. -/
def Says (s : Text) (v : Semver) : Prop :=
  ∃ M m r₁ r₂, Number M ∧ Number m ∧ s = M ++ '.' :: m ++ r₁ ∧ (∀ c t, r₁ = c :: t → ¬ c.isDigit) ∧ v.major = int M ∧ v.minor = int m ∧
    PatchOf r₁ v.patch r₂ ∧ LabelOf r₂ v.pre

/-! ## The regular expression -/

theorem takeWhile_run {p : Char → Bool} {d r : Text} (hd : ∀ c ∈ d, p c) (hr : ∀ c t, r = c :: t → ¬ p c) : (d ++ r).takeWhile p = d := by
  rw [List.takeWhile_append_of_pos hd]
  cases r with
  | nil => simp
  | cons c t => rw [List.takeWhile_cons_of_neg (hr c t rfl), List.append_nil]

theorem plus_head {p : Char → Bool} {d r : Text} (h0 : d ≠ []) (hd : ∀ c ∈ d, p c) (hr : ∀ c t, r = c :: t → ¬ p c) :
    ∃ extra, (Re.plus p).run (d ++ r) = ([], r) :: extra := by
  rw [Re.run, takeWhile_run hd hr]
  obtain ⟨k, hk⟩ : ∃ k, d.length = k + 1 := ⟨d.length - 1, by have := List.length_pos_iff.2 h0; omega⟩
  rw [hk, List.range_succ, List.reverse_append, List.reverse_singleton, List.singleton_append, List.map_cons]
  refine ⟨_, congrArg₂ _ ?_ rfl⟩
  rw [← hk, List.drop_left]

theorem plus_mem {p : Char → Bool} {s t : Text} {g : List (String × Text)} (h : (g, t) ∈ (Re.plus p).run s) : ∃ d, d ≠ [] ∧ (∀ c ∈ d, p c) ∧ s = d ++ t ∧ g = [] := by
  rw [Re.run, List.mem_map] at h
  obtain ⟨k, hk, he⟩ := h
  rw [List.mem_reverse, List.mem_range] at hk
  obtain ⟨rfl, rfl⟩ := Prod.mk.inj he
  have hpre : s.take (k + 1) = (s.takeWhile p).take (k + 1) := by
    conv_lhs => rw [← List.takeWhile_append_dropWhile (p := p) (l := s)]
    rw [List.take_append_of_le_length (by omega)]
  refine ⟨s.take (k + 1), ?_, fun c hc => ?_, (List.take_append_drop _ _).symm, rfl⟩
  · intro h0
    have := congrArg List.length h0
    rw [hpre, List.length_take, List.length_nil] at this
    omega
  · rw [hpre] at hc
    exact List.mem_takeWhile_imp (List.mem_of_mem_take hc)

/-- The first match of a named run followed by something that matches. -/
theorem named_head {p : Char → Bool} {d r u : Text} (name : String) (b : Re) {g : List (String × Text)} (h0 : d ≠ []) (hd : ∀ c ∈ d, p c) (hr : ∀ c t, r = c :: t → ¬ p c)
    (hb : (b.run r).head? = some (g, u)) : ((Re.seq (.group name (.plus p)) b).run (d ++ r)).head? = some ((name, d) :: g, u) := by
  obtain ⟨extra, he⟩ := plus_head h0 hd hr
  obtain ⟨more, hm⟩ := List.head?_eq_some_iff.1 hb
  rw [Re.run, Re.run, he, List.map_cons, List.flatMap_cons]
  dsimp only
  rw [hm, List.map_cons, List.cons_append, List.head?_cons]
  simp

theorem last_head {p : Char → Bool} {d r : Text} (name : String) (h0 : d ≠ []) (hd : ∀ c ∈ d, p c) (hr : ∀ c t, r = c :: t → ¬ p c) :
    ((Re.group name (.plus p)).run (d ++ r)).head? = some ([(name, d)], r) := by
  obtain ⟨extra, he⟩ := plus_head h0 hd hr
  rw [Re.run, he, List.map_cons, List.head?_cons]
  simp

theorem chr_seq {p : Char → Bool} (c : Char) (hc : p c) (b : Re) (s : Text) : (Re.seq (.chr p) b).run (c :: s) = b.run s := by
  rw [Re.run, Re.run]
  simp [hc]

theorem opt_head (a b : Re) (s : Text) : ((Re.seq (.opt a) b).run s).head? =
    match ((a.run s).flatMap fun x => (b.run x.2).map fun y => (x.1 ++ y.1, y.2)).head? with
    | some x => some x
    | none => (b.run s).head? := by
  rw [Re.run, Re.run, List.flatMap_append, List.head?_append, List.flatMap_singleton]
  have e : (b.run s).map (fun y => (([], s).1 ++ y.1, y.2)) = b.run s := by simp
  rw [e]
  cases ((a.run s).flatMap fun x => (b.run x.2).map fun y => (x.1 ++ y.1, y.2)).head? <;> rfl

/-- The part of the expression for the label. -/
def labelRe : Re := .opt (.seq (.chr fun c => c == '-' || c == '.') (.group "pre" (.plus (· != '\n'))))

theorem label_head {s : Text} {pre : Option Text} (h : LabelOf s pre) : ∃ u, (labelRe.run s).head? = some ((pre.map fun p => ("pre", p)).toList, u) := by
  unfold labelRe
  rcases h with ⟨x, ds, rest, hx, h0, hn, hr, rfl, rfl⟩ | ⟨rfl, h⟩
  · rw [Re.run, List.cons_append, chr_seq x (by rcases hx with rfl | rfl <;> rfl), List.head?_append,
      last_head "pre" h0 (fun c hc => by simpa using fun e : c = '\n' => hn (e ▸ hc)) fun c t e => by simp [hr c t e]]
    exact ⟨rest, rfl⟩
  · refine ⟨s, ?_⟩
    have : (Re.seq (.chr fun c => c == '-' || c == '.') (.group "pre" (.plus (· != '\n')))).run s = [] := by
      rw [Re.run, List.flatMap_eq_nil_iff]
      intro y hy
      rw [List.map_eq_nil_iff]
      cases s with
      | nil => simp [Re.run] at hy
      | cons x t =>
        rw [Re.run] at hy
        split at hy
        · rename_i hx
          rw [List.mem_singleton] at hy
          subst hy
          rw [Re.run, List.map_eq_nil_iff]
          cases t with
          | nil => rfl
          | cons c t =>
            have := h x c t rfl (by simpa using hx)
            subst this
            rfl
        · simp at hy
    rw [Re.run, this]
    rfl

/-- The part of the expression for the patch number and the label. -/
def tailRe : Re := .seq (.opt (.seq (.chr (· == '.')) (.group "patch" (.plus Char.isDigit)))) labelRe

theorem tail_head {s r : Text} {patch : Option ℕ} {pre : Option Text} (hp : PatchOf s patch r) (hl : LabelOf r pre) :
    ∃ g u, (tailRe.run s).head? = some (g, u) ∧ g.lookup "major" = none ∧ g.lookup "minor" = none ∧ (g.lookup "patch").map int = patch ∧ g.lookup "pre" = pre := by
  obtain ⟨u, hu⟩ := label_head hl
  have look : ∀ k, k ≠ "pre" → ((pre.map fun p => ("pre", p)).toList).lookup k = none := by
    intro k hk
    cases pre with
    | none => rfl
    | some p => simp [List.lookup_cons, beq_eq_false_iff_ne.2 hk]
  have look' : ((pre.map fun p => ("pre", p)).toList).lookup "pre" = pre := by
    cases pre <;> simp [List.lookup]
  unfold tailRe
  rcases hp with ⟨ds, ⟨h0, hd⟩, rfl, hr, rfl⟩ | ⟨rfl, rfl, h⟩
  · refine ⟨("patch", ds) :: (pre.map fun p => ("pre", p)).toList, u, ?_, ?_, ?_, ?_, ?_⟩
    · rw [opt_head, List.cons_append, chr_seq '.' rfl]
      have := named_head "patch" labelRe h0 hd hr hu
      rw [Re.run] at this
      rw [this]
    · rw [List.lookup_cons]; simpa using look "major" (by decide)
    · rw [List.lookup_cons]; simpa using look "minor" (by decide)
    · simp
    · rw [List.lookup_cons]; simpa using look'
  · refine ⟨_, u, ?_, look _ (by decide), look _ (by decide), ?_, look'⟩
    · rw [opt_head, ← hu]
      have : (Re.seq (.chr (· == '.')) (.group "patch" (.plus Char.isDigit))).run r = [] := by
        rw [List.eq_nil_iff_forall_not_mem]
        intro y hy
        cases r with
        | nil => simp [Re.run] at hy
        | cons x t =>
          by_cases hx : x = '.'
          · subst hx
            rw [chr_seq '.' rfl, Re.run, List.mem_map] at hy
            obtain ⟨z, hz, -⟩ := hy
            obtain ⟨d, h0, hd, he, -⟩ := plus_mem (g := z.1) (t := z.2) hz
            cases d with
            | nil => exact h0 rfl
            | cons c d => exact h c _ (by rw [he]; rfl) (hd c (by simp))
          · simp [Re.run, hx] at hy
      rw [this]
      rfl
    · rw [look _ (by decide)]; rfl

theorem says_parse {s : Text} {v : Semver} (h : Says s v) : parseVersionStr s = .ok v := by
  obtain ⟨M, m, r₁, r₂, ⟨hM, hM'⟩, ⟨hm, hm'⟩, rfl, hr, e1, e2, hp, hl⟩ := h
  obtain ⟨g, u, hg, g1, g2, g3, g4⟩ := tail_head hp hl
  have h2 := named_head "minor" tailRe hm hm' hr hg
  have h1 := named_head (r := '.' :: (m ++ r₁)) "major" (.seq (.chr (· == '.')) (.seq (.group "minor" (.plus Char.isDigit)) tailRe)) hM hM'
    (fun c t e => by cases e; decide) (by rw [chr_seq '.' rfl]; exact h2)
  have hm : semverRegex.matchGroups (M ++ '.' :: m ++ r₁) = some (("major", M) :: ("minor", m) :: g) := by
    unfold Re.matchGroups semverRegex
    rw [List.append_assoc, List.cons_append]
    exact congrArg (Option.map (·.1)) h1
  have l1 : (("major", M) :: ("minor", m) :: g).lookup "major" = some M := by simp
  have l2 : (("major", M) :: ("minor", m) :: g).lookup "minor" = some m := by simp [List.lookup_cons]
  have l3 : (("major", M) :: ("minor", m) :: g).lookup "patch" = g.lookup "patch" := by simp [List.lookup_cons]
  have l4 : (("major", M) :: ("minor", m) :: g).lookup "pre" = g.lookup "pre" := by simp [List.lookup_cons]
  unfold parseVersionStr
  rw [hm]
  dsimp only
  rw [l1, l2, l3, l4, g3, g4]
  dsimp only
  rw [← e1, ← e2]

theorem not_versioned {s : Text} (h : ¬ Versioned s) : parseVersionStr s = .error .valueError := by
  have : semverRegex.run s = [] := by
    rw [List.eq_nil_iff_forall_not_mem]
    intro y hy
    refine h ?_
    rw [semverRegex, Re.run, List.mem_flatMap] at hy
    obtain ⟨x, hx, hy⟩ := hy
    rw [Re.run, List.mem_map] at hx
    obtain ⟨x', hx', rfl⟩ := hx
    obtain ⟨M, h0, hM, he, -⟩ := plus_mem (g := x'.1) (t := x'.2) hx'
    rw [List.mem_map] at hy
    obtain ⟨z, hz, -⟩ := hy
    dsimp only at hz
    cases hx2 : x'.2 with
    | nil => rw [hx2] at hz; simp [Re.run] at hz
    | cons c t =>
      rw [hx2] at hz he
      by_cases hc : c = '.'
      · subst hc
        rw [chr_seq '.' rfl, Re.run, List.mem_flatMap] at hz
        obtain ⟨w, hw, -⟩ := hz
        rw [Re.run, List.mem_map] at hw
        obtain ⟨w', hw', -⟩ := hw
        obtain ⟨m, m0, hm, he', -⟩ := plus_mem (g := w'.1) (t := w'.2) hw'
        exact ⟨M, m, w'.2, ⟨h0, hM⟩, ⟨m0, hm⟩, by rw [he, he']; simp⟩
      · rw [Re.run, Re.run] at hz
        simp [hc] at hz
  unfold parseVersionStr Re.matchGroups
  rw [this]
  rfl

theorem split_run (p : Char → Bool) (s : Text) : ∃ d r, s = d ++ r ∧ (∀ c ∈ d, p c) ∧ ∀ c t, r = c :: t → ¬ p c := by
  refine ⟨s.takeWhile p, s.dropWhile p, (List.takeWhile_append_dropWhile).symm, fun c hc => List.mem_takeWhile_imp hc, fun c t e => ?_⟩
  have := List.dropWhile_get_zero_not p s (by rw [e]; simp)
  simpa [e] using this

theorem label_exists (s : Text) : ∃ pre, LabelOf s pre := by
  by_cases h : ∃ x c t, s = x :: c :: t ∧ (x = '-' ∨ x = '.') ∧ c ≠ '\n'
  · obtain ⟨x, c, t, rfl, hx, hc⟩ := h
    obtain ⟨d, r, rfl, hd, hr⟩ := split_run (· != '\n') t
    refine ⟨some (c :: d), .inl ⟨x, c :: d, r, hx, by simp, ?_, fun c t e => by simpa using hr c t e, rfl, rfl⟩⟩
    rw [List.mem_cons, not_or]
    exact ⟨hc.symm, fun hn => by simpa using hd _ hn⟩
  · refine ⟨none, .inr ⟨rfl, fun x c t e hx => ?_⟩⟩
    by_contra hc
    exact h ⟨x, c, t, e, hx, hc⟩

theorem patch_exists (s : Text) : ∃ patch r, PatchOf s patch r := by
  by_cases h : ∃ c t, s = '.' :: c :: t ∧ c.isDigit
  · obtain ⟨c, t, rfl, hc⟩ := h
    obtain ⟨d, r, rfl, hd, hr⟩ := split_run Char.isDigit t
    exact ⟨_, r, .inl ⟨c :: d, ⟨by simp, fun x hx => by rcases List.mem_cons.1 hx with rfl | hx; exacts [hc, hd x hx]⟩, rfl, hr, rfl⟩⟩
  · exact ⟨none, s, .inr ⟨rfl, rfl, fun c t e hc => h ⟨c, t, e, hc⟩⟩⟩

theorem versioned_says {s : Text} (h : Versioned s) : ∃ v, Says s v := by
  obtain ⟨M, m, rest, hM, hm, rfl⟩ := h
  obtain ⟨d, r, rfl, hd, hr⟩ := split_run Char.isDigit rest
  obtain ⟨patch, r₂, hp⟩ := patch_exists r
  obtain ⟨pre, hl⟩ := label_exists r₂
  refine ⟨⟨int M, int (m ++ d), patch, pre⟩, M, m ++ d, r, r₂, hM, ⟨by simp [hm.1], fun c hc => ?_⟩, by simp, hr, rfl, rfl, hp, hl⟩
  rcases List.mem_append.1 hc with hc | hc
  exacts [hm.2 c hc, hd c hc]

/-- C139: what is read from a printed version. -/
theorem parse_spec (s : Text) (v : Semver) : parseVersionStr s = .ok v ↔ Says s v := by
  refine ⟨fun h => ?_, says_parse⟩
  by_cases hv : Versioned s
  · obtain ⟨v', hs⟩ := versioned_says hv
    rw [says_parse hs] at h
    cases h
    exact hs
  · rw [not_versioned hv] at h
    cases h

/-- C139: the texts that are refused, and how. -/
theorem parse_error (s : Text) (e : Err) : parseVersionStr s = .error e ↔ e = .valueError ∧ ¬ Versioned s := by
  refine ⟨fun h => ?_, fun ⟨he, h⟩ => by rw [he]; exact not_versioned h⟩
  have hv : ¬ Versioned s := fun hv => by
    obtain ⟨v', hs⟩ := versioned_says hv
    rw [says_parse hs] at h
    cases h
  rw [not_versioned hv] at h
  cases h
  exact ⟨rfl, hv⟩

/-! ## Printing and reading -/

theorem number_digits (n : ℕ) : Number (Nat.toDigits 10 n) := ⟨Nat.toDigits_ne_nil, fun _ hc => Nat.isDigit_of_mem_toDigits (by norm_num) (by norm_num) hc⟩

theorem int_digits (n : ℕ) : int (Nat.toDigits 10 n) = n := Nat.ofDigitChars_ten_toDigits

/-- Specification: a label that survives printing and reading. -/
def Readable (v : Semver) : Prop :=
  ∀ p, v.pre = some p → p ≠ [] ∧ '\n' ∉ p ∧ (v.patch = none → ∀ c t, p = c :: t → ¬ c.isDigit)

theorem printed_says (v : Semver) (hv : Readable v) (line : Text) (hline : ∀ c t, line = c :: t → c = '\n') : Says (v.versionStr ++ line) v := by
  obtain ⟨M, m, patch, pre⟩ := v
  set pt : Text := match pre with
    | some p => if p = [] then [] else '.' :: p
    | none => [] with hpt
  have hdot : ∀ c t, pt ++ line = c :: t → ¬ c.isDigit := by
    intro c t e
    rw [hpt] at e
    cases pre with
    | none => rw [hline c t e]; decide
    | some p =>
      dsimp only at e
      rw [if_neg (hv p rfl).1] at e
      cases e
      decide
  have hlabel : LabelOf (pt ++ line) pre := by
    rw [hpt]
    cases pre with
    | none =>
      refine .inr ⟨rfl, fun x c t e hx => ?_⟩
      rw [hline x _ e] at hx
      exact absurd hx (by decide)
    | some p =>
      obtain ⟨h1, h2, -⟩ := hv p rfl
      dsimp only
      rw [if_neg h1]
      exact .inl ⟨'.', p, line, .inr rfl, h1, h2, hline, by simp, rfl⟩
  have hnl : ∀ c t, line = c :: t → ¬ c.isDigit := fun c t e => by rw [hline c t e]; decide
  cases patch with
  | some q =>
    refine ⟨Nat.toDigits 10 M, Nat.toDigits 10 m, '.' :: (Nat.toDigits 10 q ++ (pt ++ line)), pt ++ line, number_digits _, number_digits _, ?_, ?_, (int_digits _).symm,
      (int_digits _).symm, .inl ⟨_, number_digits q, by simp, hdot, by rw [int_digits]⟩, hlabel⟩
    · rw [hpt]
      unfold Semver.versionStr
      cases pre with
      | none => simp
      | some p => simp [(hv p rfl).1]
    · intro c t e; cases e; decide
  | none =>
    refine ⟨Nat.toDigits 10 M, Nat.toDigits 10 m, pt ++ line, pt ++ line, number_digits _, number_digits _, ?_, hdot, (int_digits _).symm,
      (int_digits _).symm, .inr ⟨rfl, rfl, fun c t e => ?_⟩, hlabel⟩
    · rw [hpt]
      unfold Semver.versionStr
      cases pre with
      | none => simp
      | some p => simp [(hv p rfl).1]
    · rw [hpt] at e
      cases pre with
      | none => rw [show line = '.' :: c :: t from e] at hline; exact absurd (hline '.' _ rfl) (by decide)
      | some p =>
        obtain ⟨h1, h2, h3⟩ := hv p rfl
        dsimp only at e
        rw [if_neg h1] at e
        cases p with
        | nil => exact absurd rfl h1
        | cons x p =>
          simp only [List.cons_append, List.cons.injEq, true_and] at e
          rw [← e.1]
          exact h3 rfl x p rfl

/-- C139: reading a printed version gives the version back exactly if its label is not empty, has no line break and does not begin with a digit right after the minor
number. -/
theorem roundtrip_iff (v : Semver) : parseVersionStr v.versionStr = .ok v ↔ Readable v := by
  refine ⟨fun h p hp => ?_, fun hv => says_parse (by simpa using printed_says v hv [] (by simp))⟩
  obtain ⟨M, m, r₁, r₂, hM, hm, hs, hr, e1, e2, hpatch, hlabel⟩ := (parse_spec _ _).1 h
  have hl : p ≠ [] ∧ '\n' ∉ p := by
    rcases hlabel with ⟨x, ds, rest, -, h0, hn, -, -, he⟩ | ⟨he, -⟩
    · rw [hp] at he; cases he; exact ⟨h0, hn⟩
    · rw [hp] at he; cases he
  refine ⟨hl.1, hl.2, fun hno c t ht hc => ?_⟩
  -- with no patch number the label would be read as one
  obtain ⟨d, r, hdr, hd, hr'⟩ := split_run Char.isDigit p
  have hd0 : d ≠ [] := by
    rintro rfl
    exact hr' c t (by rw [← ht, hdr]; rfl) hc
  obtain ⟨pre, hpre⟩ := label_exists r
  have h' := says_parse (s := v.versionStr) (v := ⟨v.major, v.minor, some (int d), pre⟩)
    ⟨_, _, '.' :: (d ++ r), r, number_digits v.major, number_digits v.minor, by
      unfold Semver.versionStr
      rw [hno, hp]
      simp [hl.1, ← hdr], by intro c t e; cases e; decide, (int_digits _).symm, (int_digits _).symm,
      .inl ⟨d, ⟨hd0, hd⟩, by simp, hr', rfl⟩, hpre⟩
  rw [h] at h'
  have := congrArg (fun x : Except Err Semver => x.map Semver.patch) h'
  simp only [Except.map, hno] at this
  cases this

/-! ## The next version -/

/-- C139: the next version of anything that begins with two numbers has the same major number, the next minor number, the patch number 0 and no label. -/
theorem next_spec (M m rest : Text) (hM : Number M) (hm : Number m) (hr : ∀ c t, rest = c :: t → ¬ c.isDigit) :
    nextVersion (M ++ '.' :: m ++ rest) = .ok (Nat.toDigits 10 (int M) ++ '.' :: Nat.toDigits 10 (int m + 1) ++ ".0".toList) := by
  obtain ⟨patch, r₂, hp⟩ := patch_exists rest
  obtain ⟨pre, hl⟩ := label_exists r₂
  have := says_parse (v := ⟨int M, int m, patch, pre⟩) ⟨M, m, rest, r₂, hM, hm, rfl, hr, rfl, rfl, hp, hl⟩
  unfold nextVersion
  rw [this]
  show Except.ok _ = _
  simp [Semver.bumpMinor, Semver.versionStr, Nat.toDigits, Nat.toDigitsCore]

/-- C139: the script fails with a `ValueError` exactly on texts that do not begin with two numbers separated by a dot. -/
theorem next_error (s : Text) (e : Err) : nextVersion s = .error e ↔ e = .valueError ∧ ¬ Versioned s := by
  rw [← parse_error]
  unfold nextVersion
  cases parseVersionStr s with
  | error e' =>
    show (Except.error e' : Except Err Text) = .error e ↔ _
    simp
  | ok v =>
    show (Except.ok v.bumpMinor.versionStr : Except Err Text) = .error e ↔ _
    simp

/-- Releases in a row: each printed version is followed by the end of the line and read again. -/
def releases (line : Text) : ℕ → Text → Except Err Text
  | 0, s => .ok s
  | k + 1, s => do
    let t ← nextVersion (s ++ line)
    releases line k t

/-- C139: after `k + 1` releases the minor number is `k + 1` higher, whatever the first version was; so versions never repeat. -/
theorem releases_spec (v : Semver) (hv : Readable v) (line : Text) (hline : ∀ c t, line = c :: t → c = '\n') (k : ℕ) :
    releases line (k + 1) v.versionStr = .ok (Semver.versionStr ⟨v.major, v.minor + (k + 1), some 0, none⟩) := by
  induction k generalizing v with
  | zero =>
    rw [releases, nextVersion, says_parse (printed_says v hv line hline)]
    rfl
  | succ k ih =>
    rw [releases, nextVersion, says_parse (printed_says v hv line hline)]
    have := ih v.bumpMinor (fun p hp => by cases hp)
    show releases line (k + 1) v.bumpMinor.versionStr = _
    rw [this, show v.bumpMinor.minor + (k + 1) = v.minor + (k + 1 + 1) by simp [Semver.bumpMinor]; omega]
    rfl

/-- Full statement: reading a printed version gives it back. -/
def RoundTrip : Prop := ∀ v : Semver, parseVersionStr v.versionStr = .ok v

/-- It fails: version 1.2 with the label `5rc` is printed as `1.2.5rc` and read as version 1.2.5 without a label. -/
theorem roundtrip_counterexample : ¬ RoundTrip ∧ parseVersionStr "1.2.5rc".toList = .ok ⟨1, 2, some 5, none⟩ := by
  have h2 : parseVersionStr "1.2.5rc".toList = .ok ⟨1, 2, some 5, none⟩ := by decide +kernel
  refine ⟨fun h => ?_, h2⟩
  have h1 := (roundtrip_iff ⟨1, 2, none, some "5rc".toList⟩).1 (h _) _ rfl
  exact h1.2.2 rfl '5' "rc".toList (by decide) (by decide)

/-- A printed development version with its line end. -/
example : parseVersionStr "0.13.2.dev7+gab12\n".toList = .ok ⟨0, 13, some 2, some "dev7+gab12".toList⟩ ∧ nextVersion "0.13.2.dev7+gab12\n".toList = .ok "0.14.0".toList ∧
    Versioned "0.13.2.dev7+gab12\n".toList ∧ ¬ Versioned "v1.2".toList ∧ Readable ⟨0, 13, some 2, some "dev7+gab12".toList⟩ := by
  refine ⟨by decide +kernel, by decide +kernel, ⟨"0".toList, "13".toList, ".2.dev7+gab12\n".toList, ⟨by decide, by decide⟩, ⟨by decide, by decide⟩, by decide⟩, ?_, ?_⟩
  · intro h
    have := (next_error "v1.2".toList .valueError).1 (by decide +kernel)
    exact this.2 h
  · intro p hp
    cases hp
    exact ⟨by decide, by decide, fun h => by cases h⟩

end ZQ.Version
