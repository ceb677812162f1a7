import Verif.Model.OpFiles
import Verif.Props.OpString
import Verif.Props.OpSerde

/-! C96: operators in files. -/

namespace ZQ.OpFiles

open ZQ ZQ.Op ZQ.OpStr

/-! ## Names of files -/

theorem full_iff (s : Text) : s.drop (s.length - 5) ≠ suffix ↔ ¬ suffix <:+ s := by
  rw [List.suffix_iff_eq_drop, eq_comm]
  exact Iff.rfl

/-- C96: a file name is needed. -/
theorem getFilePath_error_iff (w : World) (name dir : Option Text) :
    (∃ e, getFilePath w name dir = .error e) ↔ name = none ∨ name = some [] := by
  match name with
  | none => simp [getFilePath]
  | some [] => simp [getFilePath]
  | some (c :: cs) => cases dir <;> simp [getFilePath]

open Classical in
theorem getFilePath_eq (w : World) {s : Text} (hs : s ≠ []) (dir : Option Text) :
    getFilePath w (some s) dir = .ok (dir.getD w.dataDirectory ++ ['/'] ++ if suffix <:+ s then s else s ++ suffix) := by
  obtain ⟨c, cs, rfl⟩ := List.exists_cons_of_ne_nil hs
  unfold getFilePath
  dsimp only
  have h := full_iff (c :: cs)
  by_cases h1 : suffix <:+ (c :: cs)
  · rw [if_pos h1, if_neg (fun h2 => (h.1 h2) h1)]
    cases dir <;> rfl
  · rw [if_neg h1, if_pos (h.2 h1)]
    cases dir <;> rfl

/-- C96: two names in one directory mean the same file exactly when they are equal, or one of them is the other one without `.data`. -/
theorem same_file_iff (w : World) (dir : Option Text) {a b : Text} (ha : a ≠ []) (hb : b ≠ []) :
    getFilePath w (some a) dir = getFilePath w (some b) dir ↔
      a = b ∨ (¬ suffix <:+ a ∧ a ++ suffix = b) ∨ (¬ suffix <:+ b ∧ b ++ suffix = a) := by
  rw [getFilePath_eq w ha, getFilePath_eq w hb]
  constructor
  · intro h
    have h := List.append_cancel_left (Except.ok.inj h)
    by_cases h1 : suffix <:+ a <;> by_cases h2 : suffix <:+ b
    · rw [if_pos h1, if_pos h2] at h; exact .inl h
    · rw [if_pos h1, if_neg h2] at h; exact .inr (.inr ⟨h2, h.symm⟩)
    · rw [if_neg h1, if_pos h2] at h; exact .inr (.inl ⟨h1, h⟩)
    · rw [if_neg h1, if_neg h2] at h; exact .inl (List.append_cancel_right h)
  · rintro (rfl | ⟨h1, rfl⟩ | ⟨h1, rfl⟩)
    · rfl
    · rw [if_neg h1, if_pos (List.suffix_append _ _)]
    · rw [if_neg h1, if_pos (List.suffix_append _ _)]

/-! ## What saving changes -/

theorem write_other (w : World) (fs : FS) (path : Text) (plain : Bool) (kind : Text) (str : Except Err Text) (data : Stored) {p : Text} (hp : p ≠ path) :
    (write w fs path plain kind str data).1 p = fs p := by
  have h : ∀ c, put fs path c p = fs p := fun c => if_neg hp
  unfold write
  split
  · split
    · split
      · exact h _
      · exact h _
    · exact h _
  · rfl

/-- C96: saving changes no file but the one named. -/
theorem save_other (w : World) (fs : FS) (op : Operand) (name dir : Option Text) (overwrite plain : Bool) {p : Text}
    (hp : getFilePath w name dir ≠ .ok p) : (saveOperator w fs op name dir overwrite plain).1 p = fs p := by
  rw [saveOperator]
  cases hg : getFilePath w name dir with
  | error e => rfl
  | ok path =>
    have hne : p ≠ path := fun h => hp (by rw [hg, h])
    dsimp only
    split
    · rfl
    · cases op with
      | interaction => rfl
      | other => rfl
      | fermion o sy => dsimp only; split; rfl; exact write_other w fs path plain _ _ _ hne
      | qubit o sy => dsimp only; split; rfl; exact write_other w fs path plain _ _ _ hne

/-- C96: an existing file is not overwritten unless this is asked for: an exception is raised and no file changes. -/
theorem save_protected (w : World) (fs : FS) (op : Operand) (name dir : Option Text) (plain : Bool) {p : Text} {c : Content}
    (hp : getFilePath w name dir = .ok p) (hc : fs p = some c) :
    saveOperator w fs op name dir false plain = (fs, some .operatorUtils) := by
  rw [saveOperator, hp]
  dsimp only
  rw [if_pos ⟨by rw [hc]; rfl, rfl⟩]

/-- An operator as the classes keep it. -/
def Good (w : World) : Operand → Prop
  | .fermion o _ => WF o ∧ ∀ kv ∈ o, 1 / 10 ^ 8 ≤ ‖kv.2‖ → Prints w.numbers kv.2 ∧ ':' ∉ w.numbers.print kv.2
  | .qubit o _ => CanonicalOp o ∧ ∀ kv ∈ o, 1 / 10 ^ 8 ≤ ‖kv.2‖ → Prints w.numbers kv.2 ∧ ':' ∉ w.numbers.print kv.2
  | _ => True

/-- The operators that can be saved: fermion and qubit operators with numerical coefficients. -/
def Numerical : Operand → Prop
  | .fermion _ sympy => sympy = false
  | .qubit _ sympy => sympy = false
  | _ => False

section text

variable {A : Type} [DecidableEq A]

theorem printFactor_colon {st : Style A} (ht : ∀ e ∈ st.table, ':' ∉ e.1) {f : ℕ × A} {s : Text} (h : printFactor st f = .ok s) : ':' ∉ s := by
  rw [printFactor] at h
  have hd : ':' ∉ Nat.toDigits 10 f.1 := fun hm => by
    have := Nat.isDigit_of_mem_toDigits (by decide) (by decide) hm
    simp at this
  cases hf : st.table.find? fun e => e.2 = f.2 with
  | none => rw [hf] at h; cases h
  | some e =>
    rw [hf] at h
    have he := ht e (List.mem_of_find?_eq_some hf)
    obtain rfl := Except.ok.inj h
    split <;> simp [he, hd]

theorem mapM_ok_all {α β : Type} {f : α → Except Err β} {P : β → Prop} {l : List α} (hl : ∀ a ∈ l, ∀ b, f a = .ok b → P b) {bs : List β}
    (h : l.mapM f = .ok bs) : ∀ b ∈ bs, P b := by
  induction l generalizing bs with
  | nil => cases h; simp
  | cons a l ih =>
    rw [List.mapM_cons] at h
    cases ha : f a with
    | error e => rw [ha] at h; cases h
    | ok b =>
      rw [ha] at h
      cases hm : l.mapM f with
      | error e => rw [hm] at h; cases h
      | ok cs =>
        rw [hm] at h
        obtain rfl := Except.ok.inj h
        intro x hx
        rcases List.mem_cons.1 hx with rfl | hx
        · exact hl a (by simp) _ ha
        · exact ih (fun a' ha' => hl a' (by simp [ha'])) hm x hx

theorem rdrop_subset {α : Type} (l : List α) (n : ℕ) : l.rdrop n ⊆ l := by
  rw [List.rdrop_eq_reverse_drop_reverse]
  intro x hx
  rw [List.mem_reverse] at hx
  exact List.mem_reverse.1 (List.mem_of_mem_drop hx)

theorem strip_subset (s : Text) : strip s ⊆ s := by
  intro c hc
  rw [strip] at hc
  exact (List.dropWhile_suffix _).subset ((List.rdropWhile_prefix _ _).subset hc)

theorem printTerm_colon {st : Style A} (ht : ∀ e ∈ st.table, ':' ∉ e.1) {N : Numbers} {kv : Term A × ℂ} (hp : ':' ∉ N.print kv.2) {s : Text}
    (h : printTerm st N kv = .ok s) : ':' ∉ s := by
  rw [printTerm] at h
  cases hm : kv.1.mapM (printFactor st) with
  | error e => rw [hm] at h; cases h
  | ok fs =>
    rw [hm] at h
    obtain rfl := Except.ok.inj h
    intro hc
    rcases List.mem_append.1 hc with hc | hc
    · have := strip_subset _ hc
      rcases List.mem_append.1 this with h1 | h1
      · rcases List.mem_append.1 h1 with h2 | h2
        · exact hp h2
        · simp at h2
      · obtain ⟨t, h2, h3⟩ := List.mem_flatten.1 h1
        exact mapM_ok_all (P := fun t => ':' ∉ t) (fun a _ b hb => printFactor_colon ht hb) hm t h2 h3
    · simp at hc

/-- The text of an operator contains no colon. -/
theorem toText_colon {st : Style A} (ht : ∀ e ∈ st.table, ':' ∉ e.1) {N : Numbers} {le : Term A → Term A → Bool} {o : Terms A}
    (hp : ∀ kv ∈ o, 1 / 10 ^ 8 ≤ ‖kv.2‖ → ':' ∉ N.print kv.2) {s : Text} (h : toText st N le o = .ok s) : ':' ∉ s := by
  rw [toText] at h
  split at h
  · obtain rfl := Except.ok.inj h; simp
  · cases hm : ((o.insertionSort fun a b => le a.1 b.1).filter fun kv => decide (¬ IsSmall kv.2 eqTol)).mapM (printTerm st N) with
    | error e => rw [hm] at h; cases h
    | ok ts =>
      rw [hm] at h
      obtain rfl := Except.ok.inj h
      intro hc
      obtain ⟨t, h2, h3⟩ := List.mem_flatten.1 (rdrop_subset _ _ hc)
      refine mapM_ok_all (P := fun t => ':' ∉ t) (fun a ha b hb => printTerm_colon ht ?_ hb) hm t h2 h3
      obtain ⟨h4, h5⟩ := List.mem_filter.1 ha
      rw [decide_eq_true_eq, IsSmall, eqTol, not_lt] at h5
      exact hp a ((List.perm_insertionSort _ o).mem_iff.1 h4) h5

theorem mapM_ok_of_all {α β : Type} {f : α → Except Err β} {l : List α} (hl : ∀ a ∈ l, ∃ b, f a = .ok b) : ∃ bs, l.mapM f = .ok bs := by
  induction l with
  | nil => exact ⟨[], rfl⟩
  | cons a l ih =>
    obtain ⟨b, hb⟩ := hl a (by simp)
    obtain ⟨bs, hbs⟩ := ih fun a' ha' => hl a' (by simp [ha'])
    exact ⟨b :: bs, by rw [List.mapM_cons, hb, hbs]; rfl⟩

theorem toText_ok {st : Style A} (N : Numbers) (le : Term A → Term A → Bool) {o : Terms A} (hf : ∀ kv ∈ o, ∀ f ∈ kv.1, ∃ w, FactorText st f w) :
    ∃ s, toText st N le o = .ok s := by
  rw [toText]
  split
  · exact ⟨_, rfl⟩
  · obtain ⟨ts, hts⟩ : ∃ ts, ((o.insertionSort fun a b => le a.1 b.1).filter fun kv => decide (¬ IsSmall kv.2 eqTol)).mapM (printTerm st N) = .ok ts := by
      refine mapM_ok_of_all fun kv hkv => ?_
      have hko := (List.perm_insertionSort _ o).mem_iff.1 (List.mem_filter.1 hkv).1
      obtain ⟨fs, hfs⟩ : ∃ fs, kv.1.mapM (printFactor st) = .ok fs :=
        mapM_ok_of_all fun f hfm => by obtain ⟨w, hw, _⟩ := hf kv hko f hfm; exact ⟨_, hw⟩
      exact ⟨_, by rw [printTerm, hfs]; rfl⟩
    exact ⟨_, by rw [hts]; rfl⟩

end text

theorem fermion_text {w : World} {o : Terms Bool} : ∃ s, toText fermionStyle w.numbers w.leFermion o = .ok s :=
  toText_ok _ _ fun _ _ f _ => fermion_factor f

theorem qubit_text {w : World} {o : Terms Letter} (ho : CanonicalOp o) : ∃ s, toText qubitStyle w.numbers w.leQubit o = .ok s :=
  toText_ok _ _ fun kv hkv f hf => qubit_factor f ((ho.2 kv.1 (List.mem_map_of_mem hkv)).2 f hf)

/-- What ends up in the file. -/
noncomputable def content (w : World) (op : Operand) (plain : Bool) : Content :=
  match op with
  | .fermion o _ =>
    if plain then match toText fermionStyle w.numbers w.leFermion o with
      | .ok s => .text (fermionName ++ [':', '\n'] ++ s)
      | .error _ => .text []
    else .marshal (.fermion o)
  | .qubit o _ =>
    if plain then match toText qubitStyle w.numbers w.leQubit o with
      | .ok s => .text (qubitName ++ [':', '\n'] ++ s)
      | .error _ => .text []
    else .marshal (.qubit o)
  | _ => .text []

theorem write_eq {w : World} (fs : FS) (path : Text) (plain : Bool) (kind : Text) {str : Except Err Text} {s : Text} (hs : str = .ok s) (data : Stored) :
    write w fs path plain kind str data =
      if w.canWrite path then (put fs path (if plain then .text (kind ++ [':', '\n'] ++ s) else .marshal data), none) else (fs, some .os) := by
  subst hs
  unfold write
  cases plain <;> rfl

/-- What `save_operator` does in all cases. -/
theorem save_eq (w : World) (fs : FS) (op : Operand) (hg : Good w op) (name dir : Option Text) (overwrite plain : Bool) :
    (∃ p, getFilePath w name dir = .ok p ∧ (fs p = none ∨ overwrite = true) ∧ Numerical op ∧ w.canWrite p = true ∧
      saveOperator w fs op name dir overwrite plain = (put fs p (content w op plain), none)) ∨
    ((¬ ∃ p, getFilePath w name dir = .ok p ∧ (fs p = none ∨ overwrite = true) ∧ Numerical op ∧ w.canWrite p = true) ∧
      ∃ e, saveOperator w fs op name dir overwrite plain = (fs, some e)) := by
  rw [saveOperator]
  cases hp : getFilePath w name dir with
  | error e => exact .inr ⟨by simp, e, rfl⟩
  | ok path =>
    dsimp only
    by_cases hb : (fs path).isSome ∧ overwrite = false
    · rw [if_pos hb]
      refine .inr ⟨?_, _, rfl⟩
      rintro ⟨p, h1, h2, _⟩
      obtain rfl := Except.ok.inj h1
      rcases h2 with h2 | h2
      · rw [h2] at hb; simp at hb
      · rw [h2] at hb; simp at hb
    · rw [if_neg hb]
      have hb' : fs path = none ∨ overwrite = true := by
        by_contra hn
        push Not at hn
        exact hb ⟨Option.isSome_iff_ne_none.2 hn.1, by simpa using hn.2⟩
      have no : ¬ Numerical op → ¬ ∃ p, (Except.ok path : Except FErr Text) = .ok p ∧ (fs p = none ∨ overwrite = true) ∧ Numerical op ∧ w.canWrite p = true :=
        fun h => by rintro ⟨p, _, _, h3, _⟩; exact h h3
      have no' : w.canWrite path = false → ¬ ∃ p, (Except.ok path : Except FErr Text) = .ok p ∧ (fs p = none ∨ overwrite = true) ∧ Numerical op ∧ w.canWrite p = true :=
        fun h => by
          rintro ⟨p, h1, _, _, h4⟩
          obtain rfl := Except.ok.inj h1
          rw [h] at h4; cases h4
      cases op with
      | interaction => exact .inr ⟨no id, _, rfl⟩
      | other => exact .inr ⟨no id, _, rfl⟩
      | fermion o sy =>
        dsimp only
        cases sy with
        | true => exact .inr ⟨no (by simp [Numerical]), _, rfl⟩
        | false =>
          rw [if_neg (by simp)]
          obtain ⟨s, hs⟩ := fermion_text (w := w) (o := o)
          rw [write_eq fs path plain _ hs]
          by_cases hw : w.canWrite path
          · rw [if_pos hw]
            refine .inl ⟨path, rfl, hb', rfl, hw, ?_⟩
            rw [content, hs]
          · rw [if_neg hw]
            exact .inr ⟨no' (by simpa using hw), _, rfl⟩
      | qubit o sy =>
        dsimp only
        cases sy with
        | true => exact .inr ⟨no (by simp [Numerical]), _, rfl⟩
        | false =>
          rw [if_neg (by simp)]
          obtain ⟨s, hs⟩ := qubit_text (w := w) hg.1
          rw [write_eq fs path plain _ hs]
          by_cases hw : w.canWrite path
          · rw [if_pos hw]
            refine .inl ⟨path, rfl, hb', rfl, hw, ?_⟩
            rw [content, hs]
          · rw [if_neg hw]
            exact .inr ⟨no' (by simpa using hw), _, rfl⟩

/-- C96: an operator is saved exactly when a name is given, the file does not exist or may be overwritten, the operator is a fermion or qubit operator with
numerical coefficients, and the file can be opened. -/
theorem save_succeeds_iff (w : World) (fs : FS) (op : Operand) (hg : Good w op) (name dir : Option Text) (overwrite plain : Bool) :
    (saveOperator w fs op name dir overwrite plain).2 = none ↔
      ∃ p, getFilePath w name dir = .ok p ∧ (fs p = none ∨ overwrite = true) ∧ Numerical op ∧ w.canWrite p = true := by
  rcases save_eq w fs op hg name dir overwrite plain with ⟨p, h1, h2, h3, h4, h5⟩ | ⟨h1, e, h2⟩
  · rw [h5]; exact ⟨fun _ => ⟨p, h1, h2, h3, h4⟩, fun _ => rfl⟩
  · rw [h2]; exact ⟨fun h => (nomatch h), fun h => absurd h h1⟩

/-- C96: when an exception is raised, no file has changed. -/
theorem save_failed (w : World) (fs : FS) (op : Operand) (hg : Good w op) (name dir : Option Text) (overwrite plain : Bool)
    (h : (saveOperator w fs op name dir overwrite plain).2 ≠ none) : (saveOperator w fs op name dir overwrite plain).1 = fs := by
  rcases save_eq w fs op hg name dir overwrite plain with ⟨p, _, _, _, _, h5⟩ | ⟨_, e, h2⟩
  · rw [h5] at h; exact absurd rfl h
  · rw [h2]

/-! ## Loading what was saved -/

/-- The loaded operator is of the same class and has the same coefficients, without those below `1e-8`. -/
def SameOperator : Operand → Loaded → Prop
  | .fermion o _, .fermion o' => WF o' ∧ ∀ u, coeff o' u = if ‖coeff o u‖ < 1 / 10 ^ 8 then 0 else coeff o u
  | .qubit o _, .qubit o' => WF o' ∧ ∀ u, coeff o' u = if ‖coeff o u‖ < 1 / 10 ^ 8 then 0 else coeff o u
  | _, _ => False

/-- Some coefficient is not small. -/
def NotSmall : Operand → Prop
  | .fermion o _ => ∃ kv ∈ o, 1 / 10 ^ 8 ≤ ‖kv.2‖
  | .qubit o _ => ∃ kv ∈ o, 1 / 10 ^ 8 ≤ ‖kv.2‖
  | _ => False

theorem splitMark_none : ∀ (s : Text), ':' ∉ s → splitMark s = [s]
  | [], _ => rfl
  | [c], _ => rfl
  | c :: d :: s, h => by
    rw [splitMark, if_neg (fun hc => h (by simp [hc.1])), splitMark_none (d :: s) fun hc => h (by simp [hc])]

theorem splitMark_append : ∀ (k s : Text), ':' ∉ k → ':' ∉ s → splitMark (k ++ [':', '\n'] ++ s) = [k, s]
  | [], s, _, hs => by
    show splitMark (':' :: '\n' :: s) = _
    rw [splitMark, if_pos ⟨rfl, rfl⟩, splitMark_none s hs]
  | [c], s, hk, hs => by
    show splitMark (c :: ':' :: ('\n' :: s)) = _
    have hc : c ≠ ':' := fun h => hk (by simp [h])
    rw [splitMark, if_neg (fun h => hc h.1)]
    have := splitMark_append [] s (by simp) hs
    simp only [List.nil_append, List.cons_append] at this
    rw [this]
  | c :: d :: k, s, hk, hs => by
    show splitMark (c :: d :: (k ++ [':', '\n'] ++ s)) = _
    have hc : c ≠ ':' := fun h => hk (by simp [h])
    rw [splitMark, if_neg (fun h => hc h.1)]
    have := splitMark_append (d :: k) s (fun h => hk (by simp [List.mem_cons.1 h])) hs
    simp only [List.cons_append] at this ⊢
    rw [this]

theorem coeff_filter {A : Type} [DecidableEq A] {o : Terms A} (hw : WF o) (u : Term A) :
    coeff (o.filter fun kv => decide (¬ IsSmall kv.2 eqTol)) u = if ‖coeff o u‖ < 1 / 10 ^ 8 then 0 else coeff o u := by
  have hwk : WF (o.filter fun kv => decide (¬ IsSmall kv.2 eqTol)) := hw.sublist (List.Sublist.map _ List.filter_sublist)
  by_cases hu : u ∈ PyDict.keys o
  · obtain ⟨kv, hkv, rfl⟩ := List.mem_map.1 hu
    rw [coeff_of_mem hw hkv]
    by_cases hs : ‖kv.2‖ < 1 / 10 ^ 8
    · rw [if_pos hs]
      refine coeff_of_not_mem fun hm => ?_
      obtain ⟨kv', h1, h2⟩ := List.mem_map.1 hm
      obtain ⟨h3, h4⟩ := List.mem_filter.1 h1
      have : kv'.2 = kv.2 := by rw [← coeff_of_mem hw h3, ← coeff_of_mem hw hkv, h2]
      rw [decide_eq_true_eq, IsSmall, this] at h4
      exact h4 hs
    · rw [if_neg hs]
      exact coeff_of_mem hwk (List.mem_filter.2 ⟨hkv, decide_eq_true hs⟩)
  · rw [coeff_of_not_mem hu, norm_zero, if_pos (by positivity)]
    refine coeff_of_not_mem fun hm => hu ?_
    obtain ⟨kv', h1, h2⟩ := List.mem_map.1 hm
    exact List.mem_map.2 ⟨kv', (List.mem_filter.1 h1).1, h2⟩

theorem rebuild_spec {A : Type} [DecidableEq A] (S : OpClass A) {o : Terms A} (hw : WF o) (hfix : ∀ kv ∈ o, S.simplify kv.1 kv.2 = (kv.2, kv.1)) :
    rebuild S o = o.filter fun kv => decide (¬ IsSmall kv.2 eqTol) := by
  have := accumulate_singletons S [] o hw hfix
  rw [List.nil_append, getOperators, List.foldl_map] at this
  exact this

theorem wf_filter {A : Type} [DecidableEq A] {o : Terms A} (hw : WF o) (p : Term A × ℂ → Bool) : WF (o.filter p) :=
  hw.sublist (List.Sublist.map _ List.filter_sublist)

theorem loadOperator_eq {w : World} {fs : FS} {name dir : Option Text} {plain : Bool} {p : Text} (hp : getFilePath w name dir = .ok p) :
    loadOperator w fs name dir plain = loadContent w plain (fs p) := by
  rw [loadOperator, hp]
  rfl

theorem load_content (w : World) (op : Operand) (hg : Good w op) (hn : Numerical op) (plain : Bool) (hp : plain = true → NotSmall op) {fs : FS} {p : Text}
    {name dir : Option Text} (hpath : getFilePath w name dir = .ok p) (hfs : fs p = some (content w op plain)) :
    ∃ l, loadOperator w fs name dir plain = .ok l ∧ SameOperator op l := by
  rw [loadOperator_eq hpath, hfs]
  cases op with
  | interaction => exact absurd hn id
  | other => exact absurd hn id
  | fermion o sy =>
    cases plain with
    | false =>
      refine ⟨.fermion (rebuild fermion o), rfl, ?_⟩
      show WF _ ∧ _
      rw [rebuild_spec fermion hg.1 fun _ _ => rfl]
      exact ⟨wf_filter hg.1 _, coeff_filter hg.1⟩
    | true =>
      obtain ⟨s, o', h1, h2, h3, h4⟩ := fermion_roundtrip_partial w.numbers w.leFermion o hg.1 (fun kv hkv hb => (hg.2 kv hkv hb).1) (hp rfl)
      have hcol : ':' ∉ s := toText_colon (by decide) (fun kv hkv hb => (hg.2 kv hkv hb).2) h1
      refine ⟨.fermion o', ?_, h3, h4⟩
      rw [content, if_pos rfl, h1]
      show loadText w _ = _
      rw [loadText, splitMark_append _ s (by decide) hcol]
      dsimp only
      rw [if_pos rfl, h2]
      rfl
  | qubit o sy =>
    cases plain with
    | false =>
      refine ⟨.qubit (rebuild qubit o), rfl, ?_⟩
      show WF _ ∧ _
      rw [rebuild_spec qubit hg.1.1 fun kv hkv => qubitSimplify_of_canonical (hg.1.2 kv.1 (List.mem_map_of_mem hkv)) _]
      exact ⟨wf_filter hg.1.1 _, coeff_filter hg.1.1⟩
    | true =>
      obtain ⟨s, o', h1, h2, h3, h4⟩ := qubit_roundtrip_partial w.numbers w.leQubit o hg.1 (fun kv hkv hb => (hg.2 kv hkv hb).1) (hp rfl)
      have hcol : ':' ∉ s := toText_colon (by decide) (fun kv hkv hb => (hg.2 kv hkv hb).2) h1
      refine ⟨.qubit o', ?_, h3, h4⟩
      rw [content, if_pos rfl, h1]
      show loadText w _ = _
      rw [loadText, splitMark_append _ s (by decide) hcol]
      dsimp only
      rw [if_neg (by decide), if_pos rfl, h2]
      rfl

theorem run_append (w : World) (fs : FS) (a b : List Request) : run w fs (a ++ b) = run w (run w fs a) b := List.foldl_append ..

/-- The request succeeds when the files are `fs`. -/
def Succeeds (w : World) (fs : FS) (r : Request) : Prop := (saveOperator w fs r.op r.name r.dir r.overwrite r.plain).2 = none

theorem content_kept (w : World) (p : Text) : ∀ (post : List Request) (fs : FS), (∀ r ∈ post, Good w r.op) →
    (∀ a r b, post = a ++ r :: b → getFilePath w r.name r.dir = .ok p → ¬ Succeeds w (run w fs a) r) → run w fs post p = fs p
  | [], fs, _, _ => rfl
  | r :: post, fs, hg, hf => by
    show run w (step w fs r) post p = fs p
    have h1 : step w fs r p = fs p := by
      by_cases hp : getFilePath w r.name r.dir = .ok p
      · have := hf [] r post rfl hp
        exact congrFun (save_failed w fs r.op (hg r (by simp)) r.name r.dir r.overwrite r.plain this) p
      · exact save_other w fs r.op r.name r.dir r.overwrite r.plain hp
    rw [content_kept w p post (step w fs r) (fun x hx => hg x (by simp [hx])) fun a x b hab hx => hf (r :: a) x b (by rw [hab]; rfl) hx, h1]

/-- C96, the main statement: whatever was saved before and after, and wherever, loading a file gives the operator of the last call that saved to this
file. The operator has its class and its coefficients; only coefficients below `1e-8` are gone. The missing part: plain text does not keep the zero operator
and operators all of whose terms are small (counterexamples below). -/
theorem load_last_partial (w : World) (fs : FS) (pre post : List Request) (r : Request) (hg : ∀ x ∈ pre ++ r :: post, Good w x.op)
    (hr : Succeeds w (run w fs pre) r)
    (hlast : ∀ a x b, post = a ++ x :: b → getFilePath w x.name x.dir = getFilePath w r.name r.dir → ¬ Succeeds w (run w fs (pre ++ r :: a)) x)
    (hn : r.plain = true → NotSmall r.op) {name dir : Option Text} (hname : getFilePath w name dir = getFilePath w r.name r.dir) :
    ∃ l, loadOperator w (run w fs (pre ++ r :: post)) name dir r.plain = .ok l ∧ SameOperator r.op l := by
  have hgr := hg r (by simp)
  rcases save_eq w (run w fs pre) r.op hgr r.name r.dir r.overwrite r.plain with ⟨p, h1, h2, h3, h4, h5⟩ | ⟨_, e, h2⟩
  · have hrun : ∀ a, run w fs (pre ++ r :: a) = run w (step w (run w fs pre) r) a := fun a => by rw [run_append]; rfl
    have hp : run w fs (pre ++ r :: post) p = some (content w r.op r.plain) := by
      rw [hrun, content_kept w p post _ (fun x hx => hg x (by simp [hx])) fun a x b hab hx => by
        rw [← hrun]; exact hlast a x b hab (by rw [hx, h1])]
      rw [step, h5]
      exact if_pos rfl
    exact load_content w r.op hgr h3 r.plain hn (by rw [hname, h1]) hp
  · rw [Succeeds, h2] at hr; cases hr

/-- C96: a saved operator is safe: no later calls without `allow_overwrite` can change what is loaded. -/
theorem load_protected_partial (w : World) (fs : FS) (pre post : List Request) (r : Request) (hg : ∀ x ∈ pre ++ r :: post, Good w x.op)
    (hr : Succeeds w (run w fs pre) r) (hpost : ∀ x ∈ post, x.overwrite = false) (hn : r.plain = true → NotSmall r.op) :
    ∃ l, loadOperator w (run w fs (pre ++ r :: post)) r.name r.dir r.plain = .ok l ∧ SameOperator r.op l := by
  refine load_last_partial w fs pre post r hg hr ?_ hn rfl
  have hgr := hg r (by simp)
  obtain ⟨p, h1, _⟩ := (save_succeeds_iff w _ r.op hgr r.name r.dir r.overwrite r.plain).1 hr
  have hex : ∀ a : List Request, (∀ x ∈ a, Good w x.op) → (∀ x ∈ a, x.overwrite = false) → (run w fs (pre ++ r :: a) p).isSome := by
    intro a
    induction a using List.reverseRecOn with
    | nil =>
      intro _ _
      rw [run_append]
      rcases save_eq w (run w fs pre) r.op hgr r.name r.dir r.overwrite r.plain with ⟨q, k1, _, _, _, k5⟩ | ⟨_, e, k2⟩
      · rw [h1] at k1
        obtain rfl := Except.ok.inj k1
        show (step w (run w fs pre) r p).isSome
        rw [step, k5]
        simp [put]
      · rw [Succeeds, k2] at hr; cases hr
    | append_singleton a x ih =>
      intro hga hov
      have h := ih (fun y hy => hga y (by simp [hy])) fun y hy => hov y (by simp [hy])
      have : run w fs (pre ++ r :: (a ++ [x])) = step w (run w fs (pre ++ r :: a)) x := by
        rw [← List.cons_append, ← List.append_assoc, run_append]; rfl
      rw [this, step]
      by_cases hp : getFilePath w x.name x.dir = .ok p
      · obtain ⟨c, hc⟩ := Option.isSome_iff_exists.1 h
        rw [hov x (by simp), save_protected w _ x.op x.name x.dir x.plain hp hc]
        exact h
      · rw [save_other w _ x.op x.name x.dir x.overwrite x.plain hp]; exact h
  intro a x b hab hx hs
  have hxm : x ∈ post := by rw [hab]; simp
  have := hex a (fun y hy => hg y (by rw [hab]; simp [hy])) fun y hy => hpost y (by rw [hab]; simp [hy])
  obtain ⟨c, hc⟩ := Option.isSome_iff_exists.1 this
  rw [Succeeds, hpost x hxm, save_protected w _ x.op x.name x.dir x.plain (hx.trans h1) hc] at hs
  cases hs

/-- C96, the negation for plain text: the zero fermion operator is loaded as an annihilation operator, the zero qubit operator cannot be loaded. -/
theorem zero_counterexample (w : World) (fs : FS) (name dir : Option Text) (p : Text) (hp : getFilePath w name dir = .ok p) (hw : w.canWrite p = true) :
    (Succeeds w fs ⟨.fermion [] false, name, dir, true, true⟩ ∧
      loadOperator w (step w fs ⟨.fermion [] false, name, dir, true, true⟩) name dir true = .ok (.fermion [([(0, false)], 1)])) ∧
    Succeeds w fs ⟨.qubit [] false, name, dir, true, true⟩ ∧
      loadOperator w (step w fs ⟨.qubit [] false, name, dir, true, true⟩) name dir true = .error .valueError := by
  have hF := fermion_zero_counterexample w.numbers w.leFermion
  have hQ := qubit_zero_counterexample w.numbers w.leQubit
  have sF : saveOperator w fs (.fermion [] false) name dir true true = (put fs p (.text (fermionName ++ [':', '\n'] ++ ['0'])), none) := by
    rw [saveOperator, hp]
    dsimp only
    rw [if_neg (by simp), if_neg (by simp), write_eq fs p true _ hF.1, if_pos hw, if_pos rfl]
  have sQ : saveOperator w fs (.qubit [] false) name dir true true = (put fs p (.text (qubitName ++ [':', '\n'] ++ ['0'])), none) := by
    rw [saveOperator, hp]
    dsimp only
    rw [if_neg (by simp), if_neg (by simp), write_eq fs p true _ hQ.1, if_pos hw, if_pos rfl]
  refine ⟨⟨by rw [Succeeds, sF], ?_⟩, by rw [Succeeds, sQ], ?_⟩
  · rw [step, sF, loadOperator_eq hp]
    dsimp only
    rw [put, if_pos rfl, loadContent, if_pos rfl, loadText, splitMark_append _ _ (by decide) (by decide)]
    dsimp only
    rw [if_pos rfl, hF.2]
    rfl
  · rw [step, sQ, loadOperator_eq hp]
    dsimp only
    rw [put, if_pos rfl, loadContent, if_pos rfl, loadText, splitMark_append _ _ (by decide) (by decide)]
    dsimp only
    rw [if_neg (by decide), if_pos rfl, hQ.2]
    rfl

/-- C96: loading in the other format than the one saved raises an exception, it never gives an operator. -/
theorem load_wrong_format (w : World) (fs : FS) (op : Operand) (hg : Good w op) (name dir : Option Text) (overwrite plain : Bool)
    (hs : Succeeds w fs ⟨op, name, dir, overwrite, plain⟩) :
    ∃ e, loadOperator w (step w fs ⟨op, name, dir, overwrite, plain⟩) name dir (!plain) = .error e := by
  rcases save_eq w fs op hg name dir overwrite plain with ⟨p, h1, _, h3, _, h5⟩ | ⟨_, e, h2⟩
  · rw [step]
    dsimp only
    rw [h5, loadOperator_eq h1]
    dsimp only
    rw [put, if_pos rfl]
    cases op with
    | interaction => exact absurd h3 id
    | other => exact absurd h3 id
    | fermion o sy =>
      cases plain with
      | false => exact ⟨_, rfl⟩
      | true =>
        obtain ⟨s, hs⟩ := fermion_text (w := w) (o := o)
        rw [content, if_pos rfl, hs]; exact ⟨_, rfl⟩
    | qubit o sy =>
      cases plain with
      | false => exact ⟨_, rfl⟩
      | true =>
        obtain ⟨s, hs⟩ := qubit_text (w := w) hg.1
        rw [content, if_pos rfl, hs]; exact ⟨_, rfl⟩
  · rw [Succeeds, h2] at hs; cases hs

/-- The hypotheses are met: an operator is saved as text under `h`, an attempt to overwrite it and a save to `g` follow, and `h.data` is loaded. -/
example (w : World) (hw : w.canWrite = fun _ => true) (hn : w.numbers = sampleNumbers) :
    let X : Operand := .qubit [([(0, .X)], 2)] false
    let Y : Operand := .qubit [([(1, .Y)], 2)] false
    ∃ l, loadOperator w (run w (fun _ => none) ([] ++ ⟨X, some ['h'], none, false, true⟩ :: [⟨Y, some ['h'], none, false, true⟩, ⟨Y, some ['g'], none, false, false⟩]))
      (some ['h']) none true = .ok l ∧ SameOperator X l := by
  intro X Y
  have hc : ∀ (i : ℕ) (l : Letter), l ≠ .I → CanonicalOp [([(i, l)], 2)] := fun i l hl => ⟨wf_single _ _, by
    intro t ht
    obtain rfl : t = [(i, l)] := by simpa [PyDict.keys] using ht
    exact ⟨by simp, by simpa using hl⟩⟩
  have hp : Prints w.numbers 2 ∧ ':' ∉ w.numbers.print 2 := by
    rw [hn]
    exact ⟨sample_prints.1, by simp [sampleNumbers]⟩
  have hX : Good w X := ⟨hc 0 .X (by decide), fun kv hkv _ => by obtain rfl := List.mem_singleton.1 hkv; exact hp⟩
  have hY : Good w Y := ⟨hc 1 .Y (by decide), fun kv hkv _ => by obtain rfl := List.mem_singleton.1 hkv; exact hp⟩
  have hpath : getFilePath w (some ['h']) none = .ok (w.dataDirectory ++ ['/'] ++ (['h'] ++ suffix)) := by
    rw [getFilePath_eq w (by simp), if_neg (by decide)]
    rfl
  exact load_protected_partial w (fun _ => none) [] [⟨Y, some ['h'], none, false, true⟩, ⟨Y, some ['g'], none, false, false⟩]
    ⟨X, some ['h'], none, false, true⟩ (by
      intro x hx
      simp only [List.nil_append, List.mem_cons, List.not_mem_nil, or_false] at hx
      rcases hx with rfl | rfl | rfl
      · exact hX
      · exact hY
      · exact hY)
    ((save_succeeds_iff w _ X hX _ _ _ _).2 ⟨_, hpath, .inl rfl, rfl, by rw [hw]⟩) (by simp)
    fun _ => ⟨_, List.mem_singleton.2 rfl, by norm_num⟩

/-- C96: a missing file and marshalled data of an unknown type raise; an operator is read from nothing else. -/
theorem load_unreadable (w : World) (fs : FS) {name dir : Option Text} {p : Text} (hp : getFilePath w name dir = .ok p) :
    (fs p = none → ∀ plain, loadOperator w fs name dir plain = .error .os) ∧
      (fs p = some (.marshal .unknown) → loadOperator w fs name dir false = .error .typeError) := by
  constructor
  · intro h plain
    rw [loadOperator_eq hp, h]; rfl
  · intro h
    rw [loadOperator_eq hp, h]; rfl

end ZQ.OpFiles
