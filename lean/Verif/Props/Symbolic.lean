import Verif.Spec.Symbolic
import Verif.Lemmas.ExceptList

/-!
# Translation of symbolic expressions (C55)
-/

namespace ZQ.Symbolic

open ZQ

theorem bind_ok {α β : Type} {x : Except Err α} {f : α → Except Err β} {b : β} : (x >>= f) = .ok b ↔ ∃ a, x = .ok a ∧ f a = .ok b := by
  cases x with
  | error e =>
    constructor
    · intro h; cases h
    · rintro ⟨a, h, _⟩; cases h
  | ok a =>
    constructor
    · intro h; exact ⟨a, rfl, h⟩
    · rintro ⟨a', h, h'⟩; cases h; exact h'

theorem equalsNumber_eval {e : Sym} {r : ℝ} (h : equalsNumber e r = true) (F : String → List ℂ → ℂ) (ρ : String → ℂ) :
    e.eval F ρ = r ∧ e.subterms = [e] := by
  unfold equalsNumber at h
  split at h
  · rw [← of_decide_eq_true h]; simp [Sym.eval, Sym.subterms]
  · rw [← of_decide_eq_true h]; simp [Sym.eval, Sym.subterms]
  · rw [← of_decide_eq_true h]; simp [Sym.eval, Sym.subterms]
  · cases h

theorem mulOf_eval (F : String → List ℂ → ℂ) (ρ : String → ℂ) (rest : List Sym) : (mulOf rest).eval F ρ = (Sym.evalList F ρ rest).prod := by
  unfold mulOf
  split
  · simp [Sym.evalList]
  · rw [Sym.eval]

theorem cpow_neg_one (z : ℂ) : z ^ (((-1 : ℝ)) : ℂ) = 1 / z := by
  rw [show (((-1 : ℝ)) : ℂ) = ((-1 : ℤ) : ℂ) by norm_num, Complex.cpow_intCast]
  simp

theorem subterms_mulOf (rest : List Sym) (x : Sym) (hx : x ∈ (mulOf rest).subterms) : x ∈ (Sym.mul rest).subterms := by
  unfold mulOf at hx
  split at hx
  · rw [Sym.subterms, Sym.subtermsList, Sym.subtermsList]; simp [hx]
  · exact hx

theorem mem_add {args : List Sym} {x : Sym} (h : x ∈ Sym.subtermsList args) : x ∈ (Sym.add args).subterms := by
  rw [Sym.subterms]; exact List.mem_cons_of_mem _ h

theorem mem_mul {args : List Sym} {x : Sym} (h : x ∈ Sym.subtermsList args) : x ∈ (Sym.mul args).subterms := by
  rw [Sym.subterms]; exact List.mem_cons_of_mem _ h

theorem mem_fn {name : String} {args : List Sym} {x : Sym} (h : x ∈ Sym.subtermsList args) : x ∈ (Sym.fn name args).subterms := by
  rw [Sym.subterms]; exact List.mem_cons_of_mem _ h

theorem mem_base {b e x : Sym} (h : x ∈ b.subterms) : x ∈ (Sym.pow b e).subterms := by
  rw [Sym.subterms]; simp [h]

theorem mem_exponent {b e x : Sym} (h : x ∈ e.subterms) : x ∈ (Sym.pow b e).subterms := by
  rw [Sym.subterms]; simp [h]

theorem mem_head {a x : Sym} {as : List Sym} (h : x ∈ a.subterms) : x ∈ Sym.subtermsList (a :: as) := by
  rw [Sym.subtermsList]; simp [h]

theorem mem_tail {a x : Sym} {as : List Sym} (h : x ∈ Sym.subtermsList as) : x ∈ Sym.subtermsList (a :: as) := by
  rw [Sym.subtermsList]; simp [h]

/-- A property of all subexpressions of a product holds of all subexpressions of the product of the remaining factors, if it holds of that product. -/
theorem forall_negate {P : Sym → Prop} {a h : Sym} {rest : List Sym} (hm : P (.mul rest))
    (hu : ∀ x ∈ (Sym.add [a, .mul (h :: rest)]).subterms, P x) : ∀ x ∈ (negateProduct rest).subterms, P x := by
  intro x hx
  have := subterms_mulOf rest x hx
  rw [Sym.subterms] at this
  rcases List.mem_cons.1 this with rfl | h
  · exact hm
  · exact hu x (mem_add (mem_tail (mem_head (mem_mul (mem_tail h)))))

/-- The value of the native expression. -/
theorem fromSympy_value_aux (F : String → List ℂ → ℂ) (ρ : String → ℂ) :
    (∀ e : Sym, (∀ x ∈ e.subterms, Unreserved x) → ∀ n, fromSympy e = .ok n → n.eval F ρ = e.eval F ρ) ∧
    (∀ es : List Sym, (∀ x ∈ Sym.subtermsList es, Unreserved x) → ∀ ns, fromTuple es = .ok ns → Native.evalList F ρ ns = Sym.evalList F ρ es) := by
  apply fromSympy.mutual_induct
  case case1 => intro name _ n hn; rw [fromSympy] at hn; cases hn; rfl
  case case2 => intro name _ n hn; rw [fromSympy] at hn; cases hn; rfl
  case case3 => intro name _ n hn; rw [fromSympy] at hn; cases hn; rfl
  case case4 => intro name _ n hn; rw [fromSympy] at hn; cases hn; rfl
  case case5 => intro _ n hn; rw [fromSympy] at hn; cases hn; rfl
  case case6 => intro name _ n hn; rw [fromSympy] at hn; cases hn; rfl
  case case7 => intro a _ n hn; rw [fromSympy] at hn; cases hn
  case case8 =>
    intro a h rest hneg iha ihb hu n hn
    rw [fromSympy, if_pos hneg] at hn
    obtain ⟨x, hx, hn⟩ := bind_ok.1 hn
    obtain ⟨y, hy, hn⟩ := bind_ok.1 hn
    cases hn
    have e1 := iha (fun z hz => hu z (mem_add (mem_head hz))) x hx
    have e2 := ihb (forall_negate trivial hu) y hy
    rw [negateProduct, mulOf_eval] at e2
    simp only [Native.eval, Native.evalList, meaning, Sym.eval, Sym.evalList]
    rw [e1, e2, List.prod_cons, (equalsNumber_eval hneg F ρ).1]
    simp
    ring
  case case9 =>
    intro a h rest hneg iha ihb hu n hn
    rw [fromSympy, if_neg hneg] at hn
    obtain ⟨x, hx, hn⟩ := bind_ok.1 hn
    obtain ⟨y, hy, hn⟩ := bind_ok.1 hn
    cases hn
    have e1 := iha (fun z hz => hu z (mem_add (mem_head hz))) x hx
    have e2 := ihb (fun z hz => hu z (mem_add (mem_tail (mem_head hz)))) y hy
    simp only [Native.eval, Native.evalList, meaning, if_true]
    rw [Sym.eval, Sym.evalList, Sym.evalList, Sym.evalList, e1, e2]
  case case10 =>
    intro args h1 h2 ih hu n hn
    rw [fromSympy] at hn
    · obtain ⟨x, hx, hn⟩ := bind_ok.1 hn
      cases hn
      simp only [Native.eval, meaning, if_true]
      rw [Sym.eval, ih (fun z hz => hu z (mem_add hz)) x hx]
    · exact h1
    · exact h2
  case case11 =>
    intro a b e hneg iha ihb hu n hn
    rw [fromSympy, if_pos hneg] at hn
    obtain ⟨x, hx, hn⟩ := bind_ok.1 hn
    obtain ⟨y, hy, hn⟩ := bind_ok.1 hn
    cases hn
    have e1 := iha (fun z hz => hu z (mem_mul (mem_head hz))) x hx
    have e2 := ihb (fun z hz => hu z (mem_mul (mem_tail (mem_head (mem_base hz))))) y hy
    simp only [Native.eval, Native.evalList, meaning, Sym.eval, Sym.evalList]
    rw [e1, e2, (equalsNumber_eval hneg F ρ).1, cpow_neg_one]
    simp
    rw [div_eq_mul_inv]
  case case12 =>
    intro a b e hneg iha ihb hu n hn
    rw [fromSympy, if_neg hneg] at hn
    obtain ⟨x, hx, hn⟩ := bind_ok.1 hn
    obtain ⟨y, hy, hn⟩ := bind_ok.1 hn
    cases hn
    have e1 := iha (fun z hz => hu z (mem_mul (mem_head hz))) x hx
    have e2 := ihb (fun z hz => hu z (mem_mul (mem_tail (mem_head hz)))) y hy
    simp only [Native.eval, Native.evalList, meaning, if_true]
    rw [Sym.eval, Sym.evalList, Sym.evalList, Sym.evalList, e1, e2]
    simp
  case case13 =>
    intro args h1 ih hu n hn
    rw [fromSympy] at hn
    · obtain ⟨x, hx, hn⟩ := bind_ok.1 hn
      cases hn
      simp only [Native.eval, meaning, if_true]
      rw [Sym.eval, ih (fun z hz => hu z (mem_mul hz)) x hx]
      simp
    · exact h1
  case case14 =>
    intro b e hneg ih hu n hn
    rw [fromSympy, if_pos hneg] at hn
    obtain ⟨x, hx, hn⟩ := bind_ok.1 hn
    cases hn
    have e1 := ih (fun z hz => hu z (mem_base hz)) x hx
    simp only [Native.eval, Native.evalList, meaning, Sym.eval]
    rw [e1, (equalsNumber_eval hneg F ρ).1, cpow_neg_one]
    simp
  case case15 =>
    intro b e hneg hhalf ih hu n hn
    rw [fromSympy, if_neg hneg, if_pos hhalf] at hn
    obtain ⟨x, hx, hn⟩ := bind_ok.1 hn
    cases hn
    have e1 := ih (fun z hz => hu z (mem_base hz)) x hx
    simp only [Native.eval, Native.evalList, meaning, Sym.eval]
    rw [e1, (equalsNumber_eval hhalf F ρ).1]
    simp
  case case16 =>
    intro b e hneg hhalf ihb ihe hu n hn
    rw [fromSympy, if_neg hneg, if_neg hhalf] at hn
    obtain ⟨x, hx, hn⟩ := bind_ok.1 hn
    obtain ⟨y, hy, hn⟩ := bind_ok.1 hn
    cases hn
    have e1 := ihb (fun z hz => hu z (mem_base hz)) x hx
    have e2 := ihe (fun z hz => hu z (mem_exponent hz)) y hy
    simp only [Native.eval, Native.evalList, meaning, Sym.eval]
    rw [e1, e2]
    simp
  case case17 =>
    intro name args ih hu n hn
    rw [fromSympy] at hn
    obtain ⟨x, hx, hn⟩ := bind_ok.1 hn
    cases hn
    have hr : name ∉ reserved := hu (.fn name args) (by rw [Sym.subterms]; simp)
    simp [reserved] at hr
    rw [Native.eval, Sym.eval, ih (fun z hz => hu z (mem_fn hz)) x hx]
    unfold meaning
    rw [if_neg hr.1, if_neg hr.2.1, if_neg hr.2.2.1, if_neg hr.2.2.2.1, if_neg hr.2.2.2.2.1, if_neg hr.2.2.2.2.2]
  case case18 => intro v _ n hn; rw [fromSympy] at hn; cases hn
  case case19 => intro _ ns hn; rw [fromTuple] at hn; cases hn; rfl
  case case20 =>
    intro a as iha ihs hu ns hn
    rw [fromTuple] at hn
    obtain ⟨x, hx, hn⟩ := bind_ok.1 hn
    obtain ⟨y, hy, hn⟩ := bind_ok.1 hn
    cases hn
    rw [Native.evalList, Sym.evalList, iha (fun z hz => hu z (mem_head hz)) x hx, ihs (fun z hz => hu z (mem_tail hz)) y hy]

/-- The calls the translation makes on its own, with the numbers of their arguments. -/
def FixedCall (name : String) (k : ℕ) : Prop :=
  (name = "add" ∧ 2 ≤ k) ∨ (name = "mul" ∧ 2 ≤ k) ∨ (name = "sub" ∧ k = 2) ∨ (name = "div" ∧ k = 2) ∨ (name = "pow" ∧ k = 2) ∨ (name = "sqrt" ∧ k = 1)

/-- The same symbols occur, and the calls are those of the functions and the fixed ones. -/
structure Match (L : List Sym) (N : List Native) : Prop where
  symbols : ∀ s, Native.sym s ∈ N ↔ Sym.sym s ∈ L
  calls : ∀ name args, Native.call name args ∈ N → FixedCall name args.length ∨ ∃ as, Sym.fn name as ∈ L ∧ as.length = args.length
  functions : ∀ name as, Sym.fn name as ∈ L → ∃ args, Native.call name args ∈ N ∧ args.length = as.length

theorem Match.nil : Match [] [] :=
  ⟨by simp, by simp, by simp⟩

theorem Match.append {L L' : List Sym} {N N' : List Native} (h : Match L N) (h' : Match L' N') : Match (L ++ L') (N ++ N') := by
  refine ⟨fun s => ?_, fun name args hc => ?_, fun name as hf => ?_⟩
  · rw [List.mem_append, List.mem_append, h.symbols, h'.symbols]
  · rcases List.mem_append.1 hc with hc | hc
    · rcases h.calls name args hc with hh | ⟨as, h1, h2⟩
      · exact Or.inl hh
      · exact Or.inr ⟨as, List.mem_append_left _ h1, h2⟩
    · rcases h'.calls name args hc with hh | ⟨as, h1, h2⟩
      · exact Or.inl hh
      · exact Or.inr ⟨as, List.mem_append_right _ h1, h2⟩
  · rcases List.mem_append.1 hf with hf | hf
    · obtain ⟨args, h1, h2⟩ := h.functions name as hf
      exact ⟨args, List.mem_append_left _ h1, h2⟩
    · obtain ⟨args, h1, h2⟩ := h'.functions name as hf
      exact ⟨args, List.mem_append_right _ h1, h2⟩

/-- An expression that is neither a symbol nor a function does not matter. -/
def Irrelevant : Sym → Prop
  | .sym _ => False
  | .fn _ _ => False
  | _ => True

theorem Match.irrelevant {L : List Sym} {N : List Native} (h : Match L N) {e : Sym} (he : Irrelevant e) : Match (e :: L) N := by
  refine ⟨fun s => ?_, fun name args hc => ?_, fun name as hf => ?_⟩
  · rw [h.symbols, List.mem_cons]
    refine ⟨Or.inr, ?_⟩
    rintro (rfl | h)
    · exact he.elim
    · exact h
  · rcases h.calls name args hc with hh | ⟨as, h1, h2⟩
    · exact Or.inl hh
    · exact Or.inr ⟨as, List.mem_cons_of_mem _ h1, h2⟩
  · rcases List.mem_cons.1 hf with rfl | hf
    · exact he.elim
    · exact h.functions name as hf

theorem Match.unirrelevant {L : List Sym} {N : List Native} {e : Sym} (he : Irrelevant e) (h : Match (e :: L) N) : Match L N := by
  refine ⟨fun s => ?_, fun name args hc => ?_, fun name as hf => ?_⟩
  · rw [h.symbols, List.mem_cons]
    refine ⟨?_, Or.inr⟩
    rintro (rfl | h)
    · exact he.elim
    · exact h
  · rcases h.calls name args hc with hh | ⟨as, h1, h2⟩
    · exact Or.inl hh
    · rcases List.mem_cons.1 h1 with rfl | h1
      · exact he.elim
      · exact Or.inr ⟨as, h1, h2⟩
  · exact h.functions name as (List.mem_cons_of_mem _ hf)

theorem Match.fixed {L : List Sym} {N : List Native} (h : Match L N) {name : String} {args : List Native} (hf : FixedCall name args.length) :
    Match L (.call name args :: N) := by
  refine ⟨fun s => ?_, fun nm as hc => ?_, fun nm as hg => ?_⟩
  · rw [← h.symbols, List.mem_cons]; simp
  · rcases List.mem_cons.1 hc with heq | hc
    · injection heq with h1 h2; subst h1 h2; exact Or.inl hf
    · exact h.calls nm as hc
  · obtain ⟨a, h1, h2⟩ := h.functions nm as hg
    exact ⟨a, List.mem_cons_of_mem _ h1, h2⟩

theorem Match.fn {L : List Sym} {N : List Native} (h : Match L N) {name : String} {args : List Native} {as : List Sym} (hl : args.length = as.length) :
    Match (.fn name as :: L) (.call name args :: N) := by
  refine ⟨fun s => ?_, fun nm as' hc => ?_, fun nm as' hg => ?_⟩
  · rw [List.mem_cons, List.mem_cons, h.symbols]; simp
  · rcases List.mem_cons.1 hc with heq | hc
    · injection heq with h1 h2; subst h1 h2; exact Or.inr ⟨as, by simp, hl.symm⟩
    · rcases h.calls nm as' hc with hh | ⟨as, h1, h2⟩
      · exact Or.inl hh
      · exact Or.inr ⟨as, List.mem_cons_of_mem _ h1, h2⟩
  · rcases List.mem_cons.1 hg with heq | hg
    · injection heq with h1 h2; subst h1 h2; exact ⟨args, by simp, hl⟩
    · obtain ⟨a, h1, h2⟩ := h.functions nm as' hg
      exact ⟨a, List.mem_cons_of_mem _ h1, h2⟩

theorem Match.num (c : ℂ) : Match [] [.num c] :=
  ⟨by simp, by simp, by simp⟩

theorem Match.sym (s : String) : Match [.sym s] [.sym s] :=
  ⟨by simp, by simp, by simp⟩

/-- What becomes of an expression: it is translated when supported and rejected when not. -/
def Outcome {β : Type} (sup : Prop) (r : Except Err β) (good : β → Prop) : Prop :=
  (sup ∧ ∃ n, r = .ok n ∧ good n) ∨ (¬ sup ∧ r = .error .notImplemented)

theorem Outcome.bind {α β : Type} {S₁ S₂ S : Prop} {r : Except Err α} {f : α → Except Err β} {g : α → Prop} {g' : β → Prop} (h : Outcome S₁ r g)
    (hf : ∀ x, g x → Outcome S₂ (f x) g') (hS : S ↔ S₁ ∧ S₂) : Outcome S (r >>= f) g' := by
  rcases h with ⟨h1, x, rfl, hx⟩ | ⟨h1, rfl⟩
  · rcases hf x hx with ⟨h2, n, hn, hg⟩ | ⟨h2, hn⟩
    · exact Or.inl ⟨hS.2 ⟨h1, h2⟩, n, hn, hg⟩
    · exact Or.inr ⟨fun h => h2 (hS.1 h).2, hn⟩
  · exact Or.inr ⟨fun h => h1 (hS.1 h).1, rfl⟩

theorem Outcome.ok {β : Type} {n : β} {g : β → Prop} (h : g n) : Outcome True (.ok n) g := Or.inl ⟨trivial, n, rfl, h⟩

/-- All classes are supported. -/
def AllSupported (L : List Sym) : Prop := ∀ x ∈ L, SupportedClass x

theorem allSupported_cons {x : Sym} {L : List Sym} (h : SupportedClass x) : AllSupported (x :: L) ↔ AllSupported L :=
  ⟨fun hh y hy => hh y (List.mem_cons_of_mem _ hy), fun hh y hy => by
    rcases List.mem_cons.1 hy with rfl | hy
    · exact h
    · exact hh y hy⟩

theorem allSupported_append {L L' : List Sym} : AllSupported (L ++ L') ↔ AllSupported L ∧ AllSupported L' := List.forall_mem_append

theorem equalsNumber_irrelevant {e : Sym} {r : ℝ} (h : equalsNumber e r = true) : Irrelevant e ∧ SupportedClass e ∧ e.subterms = [e] := by
  unfold equalsNumber at h
  split at h
  · exact ⟨trivial, trivial, by rw [Sym.subterms] <;> simp⟩
  · exact ⟨trivial, trivial, by rw [Sym.subterms] <;> simp⟩
  · exact ⟨trivial, trivial, by rw [Sym.subterms] <;> simp⟩
  · cases h

theorem negate_cases (rest : List Sym) :
    (negateProduct rest).subterms = Sym.subtermsList rest ∧ rest.length = 1 ∨ (negateProduct rest).subterms = .mul rest :: Sym.subtermsList rest ∧ rest.length ≠ 1 := by
  unfold negateProduct mulOf
  split
  · left; simp [Sym.subtermsList]
  · rename_i h
    right
    rw [Sym.subterms]
    refine ⟨rfl, fun hl => ?_⟩
    obtain ⟨y, rfl⟩ := List.length_eq_one_iff.1 hl
    exact h y rfl

/-- The outcome of the translation, for expressions as sympy builds them. -/
theorem fromSympy_outcome_aux :
    (∀ e : Sym, (∀ x ∈ e.subterms, Proper x) → Outcome (AllSupported e.subterms) (fromSympy e) fun n => Match e.subterms n.subterms) ∧
    (∀ es : List Sym, (∀ x ∈ Sym.subtermsList es, Proper x) → Outcome (AllSupported (Sym.subtermsList es)) (fromTuple es)
      fun ns => Match (Sym.subtermsList es) (Native.subtermsList ns) ∧ ns.length = es.length) := by
  have atom : ∀ (e : Sym) (n : Native), SupportedClass e → e.subterms = [e] → Match [e] n.subterms → fromSympy e = .ok n →
      Outcome (AllSupported e.subterms) (fromSympy e) fun n => Match e.subterms n.subterms := by
    intro e n h1 h2 h3 h4
    rw [h2, h4]
    exact Or.inl ⟨fun x hx => by rw [List.mem_singleton.1 hx]; exact h1, n, rfl, h3⟩
  apply fromSympy.mutual_induct
  case case1 => intro s _; exact atom _ (.sym s) trivial (by rw [Sym.subterms] <;> simp) (by simp only [Native.subterms]; exact Match.sym s) (by rw [fromSympy])
  case case2 => intro c _; exact atom _ (.num c) trivial (by rw [Sym.subterms] <;> simp) (by simp only [Native.subterms]; exact (Match.num _).irrelevant (by trivial)) (by rw [fromSympy])
  case case3 => intro c _; exact atom _ (.num c) trivial (by rw [Sym.subterms] <;> simp) (by simp only [Native.subterms]; exact (Match.num _).irrelevant (by trivial)) (by rw [fromSympy])
  case case4 => intro c _; exact atom _ (.num c) trivial (by rw [Sym.subterms] <;> simp) (by simp only [Native.subterms]; exact (Match.num _).irrelevant (by trivial)) (by rw [fromSympy])
  case case5 => intro _; exact atom _ (.num Complex.I) trivial (by rw [Sym.subterms] <;> simp) (by simp only [Native.subterms]; exact (Match.num _).irrelevant (by trivial)) (by rw [fromSympy])
  case case6 => intro c _; exact atom _ (.num c) trivial (by rw [Sym.subterms] <;> simp) (by simp only [Native.subterms]; exact (Match.num _).irrelevant (by trivial)) (by rw [fromSympy])
  case case7 =>
    intro a hp
    have := hp (.mul []) (mem_add (mem_tail (mem_head (by rw [Sym.subterms]; simp))))
    simp [Proper] at this
  case case8 =>
    intro a h rest hneg iha ihb hp
    rw [fromSympy, if_pos hneg]
    obtain ⟨hi, hs, hsub⟩ := equalsNumber_irrelevant hneg
    have hS : (Sym.add [a, .mul (h :: rest)]).subterms = .add [a, .mul (h :: rest)] :: (a.subterms ++ (.mul (h :: rest) :: h :: Sym.subtermsList rest)) := by
      simp [Sym.subterms, Sym.subtermsList, hsub]
    have hlen : 2 ≤ (h :: rest).length := hp (.mul (h :: rest)) (by rw [hS]; simp)
    have hpr : ∀ x ∈ (negateProduct rest).subterms, Proper x := by
      intro x hx
      rcases negate_cases rest with ⟨h1, _⟩ | ⟨h1, h2⟩
      · rw [h1] at hx
        exact hp x (by rw [hS]; simp [hx])
      · rw [h1] at hx
        rcases List.mem_cons.1 hx with rfl | hx
        · simp only [List.length_cons] at hlen
          show 2 ≤ rest.length
          omega
        · exact hp x (by rw [hS]; simp [hx])
    have hsn : AllSupported (negateProduct rest).subterms ↔ AllSupported (Sym.subtermsList rest) := by
      rcases negate_cases rest with ⟨h1, _⟩ | ⟨h1, _⟩
      · rw [h1]
      · rw [h1, allSupported_cons (by trivial)]
    rw [hS]
    refine (iha fun z hz => hp z (mem_add (mem_head hz))).bind (S₂ := AllSupported (Sym.subtermsList rest)) (fun x hx => ?_) ?_
    · refine (ihb hpr).bind (S₂ := True) (fun y hy => Outcome.ok ?_) (by rw [hsn]; simp)
      have hy' : Match (Sym.subtermsList rest) y.subterms := by
        rcases negate_cases rest with ⟨h1, _⟩ | ⟨h1, _⟩
        · rwa [h1] at hy
        · rw [h1] at hy; exact hy.unirrelevant (by trivial)
      have := (hx.append ((hy'.irrelevant hi).irrelevant (e := .mul (h :: rest)) (by trivial)))
      simp only [Native.subterms, Native.subtermsList, List.append_nil]
      exact (this.irrelevant (by trivial)).fixed (by simp [FixedCall])
    · rw [allSupported_cons (by trivial), allSupported_append, allSupported_cons (by trivial), allSupported_cons hs]
  case case9 =>
    intro a h rest hneg iha ihb hp
    rw [fromSympy, if_neg hneg]
    have hS : (Sym.add [a, .mul (h :: rest)]).subterms = .add [a, .mul (h :: rest)] :: (a.subterms ++ (Sym.mul (h :: rest)).subterms) := by
      rw [Sym.subterms, Sym.subtermsList, Sym.subtermsList, Sym.subtermsList, List.append_nil]
    rw [hS]
    refine (iha fun z hz => hp z (mem_add (mem_head hz))).bind (S₂ := AllSupported (Sym.mul (h :: rest)).subterms) (fun x hx => ?_) ?_
    · refine (ihb fun z hz => hp z (mem_add (mem_tail (mem_head hz)))).bind (S₂ := True) (fun y hy => Outcome.ok ?_) (by simp)
      simp only [Native.subterms, Native.subtermsList, List.append_nil]
      exact ((hx.append hy).irrelevant (by trivial)).fixed (by simp [FixedCall])
    · rw [allSupported_cons (by trivial), allSupported_append]
  case case10 =>
    intro args h1 h2 ih hp
    rw [fromSympy]
    · have hlen : 2 ≤ args.length := hp (.add args) (by rw [Sym.subterms]; simp)
      rw [Sym.subterms]
      refine (ih fun z hz => hp z (mem_add hz)).bind (S₂ := True) (fun xs hx => Outcome.ok ?_) (by rw [allSupported_cons (by trivial)]; simp)
      rw [Native.subterms]
      exact (hx.1.irrelevant (by trivial)).fixed (by simp [FixedCall, hx.2, hlen])
    · exact h1
    · exact h2
  case case11 =>
    intro a b e hneg iha ihb hp
    rw [fromSympy, if_pos hneg]
    obtain ⟨hi, hs, hsub⟩ := equalsNumber_irrelevant hneg
    have hS : (Sym.mul [a, .pow b e]).subterms = .mul [a, .pow b e] :: (a.subterms ++ (.pow b e :: (b.subterms ++ [e]))) := by
      simp [Sym.subterms, Sym.subtermsList, hsub]
    rw [hS]
    refine (iha fun z hz => hp z (mem_mul (mem_head hz))).bind (S₂ := AllSupported b.subterms) (fun x hx => ?_) ?_
    · refine (ihb fun z hz => hp z (mem_mul (mem_tail (mem_head (mem_base hz))))).bind (S₂ := True) (fun y hy => Outcome.ok ?_) (by simp)
      have h0 := Match.nil.irrelevant hi
      have := hx.append ((hy.append h0).irrelevant (e := .pow b e) (by trivial))
      simp only [Native.subterms, Native.subtermsList, List.append_nil] at this ⊢
      exact (this.irrelevant (by trivial)).fixed (by simp [FixedCall])
    · rw [allSupported_cons (by trivial), allSupported_append, allSupported_cons (by trivial), allSupported_append, allSupported_cons hs]
      simp [AllSupported]
  case case12 =>
    intro a b e hneg iha ihb hp
    rw [fromSympy, if_neg hneg]
    have hS : (Sym.mul [a, .pow b e]).subterms = .mul [a, .pow b e] :: (a.subterms ++ (Sym.pow b e).subterms) := by
      rw [Sym.subterms, Sym.subtermsList, Sym.subtermsList, Sym.subtermsList, List.append_nil]
    rw [hS]
    refine (iha fun z hz => hp z (mem_mul (mem_head hz))).bind (S₂ := AllSupported (Sym.pow b e).subterms) (fun x hx => ?_) ?_
    · refine (ihb fun z hz => hp z (mem_mul (mem_tail (mem_head hz)))).bind (S₂ := True) (fun y hy => Outcome.ok ?_) (by simp)
      simp only [Native.subterms, Native.subtermsList, List.append_nil]
      exact ((hx.append hy).irrelevant (by trivial)).fixed (by simp [FixedCall])
    · rw [allSupported_cons (by trivial), allSupported_append]
  case case13 =>
    intro args h1 ih hp
    rw [fromSympy]
    · have hlen : 2 ≤ args.length := hp (.mul args) (by rw [Sym.subterms]; simp)
      rw [Sym.subterms]
      refine (ih fun z hz => hp z (mem_mul hz)).bind (S₂ := True) (fun xs hx => Outcome.ok ?_) (by rw [allSupported_cons (by trivial)]; simp)
      rw [Native.subterms]
      exact (hx.1.irrelevant (by trivial)).fixed (by simp [FixedCall, hx.2, hlen])
    · exact h1
  case case14 =>
    intro b e hneg ih hp
    rw [fromSympy, if_pos hneg]
    obtain ⟨hi, hs, hsub⟩ := equalsNumber_irrelevant hneg
    rw [Sym.subterms, hsub]
    refine (ih fun z hz => hp z (mem_base hz)).bind (S₂ := True) (fun x hx => Outcome.ok ?_) ?_
    · have h0 := (Match.num 1).append (hx.append (Match.nil.irrelevant hi))
      simp only [Native.subterms, Native.subtermsList, List.append_nil, List.nil_append] at h0 ⊢
      exact (h0.irrelevant (by trivial)).fixed (by simp [FixedCall])
    · rw [allSupported_cons (by trivial), allSupported_append, allSupported_cons hs]
      simp [AllSupported]
  case case15 =>
    intro b e hneg hhalf ih hp
    rw [fromSympy, if_neg hneg, if_pos hhalf]
    obtain ⟨hi, hs, hsub⟩ := equalsNumber_irrelevant hhalf
    rw [Sym.subterms, hsub]
    refine (ih fun z hz => hp z (mem_base hz)).bind (S₂ := True) (fun x hx => Outcome.ok ?_) ?_
    · have h0 := hx.append (Match.nil.irrelevant hi)
      simp only [Native.subterms, Native.subtermsList, List.append_nil] at h0 ⊢
      exact (h0.irrelevant (by trivial)).fixed (by simp [FixedCall])
    · rw [allSupported_cons (by trivial), allSupported_append, allSupported_cons hs]
      simp [AllSupported]
  case case16 =>
    intro b e hneg hhalf ihb ihe hp
    rw [fromSympy, if_neg hneg, if_neg hhalf, Sym.subterms]
    refine (ihb fun z hz => hp z (mem_base hz)).bind (S₂ := AllSupported e.subterms) (fun x hx => ?_) ?_
    · refine (ihe fun z hz => hp z (mem_exponent hz)).bind (S₂ := True) (fun y hy => Outcome.ok ?_) (by simp)
      simp only [Native.subterms, Native.subtermsList, List.append_nil]
      exact ((hx.append hy).irrelevant (by trivial)).fixed (by simp [FixedCall])
    · rw [allSupported_cons (by trivial), allSupported_append]
  case case17 =>
    intro name args ih hp
    rw [fromSympy, Sym.subterms]
    refine (ih fun z hz => hp z (mem_fn hz)).bind (S₂ := True) (fun xs hx => Outcome.ok ?_) (by rw [allSupported_cons (by trivial)]; simp)
    rw [Native.subterms]
    exact hx.1.fn hx.2
  case case18 =>
    intro v _
    rw [fromSympy, Sym.subterms]
    · exact Or.inr ⟨fun h => h (.other v) (by simp), rfl⟩
    all_goals simp
  case case19 =>
    intro _
    rw [fromTuple, Sym.subtermsList]
    exact Or.inl ⟨by simp [AllSupported], [], rfl, Match.nil, rfl⟩
  case case20 =>
    intro a as iha ihs hp
    rw [fromTuple, Sym.subtermsList]
    refine (iha fun z hz => hp z (mem_head hz)).bind (S₂ := AllSupported (Sym.subtermsList as)) (fun x hx => ?_) allSupported_append
    refine (ihs fun z hz => hp z (mem_tail hz)).bind (S₂ := True) (fun ys hy => Outcome.ok ?_) (by simp)
    rw [Native.subtermsList]
    exact ⟨hx.append hy.1, by simp [hy.2]⟩

/-! ## From sympy to native expressions -/

/-- The native expression has the value of the sympy expression, whatever the symbols and the functions stand for. What is missing: sympy functions whose names are
reserved in native expressions (`fromSympy_value_counterexample`). -/
theorem fromSympy_value_partial (e : Sym) (hu : ∀ x ∈ e.subterms, Unreserved x) (n : Native) (hn : fromSympy e = .ok n)
    (F : String → List ℂ → ℂ) (ρ : String → ℂ) : n.eval F ρ = e.eval F ρ :=
  (fromSympy_value_aux F ρ).1 e hu n hn

/-- The value agrees and the translation succeeds: `(a − b)/c + 2·√d·g(a)`. -/
example : ∃ n, fromSympy (.add [.mul [.add [.sym "a", .mul [.int (-1), .sym "b"]], .pow (.sym "c") (.int (-1))],
      .mul [.int 2, .pow (.sym "d") (.rat (1 / 2)), .fn "g" [.sym "a"]]]) = .ok n ∧
    ∀ F ρ, n.eval F ρ = (ρ "a" - ρ "b") / ρ "c" + 2 * ρ "d" ^ (1 / 2 : ℂ) * F "g" [ρ "a"] := by
  have h1 : equalsNumber (.int (-1)) (-1) = true := by simp [equalsNumber]
  have h2 : equalsNumber (.rat (1 / 2)) (-1) = false := by simp [equalsNumber]; norm_num
  have h3 : equalsNumber (.rat (1 / 2)) (1 / 2) = true := by simp [equalsNumber]
  have h4 : equalsNumber (.int 2) (-1) = false := by simp [equalsNumber]; norm_num
  refine ⟨.call "add" [.call "div" [.call "sub" [.sym "a", .sym "b"], .sym "c"],
    .call "mul" [.num 2, .call "sqrt" [.sym "d"], .call "g" [.sym "a"]]], ?_, ?_⟩
  · rw [fromSympy, if_neg (by simp [h4])]
    simp [fromSympy, fromTuple, negateProduct, mulOf, h1, h3, bind, Except.bind]
    rw [if_neg (by simp [equalsNumber]; norm_num), if_pos (by simp [equalsNumber])]
  · intro F ρ
    simp [Native.eval, Native.evalList, meaning, mul_assoc]

/-- A user function called `add` becomes an addition. -/
theorem fromSympy_value_counterexample : ∃ (e : Sym) (n : Native) (F : String → List ℂ → ℂ) (ρ : String → ℂ),
    (∀ x ∈ e.subterms, Proper x) ∧ fromSympy e = .ok n ∧ n.eval F ρ ≠ e.eval F ρ := by
  refine ⟨.fn "add" [.sym "x", .sym "y"], .call "add" [.sym "x", .sym "y"], fun _ _ => 5, fun _ => 1, ?_, ?_, ?_⟩
  · simp [Sym.subterms, Sym.subtermsList, Proper]
  · simp [fromSympy, fromTuple, bind, Except.bind]
  · simp [Native.eval, Native.evalList, meaning, Sym.eval]
    norm_num

/-- An expression as sympy builds it is translated exactly if all classes in it are supported; otherwise `NotImplementedError` is raised. -/
theorem fromSympy_accepts (e : Sym) (hp : ∀ x ∈ e.subterms, Proper x) :
    ((∀ x ∈ e.subterms, SupportedClass x) → ∃ n, fromSympy e = .ok n) ∧
    ((∃ x ∈ e.subterms, ¬ SupportedClass x) → fromSympy e = .error .notImplemented) := by
  rcases fromSympy_outcome_aux.1 e hp with ⟨h, n, hn, _⟩ | ⟨h, hn⟩
  · exact ⟨fun _ => ⟨n, hn⟩, fun ⟨x, hx, hh⟩ => absurd (h x hx) hh⟩
  · exact ⟨fun hh => absurd hh h, fun _ => hn⟩

/-- The native expression has the same symbols. -/
theorem fromSympy_symbols (e : Sym) (hp : ∀ x ∈ e.subterms, Proper x) (n : Native) (hn : fromSympy e = .ok n) (s : String) :
    Native.sym s ∈ n.subterms ↔ Sym.sym s ∈ e.subterms := by
  rcases fromSympy_outcome_aux.1 e hp with ⟨_, n', hn', hm⟩ | ⟨_, hn'⟩
  · rw [hn] at hn'; cases hn'; exact hm.symbols s
  · rw [hn] at hn'; cases hn'

/-- The calls of the native expression are the sympy functions and the operations, with the right numbers of arguments. -/
theorem fromSympy_calls (e : Sym) (hp : ∀ x ∈ e.subterms, Proper x) (n : Native) (hn : fromSympy e = .ok n) :
    (∀ name args, Native.call name args ∈ n.subterms →
      (name = "add" ∧ 2 ≤ args.length) ∨ (name = "mul" ∧ 2 ≤ args.length) ∨ (name = "sub" ∧ args.length = 2) ∨ (name = "div" ∧ args.length = 2) ∨
      (name = "pow" ∧ args.length = 2) ∨ (name = "sqrt" ∧ args.length = 1) ∨ ∃ as, Sym.fn name as ∈ e.subterms ∧ as.length = args.length) ∧
    (∀ name as, Sym.fn name as ∈ e.subterms → ∃ args, Native.call name args ∈ n.subterms ∧ args.length = as.length) := by
  rcases fromSympy_outcome_aux.1 e hp with ⟨_, n', hn', hm⟩ | ⟨_, hn'⟩
  · rw [hn] at hn'; cases hn'
    refine ⟨fun name args h => ?_, hm.functions⟩
    have := hm.calls name args h
    unfold FixedCall at this
    tauto
  · rw [hn] at hn'; cases hn'

/-! ## From native expressions to a dialect -/

/-- The dialect's objects have values `ev`, and its functions compute the right values on admissible numbers of arguments. -/
structure Faithful {X : Type} (D : Dialect X) (F : String → List ℂ → ℂ) (ρ : String → ℂ) (ev : X → ℂ) (Arity : String → ℕ → Prop) : Prop where
  symbol : ∀ s, ev (D.symbolFactory s) = ρ s
  number : ∀ c, ev (D.numberFactory c) = c
  function : ∀ name f, PyDict.get? D.knownFunctions name = some f → ∀ xs, Arity name xs.length → ∃ y, f xs = .ok y ∧ ev y = meaning F name (xs.map ev)

mutual
theorem translate_aux {X : Type} {D : Dialect X} {F : String → List ℂ → ℂ} {ρ : String → ℂ} {ev : X → ℂ} {Arity : String → ℕ → Prop} (hD : Faithful D F ρ ev Arity) :
    ∀ n : Native, (∀ name args, Native.call name args ∈ n.subterms → (PyDict.get? D.knownFunctions name).isSome → Arity name args.length) →
      ((∀ name args, Native.call name args ∈ n.subterms → (PyDict.get? D.knownFunctions name).isSome) ∧ ∃ x, translate D n = .ok x ∧ ev x = n.eval F ρ) ∨
      ((∃ name args, Native.call name args ∈ n.subterms ∧ PyDict.get? D.knownFunctions name = none) ∧ translate D n = .error .valueError)
  | .num c, _ => Or.inl ⟨by simp [Native.subterms], _, rfl, hD.number c⟩
  | .sym s, _ => Or.inl ⟨by simp [Native.subterms], _, rfl, hD.symbol s⟩
  | .call name args, ha => by
    rw [translate]
    cases hk : PyDict.get? D.knownFunctions name with
    | none => exact Or.inr ⟨⟨name, args, by simp [Native.subterms], hk⟩, rfl⟩
    | some f =>
      rcases translateTuple_aux hD args (fun nm as h => ha nm as (by rw [Native.subterms]; exact List.mem_cons_of_mem _ h)) with ⟨h1, xs, hxs, hl, hev⟩ | ⟨⟨nm, as, h1, h2⟩, herr⟩
      · have har : Arity name xs.length := by
          rw [hl]; exact ha name args (by simp [Native.subterms]) (by simp [hk])
        obtain ⟨y, hy, hyv⟩ := hD.function name f hk xs har
        refine Or.inl ⟨fun nm as h => ?_, y, ?_, ?_⟩
        · rw [Native.subterms] at h
          rcases List.mem_cons.1 h with heq | h
          · injection heq with e1 e2; subst e1; simp [hk]
          · exact h1 nm as h
        · show (translateTuple D args >>= f) = _
          rw [hxs]; exact hy
        · rw [hyv, hev, Native.eval]
      · refine Or.inr ⟨⟨nm, as, by rw [Native.subterms]; exact List.mem_cons_of_mem _ h1, h2⟩, ?_⟩
        show (translateTuple D args >>= f) = _
        rw [herr]; rfl

theorem translateTuple_aux {X : Type} {D : Dialect X} {F : String → List ℂ → ℂ} {ρ : String → ℂ} {ev : X → ℂ} {Arity : String → ℕ → Prop} (hD : Faithful D F ρ ev Arity) :
    ∀ ns : List Native, (∀ name args, Native.call name args ∈ Native.subtermsList ns → (PyDict.get? D.knownFunctions name).isSome → Arity name args.length) →
      ((∀ name args, Native.call name args ∈ Native.subtermsList ns → (PyDict.get? D.knownFunctions name).isSome) ∧
        ∃ xs, translateTuple D ns = .ok xs ∧ xs.length = ns.length ∧ xs.map ev = Native.evalList F ρ ns) ∨
      ((∃ name args, Native.call name args ∈ Native.subtermsList ns ∧ PyDict.get? D.knownFunctions name = none) ∧ translateTuple D ns = .error .valueError)
  | [], _ => Or.inl ⟨by simp [Native.subtermsList], [], rfl, rfl, rfl⟩
  | n :: ns, ha => by
    rw [translateTuple, Native.subtermsList]
    rcases translate_aux hD n (fun nm as h => ha nm as (by rw [Native.subtermsList]; exact List.mem_append_left _ h)) with ⟨h1, x, hx, hxv⟩ | ⟨⟨nm, as, h1, h2⟩, herr⟩
    · rcases translateTuple_aux hD ns (fun nm as h => ha nm as (by rw [Native.subtermsList]; exact List.mem_append_right _ h)) with ⟨h1', xs, hxs, hl, hev⟩ | ⟨⟨nm, as, h1', h2⟩, herr⟩
      · refine Or.inl ⟨fun nm as h => ?_, x :: xs, ?_, by simp [hl], ?_⟩
        · rcases List.mem_append.1 h with h | h
          · exact h1 nm as h
          · exact h1' nm as h
        · rw [hx, hxs]; rfl
        · rw [List.map_cons, hxv, hev, Native.evalList]
      · refine Or.inr ⟨⟨nm, as, List.mem_append_right _ h1', h2⟩, ?_⟩
        rw [hx, herr]; rfl
    · refine Or.inr ⟨⟨nm, as, List.mem_append_left _ h1, h2⟩, ?_⟩
      rw [herr]; rfl
end

/-- Translating to any faithful dialect that knows all called functions keeps the value. -/
theorem translate_spec {X : Type} (D : Dialect X) (F : String → List ℂ → ℂ) (ρ : String → ℂ) (ev : X → ℂ) (Arity : String → ℕ → Prop) (hD : Faithful D F ρ ev Arity)
    (n : Native) (hn : ∀ name args, Native.call name args ∈ n.subterms → (PyDict.get? D.knownFunctions name).isSome ∧ Arity name args.length) :
    ∃ x, translate D n = .ok x ∧ ev x = n.eval F ρ := by
  rcases translate_aux hD n (fun nm as h _ => (hn nm as h).2) with ⟨_, h⟩ | ⟨⟨nm, as, h1, h2⟩, _⟩
  · exact h
  · have := (hn nm as h1).1
    rw [h2] at this; cases this

/-- A call of a function the dialect does not know, anywhere in the expression, raises `ValueError`. -/
theorem translate_unknown {X : Type} (D : Dialect X) (F : String → List ℂ → ℂ) (ρ : String → ℂ) (ev : X → ℂ) (Arity : String → ℕ → Prop) (hD : Faithful D F ρ ev Arity)
    (n : Native) (hn : ∀ name args, Native.call name args ∈ n.subterms → (PyDict.get? D.knownFunctions name).isSome → Arity name args.length)
    (hx : ∃ name args, Native.call name args ∈ n.subterms ∧ PyDict.get? D.knownFunctions name = none) : translate D n = .error .valueError := by
  rcases translate_aux hD n hn with ⟨h, _⟩ | ⟨_, h⟩
  · obtain ⟨nm, as, h1, h2⟩ := hx
    have := h nm as h1
    rw [h2] at this; cases this
  · exact h

/-! ## The sympy dialect and the round trip -/

/-- The functions of the sympy dialect are interpreted as usual. -/
structure Standard (F : String → List ℂ → ℂ) : Prop where
  cos : ∀ z, F "cos" [z] = Complex.cos z
  sin : ∀ z, F "sin" [z] = Complex.sin z
  exp : ∀ z, F "exp" [z] = Complex.exp z
  tan : ∀ z, F "tan" [z] = Complex.tan z

/-- Numbers of arguments the functions of the sympy dialect take. -/
def SympyArity (name : String) (k : ℕ) : Prop := FixedCall name k ∨ (name ∈ ["cos", "sin", "exp", "tan"] ∧ k = 1)

theorem foldl_pointwise (op : ℂ → ℂ → ℂ) (ρ : String → ℂ) (xs : List Value) (x : Value) :
    (xs.foldl (fun (a b : Value) (ρ : String → ℂ) => op (a ρ) (b ρ)) x) ρ = (xs.map fun v => v ρ).foldl op (x ρ) := by
  induction xs generalizing x with
  | nil => rfl
  | cons y ys ih => rw [List.foldl_cons, ih, List.map_cons, List.foldl_cons]

theorem foldl_add_eq (xs : List ℂ) (a : ℂ) : xs.foldl (fun a b => a + b) a = a + xs.sum := by
  induction xs generalizing a with
  | nil => simp
  | cons y ys ih => rw [List.foldl_cons, ih, List.sum_cons, add_assoc]

theorem foldl_mul_eq (xs : List ℂ) (a : ℂ) : xs.foldl (fun a b => a * b) a = a * xs.prod := by
  induction xs generalizing a with
  | nil => simp
  | cons y ys ih => rw [List.foldl_cons, ih, List.prod_cons, mul_assoc]

theorem sympyDialect_faithful (F : String → List ℂ → ℂ) (hF : Standard F) (ρ : String → ℂ) : Faithful sympyDialect F ρ (fun v => v ρ) SympyArity := by
  refine ⟨fun s => rfl, fun c => rfl, fun name f hf xs ha => ?_⟩
  have two : ∀ {xs : List Value}, xs.length = 2 → ∃ a b, xs = [a, b] := fun h => List.length_eq_two.1 h
  have one : ∀ {xs : List Value}, xs.length = 1 → ∃ a, xs = [a] := fun h => List.length_eq_one_iff.1 h
  rcases ha with hfix | ⟨hname, h⟩
  · rcases hfix with ⟨rfl, h⟩ | ⟨rfl, h⟩ | ⟨rfl, h⟩ | ⟨rfl, h⟩ | ⟨rfl, h⟩ | ⟨rfl, h⟩
    · simp [sympyDialect, PyDict.get?] at hf
      subst hf
      cases xs with
      | nil => simp at h
      | cons x xs =>
        refine ⟨_, rfl, ?_⟩
        show (xs.foldl (fun (a b : Value) (ρ : String → ℂ) => a ρ + b ρ) x) ρ = _
        rw [foldl_pointwise (fun a b => a + b), foldl_add_eq, List.map_cons]
        simp [meaning]
    · simp [sympyDialect, PyDict.get?] at hf
      subst hf
      cases xs with
      | nil => simp at h
      | cons x xs =>
        refine ⟨_, rfl, ?_⟩
        show (xs.foldl (fun (a b : Value) (ρ : String → ℂ) => a ρ * b ρ) x) ρ = _
        rw [foldl_pointwise (fun a b => a * b), foldl_mul_eq, List.map_cons]
        simp [meaning]
    · simp [sympyDialect, PyDict.get?] at hf
      subst hf
      obtain ⟨a, b, rfl⟩ := two h
      exact ⟨_, rfl, by simp [meaning]⟩
    · simp [sympyDialect, PyDict.get?] at hf
      subst hf
      obtain ⟨a, b, rfl⟩ := two h
      exact ⟨_, rfl, by simp [meaning]⟩
    · simp [sympyDialect, PyDict.get?] at hf
      subst hf
      obtain ⟨a, b, rfl⟩ := two h
      exact ⟨_, rfl, by simp [meaning]⟩
    · simp [sympyDialect, PyDict.get?] at hf
      subst hf
      obtain ⟨a, rfl⟩ := one h
      exact ⟨_, rfl, by simp [meaning]⟩
  · obtain ⟨a, rfl⟩ := one h
    simp only [List.mem_cons, List.not_mem_nil, or_false] at hname
    rcases hname with rfl | rfl | rfl | rfl
    · simp [sympyDialect, PyDict.get?] at hf
      subst hf
      exact ⟨_, rfl, by simp [meaning, hF.cos]⟩
    · simp [sympyDialect, PyDict.get?] at hf
      subst hf
      exact ⟨_, rfl, by simp [meaning, hF.sin]⟩
    · simp [sympyDialect, PyDict.get?] at hf
      subst hf
      exact ⟨_, rfl, by simp [meaning, hF.exp]⟩
    · simp [sympyDialect, PyDict.get?] at hf
      subst hf
      exact ⟨_, rfl, by simp [meaning, hF.tan]⟩

theorem sympyDialect_known (name : String) :
    (PyDict.get? sympyDialect.knownFunctions name).isSome ↔ name ∈ reserved ∨ name ∈ ["cos", "sin", "exp", "tan"] := by
  simp only [sympyDialect, PyDict.get?, reserved, List.mem_cons, List.not_mem_nil, or_false]
  split_ifs <;> simp_all [eq_comm]

/-- Round trip: an expression of supported classes whose functions are cos, sin, exp and tan of one argument is translated to a native expression and back to a sympy
expression with the same value for all values of the symbols. -/
theorem roundTrip_spec (e : Sym) (hp : ∀ x ∈ e.subterms, Proper x) (hs : ∀ x ∈ e.subterms, SupportedClass x)
    (hf : ∀ name args, Sym.fn name args ∈ e.subterms → name ∈ ["cos", "sin", "exp", "tan"] ∧ args.length = 1) :
    ∃ n v, fromSympy e = .ok n ∧ translate sympyDialect n = .ok v ∧ ∀ F, Standard F → ∀ ρ, v ρ = e.eval F ρ := by
  obtain ⟨n, hn⟩ := (fromSympy_accepts e hp).1 hs
  have hu : ∀ x ∈ e.subterms, Unreserved x := by
    intro x hx
    cases x with
    | fn name args =>
      have := (hf name args hx).1
      show name ∉ reserved
      simp only [List.mem_cons, List.not_mem_nil, or_false] at this
      rcases this with rfl | rfl | rfl | rfl <;> decide
    | _ => trivial
  have hc : ∀ name args, Native.call name args ∈ n.subterms → (PyDict.get? sympyDialect.knownFunctions name).isSome ∧ SympyArity name args.length := by
    intro name args h
    rw [sympyDialect_known]
    rcases (fromSympy_calls e hp n hn).1 name args h with h | h | h | h | h | h | ⟨as, h1, h2⟩
    · exact ⟨Or.inl (by rw [h.1]; decide), Or.inl (Or.inl h)⟩
    · exact ⟨Or.inl (by rw [h.1]; decide), Or.inl (Or.inr (Or.inl h))⟩
    · exact ⟨Or.inl (by rw [h.1]; decide), Or.inl (Or.inr (Or.inr (Or.inl h)))⟩
    · exact ⟨Or.inl (by rw [h.1]; decide), Or.inl (Or.inr (Or.inr (Or.inr (Or.inl h))))⟩
    · exact ⟨Or.inl (by rw [h.1]; decide), Or.inl (Or.inr (Or.inr (Or.inr (Or.inr (Or.inl h)))))⟩
    · exact ⟨Or.inl (by rw [h.1]; decide), Or.inl (Or.inr (Or.inr (Or.inr (Or.inr (Or.inr h)))))⟩
    · have := hf name as h1
      exact ⟨Or.inr this.1, Or.inr ⟨this.1, by rw [← h2]; exact this.2⟩⟩
  let F₀ : String → List ℂ → ℂ := fun name args =>
    if name = "cos" then Complex.cos (args.getD 0 0) else if name = "sin" then Complex.sin (args.getD 0 0)
    else if name = "exp" then Complex.exp (args.getD 0 0) else Complex.tan (args.getD 0 0)
  have hF₀ : Standard F₀ := ⟨fun z => by simp [F₀], fun z => by simp [F₀], fun z => by simp [F₀], fun z => by simp [F₀]⟩
  obtain ⟨v, hv, _⟩ := translate_spec sympyDialect F₀ 0 _ SympyArity (sympyDialect_faithful F₀ hF₀ 0) n hc
  refine ⟨n, v, hn, hv, fun F hF ρ => ?_⟩
  obtain ⟨v', hv', he⟩ := translate_spec sympyDialect F ρ _ SympyArity (sympyDialect_faithful F hF ρ) n hc
  rw [hv] at hv'
  cases hv'
  rw [he, fromSympy_value_partial e hu n hn]

/-- Any other function is refused on the way back with `ValueError`. -/
theorem roundTrip_unknown (e : Sym) (hp : ∀ x ∈ e.subterms, Proper x) (n : Native) (hn : fromSympy e = .ok n)
    (hf : ∀ name args, Sym.fn name args ∈ e.subterms → name ∉ reserved ∧ (name ∈ ["cos", "sin", "exp", "tan"] → args.length = 1))
    (name : String) (args : List Sym) (hx : Sym.fn name args ∈ e.subterms) (hname : name ∉ ["cos", "sin", "exp", "tan"]) :
    translate sympyDialect n = .error .valueError := by
  let F₀ : String → List ℂ → ℂ := fun name args =>
    if name = "cos" then Complex.cos (args.getD 0 0) else if name = "sin" then Complex.sin (args.getD 0 0)
    else if name = "exp" then Complex.exp (args.getD 0 0) else Complex.tan (args.getD 0 0)
  have hF₀ : Standard F₀ := ⟨fun z => by simp [F₀], fun z => by simp [F₀], fun z => by simp [F₀], fun z => by simp [F₀]⟩
  refine translate_unknown sympyDialect F₀ 0 _ SympyArity (sympyDialect_faithful F₀ hF₀ 0) n ?_ ?_
  · intro nm as h hk
    rw [sympyDialect_known] at hk
    rcases (fromSympy_calls e hp n hn).1 nm as h with h | h | h | h | h | h | ⟨bs, h1, h2⟩
    · exact Or.inl (Or.inl h)
    · exact Or.inl (Or.inr (Or.inl h))
    · exact Or.inl (Or.inr (Or.inr (Or.inl h)))
    · exact Or.inl (Or.inr (Or.inr (Or.inr (Or.inl h))))
    · exact Or.inl (Or.inr (Or.inr (Or.inr (Or.inr (Or.inl h)))))
    · exact Or.inl (Or.inr (Or.inr (Or.inr (Or.inr (Or.inr h)))))
    · have := hf nm bs h1
      rcases hk with hk | hk
      · exact absurd hk this.1
      · exact Or.inr ⟨hk, by rw [← h2]; exact this.2 hk⟩
  · obtain ⟨as, h1, _⟩ := (fromSympy_calls e hp n hn).2 name args hx
    refine ⟨name, as, h1, ?_⟩
    have h := (sympyDialect_known name).not.2 (by
      rintro (h | h)
      · exact (hf name args hx).1 h
      · exact hname h)
    cases hg : PyDict.get? sympyDialect.knownFunctions name with
    | none => rfl
    | some f => rw [hg] at h; exact absurd rfl h

/-! ## Wrong numbers of arguments -/

/-- Numbers of arguments the functions of the sympy dialect accept: sums and products take any number but none. -/
def Accepts (name : String) (k : ℕ) : Prop :=
  (name ∈ ["add", "mul"] ∧ 1 ≤ k) ∨ (name ∈ ["sub", "div", "pow"] ∧ k = 2) ∨ (name ∈ ["cos", "sin", "exp", "tan", "sqrt"] ∧ k = 1)

theorem reduction_arity {X : Type} (op : X → X → X) (xs : List X) :
    (1 ≤ xs.length → ∃ y, reduction op xs = .ok y) ∧ (¬ 1 ≤ xs.length → reduction op xs = .error .typeError) := by
  cases xs <;> simp [reduction]

theorem binary_arity {X : Type} (op : X → X → X) (xs : List X) :
    (xs.length = 2 → ∃ y, binary op xs = .ok y) ∧ (xs.length ≠ 2 → binary op xs = .error .typeError) := by
  rcases xs with _ | ⟨a, _ | ⟨b, _ | ⟨c, xs⟩⟩⟩ <;> simp [binary]

theorem unary_arity {X : Type} (op : X → X) (xs : List X) :
    (xs.length = 1 → ∃ y, unary op xs = .ok y) ∧ (xs.length ≠ 1 → unary op xs = .error .typeError) := by
  rcases xs with _ | ⟨a, _ | ⟨b, xs⟩⟩ <;> simp [unary]

theorem sympyDialect_arity (name : String) (f : List Value → Except Err Value) (hf : PyDict.get? sympyDialect.knownFunctions name = some f) (xs : List Value) :
    (Accepts name xs.length → ∃ y, f xs = .ok y) ∧ (¬ Accepts name xs.length → f xs = .error .typeError) := by
  have hk : name ∈ reserved ∨ name ∈ ["cos", "sin", "exp", "tan"] := (sympyDialect_known name).1 (by rw [hf]; rfl)
  simp only [reserved, List.mem_cons, List.not_mem_nil, or_false] at hk
  rcases hk with (rfl | rfl | rfl | rfl | rfl | rfl) | (rfl | rfl | rfl | rfl) <;> simp [sympyDialect, PyDict.get?] at hf <;> subst hf <;> simp only [Accepts] <;> simp <;>
    first
    | (have h := reduction_arity (fun (a b : Value) (ρ : String → ℂ) => a ρ + b ρ) xs; rcases xs <;> simpa using h)
    | (have h := reduction_arity (fun (a b : Value) (ρ : String → ℂ) => a ρ * b ρ) xs; rcases xs <;> simpa using h)
    | exact binary_arity _ xs
    | exact unary_arity _ xs

mutual
theorem translate_outcome : ∀ n : Native,
    ((∀ name args, Native.call name args ∈ n.subterms → (PyDict.get? sympyDialect.knownFunctions name).isSome ∧ Accepts name args.length) ∧ ∃ v, translate sympyDialect n = .ok v) ∨
    ((∃ name args, Native.call name args ∈ n.subterms ∧ PyDict.get? sympyDialect.knownFunctions name = none) ∧ translate sympyDialect n = .error .valueError) ∨
    ((∃ name args, Native.call name args ∈ n.subterms ∧ (PyDict.get? sympyDialect.knownFunctions name).isSome ∧ ¬ Accepts name args.length) ∧ translate sympyDialect n = .error .typeError)
  | .num c => Or.inl ⟨by simp [Native.subterms], _, rfl⟩
  | .sym s => Or.inl ⟨by simp [Native.subterms], _, rfl⟩
  | .call name args => by
    rw [translate]
    cases hk : PyDict.get? sympyDialect.knownFunctions name with
    | none => exact Or.inr (Or.inl ⟨⟨name, args, by simp [Native.subterms], hk⟩, rfl⟩)
    | some f =>
      have sub : ∀ {m}, m ∈ Native.subtermsList args → m ∈ (Native.call name args).subterms := fun h => by
        rw [Native.subterms]; exact List.mem_cons_of_mem _ h
      show _ ∨ (_ ∧ (translateTuple sympyDialect args >>= f) = _) ∨ (_ ∧ (translateTuple sympyDialect args >>= f) = _)
      rcases translateTuple_outcome args with ⟨h1, xs, hxs, hl⟩ | ⟨⟨nm, as, h1, h2⟩, herr⟩ | ⟨⟨nm, as, h1, h2⟩, herr⟩
      · by_cases ha : Accepts name args.length
        · obtain ⟨y, hy⟩ := (sympyDialect_arity name f hk xs).1 (by rw [hl]; exact ha)
          refine Or.inl ⟨fun nm as h => ?_, y, ?_⟩
          · rw [Native.subterms] at h
            rcases List.mem_cons.1 h with heq | h
            · injection heq with e1 e2; subst e1 e2; exact ⟨by rw [hk]; rfl, ha⟩
            · exact h1 nm as h
          · show (translateTuple sympyDialect args >>= f) = _
            rw [hxs]; exact hy
        · refine Or.inr (Or.inr ⟨⟨name, args, by simp [Native.subterms], by rw [hk]; rfl, ha⟩, ?_⟩)
          rw [hxs]
          exact (sympyDialect_arity name f hk xs).2 (by rw [hl]; exact ha)
      · exact Or.inr (Or.inl ⟨⟨nm, as, sub h1, h2⟩, by rw [herr]; rfl⟩)
      · exact Or.inr (Or.inr ⟨⟨nm, as, sub h1, h2⟩, by rw [herr]; rfl⟩)

theorem translateTuple_outcome : ∀ ns : List Native,
    ((∀ name args, Native.call name args ∈ Native.subtermsList ns → (PyDict.get? sympyDialect.knownFunctions name).isSome ∧ Accepts name args.length) ∧
      ∃ vs, translateTuple sympyDialect ns = .ok vs ∧ vs.length = ns.length) ∨
    ((∃ name args, Native.call name args ∈ Native.subtermsList ns ∧ PyDict.get? sympyDialect.knownFunctions name = none) ∧ translateTuple sympyDialect ns = .error .valueError) ∨
    ((∃ name args, Native.call name args ∈ Native.subtermsList ns ∧ (PyDict.get? sympyDialect.knownFunctions name).isSome ∧ ¬ Accepts name args.length) ∧
      translateTuple sympyDialect ns = .error .typeError)
  | [] => Or.inl ⟨by simp [Native.subtermsList], [], rfl, rfl⟩
  | n :: ns => by
    rw [translateTuple, Native.subtermsList]
    rcases translate_outcome n with ⟨h1, x, hx⟩ | ⟨⟨nm, as, h1, h2⟩, herr⟩ | ⟨⟨nm, as, h1, h2⟩, herr⟩
    · rcases translateTuple_outcome ns with ⟨h1', xs, hxs, hl⟩ | ⟨⟨nm, as, h1', h2⟩, herr⟩ | ⟨⟨nm, as, h1', h2⟩, herr⟩
      · refine Or.inl ⟨fun nm as h => ?_, x :: xs, by rw [hx, hxs]; rfl, by simp [hl]⟩
        rcases List.mem_append.1 h with h | h
        · exact h1 nm as h
        · exact h1' nm as h
      · exact Or.inr (Or.inl ⟨⟨nm, as, List.mem_append_right _ h1', h2⟩, by rw [hx, herr]; rfl⟩)
      · exact Or.inr (Or.inr ⟨⟨nm, as, List.mem_append_right _ h1', h2⟩, by rw [hx, herr]; rfl⟩)
    · exact Or.inr (Or.inl ⟨⟨nm, as, List.mem_append_left _ h1, h2⟩, by rw [herr]; rfl⟩)
    · exact Or.inr (Or.inr ⟨⟨nm, as, List.mem_append_left _ h1, h2⟩, by rw [herr]; rfl⟩)
end

/-- The functions of the sympy dialect. -/
def sympyNames : List String := ["add", "mul", "div", "sub", "pow", "cos", "sin", "exp", "sqrt", "tan"]

theorem known_names (name : String) : (PyDict.get? sympyDialect.knownFunctions name).isSome ↔ name ∈ sympyNames := by
  rw [sympyDialect_known]
  simp only [reserved, sympyNames, List.mem_cons, List.not_mem_nil, or_false]
  tauto

/-- Exactly the native expressions all of whose calls are of functions of the dialect with numbers of arguments these accept are translated to sympy. If all functions are
known and some call has another number of arguments, `TypeError` is raised; if all numbers of arguments are right and some function is unknown, `ValueError`. -/
theorem translate_sympy (n : Native) :
    ((∃ v, translate sympyDialect n = .ok v) ↔ ∀ name args, Native.call name args ∈ n.subterms → name ∈ sympyNames ∧ Accepts name args.length) ∧
    ((∀ name args, Native.call name args ∈ n.subterms → name ∈ sympyNames) → (∃ name args, Native.call name args ∈ n.subterms ∧ ¬ Accepts name args.length) →
      translate sympyDialect n = .error .typeError) ∧
    ((∀ name args, Native.call name args ∈ n.subterms → name ∈ sympyNames → Accepts name args.length) → (∃ name args, Native.call name args ∈ n.subterms ∧ name ∉ sympyNames) →
      translate sympyDialect n = .error .valueError) := by
  have unk : ∀ name, PyDict.get? sympyDialect.knownFunctions name = none → name ∉ sympyNames := fun name h hc => by
    have := (known_names name).2 hc
    rw [h] at this; cases this
  rcases translate_outcome n with ⟨h1, v, hv⟩ | ⟨⟨nm, as, h1, h2⟩, herr⟩ | ⟨⟨nm, as, h1, h2, h3⟩, herr⟩
  · have h1' : ∀ name args, Native.call name args ∈ n.subterms → name ∈ sympyNames ∧ Accepts name args.length := fun nm as h => ⟨(known_names nm).1 (h1 nm as h).1, (h1 nm as h).2⟩
    refine ⟨⟨fun _ => h1', fun _ => ⟨v, hv⟩⟩, fun _ ⟨nm, as, h, h'⟩ => absurd (h1' nm as h).2 h', fun _ ⟨nm, as, h, h'⟩ => absurd (h1' nm as h).1 h'⟩
  · refine ⟨⟨fun ⟨v, hv⟩ => (by rw [herr] at hv; cases hv), fun h => absurd (h nm as h1).1 (unk nm h2)⟩, fun h => absurd (h nm as h1) (unk nm h2), fun _ _ => herr⟩
  · refine ⟨⟨fun ⟨v, hv⟩ => (by rw [herr] at hv; cases hv), fun h => absurd (h nm as h1).2 h3⟩, fun _ _ => herr, fun h => absurd (h nm as h1 ((known_names nm).1 h2)) h3⟩

/-- `sub` of one argument and an empty sum raise `TypeError`. -/
example : translate sympyDialect (.call "cos" [.call "sub" [.sym "a"]]) = .error .typeError ∧ translate sympyDialect (.call "add" []) = .error .typeError :=
  ⟨(translate_sympy _).2.1 (by
      intro name args h
      simp [Native.subterms, Native.subtermsList] at h
      rcases h with ⟨rfl, _⟩ | ⟨rfl, _⟩ <;> decide) ⟨"sub", [.sym "a"], by simp [Native.subterms, Native.subtermsList], by simp [Accepts]⟩,
    (translate_sympy _).2.1 (by simp [Native.subterms, Native.subtermsList, sympyNames]) ⟨"add", [], by simp [Native.subterms, Native.subtermsList], by simp [Accepts]⟩⟩

/-- A round trip: `cos(a)·b − exp(a/2)`. -/
example : ∃ n v, fromSympy (.add [.mul [.fn "cos" [.sym "a"], .sym "b"], .mul [.int (-1), .fn "exp" [.mul [.rat (1 / 2), .sym "a"]]]]) = .ok n ∧
    translate sympyDialect n = .ok v ∧ ∀ ρ, v ρ = Complex.cos (ρ "a") * ρ "b" - Complex.exp (ρ "a" / 2) := by
  obtain ⟨n, v, h1, h2, h3⟩ := roundTrip_spec (.add [.mul [.fn "cos" [.sym "a"], .sym "b"], .mul [.int (-1), .fn "exp" [.mul [.rat (1 / 2), .sym "a"]]]])
    (by simp [Sym.subterms, Sym.subtermsList, Proper]) (by simp [Sym.subterms, Sym.subtermsList, SupportedClass]) (by
      intro name args h
      simp [Sym.subterms, Sym.subtermsList] at h
      rcases h with ⟨rfl, rfl⟩ | ⟨rfl, rfl⟩ <;> simp)
  refine ⟨n, v, h1, h2, fun ρ => ?_⟩
  let F₀ : String → List ℂ → ℂ := fun name args =>
    if name = "cos" then Complex.cos (args.getD 0 0) else if name = "sin" then Complex.sin (args.getD 0 0)
    else if name = "exp" then Complex.exp (args.getD 0 0) else Complex.tan (args.getD 0 0)
  have hF₀ : Standard F₀ := ⟨fun z => by simp [F₀], fun z => by simp [F₀], fun z => by simp [F₀], fun z => by simp [F₀]⟩
  rw [h3 F₀ hF₀ ρ]
  simp only [Sym.eval, Sym.evalList, F₀]
  simp
  ring_nf

/-- A refused function: `g(a)`. -/
example : translate sympyDialect (.call "add" [.sym "b", .call "g" [.sym "a"]]) = .error .valueError := by
  refine roundTrip_unknown (.add [.sym "b", .fn "g" [.sym "a"]]) (by simp [Sym.subterms, Sym.subtermsList, Proper]) _ ?_ ?_ "g" [.sym "a"] ?_ (by decide)
  · simp [fromSympy, fromTuple, bind, Except.bind]
  · intro name args h
    simp [Sym.subterms, Sym.subtermsList] at h
    obtain ⟨rfl, rfl⟩ := h
    exact ⟨by decide, by simp⟩
  · simp [Sym.subterms, Sym.subtermsList]

end ZQ.Symbolic
