import Verif.Model.OpHeap
import Verif.Props.SymOp

/-!
# C106: operators as mutable objects
-/

namespace ZQ.OpHeap

open ZQ ZQ.Op

variable {A : Type} [DecidableEq A]

/-! ### Specification: programs on values -/

/-- Specification: variables hold values. -/
abbrev Store (A : Type) := String → Option (Terms A)

/-- Specification: `a op b` on values. -/
noncomputable def pureOp (S : OpClass A) (op : BinOp) (a b : Terms A) : Except Exc (Terms A) :=
  match op with
  | .add => .ok (Op.add a b)
  | .sub => .ok (Op.sub a b)
  | .mul => .ok (Op.mul S a b)
  | .div => .error .typeError

/-- Specification: `a op c` for a number `c`. -/
noncomputable def pureNum (op : BinOp) (a : Terms A) (c : ℂ) : Except Exc (Terms A) :=
  match op with
  | .add => .ok (addScalar a c)
  | .sub => .ok (addScalar a (-c))
  | .mul => .ok (smul a c)
  | .div => if c = 0 then .error .zeroDivision else .ok (smul a (1 / c))

/-- Specification: `c op a` for a number `c`. -/
noncomputable def pureRight (op : BinOp) (c : ℂ) (a : Terms A) : Except Exc (Terms A) :=
  match op with
  | .add => .ok (addScalar a c)
  | .sub => .ok (addScalar (smul a (-1)) c)
  | .mul => .ok (smul a c)
  | .div => .error .typeError

/-- Specification: the value of an expression. -/
noncomputable def pureExpr (S : OpClass A) (e : Expr A) (σ : Store A) : Except Exc (Terms A) :=
  match e with
  | .new t c => .ok (ofTerm S t c)
  | .left op x y =>
    match σ x, σ y with
    | some a, some b => pureOp S op a b
    | _, _ => .error .nameError
  | .leftNum op x c =>
    match σ x with
    | some a => pureNum op a c
    | none => .error .nameError
  | .rightNum op c x =>
    match σ x with
    | some a => pureRight op c a
    | none => .error .nameError
  | .neg x =>
    match σ x with
    | some a => .ok (Op.neg a)
    | none => .error .nameError
  | .pow x n =>
    match σ x with
    | some a => if n < 0 then .error .valueError else .ok (Op.pow S a n.toNat)
    | none => .error .nameError

/-- Specification: store the result in `x`, or leave everything as it is and report the exception. -/
def pureSet (x : String) (r : Except Exc (Terms A)) (σ : Store A) : Option Exc × Store A :=
  match r with
  | .error e => (some e, σ)
  | .ok a => (none, Function.update σ x (some a))

/-- Specification: a statement on values; `x op= y` is `x = x op y`. -/
noncomputable def pureStmt (S : OpClass A) (st : Stmt A) (σ : Store A) : Option Exc × Store A :=
  match st with
  | .assign x e => pureSet x (pureExpr S e σ) σ
  | .aug op x y => pureSet x (pureExpr S (.left op x y) σ) σ
  | .augNum op x c => pureSet x (pureExpr S (.leftNum op x c) σ) σ
  | _ => (none, σ)

/-- Specification: a program on values. -/
noncomputable def pureRun (S : OpClass A) : List (Stmt A) → Store A → List (Option Exc) × Store A
  | [], σ => ([], σ)
  | st :: rest, σ => ((pureStmt S st σ).1 :: (pureRun S rest (pureStmt S st σ).2).1, (pureRun S rest (pureStmt S st σ).2).2)

/-- Specification: assignments of expressions and updates in place, except `x = y`, `x += x` and `x -= x`. -/
def Plain : Stmt A → Prop
  | .assign _ _ => True
  | .share _ _ => False
  | .aug op x y => x = y → op = .mul ∨ op = .div
  | .augNum _ _ _ => True
  | .iter _ => False
  | .next _ _ => False

/-! ### Frames -/

theorem aug_next (S : OpClass A) (op : BinOp) (h : Heap A) (r : ℕ) (v : Val) : (aug S op h r v).2.next = h.next := by
  unfold aug
  cases op <;> cases v <;> dsimp only <;> (try split_ifs) <;> rfl

/-- C106. An update in place changes at most the object it is applied to. -/
theorem aug_frame (S : OpClass A) (op : BinOp) (h : Heap A) (r : ℕ) (v : Val) {q : ℕ} (hq : q ≠ r) : (aug S op h r v).2.mem q = h.mem q := by
  unfold aug put
  cases op <;> cases v <;> dsimp only <;> (try split_ifs) <;> simp [Function.update_of_ne hq]

theorem copyAug_frame (S : OpClass A) (op : BinOp) (h : Heap A) (r : ℕ) (v : Val) :
    (∀ q < h.next, (copyAug S op h r v).2.mem q = h.mem q) ∧ h.next ≤ (copyAug S op h r v).2.next ∧
      ∀ p, (copyAug S op h r v).1 = .ok p → p = h.next ∧ p < (copyAug S op h r v).2.next := by
  unfold copyAug
  cases deepcopy (h.mem r) with
  | error e => exact ⟨fun _ _ => rfl, le_refl _, fun p hp => nomatch hp⟩
  | ok o =>
    have h1 := aug_next S op (alloc h o) h.next v
    have h2 := fun q (hq : q < h.next) => aug_frame S op (alloc h o) h.next v (Nat.ne_of_lt hq)
    dsimp only
    cases ha : aug S op (alloc h o) h.next v with
    | mk e h' =>
      rw [ha] at h1 h2
      dsimp only at h1 h2
      have h3 : ∀ q < h.next, h'.mem q = h.mem q := fun q hq => by rw [h2 q hq]; simp [alloc, Function.update_of_ne (Nat.ne_of_lt hq)]
      have h4 : h.next < h'.next := by rw [h1]; simp [alloc]
      cases e with
      | some e => exact ⟨h3, h4.le, fun p hp => nomatch hp⟩
      | none => exact ⟨h3, h4.le, fun p hp => by cases hp; exact ⟨rfl, h4⟩⟩

theorem binLeft_frame (S : OpClass A) (op : BinOp) (h : Heap A) (r : ℕ) (v : Val) :
    (∀ q < h.next, (binLeft S op h r v).2.mem q = h.mem q) ∧ h.next ≤ (binLeft S op h r v).2.next ∧
      ∀ p, (binLeft S op h r v).1 = .ok p → h.next ≤ p ∧ p < (binLeft S op h r v).2.next := by
  have key := fun (op : BinOp) v => copyAug_frame S op h r v
  have key' : ∀ (op : BinOp) v, (∀ q < h.next, (copyAug S op h r v).2.mem q = h.mem q) ∧ h.next ≤ (copyAug S op h r v).2.next ∧
      ∀ p, (copyAug S op h r v).1 = .ok p → h.next ≤ p ∧ p < (copyAug S op h r v).2.next :=
    fun op v => ⟨(key op v).1, (key op v).2.1, fun p hp => ⟨((key op v).2.2 p hp).1.ge, ((key op v).2.2 p hp).2⟩⟩
  cases op with
  | add => exact key' .add v
  | sub => exact key' .sub v
  | mul => exact key' .mul v
  | div =>
    cases v with
    | ref q => exact ⟨fun _ _ => rfl, le_refl _, fun p hp => nomatch hp⟩
    | num c =>
      unfold binLeft
      dsimp only
      by_cases hc : c = 0
      · rw [if_pos hc]; exact ⟨fun _ _ => rfl, le_refl _, fun p hp => nomatch hp⟩
      · rw [if_neg hc]; exact key' .mul _

theorem binRight_frame (S : OpClass A) (op : BinOp) (h : Heap A) (c : ℂ) (r : ℕ) :
    (∀ q < h.next, (binRight S op h c r).2.mem q = h.mem q) ∧ h.next ≤ (binRight S op h c r).2.next ∧
      ∀ p, (binRight S op h c r).1 = .ok p → h.next ≤ p ∧ p < (binRight S op h c r).2.next := by
  have key : ∀ (op : BinOp) v, (∀ q < h.next, (copyAug S op h r v).2.mem q = h.mem q) ∧ h.next ≤ (copyAug S op h r v).2.next ∧
      ∀ p, (copyAug S op h r v).1 = .ok p → h.next ≤ p ∧ p < (copyAug S op h r v).2.next :=
    fun op v => ⟨(copyAug_frame S op h r v).1, (copyAug_frame S op h r v).2.1, fun p hp => ⟨((copyAug_frame S op h r v).2.2 p hp).1.ge, ((copyAug_frame S op h r v).2.2 p hp).2⟩⟩
  cases op with
  | add => exact key .add _
  | mul => exact key .mul _
  | div => exact ⟨fun _ _ => rfl, le_refl _, fun p hp => nomatch hp⟩
  | sub =>
    obtain ⟨a1, a2, a3⟩ := key .mul (.num (-1))
    unfold binRight
    dsimp only
    cases ha : copyAug S .mul h r (.num (-1)) with
    | mk e h' =>
      rw [ha] at a1 a2 a3
      dsimp only at a1 a2 a3
      cases e with
      | error e => exact ⟨a1, a2, fun p hp => nomatch hp⟩
      | ok r' =>
        obtain ⟨b1, b2, b3⟩ := copyAug_frame S .add h' r' (.num c)
        refine ⟨fun q hq => (b1 q (lt_of_lt_of_le hq a2)).trans (a1 q hq), a2.trans b2, fun p hp => ?_⟩
        obtain ⟨c1, c2⟩ := b3 p hp
        exact ⟨c1 ▸ a2, c2⟩

theorem powLoop_frame (S : OpClass A) (acc r : ℕ) : ∀ (n : ℕ) (h : Heap A), (∀ q, q ≠ acc → (powLoop S h acc r n).mem q = h.mem q) ∧ (powLoop S h acc r n).next = h.next := by
  intro n
  induction n with
  | zero => exact fun h => ⟨fun _ _ => rfl, rfl⟩
  | succ n ih =>
    intro h
    obtain ⟨a, b⟩ := ih (aug S .mul h acc (.ref r)).2
    exact ⟨fun q hq => (a q hq).trans (aug_frame S .mul h acc _ hq), b.trans (aug_next S _ _ _ _)⟩

/-- C106. Evaluating an expression changes no operator that exists, whatever the expression, the aliases and the iterators; its value is a new object. -/
theorem eval_frame (S : OpClass A) (e : Expr A) (s : State A) :
    (∀ q < s.heap.next, (eval S e s).2.mem q = s.heap.mem q) ∧ s.heap.next ≤ (eval S e s).2.next ∧
      ∀ p, (eval S e s).1 = .ok p → s.heap.next ≤ p ∧ p < (eval S e s).2.next := by
  have triv : ∀ err : Exc, (∀ q < s.heap.next, ((.error err, s.heap) : Except Exc ℕ × Heap A).2.mem q = s.heap.mem q) ∧ s.heap.next ≤ ((.error err, s.heap) : Except Exc ℕ × Heap A).2.next ∧
      ∀ p, ((.error err, s.heap) : Except Exc ℕ × Heap A).1 = .ok p → s.heap.next ≤ p ∧ p < ((.error err, s.heap) : Except Exc ℕ × Heap A).2.next :=
    fun err => ⟨fun _ _ => rfl, le_refl _, fun p hp => nomatch hp⟩
  cases e with
  | new t c =>
    refine ⟨fun q hq => ?_, ?_, fun p hp => ?_⟩
    · simp [eval, alloc, Function.update_of_ne (Nat.ne_of_lt hq)]
    · simp [eval, alloc]
    · cases hp; simp [eval, alloc]
  | left op x y =>
    unfold eval
    dsimp only
    cases s.vars x with
    | none => exact triv _
    | some r =>
      cases s.vars y with
      | none => exact triv _
      | some q => exact binLeft_frame S op s.heap r (.ref q)
  | leftNum op x c =>
    unfold eval
    dsimp only
    cases s.vars x with
    | none => exact triv _
    | some r => exact binLeft_frame S op s.heap r (.num c)
  | rightNum op c x =>
    unfold eval
    dsimp only
    cases s.vars x with
    | none => exact triv _
    | some r => exact binRight_frame S op s.heap c r
  | neg x =>
    unfold eval
    dsimp only
    cases s.vars x with
    | none => exact triv _
    | some r => exact binRight_frame S .mul s.heap (-1) r
  | pow x n =>
    unfold eval
    dsimp only
    cases s.vars x with
    | none => exact triv _
    | some r =>
      dsimp only
      by_cases hn : n < 0
      · rw [if_pos hn]; exact triv _
      · rw [if_neg hn]
        obtain ⟨a, b⟩ := powLoop_frame S s.heap.next r n.toNat (alloc s.heap ⟨ofTerm S [] 1, .missing⟩)
        refine ⟨fun q hq => ?_, ?_, fun p hp => ?_⟩
        · rw [a q (Nat.ne_of_lt hq)]; simp [alloc, Function.update_of_ne (Nat.ne_of_lt hq)]
        · rw [b]; simp [alloc]
        · cases hp; rw [b]; simp [alloc]

/-! ### Values -/

theorem aug_value (S : OpClass A) (op : BinOp) (h : Heap A) (r q : ℕ) (hi : (h.mem r).iter = .missing) (hq : q = r → op = .mul ∨ op = .div) :
    (match pureOp S op (h.mem r).terms (h.mem q).terms with
      | .error e => aug S op h r (.ref q) = (some e, h)
      | .ok a => (aug S op h r (.ref q)).1 = none ∧ (aug S op h r (.ref q)).2.mem r = ⟨a, .missing⟩) := by
  cases op with
  | add =>
    have : q ≠ r := fun e => by rcases hq e with h | h <;> cases h
    simp [pureOp, aug, put, this, hi]
  | sub =>
    have : q ≠ r := fun e => by rcases hq e with h | h <;> cases h
    simp [pureOp, aug, put, this, hi]
  | mul => simp [pureOp, aug, put, rebind, hi]
  | div => rfl

theorem augNum_value (S : OpClass A) (op : BinOp) (h : Heap A) (r : ℕ) (c : ℂ) (hi : (h.mem r).iter = .missing) :
    (match pureNum op (h.mem r).terms c with
      | .error e => aug S op h r (.num c) = (some e, h)
      | .ok a => (aug S op h r (.num c)).1 = none ∧ (aug S op h r (.num c)).2.mem r = ⟨a, .missing⟩) := by
  cases op with
  | add => simp [pureNum, aug, put, hi]
  | sub => simp [pureNum, aug, put, hi]
  | mul => simp [pureNum, aug, put, hi]
  | div =>
    by_cases hc : c = 0
    · simp [pureNum, aug, hc]
    · simp [pureNum, aug, put, hc, hi]

/-- A result: the pure value in a new object, or the pure exception. -/
def Gives (h : Heap A) (a : Except Exc ℕ × Heap A) (v : Except Exc (Terms A)) : Prop :=
  match v with
  | .error e => a.1 = .error e
  | .ok t => ∃ p, a.1 = .ok p ∧ h.next ≤ p ∧ p < a.2.next ∧ a.2.mem p = ⟨t, .missing⟩

theorem copyAug_value (S : OpClass A) (op : BinOp) (h : Heap A) (r q : ℕ) (hr : r < h.next) (hq : q < h.next) (hi : (h.mem r).iter = .missing) (hd : op ≠ .div) :
    Gives h (copyAug S op h r (.ref q)) (pureOp S op (h.mem r).terms (h.mem q).terms) := by
  have hdc : deepcopy (h.mem r) = .ok ⟨(h.mem r).terms, .missing⟩ := by unfold deepcopy; rw [hi]
  have hm : (alloc h ⟨(h.mem r).terms, .missing⟩).mem h.next = ⟨(h.mem r).terms, .missing⟩ := by simp [alloc]
  have hm2 : (alloc h ⟨(h.mem r).terms, .missing⟩).mem q = h.mem q := by simp [alloc, Function.update_of_ne (Nat.ne_of_lt hq)]
  have ha := aug_value S op (alloc h ⟨(h.mem r).terms, .missing⟩) h.next q (by rw [hm]) (fun e => absurd e (Nat.ne_of_lt hq))
  have hn := aug_next S op (alloc h ⟨(h.mem r).terms, .missing⟩) h.next (.ref q)
  rw [hm, hm2] at ha
  unfold copyAug
  rw [hdc]
  dsimp only
  cases hp : pureOp S op (h.mem r).terms (h.mem q).terms with
  | error e => cases op <;> simp_all [pureOp]
  | ok t =>
    rw [hp] at ha
    dsimp only at ha
    obtain ⟨a1, a2⟩ := ha
    cases hb : aug S op (alloc h ⟨(h.mem r).terms, .missing⟩) h.next (.ref q) with
    | mk e h' =>
      rw [hb] at a1 a2 hn
      dsimp only at a1 a2 hn
      subst a1
      exact ⟨h.next, rfl, le_refl _, by rw [hn]; simp [alloc], a2⟩

theorem copyAugNum_value (S : OpClass A) (op : BinOp) (h : Heap A) (r : ℕ) (c : ℂ) (hi : (h.mem r).iter = .missing) (hd : op ≠ .div) :
    Gives h (copyAug S op h r (.num c)) (pureNum op (h.mem r).terms c) := by
  have hdc : deepcopy (h.mem r) = .ok ⟨(h.mem r).terms, .missing⟩ := by unfold deepcopy; rw [hi]
  have hm : (alloc h ⟨(h.mem r).terms, .missing⟩).mem h.next = ⟨(h.mem r).terms, .missing⟩ := by simp [alloc]
  have ha := augNum_value S op (alloc h ⟨(h.mem r).terms, .missing⟩) h.next c (by rw [hm])
  have hn := aug_next S op (alloc h ⟨(h.mem r).terms, .missing⟩) h.next (.num c)
  rw [hm] at ha
  unfold copyAug
  rw [hdc]
  dsimp only
  cases hp : pureNum op (h.mem r).terms c with
  | error e => cases op <;> simp_all [pureNum]
  | ok t =>
    rw [hp] at ha
    dsimp only at ha
    obtain ⟨a1, a2⟩ := ha
    cases hb : aug S op (alloc h ⟨(h.mem r).terms, .missing⟩) h.next (.num c) with
    | mk e h' =>
      rw [hb] at a1 a2 hn
      dsimp only at a1 a2 hn
      subst a1
      exact ⟨h.next, rfl, le_refl _, by rw [hn]; simp [alloc], a2⟩

theorem binLeft_value (S : OpClass A) (op : BinOp) (h : Heap A) (r q : ℕ) (hr : r < h.next) (hq : q < h.next) (hi : (h.mem r).iter = .missing) :
    Gives h (binLeft S op h r (.ref q)) (pureOp S op (h.mem r).terms (h.mem q).terms) := by
  cases op with
  | add => exact copyAug_value S .add h r q hr hq hi (by simp)
  | sub => exact copyAug_value S .sub h r q hr hq hi (by simp)
  | mul => exact copyAug_value S .mul h r q hr hq hi (by simp)
  | div => rfl

theorem binLeftNum_value (S : OpClass A) (op : BinOp) (h : Heap A) (r : ℕ) (c : ℂ) (hi : (h.mem r).iter = .missing) :
    Gives h (binLeft S op h r (.num c)) (pureNum op (h.mem r).terms c) := by
  cases op with
  | add => exact copyAugNum_value S .add h r c hi (by simp)
  | sub => exact copyAugNum_value S .sub h r c hi (by simp)
  | mul => exact copyAugNum_value S .mul h r c hi (by simp)
  | div =>
    unfold binLeft pureNum
    dsimp only
    by_cases hc : c = 0
    · rw [if_pos hc, if_pos hc]; rfl
    · rw [if_neg hc, if_neg hc]; exact copyAugNum_value S .mul h r (1 / c) hi (by simp)

theorem binRight_value (S : OpClass A) (op : BinOp) (h : Heap A) (c : ℂ) (r : ℕ) (hi : (h.mem r).iter = .missing) :
    Gives h (binRight S op h c r) (pureRight op c (h.mem r).terms) := by
  cases op with
  | add => exact copyAugNum_value S .add h r c hi (by simp)
  | mul => exact copyAugNum_value S .mul h r c hi (by simp)
  | div => rfl
  | sub =>
    obtain ⟨p, p1, p2, p3, p4⟩ := copyAugNum_value S .mul h r (-1) hi (by simp)
    unfold binRight
    dsimp only
    cases ha : copyAug S .mul h r (.num (-1)) with
    | mk e h' =>
      rw [ha] at p1 p3 p4
      dsimp only at p1 p3 p4
      subst p1
      obtain ⟨q, q1, q2, q3, q4⟩ := copyAugNum_value S .add h' p c (by rw [p4]) (by simp)
      rw [p4] at q4
      exact ⟨q, q1, p2.trans (p3.le.trans q2), q3, q4⟩

theorem powLoop_value (S : OpClass A) (acc r : ℕ) (hr : r ≠ acc) : ∀ (n : ℕ) (h : Heap A), (h.mem acc).iter = .missing →
    (powLoop S h acc r n).mem acc = ⟨(List.range n).foldl (fun t _ => Op.mul S t (h.mem r).terms) (h.mem acc).terms, .missing⟩ := by
  intro n
  induction n with
  | zero => intro h hi; show h.mem acc = _; rw [← hi]; rfl
  | succ n ih =>
    intro h hi
    have h1 := aug_value S .mul h acc r hi (fun _ => .inl rfl)
    dsimp only [pureOp] at h1
    have h2 := aug_frame S .mul h acc (.ref r) hr
    rw [powLoop, ih _ (by rw [h1.2]), h1.2, h2, List.range_succ_eq_map, List.foldl_cons, List.foldl_map]

/-- The state has the values `σ`: the variables' objects are apart from each other and were never iterated over. -/
structure Represents (s : State A) (σ : Store A) : Prop where
  value : ∀ x, σ x = (s.vars x).map fun r => (s.heap.mem r).terms
  bound : ∀ x r, s.vars x = some r → r < s.heap.next
  fresh : ∀ x r, s.vars x = some r → (s.heap.mem r).iter = .missing
  apart : ∀ x y r, s.vars x = some r → s.vars y = some r → x = y

theorem eval_value (S : OpClass A) (e : Expr A) {s : State A} {σ : Store A} (h : Represents s σ) : Gives s.heap (eval S e s) (pureExpr S e σ) := by
  cases e with
  | new t c => exact ⟨s.heap.next, rfl, le_refl _, by simp [eval, alloc], by simp [eval, alloc]⟩
  | left op x y =>
    unfold eval pureExpr
    dsimp only
    rw [h.value x, h.value y]
    cases hx : s.vars x with
    | none => rfl
    | some r =>
      cases hy : s.vars y with
      | none => rfl
      | some q => exact binLeft_value S op s.heap r q (h.bound x r hx) (h.bound y q hy) (h.fresh x r hx)
  | leftNum op x c =>
    unfold eval pureExpr
    dsimp only
    rw [h.value x]
    cases hx : s.vars x with
    | none => rfl
    | some r => exact binLeftNum_value S op s.heap r c (h.fresh x r hx)
  | rightNum op c x =>
    unfold eval pureExpr
    dsimp only
    rw [h.value x]
    cases hx : s.vars x with
    | none => rfl
    | some r => exact binRight_value S op s.heap c r (h.fresh x r hx)
  | neg x =>
    unfold eval pureExpr
    dsimp only
    rw [h.value x]
    cases hx : s.vars x with
    | none => rfl
    | some r => exact binRight_value S .mul s.heap (-1) r (h.fresh x r hx)
  | pow x n =>
    unfold eval pureExpr
    dsimp only
    rw [h.value x]
    cases hx : s.vars x with
    | none => rfl
    | some r =>
      have hr := h.bound x r hx
      simp only [Option.map_some]
      by_cases hn : n < 0
      · rw [if_pos hn, if_pos hn]; rfl
      · rw [if_neg hn, if_neg hn]
        have h1 := powLoop_value S s.heap.next r (Nat.ne_of_lt hr) n.toNat (alloc s.heap ⟨ofTerm S [] 1, .missing⟩) (by simp [alloc])
        refine ⟨s.heap.next, rfl, le_refl _, ?_, ?_⟩
        · rw [(powLoop_frame S s.heap.next r n.toNat _).2]; simp [alloc]
        · rw [h1]
          simp [alloc, Function.update_of_ne (Nat.ne_of_lt hr), Op.pow]

theorem represents_aug {s : State A} {σ : Store A} (h : Represents s σ) {x : String} {r : ℕ} (hx : s.vars x = some r) {h' : Heap A} {t : Terms A} (hn : h'.next = s.heap.next)
    (hf : ∀ q, q ≠ r → h'.mem q = s.heap.mem q) (hr : h'.mem r = ⟨t, .missing⟩) : Represents ⟨s.vars, h'⟩ (Function.update σ x (some t)) := by
  refine ⟨fun y => ?_, fun y q hq => by rw [hn]; exact h.bound y q hq, fun y q hq => ?_, h.apart⟩
  · by_cases hy : y = x
    · subst hy; simp [hx, hr]
    · rw [Function.update_of_ne hy, h.value y]
      cases hv : s.vars y with
      | none => rfl
      | some q =>
        have : q ≠ r := fun e => hy (h.apart y x r (e ▸ hv) hx)
        simp [hf q this]
  · by_cases e : q = r
    · subst e; show (h'.mem q).iter = _; rw [hr]
    · show (h'.mem q).iter = _; rw [hf q e]; exact h.fresh y q hq

/-- One statement on objects does what it does on values. -/
theorem exec_value (S : OpClass A) (st : Stmt A) (hp : Plain st) {s : State A} {σ : Store A} (h : Represents s σ) :
    (exec S st s).1 = (pureStmt S st σ).1 ∧ Represents (exec S st s).2 (pureStmt S st σ).2 := by
  cases st with
  | assign x e =>
    have h1 := eval_value S e h
    obtain ⟨f1, f2, -⟩ := eval_frame S e s
    unfold exec pureStmt
    dsimp only
    cases hv : pureExpr S e σ with
    | error err =>
      rw [hv] at h1
      cases he : eval S e s with
      | mk a h' =>
        rw [he] at h1 f1 f2
        dsimp only [Gives] at h1 f1 f2
        subst h1
        refine ⟨rfl, fun y => ?_, fun y q hq => lt_of_lt_of_le (h.bound y q hq) f2, fun y q hq => ?_, h.apart⟩
        · show σ y = _
          rw [h.value y]
          cases hvy : s.vars y with
          | none => rfl
          | some q => simp [f1 q (h.bound y q hvy)]
        · show (h'.mem q).iter = _; rw [f1 q (h.bound y q hq)]; exact h.fresh y q hq
    | ok t =>
      rw [hv] at h1
      obtain ⟨p, p1, p2, p3, p4⟩ := h1
      cases he : eval S e s with
      | mk a h' =>
        rw [he] at p1 p3 p4 f1 f2
        dsimp only at p1 p3 p4 f1 f2
        subst p1
        refine ⟨rfl, fun y => ?_, fun y q hq => ?_, fun y q hq => ?_, fun y z q hy hz => ?_⟩
        · show Function.update σ x (some t) y = (Function.update s.vars x (some p) y).map _
          by_cases hy : y = x
          · subst hy; simp [p4]
          · rw [Function.update_of_ne hy, Function.update_of_ne hy, h.value y]
            cases hvy : s.vars y with
            | none => rfl
            | some q => simp [f1 q (h.bound y q hvy)]
        · change Function.update s.vars x (some p) y = some q at hq
          by_cases hy : y = x
          · subst hy; rw [Function.update_self] at hq; cases hq; exact p3
          · rw [Function.update_of_ne hy] at hq; exact lt_of_lt_of_le (h.bound y q hq) f2
        · change Function.update s.vars x (some p) y = some q at hq
          show (h'.mem q).iter = _
          by_cases hy : y = x
          · subst hy; rw [Function.update_self] at hq; cases hq; rw [p4]
          · rw [Function.update_of_ne hy] at hq; rw [f1 q (h.bound y q hq)]; exact h.fresh y q hq
        · change Function.update s.vars x (some p) y = some q at hy
          change Function.update s.vars x (some p) z = some q at hz
          by_cases hyx : y = x
          · by_cases hzx : z = x
            · rw [hyx, hzx]
            · subst hyx
              rw [Function.update_self] at hy
              rw [Function.update_of_ne hzx] at hz
              cases hy
              exact absurd (h.bound z p hz) (by omega)
          · by_cases hzx : z = x
            · subst hzx
              rw [Function.update_self] at hz
              rw [Function.update_of_ne hyx] at hy
              cases hz
              exact absurd (h.bound y p hy) (by omega)
            · rw [Function.update_of_ne hyx] at hy
              rw [Function.update_of_ne hzx] at hz
              exact h.apart y z q hy hz
  | share x y => exact hp.elim
  | iter x => exact hp.elim
  | next y x => exact hp.elim
  | aug op x y =>
    unfold exec pureStmt pureExpr
    dsimp only
    rw [h.value x, h.value y]
    cases hx : s.vars x with
    | none => exact ⟨rfl, h⟩
    | some r =>
      cases hy : s.vars y with
      | none => exact ⟨rfl, h⟩
      | some q =>
        have h1 := aug_value S op s.heap r q (h.fresh x r hx) (fun e => hp (h.apart x y r hx (e ▸ hy)))
        simp only [Option.map_some]
        cases hv : pureOp S op (s.heap.mem r).terms (s.heap.mem q).terms with
        | error e => rw [hv] at h1; dsimp only at h1; rw [h1]; exact ⟨rfl, h⟩
        | ok t =>
          rw [hv] at h1
          exact ⟨h1.1, represents_aug h hx (aug_next S op s.heap r _) (fun q hq => aug_frame S op s.heap r _ hq) h1.2⟩
  | augNum op x c =>
    unfold exec pureStmt pureExpr
    dsimp only
    rw [h.value x]
    cases hx : s.vars x with
    | none => exact ⟨rfl, h⟩
    | some r =>
      have h1 := augNum_value S op s.heap r c (h.fresh x r hx)
      simp only [Option.map_some]
      cases hv : pureNum op (s.heap.mem r).terms c with
      | error e => rw [hv] at h1; dsimp only at h1; rw [h1]; exact ⟨rfl, h⟩
      | ok t =>
        rw [hv] at h1
        exact ⟨h1.1, represents_aug h hx (aug_next S op s.heap r _) (fun q hq => aug_frame S op s.heap r _ hq) h1.2⟩

/-- C106. Operators behave like values in every program that assigns expressions and updates variables in place, but neither makes aliases (`x = y`) nor adds or subtracts an operator to or
from itself in place: each statement raises the exception, and each variable has the value, of the program in which variables hold values and `x op= y` means `x = x op y`. -/
theorem value_semantics (S : OpClass A) (prog : List (Stmt A)) (hp : ∀ st ∈ prog, Plain st) {s : State A} {σ : Store A} (h : Represents s σ) :
    (run S prog s).1 = (pureRun S prog σ).1 ∧ ∀ x, ((run S prog s).2.vars x).map (fun r => ((run S prog s).2.heap.mem r).terms) = (pureRun S prog σ).2 x := by
  induction prog generalizing s σ with
  | nil => exact ⟨rfl, fun x => (h.value x).symm⟩
  | cons st prog ih =>
    obtain ⟨a, b⟩ := exec_value S st (hp st (by simp)) h
    obtain ⟨c, d⟩ := ih (fun st' hst => hp st' (List.mem_cons_of_mem _ hst)) b
    refine ⟨?_, d⟩
    show (exec S st s).1 :: _ = (pureStmt S st σ).1 :: _
    rw [a, c]

/-- The state before a program. -/
theorem represents_empty (h : Heap A) : Represents (A := A) ⟨fun _ => none, h⟩ fun _ => none := by
  constructor <;> intros <;> first | rfl | (rename_i hv; cases hv) | (rename_i hv _; cases hv)

/-! ### Aliases -/

/-- C106. After `x = y` both variables are the same object, and every later update of it in place is seen through both. -/
theorem alias_shared (S : OpClass A) (s : State A) (x y : String) (r : ℕ) (hy : s.vars y = some r) (op : BinOp) (c : ℂ) (hc : op = .div → c ≠ 0) :
    let s' := (exec S (.augNum op x c) (exec S (.share x y) s).2).2
    s'.vars x = some r ∧ s'.vars y = some r ∧
      .ok (s'.heap.mem r).terms = pureNum op (s.heap.mem r).terms c := by
  have h1 : (exec S (.share x y) s).2 = ⟨Function.update s.vars x (some r), s.heap⟩ := by unfold exec; dsimp only; rw [hy]
  have h2 : (Function.update s.vars x (some r)) y = some r := by
    by_cases e : y = x
    · subst e; simp
    · rw [Function.update_of_ne e, hy]
  dsimp only
  rw [h1]
  unfold exec
  simp only [Function.update_self]
  refine ⟨trivial, h2, ?_⟩
  cases op with
  | add => simp [aug, put, pureNum]
  | sub => simp [aug, put, pureNum]
  | mul => simp [aug, put, pureNum]
  | div => simp [aug, put, pureNum, hc rfl]

/-- C106, counterexample. `x -= x` raises `RuntimeError` for every non-zero operator, and has removed its first term. -/
theorem isub_self_counterexample (S : OpClass A) (s : State A) (x : String) (r : ℕ) (hx : s.vars x = some r) (t : Term A) (c : ℂ) (rest : Terms A)
    (ht : (s.heap.mem r).terms = (t, c) :: rest) :
    (exec S (.aug .sub x x) s).1 = some .runtimeError ∧ ((exec S (.aug .sub x x) s).2.heap.mem r).terms = rest := by
  have hs : selfLoop (-1) (PyDict.keys ((t, c) :: rest)) ((t, c) :: rest) = (some .runtimeError, rest) := by
    have h0 : IsSmall (coeff ((t, c) :: rest) t + -1 * coeff ((t, c) :: rest) t) eqTol := by
      rw [show coeff ((t, c) :: rest) t + -1 * coeff ((t, c) :: rest) t = 0 by ring]
      simp [IsSmall, eqTol]
    rw [PyDict.keys, List.map_cons, selfLoop]
    simp only
    rw [if_pos h0]
    simp [PyDict.set, PyDict.del]
  have he : exec S (.aug .sub x x) s = (some .runtimeError, ⟨s.vars, put s.heap r { s.heap.mem r with terms := rest }⟩) := by
    unfold exec
    dsimp only
    rw [hx]
    simp only [aug, if_true, ht, hs]
  rw [he]
  exact ⟨rfl, by simp [put]⟩

/-! ### Iteration -/

theorem forLoop_spec {β : Type} (S : OpClass A) (f : β → Terms A → β) (ts : Terms A) : ∀ (m pos k : ℕ) (b : β), pos + m = ts.length → m < k →
    forLoop S (fun t (s : β × Obj A) => (f s.1 t, s.2)) k (b, ⟨ts, .active pos ts.length⟩) =
      some ((((ts.drop pos).map fun kv => ofTerm S kv.1 kv.2)).foldl f b, ⟨ts, .done⟩) := by
  intro m
  induction m with
  | zero =>
    intro pos k b hpos hk
    obtain ⟨k, rfl⟩ : ∃ k', k = k' + 1 := ⟨k - 1, by omega⟩
    rw [forLoop]
    simp [advance, List.getElem?_eq_none (show ts.length ≤ pos by omega), List.drop_eq_nil_of_le (show ts.length ≤ pos by omega)]
  | succ m ih =>
    intro pos k b hpos hk
    obtain ⟨k, rfl⟩ : ∃ k', k = k' + 1 := ⟨k - 1, by omega⟩
    have hlt : pos < ts.length := by omega
    rw [forLoop]
    simp only [advance, if_true, List.getElem?_eq_getElem hlt]
    rw [ih (pos + 1) k _ (by omega) (by omega), List.drop_eq_getElem_cons hlt]
    rfl

/-- C106. A loop over an operator that neither changes it nor iterates over it visits every term once, in order, whatever was iterated before. -/
theorem loop_spec {β : Type} (S : OpClass A) (f : β → Terms A → β) (b : β) (o : Obj A) (k : ℕ) (hk : o.terms.length < k) :
    pyFor S k (fun t (s : β × Obj A) => (f s.1 t, s.2)) (b, o) = some ((getOperators S o.terms).foldl f b, ⟨o.terms, .done⟩) := by
  have := forLoop_spec S f o.terms o.terms.length 0 k b (by simp) hk
  rw [List.drop_zero] at this
  exact this

/-- C106, counterexample. Two nested loops over the same operator do not visit all pairs of terms: the inner loop uses up the iterator of the outer one, which stops after its first turn. -/
theorem nested_counterexample (S : OpClass A) (o : Obj A) (k : ℕ) (hk : o.terms.length < k) (t : Term A × ℂ) (rest : Terms A) (ho : o.terms = t :: rest) :
    nested S k o = some ((getOperators S o.terms).map fun u => (ofTerm S t.1 t.2, u), ⟨o.terms, .done⟩) ∧
      (getOperators S o.terms).length = o.terms.length := by
  refine ⟨?_, by simp [getOperators]⟩
  obtain ⟨k, rfl⟩ : ∃ k', k = k' + 2 := ⟨k - 2, by rw [ho] at hk; simp at hk; omega⟩
  have h1 := loop_spec S (fun (l : List (Terms A × Terms A)) u => l ++ [(ofTerm S t.1 t.2, u)]) [] ⟨o.terms, .active 1 o.terms.length⟩ (k + 2) hk
  have h2 : (getOperators S o.terms).foldl (fun (l : List (Terms A × Terms A)) u => l ++ [(ofTerm S t.1 t.2, u)]) [] = (getOperators S o.terms).map fun u => (ofTerm S t.1 t.2, u) := by
    have : ∀ (l : List (Terms A)) acc, l.foldl (fun (l : List (Terms A × Terms A)) u => l ++ [(ofTerm S t.1 t.2, u)]) acc = acc ++ l.map fun u => (ofTerm S t.1 t.2, u) := by
      intro l
      induction l with
      | nil => simp
      | cons u l ih => intro acc; rw [List.foldl_cons, ih]; simp
    simpa using this _ []
  have h3 : o.terms[0]? = some t := by rw [ho]; rfl
  rw [nested, pyFor, forLoop]
  simp only [startIter, advance, if_true, h3]
  rw [h1, h2, Option.getD_some, forLoop]
  simp [advance]

/-- Specification: the items that calls of `next` still give until the iterator ends. -/
inductive Yields (S : OpClass A) : Obj A → List (Terms A) → Prop
  | stop {o o' : Obj A} (h : advance S o = (.stop, o')) : Yields S o []
  | item {o o' : Obj A} {t : Terms A} {l : List (Terms A)} (h : advance S o = (.item t, o')) (hl : Yields S o' l) : Yields S o (t :: l)

theorem yields_old (S : OpClass A) (ts rest : Terms A) : Yields S ⟨ts, .old rest⟩ (rest.map fun kv => ofTerm S kv.1 kv.2) := by
  induction rest with
  | nil => exact .stop rfl
  | cons kv rest ih => exact .item rfl ih

theorem yields_active (S : OpClass A) (ts : Terms A) (pos used : ℕ) (l : List (Terms A)) (h : Yields S ⟨ts, .active pos used⟩ l) :
    used = ts.length ∧ l = (ts.drop pos).map fun kv => ofTerm S kv.1 kv.2 := by
  induction l generalizing pos with
  | nil =>
    cases h with
    | stop h =>
      by_cases hu : used = ts.length
      · refine ⟨hu, ?_⟩
        simp only [advance, if_pos hu] at h
        cases hp : ts[pos]? with
        | some kv => rw [hp] at h; cases h
        | none => rw [List.drop_eq_nil_of_le (List.getElem?_eq_none_iff.1 hp)]; rfl
      · simp only [advance, if_neg hu] at h
        cases h
  | cons t l ih =>
    cases h with
    | item h hl =>
      by_cases hu : used = ts.length
      · simp only [advance, if_pos hu] at h
        cases hp : ts[pos]? with
        | none => rw [hp] at h; cases h
        | some kv =>
          rw [hp] at h
          cases h
          obtain ⟨hlt, rfl⟩ := List.getElem?_eq_some_iff.1 hp
          refine ⟨hu, ?_⟩
          rw [(ih (pos + 1) hl).2, List.drop_eq_getElem_cons hlt, List.map_cons]
      · simp only [advance, if_neg hu] at h
        cases h

theorem yields_iter (S : OpClass A) (o : Obj A) (ts : Terms A) (hi : ∀ pos used, o.iter ≠ .active pos used) (l : List (Terms A)) (h : Yields S o l) :
    Yields S ⟨ts, o.iter⟩ l := by
  obtain ⟨os, it⟩ := o
  cases it with
  | missing => cases h with | stop h => cases h | item h => cases h
  | active pos used => exact absurd rfl (hi pos used)
  | done => cases h with | stop h => exact .stop rfl | item h => cases h
  | broken => cases h with | stop h => cases h | item h => cases h
  | old rest =>
    have key : ∀ (rest : Terms A) (l : List (Terms A)), Yields S ⟨os, .old rest⟩ l → l = rest.map fun kv => ofTerm S kv.1 kv.2 := by
      intro rest
      induction rest with
      | nil => intro l h; cases h with | stop h => rfl | item h => cases h
      | cons kv rest ih =>
        intro l h
        cases h with
        | stop h => cases h
        | item h hl => cases h; rw [ih _ hl]; rfl
    rw [key rest l h]
    exact yields_old S ts rest

/-- C106: an iteration goes on over the terms it was started on when a product is assigned to the operator in place. -/
theorem rebind_yields (S : OpClass A) (o : Obj A) (new : Terms A) (l : List (Terms A)) (h : Yields S o l) : Yields S (rebind o new) l := by
  obtain ⟨ts, it⟩ := o
  cases it with
  | active pos used =>
    obtain ⟨hu, rfl⟩ := yields_active S ts pos used l h
    rw [rebind]
    simp only [if_pos hu]
    exact yields_old S new _
  | missing => exact yields_iter S ⟨ts, .missing⟩ new (by simp) l h
  | done => exact yields_iter S ⟨ts, .done⟩ new (by simp) l h
  | old rest => exact yields_iter S ⟨ts, .old rest⟩ new (by simp) l h
  | broken => exact yields_iter S ⟨ts, .broken⟩ new (by simp) l h

/-- C106: a copy has the same terms and, if the operator is being iterated over, the same items left. -/
theorem deepcopy_yields (S : OpClass A) (o : Obj A) (l : List (Terms A)) (h : Yields S o l) :
    ∃ c, deepcopy o = .ok c ∧ c.terms = o.terms ∧ Yields S c l := by
  obtain ⟨ts, it⟩ := o
  cases it with
  | active pos used =>
    obtain ⟨hu, rfl⟩ := yields_active S ts pos used l h
    exact ⟨⟨ts, .old (ts.drop pos)⟩, by rw [deepcopy]; simp only [if_pos hu], rfl, yields_old S ts _⟩
  | missing => exact ⟨_, rfl, rfl, h⟩
  | done =>
    cases h with
    | stop h => exact ⟨_, rfl, rfl, .stop rfl⟩
    | item h => cases h
  | old rest => exact ⟨_, rfl, rfl, h⟩
  | broken => cases h with | stop h => cases h | item h => cases h

/-- C106: a loop whose body multiplies the operator in place visits each term that the operator had at the start once, in order. -/
theorem imul_loop {β : Type} (S : OpClass A) (f : β → Terms A → β) (q : β → Terms A) (b : β) (o : Obj A) (k : ℕ) (hk : o.terms.length < k) :
    ∃ o', pyFor S k (fun t s => (f s.1 t, rebind s.2 (Op.mul S s.2.terms (q s.1)))) (b, o) = some ((getOperators S o.terms).foldl f b, o') := by
  have old : ∀ (rest : Terms A) (k : ℕ) (b : β) (ts : Terms A), rest.length < k →
      ∃ o', forLoop S (fun t s => (f s.1 t, rebind s.2 (Op.mul S s.2.terms (q s.1)))) k (b, ⟨ts, .old rest⟩) =
        some ((rest.map fun kv => ofTerm S kv.1 kv.2).foldl f b, o') := by
    intro rest
    induction rest with
    | nil => intro k b ts hk; obtain ⟨k, rfl⟩ : ∃ k', k = k' + 1 := ⟨k - 1, by simp at hk; omega⟩; exact ⟨_, rfl⟩
    | cons kv rest ih =>
      intro k b ts hk
      obtain ⟨k, rfl⟩ : ∃ k', k = k' + 1 := ⟨k - 1, by simp at hk; omega⟩
      exact ih k _ _ (by simpa using hk)
  obtain ⟨ts, it⟩ := o
  obtain ⟨k, rfl⟩ : ∃ k', k = k' + 1 := ⟨k - 1, by omega⟩
  cases ts with
  | nil => exact ⟨_, rfl⟩
  | cons kv ts =>
    obtain ⟨o', h⟩ := old ts k (f b (ofTerm S kv.1 kv.2)) (Op.mul S (kv :: ts) (q b)) (by simpa using hk)
    refine ⟨o', ?_⟩
    rw [pyFor, forLoop]
    simp only [startIter, advance, if_true, List.getElem?_cons_zero, rebind]
    exact h

/-- Consecutive elements in pairs. -/
def pairUp {β : Type} : List β → List (β × β)
  | a :: b :: l => (a, b) :: pairUp l
  | _ => []

theorem zipLoop_spec (S : OpClass A) (ts : Terms A) : ∀ (m pos k : ℕ) (acc : List (Terms A × Terms A)), pos + m = ts.length → m < k →
    ∃ o, zipLoop S k (acc, ⟨ts, .active pos ts.length⟩) = some (acc ++ pairUp ((ts.drop pos).map fun kv => ofTerm S kv.1 kv.2), o) := by
  intro m
  induction m using Nat.strong_induction_on with
  | _ m ih =>
    intro pos k acc hpos hk
    obtain ⟨k, rfl⟩ : ∃ k', k = k' + 1 := ⟨k - 1, by omega⟩
    rw [zipLoop]
    rcases Nat.lt_or_ge pos ts.length with hlt | hge
    · simp only [advance, if_true, List.getElem?_eq_getElem hlt]
      rw [List.drop_eq_getElem_cons hlt]
      rcases Nat.lt_or_ge (pos + 1) ts.length with hlt' | hge'
      · simp only [List.getElem?_eq_getElem hlt']
        obtain ⟨o, ho⟩ := ih (m - 2) (by omega) (pos + 2) k (acc ++ [(ofTerm S ts[pos].1 ts[pos].2, ofTerm S ts[pos + 1].1 ts[pos + 1].2)]) (by omega) (by omega)
        refine ⟨o, ?_⟩
        rw [show pos + 1 + 1 = pos + 2 from rfl, ho, List.drop_eq_getElem_cons hlt', List.map_cons, List.map_cons, pairUp, List.append_assoc]
        rfl
      · simp [List.getElem?_eq_none hge', List.drop_eq_nil_of_le hge', pairUp]
    · simp [advance, List.getElem?_eq_none hge, List.drop_eq_nil_of_le hge, pairUp]

/-- C106, counterexample. `zip(op, op)` pairs consecutive terms instead of each term with itself. -/
theorem zip_counterexample (S : OpClass A) (o : Obj A) (k : ℕ) (hk : o.terms.length < k) : ∃ o', zipSelf S k o = some (pairUp (getOperators S o.terms), o') := by
  obtain ⟨o', h⟩ := zipLoop_spec S o.terms o.terms.length 0 k [] (by simp) hk
  rw [List.drop_zero, List.nil_append] at h
  exact ⟨o', h⟩

/-- C106, counterexample. An iteration that was not finished, as by `next(iter(x))`, makes operators unusable in expressions once a term is added to them: after
`x = Op(t, c); y = Op(u, d); z = next(iter(x)); x += y` all of `x * 2`, `x + y` and `-x` raise `RuntimeError`, though `x` has the right value. -/
theorem unfinished_iteration_counterexample (S : OpClass A) (t u : Term A) (c d : ℂ) (hne : (S.simplify t c).2 ≠ (S.simplify u d).2) (hbig : ¬ IsSmall (S.simplify u d).1 eqTol)
    (h0 : Heap A) (e : Expr A) (he : e = .leftNum .mul "x" 2 ∨ e = .left .add "x" "y" ∨ e = .neg "x") :
    let out := run S [.assign "x" (.new t c), .assign "y" (.new u d), .iter "x", .next "z" "x", .aug .add "x" "y", .assign "w" e] ⟨fun _ => none, h0⟩
    out.1 = [none, none, none, none, none, some .runtimeError] ∧
      (out.2.vars "x").map (fun r => (out.2.heap.mem r).terms) = some (Op.add (ofTerm S t c) (ofTerm S u d)) := by
  have hlen : (Op.add (ofTerm S t c) (ofTerm S u d)).length = 2 := by
    have h1 : coeff (ofTerm S t c) (S.simplify u d).2 = 0 := by simp [ofTerm, coeff, PyDict.get?, hne]
    simp [Op.add, addStep, ofTerm, PyDict.set, hne] at h1 ⊢
    simp [h1, hbig]
  have hx : ("y" : String) ≠ "x" := by decide
  have hz : ("x" : String) ≠ "z" := by decide
  have hz' : ("y" : String) ≠ "z" := by decide
  have hw : ("x" : String) ≠ "w" := by decide
  have hdc : deepcopy (⟨Op.add (ofTerm S t c) (ofTerm S u d), .active 1 1⟩ : Obj A) = .error .runtimeError := by
    simp [deepcopy, hlen]
  have hl1 : (ofTerm S t c).length = 1 := rfl
  have hg : (ofTerm S t c)[0]? = some ((S.simplify t c).2, (S.simplify t c).1) := rfl
  have hn1 : h0.next ≠ h0.next + 1 + 1 := by omega
  have hn2 : h0.next + 1 ≠ h0.next := by omega
  have hn3 : h0.next ≠ h0.next + 1 := by omega
  have hn4 : h0.next + 1 ≠ h0.next + 1 + 1 := by omega
  rcases he with rfl | rfl | rfl <;>
  simp [hn1, hn2, hn3, hn4, run, exec, eval, alloc, put, startIter, advance, aug, binLeft, binRight, copyAug, hx, hz, hz', hw, hl1, hg, hdc, Function.update]

/-- Non-vacuity: a program with products, differences, divisions by zero and updates in place from the empty state. -/
example (S : OpClass A) (h : Heap A) (t u : Term A) :
    (run S [.assign "a" (.new t 2), .assign "b" (.new u 3), .assign "c" (.left .mul "a" "b"), .aug .sub "c" "a", .augNum .div "c" 0, .assign "d" (.pow "c" 3), .aug .mul "d" "d",
      .assign "a" (.rightNum .sub 1 "d")] ⟨fun _ => none, h⟩).1 = [none, none, none, none, some .zeroDivision, none, none, none] := by
  rw [(value_semantics S _ (by simp [Plain]) (represents_empty h)).1]
  simp [pureRun, pureStmt, pureSet, pureExpr, pureOp, pureNum, pureRight, Function.update]

/-- Non-vacuity: an iteration of which one of two items is left. -/
example : Yields qubit ⟨[([(0, .Z)], 1), ([(1, .X)], 2)], .active 1 2⟩ [ofTerm qubit [(1, .X)] 2] := .item rfl (.stop rfl)

/-- Non-vacuity: the nested loops over an operator of two terms visit two pairs instead of four. -/
example : (nested qubit 5 ⟨[([(0, .Z)], 1), ([(1, .X)], 2)], .missing⟩).map (fun r => r.1.length) = some 2 := by
  rw [(nested_counterexample qubit _ 5 (by simp) _ _ rfl).1]
  simp [getOperators]

end ZQ.OpHeap
