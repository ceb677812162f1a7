import Verif.Lemmas.PauliSets
import Verif.Lemmas.FenwickSets
import Verif.Props.JWInteraction

/-! # C92: the Bravyi-Kitaev strings of `a†_i a_j` -/

namespace ZQ.BKInt

open ZQ ZQ.Op ZQ.PolyT ZQ.JWInt

/-- The operator of a list of strings with coefficients. -/
noncomputable def stringsAction (l : List (Term Letter × ℂ)) : Module.End ℂ State := (l.map fun x => x.2 • termAction pauliAction x.1).sum

theorem stringsAction_append (l m : List (Term Letter × ℂ)) : stringsAction (l ++ m) = stringsAction l + stringsAction m := by
  rw [stringsAction, stringsAction, stringsAction, List.map_append, List.sum_append]

/-! ### Ladder operators -/

theorem bkSum_xz (n p : ℕ) : termAction pauliAction (bkSumFactors p n) = xzOn (insert p (updateSet p n)) (paritySet p) := by
  rw [bkSumFactors, termAction_append]; rfl

theorem bkDiff_xz {n p : ℕ} (hp : p < n) :
    termAction pauliAction (bkDiffFactors p n) = Complex.I • xzOn (insert p (updateSet p n)) (symmDiff (paritySet p) (occupationSet p)) := by
  have h1 : p ∉ updateSet p n := fun h => by have := updateSet_gt p n p hp h; omega
  have h2 : p ∉ paritySet p := fun h => by have := paritySet_lt p p h; omega
  have h3 := mem_occupationSet_self p
  rw [bkDiffFactors, termAction_append, termAction_append, termAction_cons, termAction_nil, mul_one, pauli_Y]
  show Complex.I • xzOn {p} {p} * xOn _ * zOn _ = _
  rw [xOn_eq, zOn_eq, smul_mul_assoc, smul_mul_assoc, xzOn_mul (by simp), xzOn_mul (by simp)]
  congr 2
  · ext q
    simp only [Finset.mem_symmDiff, Finset.mem_sdiff, Finset.mem_singleton, Finset.mem_insert, Finset.notMem_empty]
    grind
  · ext q
    simp only [Finset.mem_symmDiff, Finset.mem_sdiff, Finset.mem_singleton, Finset.notMem_empty]
    grind

theorem bkLadder_xz {n p : ℕ} (hp : p < n) (b : Bool) : action pauliAction (bkLadder n (p, b)) =
    (1 / 2 : ℂ) • (xzOn (insert p (updateSet p n)) (paritySet p) +
      (if b then (1 : ℂ) else -1) • xzOn (insert p (updateSet p n)) (symmDiff (paritySet p) (occupationSet p))) := by
  rw [(bkLadder_exact n (p, b)).2.2, bkSum_xz, bkDiff_xz hp, smul_smul, smul_add, smul_smul]
  congr 2
  have := Complex.I_mul_I
  cases b <;> simp
  · linear_combination (1 / 2 : ℂ) * this
  · linear_combination (-1 / 2 : ℂ) * this

/-- The qubits flipped by `a†_i a_j`. -/
def flipSet (i j n : ℕ) : Finset ℕ := symmDiff (insert i (updateSet i n)) (insert j (updateSet j n))

/-- The `Z` sets of the four strings. -/
def sign1 (i j : ℕ) : Finset ℕ := symmDiff (paritySet i) (paritySet j)
def sign2 (i j : ℕ) : Finset ℕ := symmDiff (paritySet i) (symmDiff (paritySet j) (occupationSet j))
def sign3 (i j : ℕ) : Finset ℕ := symmDiff (symmDiff (paritySet i) (occupationSet i)) (paritySet j)
def sign4 (i j : ℕ) : Finset ℕ := symmDiff (symmDiff (paritySet i) (occupationSet i)) (symmDiff (paritySet j) (occupationSet j))

/-- The four strings of a product `a†_i a_j`, `i ≠ j`. -/
noncomputable def fourXZ (i j n : ℕ) : Module.End ℂ State :=
  xzOn (flipSet i j n) (sign1 i j) - xzOn (flipSet i j n) (sign2 i j) + xzOn (flipSet i j n) (sign3 i j) - xzOn (flipSet i j n) (sign4 i j)

/-- `a_j a†_i` and `a†_i a_j` in the encoding. -/
theorem ladder_fourXZ {i j n : ℕ} (hi : i < n) (hj : j < n) (h : i ≠ j) :
    action pauliAction (bkLadder n (i, true)) * action pauliAction (bkLadder n (j, false)) = ((if i < j then 1 else -1) * (1 / 4) : ℂ) • fourXZ i j n := by
  have dis : ∀ {p q : ℕ}, p < q → q < n → (∀ x ∈ paritySet p, x ∉ insert q (updateSet q n)) ∧
      ∀ x ∈ symmDiff (paritySet p) (occupationSet p), x ∉ insert q (updateSet q n) := by
    intro p q hpq hq
    have up : ∀ x ∈ insert q (updateSet q n), q ≤ x := fun x hx => (Finset.mem_insert.1 hx).elim (fun h => h.ge) fun h => (updateSet_gt q n x hq h).le
    refine ⟨fun x hx hm => ?_, fun x hx hm => ?_⟩
    · have := paritySet_lt p x hx; have := up x hm; omega
    · have := up x hm
      rcases Finset.mem_symmDiff.1 hx with ⟨h, _⟩ | ⟨h, _⟩
      · have := paritySet_lt p x h; omega
      · have := occupationSet_le p x h; omega
  rcases lt_or_gt_of_ne h with hlt | hlt
  · obtain ⟨d1, d2⟩ := dis hlt hj
    rw [if_pos hlt, bkLadder_xz hi, bkLadder_xz hj]
    simp only [if_true, Bool.false_eq_true, if_false, smul_mul_assoc, mul_smul_comm, mul_add, add_mul, xzOn_mul d1, xzOn_mul d2, fourXZ, flipSet, sign1, sign2, sign3, sign4]
    module
  · obtain ⟨d1, d2⟩ := dis hlt hi
    have anti := (bk_anticommutation n j i hj hi).1
    rw [qubit_product_action, qubit_product_action, if_neg h.symm] at anti
    have e : action pauliAction (bkLadder n (i, true)) * action pauliAction (bkLadder n (j, false)) =
        -(action pauliAction (bkLadder n (j, false)) * action pauliAction (bkLadder n (i, true))) := by
      rw [eq_neg_iff_add_eq_zero, add_comm]; exact anti
    rw [e, if_neg (by omega), bkLadder_xz hi, bkLadder_xz hj]
    simp only [if_true, Bool.false_eq_true, if_false, smul_mul_assoc, mul_smul_comm, mul_add, add_mul, xzOn_mul d1, xzOn_mul d2, fourXZ, flipSet, sign1, sign2, sign3, sign4]
    rw [symmDiff_comm (insert i (updateSet i n)), symmDiff_comm (paritySet i) (paritySet j), symmDiff_comm (paritySet i) (symmDiff (paritySet j) _),
      symmDiff_comm (symmDiff (paritySet i) _) (paritySet j), symmDiff_comm (symmDiff (paritySet i) _) (symmDiff (paritySet j) _)]
    module

/-! ### Shapes of strings -/

/-- The phase of a letter written as `X` then `Z`. -/
noncomputable def yc : Letter → ℂ
  | .Y => Complex.I
  | _ => 1

/-- The qubits of the `Z` part of a letter. -/
def ys (q : ℕ) : Letter → Finset ℕ
  | .Y => {q}
  | _ => ∅

theorem pauli_xy {l : Letter} (h : l = .X ∨ l = .Y) (q : ℕ) : pauliAction (q, l) = yc l • xzOn {q} (ys q l) := by
  rcases h with rfl | rfl
  · show _ = (1 : ℂ) • xzOn {q} ∅
    rw [pauli_X, one_smul, xOn_eq]
  · rw [pauli_Y, yc, ys]; rfl

theorem ys_sub {q x : ℕ} {l : Letter} (h : x ∈ ys q l) : x = q := by
  cases l <;> simp [ys] at h
  exact h

theorem symmDiff_empty' (S : Finset ℕ) : symmDiff S ∅ = S := by ext; simp [Finset.mem_symmDiff]

theorem empty_symmDiff' (S : Finset ℕ) : symmDiff ∅ S = S := by ext; simp [Finset.mem_symmDiff]

/-- `X`s, `Y`s, one letter on each of two qubits, `Z`s. -/
theorem form2 {i j : ℕ} (hij : i ≠ j) {l1 l2 : Letter} (h1 : l1 = .X ∨ l1 = .Y) (h2 : l2 = .X ∨ l2 = .Y) {A α B A' B' : Finset ℕ} {y : ℂ}
    (hy : termAction pauliAction (lettersOn .Y α) = y • xzOn α α) (hi : i ∉ α) (hj : j ∉ α)
    (hA : symmDiff (symmDiff (symmDiff A α) {j}) {i} = A') (hB : symmDiff (symmDiff (symmDiff α (ys j l1)) (ys i l2)) B = B') :
    termAction pauliAction (lettersOn .X A ++ lettersOn .Y α ++ [(j, l1), (i, l2)] ++ lettersOn .Z B) = (y * yc l1 * yc l2) • xzOn A' B' := by
  rw [termAction_append, termAction_append, termAction_append, termAction_cons, termAction_cons, termAction_nil, mul_one, hy, pauli_xy h1, pauli_xy h2]
  show xOn A * _ * _ * zOn B = _
  rw [xOn_eq, zOn_eq]
  simp only [smul_mul_assoc, mul_smul_comm, smul_smul]
  rw [xzOn_mul (by simp), xzOn_mul (fun x hx hx' => hij (by rw [ys_sub hx, Finset.mem_singleton] at hx'; exact hx'.symm)), xzOn_mul, xzOn_mul (by simp), ← hA, ← hB]
  · congr 1
    · ring
    · congr 1
      · rw [symmDiff_empty', ← symmDiff_assoc]
      · rw [empty_symmDiff', ← symmDiff_assoc]
  · intro x hx hx'
    rw [empty_symmDiff'] at hx
    rcases Finset.mem_symmDiff.1 hx' with ⟨h, _⟩ | ⟨h, _⟩ <;> rw [Finset.mem_singleton] at h <;> subst h
    · exact hj hx
    · exact hi hx

/-- The same with the `Z`s before the two letters. -/
theorem form2' {i j : ℕ} (hij : i ≠ j) {l1 l2 : Letter} (h1 : l1 = .X ∨ l1 = .Y) (h2 : l2 = .X ∨ l2 = .Y) {A α B A' B' : Finset ℕ} {y : ℂ}
    (hy : termAction pauliAction (lettersOn .Y α) = y • xzOn α α) (hi : i ∉ α) (hj : j ∉ α) (hiB : i ∉ B) (hjB : j ∉ B)
    (hA : symmDiff (symmDiff (symmDiff A α) {j}) {i} = A') (hB : symmDiff (symmDiff (symmDiff α (ys j l1)) (ys i l2)) B = B') :
    termAction pauliAction (lettersOn .X A ++ lettersOn .Y α ++ lettersOn .Z B ++ [(j, l1), (i, l2)]) = (y * yc l1 * yc l2) • xzOn A' B' := by
  rw [← form2 hij h1 h2 hy hi hj hA hB, termAction_append, termAction_append pauliAction (lettersOn .X A ++ lettersOn .Y α), termAction_append pauliAction (_ ++ [_, _]),
    termAction_append pauliAction (lettersOn .X A ++ lettersOn .Y α), mul_assoc, mul_assoc]
  congr 1
  rw [termAction_cons, termAction_cons, termAction_nil, mul_one, pauli_xy h1, pauli_xy h2]
  show zOn B * _ = _ * zOn B
  rw [zOn_eq]
  simp only [smul_mul_assoc, mul_smul_comm, smul_smul]
  rw [xzOn_mul (fun x hx hx' => hij (by rw [ys_sub hx, Finset.mem_singleton] at hx'; exact hx'.symm)), xzOn_mul, xzOn_mul (by simp), symmDiff_comm B, symmDiff_comm ∅]
  intro x hx hx'
  rcases Finset.mem_symmDiff.1 hx' with ⟨h, _⟩ | ⟨h, _⟩ <;> rw [Finset.mem_singleton] at h <;> subst h
  · exact hjB hx
  · exact hiB hx

/-- `X`s, one letter, `Y`s, `Z`s. -/
theorem form1 {i : ℕ} {l : Letter} (h : l = .X ∨ l = .Y) {A α B A' B' : Finset ℕ} {y : ℂ}
    (hy : termAction pauliAction (lettersOn .Y α) = y • xzOn α α) (hi : i ∉ α)
    (hA : symmDiff (symmDiff A {i}) α = A') (hB : symmDiff (symmDiff (ys i l) α) B = B') :
    termAction pauliAction (lettersOn .X A ++ [(i, l)] ++ (lettersOn .Y α ++ lettersOn .Z B)) = (yc l * y) • xzOn A' B' := by
  rw [termAction_append, termAction_append, termAction_append, termAction_cons, termAction_nil, mul_one, hy, pauli_xy h]
  show xOn A * _ * (_ * zOn B) = _
  rw [xOn_eq, zOn_eq]
  simp only [smul_mul_assoc, mul_smul_comm, smul_smul]
  rw [xzOn_mul (by simp), xzOn_mul (by simp), xzOn_mul, ← hA, ← hB]
  · congr 1
    · ring
    · rw [symmDiff_empty', empty_symmDiff', ← symmDiff_assoc]
  · intro x hx hx'
    rw [empty_symmDiff'] at hx
    rw [ys_sub hx, symmDiff_empty'] at hx'
    exact hi hx'

/-- `X`s, one letter, `Z`s, `Y`s. -/
theorem form1' {i : ℕ} {l : Letter} (h : l = .X ∨ l = .Y) {A α B A' B' : Finset ℕ} {y : ℂ}
    (hy : termAction pauliAction (lettersOn .Y α) = y • xzOn α α) (hi : i ∉ α) (hαB : ∀ x ∈ B, x ∉ α)
    (hA : symmDiff (symmDiff A {i}) α = A') (hB : symmDiff (symmDiff (ys i l) α) B = B') :
    termAction pauliAction (lettersOn .X A ++ [(i, l)] ++ (lettersOn .Z B ++ lettersOn .Y α)) = (yc l * y) • xzOn A' B' := by
  rw [← form1 h hy hi hA hB, termAction_append, termAction_append pauliAction (lettersOn .X A ++ [(i, l)]), termAction_append pauliAction (lettersOn .Z B), termAction_append pauliAction (lettersOn .Y α), hy]
  congr 1
  show zOn B * _ = _ * zOn B
  rw [zOn_eq, smul_mul_assoc, mul_smul_comm, xzOn_mul hαB, xzOn_mul (by simp), symmDiff_comm B, symmDiff_comm ∅]

/-- `X`s, `Z`s, `Y`s. -/
theorem form0' {A α B A' B' : Finset ℕ} {y : ℂ} (hy : termAction pauliAction (lettersOn .Y α) = y • xzOn α α) (hαB : ∀ x ∈ B, x ∉ α)
    (hA : symmDiff A α = A') (hB : symmDiff B α = B') :
    termAction pauliAction (lettersOn .X A ++ (lettersOn .Z B ++ lettersOn .Y α)) = y • xzOn A' B' := by
  rw [termAction_append, termAction_append, hy]
  show xOn A * (zOn B * _) = _
  rw [xOn_eq, zOn_eq]
  simp only [smul_mul_assoc, mul_smul_comm]
  rw [xzOn_mul hαB, xzOn_mul (by simp), ← hA, ← hB, empty_symmDiff', empty_symmDiff']

theorem y_empty : termAction pauliAction (lettersOn .Y ∅) = (1 : ℂ) • xzOn ∅ ∅ := by rw [lettersOn_empty, termAction_nil, one_smul, xzOn_empty]

theorem y_single (a : ℕ) : termAction pauliAction (lettersOn .Y {a}) = Complex.I • xzOn {a} {a} := by
  rw [lettersOn_singleton, termAction_cons, termAction_nil, mul_one, pauli_Y]; rfl

theorem form2z {i j : ℕ} (hij : i ≠ j) {l1 l2 : Letter} (h1 : l1 = .X ∨ l1 = .Y) (h2 : l2 = .X ∨ l2 = .Y) {A B A' B' : Finset ℕ}
    (hA : symmDiff (symmDiff A {j}) {i} = A') (hB : symmDiff (symmDiff (ys j l1) (ys i l2)) B = B') :
    termAction pauliAction (lettersOn .X A ++ [(j, l1), (i, l2)] ++ lettersOn .Z B) = (yc l1 * yc l2) • xzOn A' B' := by
  have := form2 hij h1 h2 (A := A) (B := B) (A' := A') (B' := B') y_empty (by simp) (by simp) (by rw [symmDiff_empty', hA]) (by rw [empty_symmDiff', hB])
  rwa [lettersOn_empty, List.append_nil, one_mul] at this

theorem form1z {i : ℕ} {l : Letter} (h : l = .X ∨ l = .Y) {A B A' B' : Finset ℕ} (hA : symmDiff A {i} = A') (hB : symmDiff (ys i l) B = B') :
    termAction pauliAction (lettersOn .X A ++ [(i, l)] ++ lettersOn .Z B) = yc l • xzOn A' B' := by
  have := form1 h (A := A) (B := B) (A' := A') (B' := B') y_empty (by simp) (by rw [symmDiff_empty', hA]) (by rw [symmDiff_empty', hB])
  rwa [lettersOn_empty, List.nil_append, mul_one] at this

theorem form1e {i : ℕ} {l : Letter} (h : l = .X ∨ l = .Y) {A A' B' : Finset ℕ} (hA : symmDiff A {i} = A') (hB : ys i l = B') :
    termAction pauliAction (lettersOn .X A ++ [(i, l)]) = yc l • xzOn A' B' := by
  have := form1z h (A := A) (B := ∅) (A' := A') (B' := B') hA (by rw [symmDiff_empty', hB])
  rwa [lettersOn_empty, List.append_nil] at this

theorem formZ {i j : ℕ} (hij : i ≠ j) {l : Letter} (h : l = .X ∨ l = .Y) {A B A' B' : Finset ℕ}
    (hA : symmDiff A {i} = A') (hB : symmDiff (symmDiff {j} (ys i l)) B = B') :
    termAction pauliAction (lettersOn .X A ++ [(j, .Z), (i, l)] ++ lettersOn .Z B) = yc l • xzOn A' B' := by
  rw [termAction_append, termAction_append, termAction_cons, termAction_cons, termAction_nil, mul_one, pauli_Z, pauli_xy h]
  show xOn A * _ * zOn B = _
  rw [xOn_eq, zOn_eq, zOn_eq]
  simp only [smul_mul_assoc, mul_smul_comm]
  rw [xzOn_mul (fun x hx hx' => hij ((Finset.mem_singleton.1 hx').symm.trans (Finset.mem_singleton.1 hx))), xzOn_mul (by simp), xzOn_mul (by simp), ← hA, ← hB]
  simp only [empty_symmDiff', symmDiff_empty']

/-! ### The cases -/

theorem ys_X (q : ℕ) : ys q .X = ∅ := rfl

theorem ys_Y (q : ℕ) : ys q .Y = {q} := rfl

theorem yc_X : yc .X = 1 := rfl

theorem yc_Y : yc .Y = Complex.I := rfl

/-- What the sets of two qubits have in common whatever their order. -/
structure SetFacts (i j n : ℕ) : Prop where
  ne : i ≠ j
  oi : i ∈ occupationSet i
  pi : i ∉ paritySet i
  ui : i ∉ updateSet i n
  oj : j ∈ occupationSet j
  pj : j ∉ paritySet j
  uj : j ∉ updateSet j n
  subi : ∀ q ∈ occupationSet i, q = i ∨ q ∈ paritySet i
  subj : ∀ q ∈ occupationSet j, q = j ∨ q ∈ paritySet j

theorem setFacts {i j n : ℕ} (hi : i < n) (hj : j < n) (h : i ≠ j) : SetFacts i j n where
  ne := h
  oi := mem_occupationSet_self i
  pi h := by have := paritySet_lt i i h; omega
  ui h := by have := updateSet_gt i n i hi h; omega
  oj := mem_occupationSet_self j
  pj h := by have := paritySet_lt j j h; omega
  uj h := by have := updateSet_gt j n j hj h; omega
  subi _ := occupation_sub
  subj _ := occupation_sub

/-- When `i < j`. -/
structure LtFacts (i j n a : ℕ) : Prop where
  uj : i ∉ updateSet j n
  pi : j ∉ paritySet i
  oi : j ∉ occupationSet i
  mem : a ∈ paritySet j
  meets : ∀ q ∈ paritySet j, (q = i ∨ q ∈ updateSet i n) ↔ q = a
  occ : a ∈ occupationSet j ↔ j ∈ updateSet i n
  notU : a ∉ updateSet j n
  notP : a ∉ paritySet i
  notO : a ∈ occupationSet i → a = i
  ne : a ≠ j

theorem ltFacts {i j n : ℕ} (hij : i < j) (hj : j < n) : ∃ a, LtFacts i j n a := by
  obtain ⟨a, h1, h2, h3⟩ := parity_meets hij hj
  have ha := paritySet_lt j a h1
  have hai : i ≤ a := by
    rcases (h2 a h1).2 rfl with h | h
    · exact h.ge
    · exact (updateSet_gt i n a (by omega) h).le
  refine ⟨a, ?_, ?_, ?_, h1, h2, h3, ?_, ?_, ?_, by omega⟩
  · intro h; have := updateSet_gt j n i hj h; omega
  · intro h; have := paritySet_lt i j h; omega
  · intro h; have := occupationSet_le i j h; omega
  · intro h; have := updateSet_gt j n a hj h; omega
  · intro h; have := paritySet_lt i a h; omega
  · intro h; have := occupationSet_le i a h; omega

theorem alpha_gt {i j n : ℕ} (hij : j < i) (hi : i < n) : alphaSet i j n = ∅ := by
  rw [alphaSet, Finset.eq_empty_iff_forall_notMem]
  intro q hq
  rw [Finset.mem_inter] at hq
  have := updateSet_gt i n q hi hq.1
  have := paritySet_lt j q hq.2
  omega

theorem alpha_single {i j n a : ℕ} (f : LtFacts i j n a) (hp : i ∉ paritySet j) : alphaSet i j n = {a} := by
  obtain ⟨_, _, _, h1, h2, _, _, _, _, _⟩ := f
  ext q
  rw [alphaSet, Finset.mem_inter, Finset.mem_singleton]
  grind

macro "bk_sets" : tactic => `(tactic| (
  ext q
  simp only [ys_X, ys_Y, Finset.mem_symmDiff, Finset.mem_sdiff, Finset.mem_singleton, Finset.mem_insert, Finset.mem_union, Finset.notMem_empty, uSet,
    p0Set, p1Set, p2Set, p3Set, remainderSet, flipSet, sign1, sign2, sign3, sign4]
  grind))

macro "bk_sets2 " e:ident e':ident : tactic => `(tactic| (
  ext q
  simp only [ys_X, ys_Y, flipSet, sign1, sign2, sign3, sign4, $e:ident, $e':ident, uSet, p0Set]
  simp only [Finset.mem_symmDiff, Finset.mem_sdiff, Finset.mem_singleton, Finset.mem_insert, Finset.notMem_empty]
  clear $e:ident $e':ident
  grind))

macro "bk_sum" : tactic => `(tactic| (
  simp only [smul_smul, yc_X, yc_Y, imag, fourXZ]
  match_scalars <;> (ring_nf; try simp [Complex.I_sq, Complex.I_pow_three, Complex.I_pow_four])))

theorem case1_eq {i j n : ℕ} (hi : i < n) (hj : j < n) (h : i ≠ j) (hie : i % 2 = 0) (hje : j % 2 = 0) (c : ℂ) :
    stringsAction (case1 i j n c) = ((if i < j then 1 else -1) * c) • fourXZ i j n := by
  obtain ⟨_, f1, f2, f3, f4, f5, f6, f7, f8⟩ := setFacts hi hj h
  have ei : occupationSet i = {i} := occupationSet_even hie
  have ej : occupationSet j = {j} := occupationSet_even hje
  have hu : j ∉ updateSet i n := fun h => by have := updateSet_odd hi h; omega
  have hp : i ∉ paritySet j := fun h => by have := paritySet_even hje h; omega
  have hp' : j ∉ paritySet i := fun h => by have := paritySet_even hie h; omega
  have hBi : i ∉ p0Set i j := by rw [p0Set, Finset.mem_symmDiff]; rintro (⟨h, _⟩ | ⟨h, _⟩); exacts [f2 h, hp h]
  have hBj : j ∉ p0Set i j := by rw [p0Set, Finset.mem_symmDiff]; rintro (⟨h, _⟩ | ⟨h, _⟩); exacts [hp' h, f5 h]
  rw [case1]
  simp only [uDiffA, p0DiffA, stringsAction]
  rcases lt_or_gt_of_ne h with hlt | hlt
  · obtain ⟨a, fa⟩ := ltFacts hlt hj
    rw [alpha_single fa hp, if_pos hlt, if_pos hlt]
    obtain ⟨g1, g2, g3, g4, g5, g6, g7, g8, g9, g10⟩ := fa
    have hia : i ∉ ({a} : Finset ℕ) := by grind
    have hja : j ∉ ({a} : Finset ℕ) := by grind
    simp only [List.zip_cons_cons, List.zip_nil_left, List.map_cons, List.map_nil, List.sum_cons, List.sum_nil]
    rw [form2' h (.inr rfl) (.inl rfl) (y_single a) hia hja (fun h => hBi (Finset.mem_sdiff.1 h).1) (fun h => hBj (Finset.mem_sdiff.1 h).1) (A' := flipSet i j n) (B' := sign2 i j) (by bk_sets2 ei ej) (by bk_sets2 ei ej),
      form2' h (.inl rfl) (.inr rfl) (y_single a) hia hja (fun h => hBi (Finset.mem_sdiff.1 h).1) (fun h => hBj (Finset.mem_sdiff.1 h).1) (A' := flipSet i j n) (B' := sign3 i j) (by bk_sets2 ei ej) (by bk_sets2 ei ej),
      form2' h (.inl rfl) (.inl rfl) (y_single a) hia hja (fun h => hBi (Finset.mem_sdiff.1 h).1) (fun h => hBj (Finset.mem_sdiff.1 h).1) (A' := flipSet i j n) (B' := sign1 i j) (by bk_sets2 ei ej) (by bk_sets2 ei ej),
      form2' h (.inr rfl) (.inr rfl) (y_single a) hia hja (fun h => hBi (Finset.mem_sdiff.1 h).1) (fun h => hBj (Finset.mem_sdiff.1 h).1) (A' := flipSet i j n) (B' := sign4 i j) (by bk_sets2 ei ej) (by bk_sets2 ei ej)]
    bk_sum
  · rw [alpha_gt hlt hi, if_neg hlt.not_gt, if_neg hlt.not_gt]
    have hia : i ∉ (∅ : Finset ℕ) := by simp
    have hja : j ∉ (∅ : Finset ℕ) := by simp
    simp only [List.zip_cons_cons, List.zip_nil_left, List.map_cons, List.map_nil, List.sum_cons, List.sum_nil]
    rw [form2' h (.inr rfl) (.inl rfl) y_empty hia hja (fun h => hBi (Finset.mem_sdiff.1 h).1) (fun h => hBj (Finset.mem_sdiff.1 h).1) (A' := flipSet i j n) (B' := sign2 i j) (by bk_sets2 ei ej) (by bk_sets2 ei ej),
      form2' h (.inl rfl) (.inr rfl) y_empty hia hja (fun h => hBi (Finset.mem_sdiff.1 h).1) (fun h => hBj (Finset.mem_sdiff.1 h).1) (A' := flipSet i j n) (B' := sign3 i j) (by bk_sets2 ei ej) (by bk_sets2 ei ej),
      form2' h (.inl rfl) (.inl rfl) y_empty hia hja (fun h => hBi (Finset.mem_sdiff.1 h).1) (fun h => hBj (Finset.mem_sdiff.1 h).1) (A' := flipSet i j n) (B' := sign1 i j) (by bk_sets2 ei ej) (by bk_sets2 ei ej),
      form2' h (.inr rfl) (.inr rfl) y_empty hia hja (fun h => hBi (Finset.mem_sdiff.1 h).1) (fun h => hBj (Finset.mem_sdiff.1 h).1) (A' := flipSet i j n) (B' := sign4 i j) (by bk_sets2 ei ej) (by bk_sets2 ei ej)]
    bk_sum

theorem case2_eq {i j n : ℕ} (hi : i < n) (hj : j < n) (h : i ≠ j) (hje : j % 2 = 0) (hp : i ∉ paritySet j) (c : ℂ) :
    stringsAction (case2 i j n c) = ((if i < j then 1 else -1) * c) • fourXZ i j n := by
  obtain ⟨_, f1, f2, f3, f4, f5, f6, f7, f8⟩ := setFacts hi hj h
  have ej : occupationSet j = {j} := occupationSet_even hje
  have hu : j ∉ updateSet i n := fun h => by have := updateSet_odd hi h; omega
  rw [case2]
  simp only [uDiffA, stringsAction]
  rcases lt_or_gt_of_ne h with hlt | hlt
  · obtain ⟨a, fa⟩ := ltFacts hlt hj
    rw [alpha_single fa hp, if_pos hlt, if_pos hlt]
    obtain ⟨g1, g2, g3, g4, g5, g6, g7, g8, g9, g10⟩ := fa
    have hia : i ∉ ({a} : Finset ℕ) := by grind
    have hja : j ∉ ({a} : Finset ℕ) := by grind
    simp only [List.zip_cons_cons, List.zip_nil_left, List.map_cons, List.map_nil, List.sum_cons, List.sum_nil]
    rw [form2 h (.inr rfl) (.inl rfl) (y_single a) hia hja (A' := flipSet i j n) (B' := sign2 i j) (by bk_sets) (by bk_sets),
      form2 h (.inl rfl) (.inl rfl) (y_single a) hia hja (A' := flipSet i j n) (B' := sign1 i j) (by bk_sets) (by bk_sets),
      form2 h (.inl rfl) (.inr rfl) (y_single a) hia hja (A' := flipSet i j n) (B' := sign3 i j) (by bk_sets) (by bk_sets),
      form2 h (.inr rfl) (.inr rfl) (y_single a) hia hja (A' := flipSet i j n) (B' := sign4 i j) (by bk_sets) (by bk_sets)]
    bk_sum
  · rw [alpha_gt hlt hi, if_neg hlt.not_gt, if_neg hlt.not_gt]
    have hia : i ∉ (∅ : Finset ℕ) := by simp
    have hja : j ∉ (∅ : Finset ℕ) := by simp
    simp only [List.zip_cons_cons, List.zip_nil_left, List.map_cons, List.map_nil, List.sum_cons, List.sum_nil]
    rw [form2 h (.inr rfl) (.inl rfl) y_empty hia hja (A' := flipSet i j n) (B' := sign2 i j) (by bk_sets) (by bk_sets),
      form2 h (.inl rfl) (.inl rfl) y_empty hia hja (A' := flipSet i j n) (B' := sign1 i j) (by bk_sets) (by bk_sets),
      form2 h (.inl rfl) (.inr rfl) y_empty hia hja (A' := flipSet i j n) (B' := sign3 i j) (by bk_sets) (by bk_sets),
      form2 h (.inr rfl) (.inr rfl) y_empty hia hja (A' := flipSet i j n) (B' := sign4 i j) (by bk_sets) (by bk_sets)]
    bk_sum

theorem case4_eq {i j n : ℕ} (hi : i < n) (hj : j < n) (h : i ≠ j) (hie : i % 2 = 0) (hp : i ∉ paritySet j) (hu : j ∉ updateSet i n) (c : ℂ) :
    stringsAction (case4 i j n c) = ((if i < j then 1 else -1) * c) • fourXZ i j n := by
  obtain ⟨_, f1, f2, f3, f4, f5, f6, f7, f8⟩ := setFacts hi hj h
  have ei : occupationSet i = {i} := occupationSet_even hie
  rw [case4]
  simp only [uDiffA, stringsAction]
  rcases lt_or_gt_of_ne h with hlt | hlt
  · obtain ⟨a, fa⟩ := ltFacts hlt hj
    rw [alpha_single fa hp, if_pos hlt, if_pos hlt]
    obtain ⟨g1, g2, g3, g4, g5, g6, g7, g8, g9, g10⟩ := fa
    have hia : i ∉ ({a} : Finset ℕ) := by grind
    have hja : j ∉ ({a} : Finset ℕ) := by grind
    simp only [List.zip_cons_cons, List.zip_nil_left, List.map_cons, List.map_nil, List.sum_cons, List.sum_nil]
    rw [form2 h (.inl rfl) (.inr rfl) (y_single a) hia hja (A' := flipSet i j n) (B' := sign3 i j) (by bk_sets) (by bk_sets),
      form2 h (.inl rfl) (.inl rfl) (y_single a) hia hja (A' := flipSet i j n) (B' := sign1 i j) (by bk_sets) (by bk_sets),
      form2 h (.inr rfl) (.inl rfl) (y_single a) hia hja (A' := flipSet i j n) (B' := sign2 i j) (by bk_sets) (by bk_sets),
      form2 h (.inr rfl) (.inr rfl) (y_single a) hia hja (A' := flipSet i j n) (B' := sign4 i j) (by bk_sets) (by bk_sets)]
    bk_sum
  · rw [alpha_gt hlt hi, if_neg hlt.not_gt, if_neg hlt.not_gt]
    have hia : i ∉ (∅ : Finset ℕ) := by simp
    have hja : j ∉ (∅ : Finset ℕ) := by simp
    simp only [List.zip_cons_cons, List.zip_nil_left, List.map_cons, List.map_nil, List.sum_cons, List.sum_nil]
    rw [form2 h (.inl rfl) (.inr rfl) y_empty hia hja (A' := flipSet i j n) (B' := sign3 i j) (by bk_sets) (by bk_sets),
      form2 h (.inl rfl) (.inl rfl) y_empty hia hja (A' := flipSet i j n) (B' := sign1 i j) (by bk_sets) (by bk_sets),
      form2 h (.inr rfl) (.inl rfl) y_empty hia hja (A' := flipSet i j n) (B' := sign2 i j) (by bk_sets) (by bk_sets),
      form2 h (.inr rfl) (.inr rfl) y_empty hia hja (A' := flipSet i j n) (B' := sign4 i j) (by bk_sets) (by bk_sets)]
    bk_sum

theorem case7_eq {i j n : ℕ} (hi : i < n) (hj : j < n) (h : i ≠ j) (hp : i ∉ paritySet j) (hu : j ∉ updateSet i n) (c : ℂ) :
    stringsAction (case7 i j n c) = ((if i < j then 1 else -1) * c) • fourXZ i j n := by
  obtain ⟨_, f1, f2, f3, f4, f5, f6, f7, f8⟩ := setFacts hi hj h
  rw [case7]
  simp only [uDiffA, stringsAction]
  rcases lt_or_gt_of_ne h with hlt | hlt
  · obtain ⟨a, fa⟩ := ltFacts hlt hj
    rw [alpha_single fa hp, if_pos hlt, if_pos hlt]
    obtain ⟨g1, g2, g3, g4, g5, g6, g7, g8, g9, g10⟩ := fa
    have hia : i ∉ ({a} : Finset ℕ) := by grind
    have hja : j ∉ ({a} : Finset ℕ) := by grind
    simp only [List.zip_cons_cons, List.zip_nil_left, List.map_cons, List.map_nil, List.sum_cons, List.sum_nil]
    rw [form2 h (.inl rfl) (.inl rfl) (y_single a) hia hja (A' := flipSet i j n) (B' := sign1 i j) (by bk_sets) (by bk_sets),
      form2 h (.inr rfl) (.inl rfl) (y_single a) hia hja (A' := flipSet i j n) (B' := sign2 i j) (by bk_sets) (by bk_sets),
      form2 h (.inl rfl) (.inr rfl) (y_single a) hia hja (A' := flipSet i j n) (B' := sign3 i j) (by bk_sets) (by bk_sets),
      form2 h (.inr rfl) (.inr rfl) (y_single a) hia hja (A' := flipSet i j n) (B' := sign4 i j) (by bk_sets) (by bk_sets)]
    bk_sum
  · rw [alpha_gt hlt hi, if_neg hlt.not_gt, if_neg hlt.not_gt]
    have hia : i ∉ (∅ : Finset ℕ) := by simp
    have hja : j ∉ (∅ : Finset ℕ) := by simp
    simp only [List.zip_cons_cons, List.zip_nil_left, List.map_cons, List.map_nil, List.sum_cons, List.sum_nil]
    rw [form2 h (.inl rfl) (.inl rfl) y_empty hia hja (A' := flipSet i j n) (B' := sign1 i j) (by bk_sets) (by bk_sets),
      form2 h (.inr rfl) (.inl rfl) y_empty hia hja (A' := flipSet i j n) (B' := sign2 i j) (by bk_sets) (by bk_sets),
      form2 h (.inl rfl) (.inr rfl) y_empty hia hja (A' := flipSet i j n) (B' := sign3 i j) (by bk_sets) (by bk_sets),
      form2 h (.inr rfl) (.inr rfl) y_empty hia hja (A' := flipSet i j n) (B' := sign4 i j) (by bk_sets) (by bk_sets)]
    bk_sum


theorem case3_eq {i j n : ℕ} (hi : i < n) (hj : j < n) (h : i ≠ j) (hje : j % 2 = 0) (hp : i ∈ paritySet j) (c : ℂ) :
    stringsAction (case3 i j n c) = ((if i < j then 1 else -1) * c) • fourXZ i j n := by
  obtain ⟨_, f1, f2, f3, f4, f5, f6, f7, f8⟩ := setFacts hi hj h
  have ej : occupationSet j = {j} := occupationSet_even hje
  have hu : j ∉ updateSet i n := fun h => by have := updateSet_odd hi h; omega
  have hlt : i < j := paritySet_lt j i hp
  obtain ⟨a, fa⟩ := ltFacts hlt hj
  obtain ⟨g1, g2, g3, g4, g5, g6, g7, g8, g9, g10⟩ := fa
  rw [case3, stringsAction, if_pos hlt]
  simp only [List.map_cons, List.map_nil, List.sum_cons, List.sum_nil]
  rw [form2z h (.inr rfl) (.inr rfl) (A' := flipSet i j n) (B' := sign2 i j) (by bk_sets) (by bk_sets),
    form2z h (.inl rfl) (.inr rfl) (A' := flipSet i j n) (B' := sign1 i j) (by bk_sets) (by bk_sets),
    form2z h (.inl rfl) (.inl rfl) (A' := flipSet i j n) (B' := sign3 i j) (by bk_sets) (by bk_sets),
    form2z h (.inr rfl) (.inl rfl) (A' := flipSet i j n) (B' := sign4 i j) (by bk_sets) (by bk_sets)]
  bk_sum

theorem case5_eq {i j n : ℕ} (hi : i < n) (hj : j < n) (h : i ≠ j) (hie : i % 2 = 0) (hp : i ∉ paritySet j) (hu : j ∈ updateSet i n) (c : ℂ) :
    stringsAction (case5 i j n c) = ((if i < j then 1 else -1) * c) • fourXZ i j n := by
  obtain ⟨_, f1, f2, f3, f4, f5, f6, f7, f8⟩ := setFacts hi hj h
  have ei : occupationSet i = {i} := occupationSet_even hie
  have hlt : i < j := updateSet_gt i n j hi hu
  obtain ⟨a, fa⟩ := ltFacts hlt hj
  have hα := alpha_single fa hp
  obtain ⟨g1, g2, g3, g4, g5, g6, g7, g8, g9, g10⟩ := fa
  have hia : i ∉ ({a} : Finset ℕ) := by grind
  rw [case5, stringsAction, if_pos hlt, hα]
  simp only [List.map_cons, List.map_nil, List.sum_cons, List.sum_nil]
  rw [form1 (.inr rfl) (y_single a) hia (A' := flipSet i j n) (B' := sign3 i j) (by bk_sets) (by bk_sets),
    form1 (.inl rfl) (y_single a) hia (A' := flipSet i j n) (B' := sign1 i j) (by bk_sets) (by bk_sets),
    form1z (.inr rfl) (A' := flipSet i j n) (B' := sign4 i j) (by bk_sets) (by bk_sets),
    form1z (.inl rfl) (A' := flipSet i j n) (B' := sign2 i j) (by bk_sets) (by bk_sets)]
  bk_sum

theorem case6_eq {i j n : ℕ} (hi : i < n) (hj : j < n) (h : i ≠ j) (hie : i % 2 = 0) (hP : paritySet j = insert i (paritySet i)) (hu : j ∈ updateSet i n) (c : ℂ) :
    stringsAction (case6 i j n c) = ((if i < j then 1 else -1) * c) • fourXZ i j n := by
  obtain ⟨_, f1, f2, f3, f4, f5, f6, f7, f8⟩ := setFacts hi hj h
  have ei : occupationSet i = {i} := occupationSet_even hie
  have hlt : i < j := updateSet_gt i n j hi hu
  obtain ⟨a, fa⟩ := ltFacts hlt hj
  obtain ⟨g1, g2, g3, g4, g5, g6, g7, g8, g9, g10⟩ := fa
  rw [case6, stringsAction, if_pos hlt]
  simp only [List.map_cons, List.map_nil, List.sum_cons, List.sum_nil]
  rw [form1e (.inl rfl) (A' := flipSet i j n) (B' := sign3 i j) (by bk_sets) (by bk_sets),
    form1e (.inr rfl) (A' := flipSet i j n) (B' := sign1 i j) (by bk_sets) (by bk_sets),
    form1z (.inr rfl) (A' := flipSet i j n) (B' := sign4 i j) (by bk_sets) (by bk_sets),
    form1z (.inl rfl) (A' := flipSet i j n) (B' := sign2 i j) (by bk_sets) (by bk_sets)]
  bk_sum

theorem case8_eq {i j n : ℕ} (hi : i < n) (hj : j < n) (h : i ≠ j) (hp : i ∈ paritySet j) (hu : j ∉ updateSet i n) (c : ℂ) :
    stringsAction (case8 i j n c) = ((if i < j then 1 else -1) * c) • fourXZ i j n := by
  obtain ⟨_, f1, f2, f3, f4, f5, f6, f7, f8⟩ := setFacts hi hj h
  have hlt : i < j := paritySet_lt j i hp
  obtain ⟨a, fa⟩ := ltFacts hlt hj
  obtain ⟨g1, g2, g3, g4, g5, g6, g7, g8, g9, g10⟩ := fa
  rw [case8, stringsAction, if_pos hlt]
  simp only [List.map_cons, List.map_nil, List.sum_cons, List.sum_nil]
  rw [form2z h (.inl rfl) (.inr rfl) (A' := flipSet i j n) (B' := sign1 i j) (by bk_sets) (by bk_sets),
    form2z h (.inr rfl) (.inr rfl) (A' := flipSet i j n) (B' := sign2 i j) (by bk_sets) (by bk_sets),
    form2z h (.inl rfl) (.inl rfl) (A' := flipSet i j n) (B' := sign3 i j) (by bk_sets) (by bk_sets),
    form2z h (.inr rfl) (.inl rfl) (A' := flipSet i j n) (B' := sign4 i j) (by bk_sets) (by bk_sets)]
  bk_sum

theorem case9_eq {i j n : ℕ} (hi : i < n) (hj : j < n) (h : i ≠ j) (hp : i ∉ paritySet j) (hu : j ∈ updateSet i n) (c : ℂ) :
    stringsAction (case9 i j n c) = ((if i < j then 1 else -1) * c) • fourXZ i j n := by
  obtain ⟨_, f1, f2, f3, f4, f5, f6, f7, f8⟩ := setFacts hi hj h
  have hlt : i < j := updateSet_gt i n j hi hu
  obtain ⟨a, fa⟩ := ltFacts hlt hj
  have hα := alpha_single fa hp
  obtain ⟨g1, g2, g3, g4, g5, g6, g7, g8, g9, g10⟩ := fa
  have hia : i ∉ ({a} : Finset ℕ) := by grind
  rw [case9, stringsAction, if_pos hlt, hα]
  simp only [List.map_cons, List.map_nil, List.sum_cons, List.sum_nil]
  rw [form1' (.inr rfl) (y_single a) hia (fun x hx => (Finset.mem_sdiff.1 hx).2) (A' := flipSet i j n) (B' := sign3 i j) (by bk_sets) (by bk_sets),
    form0' (y_single a) (fun x hx => (Finset.mem_sdiff.1 hx).2) (A' := flipSet i j n) (B' := sign1 i j) (by bk_sets) (by bk_sets),
    form1z (.inl rfl) (A' := flipSet i j n) (B' := sign2 i j) (by bk_sets) (by bk_sets),
    form1z (.inr rfl) (A' := flipSet i j n) (B' := sign4 i j) (by bk_sets) (by bk_sets)]
  bk_sum

theorem case10_eq {i j n : ℕ} (hi : i < n) (hj : j < n) (h : i ≠ j) (hp : i ∈ paritySet j) (hu : j ∈ updateSet i n) (c : ℂ) :
    stringsAction (case10 i j n c) = ((if i < j then 1 else -1) * c) • fourXZ i j n := by
  obtain ⟨_, f1, f2, f3, f4, f5, f6, f7, f8⟩ := setFacts hi hj h
  have hlt : i < j := updateSet_gt i n j hi hu
  obtain ⟨a, fa⟩ := ltFacts hlt hj
  obtain ⟨g1, g2, g3, g4, g5, g6, g7, g8, g9, g10⟩ := fa
  rw [case10, stringsAction, if_pos hlt]
  simp only [List.map_cons, List.map_nil, List.sum_cons, List.sum_nil]
  rw [form1z (.inr rfl) (A' := flipSet i j n) (B' := sign1 i j) (by bk_sets) (by bk_sets),
    form1z (.inl rfl) (A' := flipSet i j n) (B' := sign3 i j) (by bk_sets) (by bk_sets),
    formZ h (.inl rfl) (A' := flipSet i j n) (B' := sign2 i j) (by bk_sets) (by bk_sets),
    formZ h (.inr rfl) (A' := flipSet i j n) (B' := sign4 i j) (by bk_sets) (by bk_sets)]
  bk_sum

/-- C92: for different modes the strings and coefficients are those of `coef a†_i a_j`. -/
theorem srl_ne {i j n : ℕ} (hi : i < n) (hj : j < n) (h : i ≠ j) (c : ℂ) :
    stringsAction (srl i j c n) = ((if i < j then 1 else -1) * (c * (1 / 4))) • fourXZ i j n := by
  rw [srl, if_neg h]
  rcases Nat.mod_two_eq_zero_or_one i with ei | ei <;> rcases Nat.mod_two_eq_zero_or_one j with ej | ej
  · rw [if_pos ⟨ei, ej⟩]
    exact case1_eq hi hj h ei ej _
  · have k1 : ¬ (i % 2 = 0 ∧ j % 2 = 0) := by omega
    have k2 : ¬ i % 2 = 1 := by omega
    rw [if_neg k1, if_neg fun h => k2 h.1, if_neg fun h => k2 h.1]
    by_cases hp : i ∈ paritySet j
    · have hP : paritySet j = insert i (paritySet i) ∧ j = i + 1 := by
        obtain ⟨m, rfl⟩ : ∃ m, j = 2 * m + 1 := ⟨j / 2, by omega⟩
        have hp' := hp
        rw [paritySet_odd, Finset.mem_insert] at hp'
        rcases hp' with rfl | hp'
        · exact ⟨paritySet_odd m, rfl⟩
        · have := paritySet_even (by omega) hp'; omega
      have hu : j ∈ updateSet i n := by
        obtain ⟨_, rfl⟩ := hP
        exact mem_updateSet_succ ei hj
      rw [if_neg fun h => h.2.2.1 hp, if_neg fun h => h.2.2.1 hp, if_pos ⟨ei, ej, hp, hu⟩]
      exact case6_eq hi hj h ei hP.1 hu _
    · by_cases hu : j ∈ updateSet i n
      · rw [if_neg fun h => h.2.2.2 hu, if_pos ⟨ei, ej, hp, hu⟩]
        exact case5_eq hi hj h ei hp hu _
      · rw [if_pos ⟨ei, ej, hp, hu⟩]
        exact case4_eq hi hj h ei hp hu _
  · have k1 : ¬ (i % 2 = 0 ∧ j % 2 = 0) := by omega
    rw [if_neg k1]
    by_cases hp : i ∈ paritySet j
    · rw [if_neg fun h => h.2.2 hp, if_pos ⟨ei, ej, hp⟩]
      exact case3_eq hi hj h ej hp _
    · rw [if_pos ⟨ei, ej, hp⟩]
      exact case2_eq hi hj h ej hp _
  · have k1 : ¬ i % 2 = 0 := by omega
    have k2 : ¬ j % 2 = 0 := by omega
    rw [if_neg fun h => k1 h.1, if_neg fun h => k2 h.2.1, if_neg fun h => k2 h.2.1, if_neg fun h => k1 h.1, if_neg fun h => k1 h.1, if_neg fun h => k1 h.1]
    by_cases hp : i ∈ paritySet j <;> by_cases hu : j ∈ updateSet i n
    · rw [if_neg fun h => h.2.2.1 hp, if_neg fun h => h.2.2.2 hu, if_neg fun h => h.2.2.1 hp, if_pos ⟨ei, ej, hp, hu⟩]
      exact case10_eq hi hj h hp hu _
    · rw [if_neg fun h => h.2.2.1 hp, if_pos ⟨ei, ej, hp, hu⟩]
      exact case8_eq hi hj h hp hu _
    · rw [if_neg fun h => h.2.2.2 hu, if_neg fun h => hp h.2.2.1, if_pos ⟨ei, ej, hp, hu⟩]
      exact case9_eq hi hj h hp hu _
    · rw [if_pos ⟨ei, ej, hp, hu⟩]
      exact case7_eq hi hj h hp hu _

/-- Reading encoded bits as occupations, `Z` on the occupation set is the sign of the occupation. -/
theorem decode_occupation {n p : ℕ} (hp : p < n) : decodeState n * zOn (occupationSet p) = pauliAction (p, .Z) * decodeState n := by
  apply LinearMap.ext; intro ψ; funext s
  rw [Module.End.mul_apply, Module.End.mul_apply, pauli_Z, zOn_apply, Finset.prod_singleton]
  show zOn (occupationSet p) ψ (encode n s) = bitSign s p * ψ (encode n s)
  rw [zOn_apply, ← occupationSet_prod _ (bitSign_sq s) p]
  congr 1
  refine Finset.prod_congr rfl fun i hi => bitSign_encode s ?_
  have := occupationSet_le p i hi; omega

/-- C92: the strings of `_seeley_richard_love(i, j, coef, n)`, read on encoded occupations, act as `coef a†_i a_j`, for all modes. -/
theorem srl_action {i j n : ℕ} (hi : i < n) (hj : j < n) (c : ℂ) :
    decodeState n * stringsAction (srl i j c n) = (c • hop i j) * decodeState n := by
  by_cases h : i = j
  · subst h
    rw [srl, if_pos rfl, stringsAction]
    simp only [List.map_cons, List.map_nil, List.sum_cons, List.sum_nil, add_zero, termAction_nil]
    rw [show termAction pauliAction (lettersOn .Z (occupationSet i)) = zOn (occupationSet i) from rfl, mul_add, mul_smul_comm, mul_smul_comm,
      decode_occupation hi, z_eq, mul_one]
    simp only [sub_mul, one_mul, smul_mul_assoc]
    module
  · rw [srl_ne hi hj h, hop, smul_mul_assoc, mul_assoc, ← bkLadder_action (j, false) hj, ← mul_assoc (ladderAction (i, true)), ← bkLadder_action (i, true) hi,
      mul_assoc (decodeState n), ladder_fourXZ hi hj h, mul_smul_comm, mul_smul_comm, smul_smul]
    congr 1
    ring

end ZQ.BKInt
