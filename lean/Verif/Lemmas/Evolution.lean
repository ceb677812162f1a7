import Verif.Model.Evolution
import Verif.Lemmas.Tensor
import Verif.Lemmas.MatExp
import Verif.Props.ContextSelection

/-! Matrices of CNOT ladders, layers of one-qubit gates, and rotations about Z. -/

namespace ZQ.Evol

open scoped BigOperators Matrix
open ZQ ZQ.PyDict ZQ.Op ZQ.Circuits ZQ.Gates ZQ.Est

variable {n : ℕ}

/-- The basis state after CNOT with control `a` and target `b`. -/
def cnotState (a b : Fin n) (y : Fin n → Bool) : Fin n → Bool := Function.update y b (xor (y a) (y b))

theorem cnotState_invol {a b : Fin n} (hab : a ≠ b) (y : Fin n → Bool) : cnotState a b (cnotState a b y) = y := by
  funext q
  by_cases hq : q = b
  · subst hq
    rw [cnotState, Function.update_self, cnotState, Function.update_self, Function.update_of_ne hab]
    cases y a <;> cases y q <;> rfl
  · rw [cnotState, Function.update_of_ne hq, cnotState, Function.update_of_ne hq]

/-- The CNOT matrix on the register. -/
def cnotReg (a b : Fin n) : Matrix (Fin n → Bool) (Fin n → Bool) ℂ := Matrix.of fun x y => if x = cnotState a b y then 1 else 0

theorem cnotMatrix_onBits (u v : Fin 2 → Bool) : cnotMatrix.onBits 2 u v = if u 0 = v 0 ∧ u 1 = xor (v 0) (v 1) then 1 else 0 := by
  have : cnotMatrix.onBits 2 = Matrix.of fun u v : Fin 2 → Bool => if u 0 = v 0 ∧ u 1 = xor (v 0) (v 1) then (1 : ℂ) else 0 := by
    apply ext_two
    intro a b c d
    simp only [Mat.onBits, basisIndex_two, cnotMatrix, Matrix.of_apply]
    cases a <;> cases b <;> cases c <;> cases d <;> simp [Mat.ofRows]
  rw [this, Matrix.of_apply]

theorem operator_cnot (ρ : String → ℂ) {a b : ℕ} (ha : a < n) (hb : b < n) (hab : a ≠ b) :
    GateOp.operator n ρ ⟨cnotGate, [a, b]⟩ = cnotReg ⟨a, ha⟩ ⟨b, hb⟩ := by
  have hq : ∀ q ∈ [a, b], q < n := by intro q hq; simp at hq; rcases hq with rfl | rfl <;> assumption
  rw [GateOp.operator, dif_pos hq]
  ext x y
  show (if _ then cnotMatrix.onBits 2 _ _ else 0) = if x = cnotState ⟨a, ha⟩ ⟨b, hb⟩ y then 1 else 0
  rw [cnotMatrix_onBits]
  have hab' : (⟨a, ha⟩ : Fin n) ≠ ⟨b, hb⟩ := fun e => hab (congrArg Fin.val e)
  by_cases h : x = cnotState ⟨a, ha⟩ ⟨b, hb⟩ y
  · rw [if_pos h, if_pos, if_pos]
    · constructor
      · show x ⟨a, ha⟩ = y ⟨a, ha⟩
        rw [h, cnotState, Function.update_of_ne hab']
      · show x ⟨b, hb⟩ = xor (y ⟨a, ha⟩) (y ⟨b, hb⟩)
        rw [h, cnotState, Function.update_self]
    · intro q hq
      have hqb : q ≠ ⟨b, hb⟩ := (hq (1 : Fin 2)).symm
      rw [h, cnotState, Function.update_of_ne hqb]
  · rw [if_neg h]
    split
    · rename_i h1
      rw [if_neg]
      rintro ⟨h2, h3⟩
      apply h
      funext q
      by_cases hqb : q = ⟨b, hb⟩
      · subst hqb
        rw [cnotState, Function.update_self]
        exact h3
      · rw [cnotState, Function.update_of_ne hqb]
        by_cases hqa : q = ⟨a, ha⟩
        · subst hqa; exact h2
        · refine h1 q ?_
          intro i e
          rcases i with ⟨i, hi⟩
          have hi : i < 2 := hi
          interval_cases i
          · exact hqa e.symm
          · exact hqb e.symm
    · rfl

theorem cnotReg_mul {a b : Fin n} (hab : a ≠ b) (M : Matrix (Fin n → Bool) (Fin n → Bool) ℂ) (x z : Fin n → Bool) :
    (cnotReg a b * M) x z = M (cnotState a b x) z := by
  rw [Matrix.mul_apply, Finset.sum_eq_single (cnotState a b x)]
  · rw [cnotReg, Matrix.of_apply, if_pos (cnotState_invol hab x).symm, one_mul]
  · intro y _ hy
    rw [cnotReg, Matrix.of_apply, if_neg, zero_mul]
    intro e
    exact hy (by rw [e, cnotState_invol hab])
  · intro h; exact absurd (Finset.mem_univ _) h

theorem mul_cnotReg {a b : Fin n} (M : Matrix (Fin n → Bool) (Fin n → Bool) ℂ) (x z : Fin n → Bool) :
    (M * cnotReg a b) x z = M x (cnotState a b z) := by
  rw [Matrix.mul_apply, Finset.sum_eq_single (cnotState a b z)]
  · rw [cnotReg, Matrix.of_apply, if_pos rfl, mul_one]
  · intro y _ hy
    rw [cnotReg, Matrix.of_apply, if_neg hy, mul_zero]
  · intro h; exact absurd (Finset.mem_univ _) h

theorem cnotState_inj {a b : Fin n} (hab : a ≠ b) {x z : Fin n → Bool} : cnotState a b x = cnotState a b z ↔ x = z :=
  ⟨fun h => by rw [← cnotState_invol hab x, h, cnotState_invol hab], fun h => by rw [h]⟩

theorem cnotReg_sq {a b : Fin n} (hab : a ≠ b) : cnotReg a b * cnotReg a b = 1 := by
  ext x z
  rw [cnotReg_mul hab, cnotReg, Matrix.of_apply, Matrix.one_apply]
  simp only [cnotState_inj hab]

theorem cnotReg_conj {a b : Fin n} (hab : a ≠ b) (d : (Fin n → Bool) → ℂ) :
    cnotReg a b * Matrix.diagonal d * cnotReg a b = Matrix.diagonal fun x => d (cnotState a b x) := by
  ext x z
  rw [mul_cnotReg, cnotReg_mul hab, Matrix.diagonal_apply, Matrix.diagonal_apply]
  simp only [cnotState_inj hab]

/-- The sign of a product of `Z`s at a basis state. -/
def zDiag (l : List ℕ) (x : Fin n → Bool) : ℂ := ∏ q : Fin n, if (q : ℕ) ∈ l ∧ x q then (-1) else 1

theorem zDiag_cons {a : ℕ} (ha : a < n) {l : List ℕ} (hn : a ∉ l) (x : Fin n → Bool) :
    zDiag (a :: l) x = (if x ⟨a, ha⟩ then (-1) else 1) * zDiag l x := by
  have h : zDiag (a :: l) x = (∏ q : Fin n, if q = ⟨a, ha⟩ then (if x ⟨a, ha⟩ then (-1 : ℂ) else 1) else 1) * zDiag l x := by
    rw [zDiag, zDiag, ← Finset.prod_mul_distrib]
    refine Finset.prod_congr rfl fun q _ => ?_
    by_cases hq : q = ⟨a, ha⟩
    · subst hq
      rw [if_pos rfl, if_neg (by simp [hn] : ¬ (a ∈ l ∧ x ⟨a, ha⟩ = true)), mul_one]
      simp
    · have : (q : ℕ) ≠ a := fun e => hq (Fin.ext e)
      rw [if_neg hq, one_mul]
      simp [this]
  rw [h, Finset.prod_ite_eq']
  simp

theorem zDiag_update {b : Fin n} {l : List ℕ} (hb : (b : ℕ) ∉ l) (x : Fin n → Bool) (v : Bool) : zDiag l (Function.update x b v) = zDiag l x := by
  rw [zDiag, zDiag]
  refine Finset.prod_congr rfl fun q _ => ?_
  by_cases hq : q = b
  · subst hq; simp [hb]
  · rw [Function.update_of_ne hq]

theorem zDiag_cnot {a b : ℕ} (ha : a < n) (hb : b < n) {l : List ℕ} (hn : (a :: b :: l).Nodup) (x : Fin n → Bool) :
    zDiag (b :: l) (cnotState ⟨a, ha⟩ ⟨b, hb⟩ x) = zDiag (a :: b :: l) x := by
  have h1 : a ∉ b :: l := (List.nodup_cons.1 hn).1
  have h2 : b ∉ l := (List.nodup_cons.1 (List.nodup_cons.1 hn).2).1
  rw [zDiag_cons hb h2, zDiag_cons ha h1, zDiag_cons hb h2, cnotState, zDiag_update h2, Function.update_self]
  cases x ⟨a, ha⟩ <;> cases x ⟨b, hb⟩ <;> simp

/-- The ladder of CNOTs turns the last `Z` into the product of all. -/
theorem ladder_conj (ρ : String → ℂ) : ∀ (t : Term Letter) (f : ℕ × Letter), t.getLast? = some f → (t.map Prod.fst).Nodup → (∀ g ∈ t, g.1 < n) →
    opsOperator n ρ (cnots t).reverse * opsOperator n ρ (cnots t) = 1 ∧
    opsOperator n ρ (cnots t).reverse * Matrix.diagonal (zDiag [f.1]) * opsOperator n ρ (cnots t) = Matrix.diagonal (zDiag (t.map Prod.fst)) := by
  intro t
  induction t with
  | nil => intro f h; simp at h
  | cons a t ih =>
    intro f hf hn hb
    cases t with
    | nil =>
      simp only [List.getLast?_singleton, Option.some.injEq] at hf
      subst hf
      simp [cnots, opsOperator_nil]
    | cons b t =>
      obtain ⟨h1, h2⟩ := ih f (by rw [← hf, List.getLast?_cons_cons]) (by rw [List.map_cons] at hn; exact (List.nodup_cons.1 hn).2)
        (fun g hg => hb g (List.mem_cons_of_mem _ hg))
      have ha' : a.1 < n := hb a (by simp)
      have hb' : b.1 < n := hb b (by simp)
      have hab : a.1 ≠ b.1 := by
        intro e
        rw [List.map_cons, List.map_cons, e] at hn
        simp at hn
      have hab' : (⟨a.1, ha'⟩ : Fin n) ≠ ⟨b.1, hb'⟩ := fun e => hab (congrArg Fin.val e)
      have hL : opsOperator n ρ (cnots (a :: b :: t)) = opsOperator n ρ (cnots (b :: t)) * cnotReg ⟨a.1, ha'⟩ ⟨b.1, hb'⟩ := by
        rw [cnots, ← List.singleton_append, opsOperator_append, opsOperator_singleton, operator_cnot ρ ha' hb' hab]
      have hR : opsOperator n ρ (cnots (a :: b :: t)).reverse = cnotReg ⟨a.1, ha'⟩ ⟨b.1, hb'⟩ * opsOperator n ρ (cnots (b :: t)).reverse := by
        rw [cnots, List.reverse_cons, opsOperator_append, opsOperator_singleton, operator_cnot ρ ha' hb' hab]
      rw [hL, hR]
      set C := cnotReg (⟨a.1, ha'⟩ : Fin n) ⟨b.1, hb'⟩ with hC
      set R := opsOperator n ρ (cnots (b :: t)).reverse
      set L := opsOperator n ρ (cnots (b :: t))
      constructor
      · rw [show C * R * (L * C) = C * (R * L) * C by noncomm_ring, h1, mul_one, cnotReg_sq hab']
      · rw [show C * R * Matrix.diagonal (zDiag [f.1]) * (L * C) = C * (R * Matrix.diagonal (zDiag [f.1]) * L) * C by noncomm_ring, h2,
          cnotReg_conj hab']
        congr 1
        funext x
        exact zDiag_cnot ha' hb' hn x

/-- A layer of one-qubit gates, one for each factor of a Pauli string. -/
theorem layer_operator (ρ : String → ℂ) (g : ℕ × Letter → List GateOp) (M : Letter → Matrix Bool Bool ℂ) (hI : M .I = 1)
    (hg : ∀ (f : ℕ × Letter) (hf : f.1 < n), opsOperator n ρ (g f) = tensor (Function.update (fun _ => 1) ⟨f.1, hf⟩ (M f.2))) :
    ∀ t : Term Letter, (t.map Prod.fst).Nodup → (∀ f ∈ t, f.1 < n) → opsOperator n ρ (t.flatMap g) = tensor fun q => M (letterAt t q) := by
  intro t
  induction t with
  | nil =>
    intro _ _
    rw [List.flatMap_nil, opsOperator_nil, ← tensor_one]
    congr 1
    funext q
    exact hI.symm
  | cons f t ih =>
    intro hn hb
    have hn' : f.1 ∉ t.map Prod.fst ∧ (t.map Prod.fst).Nodup := List.nodup_cons.1 (by rwa [List.map_cons] at hn)
    have hf := hb f (by simp)
    rw [List.flatMap_cons, opsOperator_append, ih hn'.2 (fun g hg => hb g (by simp [hg])), hg f hf, tensor_mul]
    congr 1
    funext q
    by_cases hq : q = ⟨f.1, hf⟩
    · subst hq
      rw [Function.update_self]
      show M (letterAt t f.1) * M f.2 = M (if f.1 = f.1 then f.2 else _)
      rw [if_pos rfl, letterAt_of_not_mem hn'.1, hI, one_mul]
    · rw [Function.update_of_ne hq, mul_one]
      have : f.1 ≠ (q : ℕ) := fun e => hq (Fin.ext e.symm)
      show _ = M (if f.1 = (q : ℕ) then f.2 else _)
      rw [if_neg this]

theorem tensor_update_add (f : Fin n → Matrix Bool Bool ℂ) (q : Fin n) (α β : ℂ) (A B : Matrix Bool Bool ℂ) :
    tensor (Function.update f q (α • A + β • B)) = α • tensor (Function.update f q A) + β • tensor (Function.update f q B) := by
  have h : ∀ (C : Matrix Bool Bool ℂ) x y, tensor (Function.update f q C) x y = C (x q) (y q) * ∏ p ∈ Finset.univ.erase q, f p (x p) (y p) := by
    intro C x y
    rw [tensor, ← Finset.mul_prod_erase _ _ (Finset.mem_univ q), Function.update_self]
    congr 1
    refine Finset.prod_congr rfl fun p hp => ?_
    rw [Function.update_of_ne (Finset.ne_of_mem_erase hp)]
  ext x y
  rw [Matrix.add_apply, Matrix.smul_apply, Matrix.smul_apply, h, h, h, Matrix.add_apply, Matrix.smul_apply, Matrix.smul_apply]
  simp only [smul_eq_mul]
  ring

theorem rzMatrix_onBits (a : ℂ) : (rzMatrix a).onBits 1 = onOne (Complex.cos (a / 2) • 1 + (-(Complex.I * Complex.sin (a / 2))) • pauliZ) := by
  have h := (rotations_are_exponentials a).2.2.1
  have sz : onOne pauliZ * onOne pauliZ = 1 := by rw [onOne_mul, pauli_sq.2.2, onOne_one]
  rw [matrix_exp_I _ sz] at h
  rw [h, ← onOne_one]
  ext x y
  simp only [onOne, Matrix.sub_apply, Matrix.add_apply, Matrix.smul_apply, smul_eq_mul]
  ring

theorem tensor_update_Z {a : ℕ} (ha : a < n) : tensor (Function.update (fun _ => 1) ⟨a, ha⟩ pauliZ) = Matrix.diagonal (zDiag (n := n) [a]) := by
  have := pauliString_zTerm (n := n) [(a, Letter.Z)]
  rw [pauliString] at this
  have h2 : (fun q : Fin n => letterMatrix (letterAt (zTerm [(a, Letter.Z)]) q)) = Function.update (fun _ => 1) ⟨a, ha⟩ pauliZ := by
    funext q
    show letterMatrix (if a = (q : ℕ) then Letter.Z else Letter.I) = _
    by_cases hq : q = ⟨a, ha⟩
    · subst hq; rw [Function.update_self, if_pos rfl]; rfl
    · rw [Function.update_of_ne hq, if_neg (fun e => hq (Fin.ext e.symm))]; rfl
  rw [← h2, this]
  rfl

/-- The rotation of a qubit about `Z`. -/
theorem operator_rz (ρ : String → ℂ) (e : Expr) {a : ℕ} (ha : a < n) :
    GateOp.operator n ρ ⟨rzGate e, [a]⟩ =
      Complex.cos (e.eval ρ / 2) • 1 + (-(Complex.I * Complex.sin (e.eval ρ / 2))) • Matrix.diagonal (zDiag [a]) := by
  rw [operator_single ρ (rzGate e) a ha (rzMatrix_onBits (e.eval ρ)), tensor_update_add, tensor_update_Z ha]
  congr 2
  rw [← tensor_one]
  congr 1
  simp

/-- The matrix before the ladder, on one qubit. -/
noncomputable def beforeBit : Letter → Matrix Bool Bool ℂ
  | .X => invSqrt2 • (pauliX + pauliZ)
  | .Y => rxBit ((Real.pi / 2 : ℝ) : ℂ)
  | _ => 1

/-- The matrix after the ladder, on one qubit. -/
noncomputable def afterBit : Letter → Matrix Bool Bool ℂ
  | .X => invSqrt2 • (pauliX + pauliZ)
  | .Y => rxBit ((-Real.pi / 2 : ℝ) : ℂ)
  | _ => 1

theorem invSqrt2_eq : invSqrt2 = (1 / (√2 : ℝ) : ℂ) := by
  rw [invSqrt2]
  have h : (√2 : ℝ) ≠ 0 := by positivity
  have : (√2 / 2 : ℝ) = 1 / √2 := by
    field_simp
    rw [Real.sq_sqrt (by norm_num)]
  rw [this]
  push_cast
  rfl

theorem hMatrix_onBits : hMatrix.onBits 1 = onOne (beforeBit .X) := by
  rw [fixed_one_qubit_gates.2.2.2.2, ← invSqrt2_eq]
  rfl

theorem rxBit_neg : rxBit ((-Real.pi / 2 : ℝ) : ℂ) = Matrix.of fun i j => if i = j then invSqrt2 else Complex.I * invSqrt2 := by
  have h : (((-Real.pi / 2 : ℝ) : ℂ) / 2) = -((Real.pi / 4 : ℝ) : ℂ) := by push_cast; ring
  funext i j
  rw [Matrix.of_apply, rxBit, h, Complex.cos_neg, Complex.sin_neg, cos_quarter, sin_quarter]
  cases i <;> cases j <;> simp

theorem after_before (a : Letter) : afterBit a * beforeBit a = 1 := by
  have hs := invSqrt2_sq
  have hI : Complex.I * Complex.I = -1 := Complex.I_mul_I
  cases a
  · exact mul_one _
  · ext i j
    cases i <;> cases j <;> simp [afterBit, beforeBit, Matrix.mul_apply, pauliX, pauliZ, hs] <;> norm_num
  · rw [afterBit, beforeBit, rxBit_neg, rxBit_plus]
    ext i j
    cases i <;> cases j <;> simp [Matrix.mul_apply]
    · linear_combination (2 : ℂ) * hs - invSqrt2 * invSqrt2 * hI
    · ring
    · ring
    · linear_combination (2 : ℂ) * hs - invSqrt2 * invSqrt2 * hI
  · exact mul_one _

theorem after_Z_before (a : Letter) (ha : a ≠ .I) : afterBit a * pauliZ * beforeBit a = letterMatrix a := by
  have hs := invSqrt2_sq
  have hI : Complex.I * Complex.I = -1 := Complex.I_mul_I
  cases a
  · exact absurd rfl ha
  · ext i j
    cases i <;> cases j <;> simp [afterBit, beforeBit, Matrix.mul_apply, pauliX, pauliZ, letterMatrix, hs] <;> norm_num
  · rw [afterBit, beforeBit, rxBit_neg, rxBit_plus]
    ext i j
    cases i <;> cases j <;> simp [Matrix.mul_apply, pauliZ, letterMatrix, pauliY]
    · linear_combination invSqrt2 * invSqrt2 * hI
    · linear_combination -(2 : ℂ) * Complex.I * hs
    · linear_combination (2 : ℂ) * Complex.I * hs
    · linear_combination -(invSqrt2 * invSqrt2) * hI
  · show 1 * pauliZ * 1 = pauliZ
    rw [one_mul, mul_one]

theorem layer_empty (q : Fin n) : (1 : Matrix (Fin n → Bool) (Fin n → Bool) ℂ) = tensor (Function.update (fun _ => 1) q 1) := by
  rw [← tensor_one]
  congr 1
  simp

theorem baseChange_operator (ρ : String → ℂ) (f : ℕ × Letter) (hf : f.1 < n) :
    opsOperator n ρ (baseChange f) = tensor (Function.update (fun _ => 1) ⟨f.1, hf⟩ (beforeBit f.2)) := by
  obtain ⟨q, a⟩ := f
  cases a
  · exact layer_empty _
  · rw [baseChange, opsOperator_singleton]
    exact operator_single ρ _ q hf hMatrix_onBits
  · rw [baseChange, opsOperator_singleton]
    exact operator_single ρ _ q hf (rxMatrix_onBits _)
  · exact layer_empty _

theorem baseReversal_operator (ρ : String → ℂ) (f : ℕ × Letter) (hf : f.1 < n) :
    opsOperator n ρ (baseReversal f) = tensor (Function.update (fun _ => 1) ⟨f.1, hf⟩ (afterBit f.2)) := by
  obtain ⟨q, a⟩ := f
  cases a
  · exact layer_empty _
  · rw [baseReversal, opsOperator_singleton]
    exact operator_single ρ _ q hf hMatrix_onBits
  · rw [baseReversal, opsOperator_singleton]
    exact operator_single ρ _ q hf (rxMatrix_onBits _)
  · exact layer_empty _

theorem pauliString_sq (t : Term Letter) : pauliString n t * pauliString n t = 1 := by
  rw [pauliString, tensor_mul, ← tensor_one]
  congr 1
  funext q
  cases letterAt t q
  · exact mul_one _
  · exact pauli_sq.1
  · exact pauli_sq.2.1
  · exact pauli_sq.2.2

/-- The operations of the evolution circuit of one term. -/
noncomputable def termOps (t : Term Letter) (angle : Expr) : List GateOp :=
  t.flatMap baseChange ++ cnots t ++ central angle t ++ (cnots t).reverse ++ t.flatMap baseReversal

theorem termOps_operator (ρ : String → ℂ) {t : Term Letter} (hc : Canonical t) (hne : t ≠ []) (hb : ∀ f ∈ t, f.1 < n) (e : Expr) :
    opsOperator n ρ (termOps t e) = NormedSpace.exp (-(Complex.I * (e.eval ρ / 2)) • pauliString n t) := by
  obtain ⟨f, hf⟩ : ∃ f, t.getLast? = some f := Option.ne_none_iff_exists'.1 (by simpa using hne)
  have hfm : f ∈ t := List.mem_of_getLast? hf
  rw [termOps, opsOperator_append, opsOperator_append, opsOperator_append, opsOperator_append,
    layer_operator ρ baseChange beforeBit rfl (baseChange_operator ρ) t hc.nodup hb,
    layer_operator ρ baseReversal afterBit rfl (baseReversal_operator ρ) t hc.nodup hb, central, hf, opsOperator_singleton,
    operator_rz ρ e (hb f hfm), matrix_exp_I _ (pauliString_sq t)]
  obtain ⟨h1, h2⟩ := ladder_conj ρ t f hf hc.nodup hb
  set R := opsOperator n ρ (cnots t).reverse
  set L := opsOperator n ρ (cnots t)
  set Vt := tensor fun q : Fin n => afterBit (letterAt t q)
  set B := tensor fun q : Fin n => beforeBit (letterAt t q)
  have hVB : Vt * B = 1 := by
    rw [tensor_mul, ← tensor_one]
    congr 1
    funext q
    exact after_before _
  have hVZB : Vt * Matrix.diagonal (zDiag (t.map Prod.fst)) * B = pauliString n t := by
    have := pauliString_zTerm (n := n) t
    rw [show (Matrix.diagonal (zDiag (n := n) (t.map Prod.fst))) = pauliString n (zTerm t) from this.symm, pauliString, tensor_mul, tensor_mul, pauliString]
    congr 1
    funext q
    rw [letterAt_zTerm]
    by_cases hq : (q : ℕ) ∈ t.map Prod.fst
    · obtain ⟨g, hg, e⟩ := List.mem_map.1 hq
      rw [if_pos hq, ← e, letterAt_of_mem hc.nodup hg]
      exact after_Z_before _ (hc.2 g hg)
    · rw [if_neg hq, letterAt_of_not_mem hq]
      show (1 : Matrix Bool Bool ℂ) * 1 * 1 = 1
      simp
  set α := Complex.cos (e.eval ρ / 2)
  set β := Complex.I * Complex.sin (e.eval ρ / 2)
  set D := Matrix.diagonal (zDiag (n := n) [f.1])
  have : Vt * (R * ((α • (1 : Matrix (Fin n → Bool) (Fin n → Bool) ℂ) + (-β) • D) * (L * B))) = α • (Vt * (R * L) * B) + (-β) • (Vt * (R * D * L) * B) := by
    simp only [add_mul, mul_add, Matrix.smul_mul, Matrix.mul_smul, one_mul, mul_assoc]
  rw [this, h1, h2, mul_one, hVB, hVZB, neg_smul, sub_eq_add_neg]

end ZQ.Evol
