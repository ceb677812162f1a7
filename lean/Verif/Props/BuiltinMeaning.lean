import Verif.Lemmas.Gates
import Verif.Lemmas.MatExp
import Verif.Spec.Paulis
import Verif.Spec.Gates

/-!
# C66: built-in gates are the textbook gates

Fixed gates are compared with the Pauli matrices; rotation gates with matrix exponentials.  All parameters range over ℂ (hence over ℝ).
-/

namespace ZQ.Gates

open Matrix Complex

theorem basisIndex_one (x : Fin 1 → Bool) : basisIndex x = if x 0 then 1 else 0 := by
  unfold basisIndex
  rw [Fin.sum_univ_one]
  simp

theorem basisIndex_two (x : Fin 2 → Bool) : basisIndex x = (if x 0 then 2 else 0) + (if x 1 then 1 else 0) := by
  simp [basisIndex, Fin.sum_univ_two]

theorem ext_one {A B : Matrix (Fin 1 → Bool) (Fin 1 → Bool) ℂ} (h : ∀ a b : Bool, A (fun _ => a) (fun _ => b) = B (fun _ => a) (fun _ => b)) : A = B := by
  ext x y
  have hx : x = fun _ => x 0 := by funext i; rw [Subsingleton.elim i 0]
  have hy : y = fun _ => y 0 := by funext i; rw [Subsingleton.elim i 0]
  rw [hx, hy]
  exact h _ _

theorem ext_two {A B : Matrix (Fin 2 → Bool) (Fin 2 → Bool) ℂ}
    (h : ∀ a b c d : Bool, A ![a, b] ![c, d] = B ![a, b] ![c, d]) : A = B := by
  ext x y
  have hx : x = ![x 0, x 1] := by funext i; fin_cases i <;> rfl
  have hy : y = ![y 0, y 1] := by funext i; fin_cases i <;> rfl
  rw [hx, hy]
  exact h _ _ _ _

theorem vec2_inj (a b c d : Bool) : (![a, b] : Fin 2 → Bool) = ![c, d] ↔ a = c ∧ b = d := by
  constructor
  · intro h; exact ⟨congrFun h 0, congrFun h 1⟩
  · rintro ⟨rfl, rfl⟩; rfl

theorem onTwo_mul (A B C D : Matrix Bool Bool ℂ) : onTwo A B * onTwo C D = onTwo (A * C) (B * D) := by
  ext x y
  rw [Matrix.mul_apply]
  unfold onTwo
  rw [← (finTwoArrowEquiv Bool).symm.sum_comp, Fintype.sum_prod_type]
  simp [Matrix.mul_apply]
  ring

theorem onOne_mul (A B : Matrix Bool Bool ℂ) : onOne A * onOne B = onOne (A * B) := by
  ext x y
  rw [Matrix.mul_apply]
  unfold onOne
  rw [← (Equiv.funUnique (Fin 1) Bool).symm.sum_comp]
  simp [Matrix.mul_apply]

theorem onOne_one : onOne 1 = 1 := by
  apply ext_one
  intro a b
  cases a <;> cases b <;> simp [onOne, Matrix.one_apply, funext_iff]

theorem onTwo_one : onTwo 1 1 = 1 := by
  apply ext_two
  intro a b c d
  simp only [onTwo, Matrix.one_apply, vec2_inj]
  cases a <;> cases b <;> cases c <;> cases d <;> simp

theorem pauli_sq : pauliX * pauliX = 1 ∧ pauliY * pauliY = 1 ∧ pauliZ * pauliZ = 1 := by
  refine ⟨?_, ?_, ?_⟩ <;> ext a b <;> cases a <;> cases b <;> simp [Matrix.mul_apply, pauliX, pauliY, pauliZ]

macro "entries1" : tactic => `(tactic|
  (apply ext_one
   intro a b
   cases a <;> cases b <;> simp [Mat.onBits, basisIndex_one, Mat.ofRows, onOne, Matrix.one_apply, funext_iff, pauliX, pauliY, pauliZ]))

macro "entries2" : tactic => `(tactic|
  (apply ext_two
   intro a b c d
   simp only [Mat.onBits, basisIndex_two, Matrix.one_apply, vec2_inj, onTwo, Matrix.sub_apply, Matrix.smul_apply, Matrix.add_apply]
   cases a <;> cases b <;> cases c <;> cases d <;> simp [Mat.ofRows, pauliX, pauliY, pauliZ]))

/-- **C66.** X, Y, Z, I and H. -/
theorem fixed_one_qubit_gates :
    xMatrix.onBits 1 = onOne pauliX ∧ yMatrix.onBits 1 = onOne pauliY ∧ zMatrix.onBits 1 = onOne pauliZ ∧ iMatrix.onBits 1 = 1 ∧
      hMatrix.onBits 1 = (1 / (√2 : ℝ) : ℂ) • (onOne pauliX + onOne pauliZ) := by
  refine ⟨?_, ?_, ?_, ?_, ?_⟩
  · unfold xMatrix; entries1
  · unfold yMatrix; entries1
  · unfold zMatrix; entries1
  · unfold iMatrix; entries1
  · unfold hMatrix; entries1
    all_goals ring

/-- **C66.** RX, RY, RZ are the exponentials of the Pauli matrices; RH that of the Hadamard matrix, times a global phase. -/
theorem rotations_are_exponentials (a : ℂ) :
    (rxMatrix a).onBits 1 = NormedSpace.exp (-(I * (a / 2)) • onOne pauliX) ∧
    (ryMatrix a).onBits 1 = NormedSpace.exp (-(I * (a / 2)) • onOne pauliY) ∧
    (rzMatrix a).onBits 1 = NormedSpace.exp (-(I * (a / 2)) • onOne pauliZ) ∧
    (rhMatrix a).onBits 1 = Complex.exp (I * (a / 2)) •
      NormedSpace.exp (-(I * (a / 2)) • ((1 / (√2 : ℝ) : ℂ) • (onOne pauliX + onOne pauliZ))) := by
  obtain ⟨hx, hy, hz⟩ := pauli_sq
  have sx : onOne pauliX * onOne pauliX = 1 := by rw [onOne_mul, hx, onOne_one]
  have sy : onOne pauliY * onOne pauliY = 1 := by rw [onOne_mul, hy, onOne_one]
  have sz : onOne pauliZ * onOne pauliZ = 1 := by rw [onOne_mul, hz, onOne_one]
  have sh : ((1 / (√2 : ℝ) : ℂ) • (onOne pauliX + onOne pauliZ)) * ((1 / (√2 : ℝ) : ℂ) • (onOne pauliX + onOne pauliZ)) = 1 := by
    have hxz : pauliX * pauliZ + pauliZ * pauliX = 0 := by
      ext a b; cases a <;> cases b <;> simp [Matrix.mul_apply, pauliX, pauliZ]
    rw [smul_mul_smul_comm, add_mul, mul_add, mul_add, sx, sz, onOne_mul, onOne_mul]
    have : onOne (pauliX * pauliZ) + onOne (pauliZ * pauliX) = 0 := by
      have h0 : onOne (pauliX * pauliZ + pauliZ * pauliX) = 0 := by rw [hxz]; rfl
      rw [← h0]; rfl
    rw [show (1 : Matrix (Fin 1 → Bool) (Fin 1 → Bool) ℂ) + onOne (pauliX * pauliZ) + (onOne (pauliZ * pauliX) + 1) =
      1 + 1 + (onOne (pauliX * pauliZ) + onOne (pauliZ * pauliX)) by abel, this, add_zero, ← two_smul ℂ, smul_smul]
    rw [show (1 / ((√2 : ℝ) : ℂ) * (1 / ((√2 : ℝ) : ℂ)) * 2) = 1 by
      rw [one_div]; rw [sqrt2_inv_sq]; norm_num, one_smul]
  refine ⟨?_, ?_, ?_, ?_⟩
  · rw [matrix_exp_I _ sx]
    unfold rxMatrix
    entries1
  · rw [matrix_exp_I _ sy]
    unfold ryMatrix
    entries1
    · ring_nf; simp [I_sq]
    · ring_nf; simp [I_sq]
  · rw [matrix_exp_I _ sz]
    unfold rzMatrix
    entries1
    · rw [show -(I * a) / 2 = -(a / 2) * I by ring, Complex.exp_mul_I, Complex.cos_neg, Complex.sin_neg]; ring
    · rw [show I * a / 2 = (a / 2) * I by ring, Complex.exp_mul_I]; ring
  · rw [matrix_exp_I _ sh]
    unfold rhMatrix
    rw [show I * (a / 2) = (a / 2) * I by ring, Complex.exp_mul_I]
    simp only [onBits_smul]
    rw [mul_comm I (sin (a/2))]
    congr 1
    entries1
    all_goals ring

/-- **C66.** PHASE, S, T and U3. -/
theorem phase_gates (a theta phi lambda : ℂ) :
    (phaseMatrix a).onBits 1 = onOne (fun x y => if x = y then (if x then Complex.exp (I * a) else 1) else 0) ∧
    sMatrix.onBits 1 = (phaseMatrix (Real.pi / 2)).onBits 1 ∧ tMatrix.onBits 1 = (phaseMatrix (Real.pi / 4)).onBits 1 ∧
    (u3Matrix theta phi lambda).onBits 1 = onOne (fun x y =>
      if x then (if y then Complex.exp (I * (phi + lambda)) * cos (theta / 2) else Complex.exp (I * phi) * sin (theta / 2))
      else (if y then -(Complex.exp (I * lambda) * sin (theta / 2)) else cos (theta / 2))) := by
  refine ⟨?_, ?_, ?_, ?_⟩
  · unfold phaseMatrix; entries1
  · unfold phaseMatrix sMatrix; entries1
    rw [show I * (↑Real.pi / 2) = Real.pi / 2 * I by ring, Complex.exp_pi_div_two_mul_I]
  · unfold phaseMatrix tMatrix; entries1
    congr 1; ring
  · have e : (1 / Complex.exp (-0.5 * I * (phi + lambda)) : ℂ) = Complex.exp (I * phi / 2) * Complex.exp (I * lambda / 2) := by
      rw [one_div, ← Complex.exp_neg, ← Complex.exp_add]; congr 1; ring
    unfold u3Matrix rzMatrix ryMatrix
    rw [onBits_smul, onBits_mul _ _ 1 rfl, onBits_mul _ _ 1 rfl, e]
    have p1 : Complex.exp (I * phi / 2) * Complex.exp (-(I * phi) / 2) = 1 := by
      rw [← Complex.exp_add]; ring_nf; exact Complex.exp_zero
    have p2 : Complex.exp (I * lambda / 2) * Complex.exp (-(I * lambda) / 2) = 1 := by
      rw [← Complex.exp_add]; ring_nf; exact Complex.exp_zero
    have q1 : Complex.exp (I * phi) = Complex.exp (I * phi / 2) * Complex.exp (I * phi / 2) := by
      rw [← Complex.exp_add]; congr 1; ring
    have q2 : Complex.exp (I * lambda) = Complex.exp (I * lambda / 2) * Complex.exp (I * lambda / 2) := by
      rw [← Complex.exp_add]; congr 1; ring
    have q3 : Complex.exp (I * (phi + lambda)) = Complex.exp (I * phi) * Complex.exp (I * lambda) := by
      rw [← Complex.exp_add]; congr 1; ring
    rw [q3, q1, q2]
    apply ext_one
    intro x y
    have sum1 : ∀ f : (Fin 1 → Bool) → ℂ, ∑ z, f z = f (fun _ => true) + f (fun _ => false) := by
      intro f
      rw [← (Equiv.funUnique (Fin 1) Bool).symm.sum_comp]
      simp
      rfl
    cases x <;> cases y <;>
      simp [Matrix.mul_apply, Mat.onBits, basisIndex_one, Mat.ofRows, onOne, sum1]
    · linear_combination (cos (theta / 2) * Complex.exp (I * lambda / 2) * Complex.exp (-(I * lambda) / 2)) * p1 + cos (theta / 2) * p2
    · linear_combination ((sin (theta / 2)) * Complex.exp (I * lambda / 2) * Complex.exp (I * lambda / 2)) * p1
    · linear_combination (sin (theta / 2) * Complex.exp (I * phi / 2) * Complex.exp (I * phi / 2)) * p2
    · ring

/-- **C66.** XX, YY, ZZ are the exponentials of the two-qubit Pauli products, XY that of their sum with the opposite sign. -/
theorem ising_gates_are_exponentials (a : ℂ) :
    (xxMatrix a).onBits 2 = NormedSpace.exp (-(I * (a / 2)) • onTwo pauliX pauliX) ∧
    (yyMatrix a).onBits 2 = NormedSpace.exp (-(I * (a / 2)) • onTwo pauliY pauliY) ∧
    (zzMatrix a).onBits 2 = NormedSpace.exp (-(I * (a / 2)) • onTwo pauliZ pauliZ) ∧
    (xyMatrix a).onBits 2 = NormedSpace.exp ((I * (a / 2)) • ((1 / 2 : ℂ) • (onTwo pauliX pauliX + onTwo pauliY pauliY))) := by
  obtain ⟨hx, hy, hz⟩ := pauli_sq
  have sx : onTwo pauliX pauliX * onTwo pauliX pauliX = 1 := by rw [onTwo_mul, hx, onTwo_one]
  have sy : onTwo pauliY pauliY * onTwo pauliY pauliY = 1 := by rw [onTwo_mul, hy, onTwo_one]
  have sz : onTwo pauliZ pauliZ * onTwo pauliZ pauliZ = 1 := by rw [onTwo_mul, hz, onTwo_one]
  refine ⟨?_, ?_, ?_, ?_⟩
  · rw [matrix_exp_I _ sx]
    unfold xxMatrix
    entries2
  · rw [matrix_exp_I _ sy]
    unfold yyMatrix
    entries2
  · rw [matrix_exp_I _ sz]
    unfold zzMatrix
    entries2
  · set B := (1 / 2 : ℂ) • (onTwo pauliX pauliX + onTwo pauliY pauliY) with hB
    have hsq : B * B = (1 / 2 : ℂ) • (1 - onTwo pauliZ pauliZ) := by
      have xy : onTwo pauliX pauliX * onTwo pauliY pauliY = - onTwo pauliZ pauliZ := by
        rw [onTwo_mul]
        apply ext_two
        intro a b c d
        cases a <;> cases b <;> cases c <;> cases d <;> simp [onTwo, Matrix.mul_apply, pauliX, pauliY, pauliZ]
      have yx : onTwo pauliY pauliY * onTwo pauliX pauliX = - onTwo pauliZ pauliZ := by
        rw [onTwo_mul]
        apply ext_two
        intro a b c d
        cases a <;> cases b <;> cases c <;> cases d <;> simp [onTwo, Matrix.mul_apply, pauliX, pauliY, pauliZ]
      rw [hB, smul_mul_smul_comm, add_mul, mul_add, mul_add, sx, sy, xy, yx]
      module
    have hzB : onTwo pauliZ pauliZ * B = -B := by
      rw [hB, mul_smul_comm, mul_add, onTwo_mul, onTwo_mul, ← smul_neg]
      congr 1
      apply ext_two
      intro a b c d
      cases a <;> cases b <;> cases c <;> cases d <;> simp [onTwo, Matrix.mul_apply, pauliX, pauliY, pauliZ]
    have h3 : B * B * B = B := by
      rw [hsq, smul_mul_assoc, sub_mul, one_mul, hzB]
      module
    rw [matrix_exp_cube B h3, hsq, mul_comm I, Complex.sinh_mul_I, Complex.cosh_mul_I, hB]
    unfold xyMatrix
    entries2
    all_goals ring

/-- **C66.** The fixed two-qubit gates: CNOT, CZ and CPHASE are controlled X, Z and PHASE; SWAP exchanges the qubits; ISWAP is XY at angle π. -/
theorem fixed_two_qubit_gates (a : ℂ) :
    cnotMatrix.onBits 2 = controlledOp 1 (onOne pauliX) ∧ czMatrix.onBits 2 = controlledOp 1 (onOne pauliZ) ∧
    (cphaseMatrix a).onBits 2 = controlledOp 1 ((phaseMatrix a).onBits 1) ∧
    swapMatrix.onBits 2 = (fun x y => if x 0 = y 1 ∧ x 1 = y 0 then 1 else 0) ∧
    iswapMatrix.onBits 2 = (xyMatrix Real.pi).onBits 2 := by
  refine ⟨?_, ?_, ?_, ?_, ?_⟩
  · apply ext_two
    intro a b c d
    simp only [Mat.onBits, basisIndex_two, controlledOp, vec2_inj, onOne, cnotMatrix]
    cases a <;> cases b <;> cases c <;> cases d <;> simp [Mat.ofRows, pauliX, Fin.natAdd]
  · apply ext_two
    intro a b c d
    simp only [Mat.onBits, basisIndex_two, controlledOp, vec2_inj, onOne, czMatrix]
    cases a <;> cases b <;> cases c <;> cases d <;> simp [Mat.ofRows, pauliZ, Fin.natAdd]
  · apply ext_two
    intro x b c d
    simp only [Mat.onBits, basisIndex_two, basisIndex_one, controlledOp, vec2_inj, cphaseMatrix, phaseMatrix]
    cases x <;> cases b <;> cases c <;> cases d <;> simp [Mat.ofRows, Fin.natAdd]
  · apply ext_two
    intro a b c d
    simp only [Mat.onBits, basisIndex_two, swapMatrix]
    cases a <;> cases b <;> cases c <;> cases d <;> simp [Mat.ofRows]
  · unfold iswapMatrix xyMatrix
    entries2

/-- **C66.** Hence the angles of rotations about one axis add up. -/
theorem rotation_angles_add (a b : ℂ) :
    (rxMatrix (a + b)).onBits 1 = (rxMatrix a).onBits 1 * (rxMatrix b).onBits 1 ∧
    (ryMatrix (a + b)).onBits 1 = (ryMatrix a).onBits 1 * (ryMatrix b).onBits 1 ∧
    (rzMatrix (a + b)).onBits 1 = (rzMatrix a).onBits 1 * (rzMatrix b).onBits 1 ∧
    (xxMatrix (a + b)).onBits 2 = (xxMatrix a).onBits 2 * (xxMatrix b).onBits 2 ∧
    (yyMatrix (a + b)).onBits 2 = (yyMatrix a).onBits 2 * (yyMatrix b).onBits 2 ∧
    (zzMatrix (a + b)).onBits 2 = (zzMatrix a).onBits 2 * (zzMatrix b).onBits 2 := by
  have add : ∀ {n : ℕ} (P : Matrix (Fin n → Bool) (Fin n → Bool) ℂ),
      NormedSpace.exp (-(I * ((a + b) / 2)) • P) = NormedSpace.exp (-(I * (a / 2)) • P) * NormedSpace.exp (-(I * (b / 2)) • P) := by
    intro n P
    rw [← Matrix.exp_add_of_commute]
    · rw [← add_smul]; congr 2; ring
    · exact (Commute.refl P).smul_left _ |>.smul_right _
  obtain ⟨x1, x2, x3, _⟩ := rotations_are_exponentials a
  obtain ⟨y1, y2, y3, _⟩ := rotations_are_exponentials b
  obtain ⟨z1, z2, z3, _⟩ := rotations_are_exponentials (a + b)
  obtain ⟨u1, u2, u3, _⟩ := ising_gates_are_exponentials a
  obtain ⟨v1, v2, v3, _⟩ := ising_gates_are_exponentials b
  obtain ⟨w1, w2, w3, _⟩ := ising_gates_are_exponentials (a + b)
  rw [x1, x2, x3, y1, y2, y3, z1, z2, z3, u1, u2, u3, v1, v2, v3, w1, w2, w3]
  exact ⟨add _, add _, add _, add _, add _, add _⟩

end ZQ.Gates
