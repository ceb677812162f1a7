import Verif.Props.Conserved

/-!
# C150: time evolutions one after the other
-/

namespace ZQ.Reversal

open ZQ ZQ.PyDict ZQ.Circuits ZQ.Gates ZQ.Est ZQ.Expect ZQ.Backend ZQ.Op ZQ.Conserved Matrix
open ZQ.Evol hiding braket

variable {W W' : Type}

/-! ### The state after an evolution -/

theorem evolved_state {ρ : String → ℂ} {c : Circuit} (hc : Unitary ρ c) {H : Terms Letter} (hH : CanonicalOp H) (hne : H ≠ []) (hb : Below c.n H) (hreal : ∀ kv ∈ H, kv.2.im = 0) (time : Expr)
    (htime : (time.eval ρ).im = 0) (k : ℕ) (hk : 0 < k) :
    ∃ u, timeEvolution H time "Trotter" k = .ok u ∧ append c (.circuit u) = .ok ⟨c.ops ++ u.ops, c.n⟩ ∧ Unitary ρ ⟨c.ops ++ u.ops, c.n⟩ ∧
      opsOperator c.n ρ u.ops = trotterStep c.n (time.eval ρ / k) H ^ k ∧ outputState ρ ⟨c.ops ++ u.ops, c.n⟩ = opsOperator c.n ρ u.ops *ᵥ outputState ρ c := by
  obtain ⟨u, h1, h2, h3, -⟩ := evolved hc hH hne hb hreal time htime k hk
  obtain ⟨u', g1, -, g2⟩ := timeEvolution_spec hH hne time k hk
  rw [h1] at g1
  obtain rfl := Except.ok.inj g1
  exact ⟨u, h1, h2, h3, g2 c.n ρ hb, Register.later_state ρ c.n c.ops u.ops⟩

/-- Two evolutions one after the other. -/
theorem twice {ρ : String → ℂ} {c : Circuit} (hc : Unitary ρ c) {H G : Terms Letter} (hH : CanonicalOp H) (hG : CanonicalOp G) (hne : H ≠ []) (hne' : G ≠ []) (hb : Below c.n H) (hb' : Below c.n G)
    (hreal : ∀ kv ∈ H, kv.2.im = 0) (hreal' : ∀ kv ∈ G, kv.2.im = 0) (s t : Expr) (hs : (s.eval ρ).im = 0) (ht : (t.eval ρ).im = 0) (k l : ℕ) (hk : 0 < k) (hl : 0 < l) :
    ∃ u v c₁ c₂, timeEvolution H s "Trotter" k = .ok u ∧ timeEvolution G t "Trotter" l = .ok v ∧ append c (.circuit u) = .ok c₁ ∧ append c₁ (.circuit v) = .ok c₂ ∧
      ∃ ops, c₂ = ⟨ops, c.n⟩ ∧ Unitary ρ ⟨ops, c.n⟩ ∧ outputState ρ ⟨ops, c.n⟩ = (trotterStep c.n (t.eval ρ / l) G ^ l * trotterStep c.n (s.eval ρ / k) H ^ k) *ᵥ outputState ρ c := by
  obtain ⟨u, h1, h2, h3, h4, h5⟩ := evolved_state hc hH hne hb hreal s hs k hk
  obtain ⟨v, g1, g2, g3, g4, g5⟩ := evolved_state h3 hG hne' hb' hreal' t ht l hl
  refine ⟨u, v, _, _, h1, g1, h2, g2, _, rfl, g3, ?_⟩
  refine g5.trans ?_
  rw [h5, h4]
  erw [g4]
  rw [Matrix.mulVec_mulVec]

/-- The states being the same, so are distributions of outcomes and expectation values. -/
theorem same_results {ρ : String → ℂ} (sim : Simulator W) (hsim : Correct sim ρ) (sim' : Simulator W') (hsim' : Correct sim' ρ) {n : ℕ} {a b : List GateOp} (ha : Unitary ρ ⟨a, n⟩)
    (hb : Unitary ρ ⟨b, n⟩) (h : outputState ρ ⟨a, n⟩ = outputState ρ ⟨b, n⟩) (st : St W) (st' : St W') :
    (∃ d d', (exactDistribution sim ρ ⟨a, n⟩ st).1 = .ok d ∧ (exactDistribution sim' ρ ⟨b, n⟩ st').1 = .ok d' ∧
        ∀ x : Fin n → Bool, Dist.pmf d ((bits x).map fun b : ℕ => (b : ℤ)) = Dist.pmf d' ((bits x).map fun b : ℕ => (b : ℤ))) ∧
      ∀ (isIsing : Bool) (A : Terms Letter), CanonicalOp A → Below n A → ∃ e, (getExactExpectationValues sim ρ ⟨a, n⟩ isIsing A st).1 = .ok e ∧
        (getExactExpectationValues sim' ρ ⟨b, n⟩ isIsing A st').1 = .ok e := by
  constructor
  · obtain ⟨d, h1, h2⟩ := exactDistribution_spec sim ρ hsim _ ha st
    obtain ⟨d', h1', h2'⟩ := exactDistribution_spec sim' ρ hsim' _ hb st'
    exact ⟨d, d', h1, h1', fun x => (h2 x).trans ((congrArg (fun ψ => Complex.normSq (ψ x)) h).trans (h2' x).symm)⟩
  · intro isIsing A hA hAb
    have e1 := (exactValues_spec sim ρ hsim _ ha isIsing hA hAb st).1
    have e2 := (exactValues_spec sim' ρ hsim' _ hb isIsing hA hAb st').1
    refine ⟨_, e1, e2.trans ?_⟩
    show Except.ok (ZQ.Meas.ExpectationValues.mk ((valued isIsing A).map fun kv => (braket (outputState ρ ⟨b, n⟩) (kv.2 • pauliString n kv.1)).re) none none) = _
    rw [← h]

/-! ### Commuting terms -/

theorem commuting_power {n : ℕ} {H : Terms Letter} (hw : WF H) (hcomm : ∀ s ∈ keys H, ∀ t ∈ keys H, Commute (pauliString n s) (pauliString n t)) (τ : ℂ) (k : ℕ) (hk : 0 < k) :
    trotterStep n (τ / k) H ^ k = Complex.exp (Complex.I * (τ * coeff H [])) • NormedSpace.exp (-(Complex.I * τ) • opMatrix n H) := by
  have hk0 : (k : ℂ) ≠ 0 := by exact_mod_cast hk.ne'
  rw [trotterStep_commuting n _ H hw hcomm, smul_pow, ← Complex.exp_nat_mul, ← Matrix.exp_nsmul, ← Nat.cast_smul_eq_nsmul ℂ, smul_smul]
  congr 2
  · field_simp
  · congr 1
    field_simp

theorem commuting_add {n : ℕ} {H : Terms Letter} (hw : WF H) (hcomm : ∀ s ∈ keys H, ∀ t ∈ keys H, Commute (pauliString n s) (pauliString n t)) (σ τ : ℂ) (k l m : ℕ) (hk : 0 < k) (hl : 0 < l)
    (hm : 0 < m) : trotterStep n (τ / l) H ^ l * trotterStep n (σ / k) H ^ k = trotterStep n ((σ + τ) / m) H ^ m := by
  rw [commuting_power hw hcomm τ l hl, commuting_power hw hcomm σ k hk, commuting_power hw hcomm (σ + τ) m hm, smul_mul_smul_comm, ← Complex.exp_add,
    ← Matrix.exp_add_of_commute _ _ (((Commute.refl (opMatrix n H)).smul_left _).smul_right _), ← add_smul]
  congr 2
  · ring
  · congr 1
    ring

theorem commuting_zero {n : ℕ} {H : Terms Letter} (hw : WF H) (hcomm : ∀ s ∈ keys H, ∀ t ∈ keys H, Commute (pauliString n s) (pauliString n t)) (m : ℕ) (hm : 0 < m) :
    trotterStep n (0 / m) H ^ m = 1 := by
  rw [commuting_power hw hcomm 0 m hm]
  simp

/-- C150. If the Pauli strings of the Hamiltonian commute, evolving the state of any circuit for one time and then for another is evolving it for the sum of the times, whatever the numbers of
Trotter steps: same distribution of outcomes, same expectation values of every operator.  Missing for the full claim: terms that do not
commute, for which it is false (`there_and_back_counterexample`). -/
theorem evolutions_add_partial {ρ : String → ℂ} (sim : Simulator W) (hsim : Correct sim ρ) (sim' : Simulator W') (hsim' : Correct sim' ρ) {c : Circuit} (hc : Unitary ρ c) {H : Terms Letter}
    (hH : CanonicalOp H) (hne : H ≠ []) (hb : Below c.n H) (hreal : ∀ kv ∈ H, kv.2.im = 0) (hcomm : ∀ s ∈ keys H, ∀ t ∈ keys H, Commute (pauliString c.n s) (pauliString c.n t))
    (s t r : Expr) (hs : (s.eval ρ).im = 0) (ht : (t.eval ρ).im = 0) (hr : r.eval ρ = s.eval ρ + t.eval ρ) (k l m : ℕ) (hk : 0 < k) (hl : 0 < l) (hm : 0 < m) (st : St W) (st' : St W') :
    ∃ u v w c₁ c₂ c₃, timeEvolution H s "Trotter" k = .ok u ∧ timeEvolution H t "Trotter" l = .ok v ∧ timeEvolution H r "Trotter" m = .ok w ∧
      append c (.circuit u) = .ok c₁ ∧ append c₁ (.circuit v) = .ok c₂ ∧ append c (.circuit w) = .ok c₃ ∧
      (∃ d d', (exactDistribution sim ρ c₂ st).1 = .ok d ∧ (exactDistribution sim' ρ c₃ st').1 = .ok d' ∧
        ∀ x : Fin c.n → Bool, Dist.pmf d ((bits x).map fun b : ℕ => (b : ℤ)) = Dist.pmf d' ((bits x).map fun b : ℕ => (b : ℤ))) ∧
      ∀ (isIsing : Bool) (A : Terms Letter), CanonicalOp A → Below c.n A → ∃ e, (getExactExpectationValues sim ρ c₂ isIsing A st).1 = .ok e ∧
        (getExactExpectationValues sim' ρ c₃ isIsing A st').1 = .ok e := by
  obtain ⟨u, v, c₁, c₂, h1, h2, h3, h4, ops, rfl, h5, h6⟩ := twice hc hH hH hne hne hb hb hreal hreal s t hs ht k l hk hl
  obtain ⟨w, g1, g2, g3, g4, g5⟩ := evolved_state hc hH hne hb hreal r (by rw [hr, Complex.add_im, hs, ht, add_zero]) m hm
  refine ⟨u, v, w, c₁, _, _, h1, h2, g1, h3, h4, g2, same_results sim hsim sim' hsim' h5 g3 ?_ st st'⟩
  rw [h6, g5, g4, commuting_add hH.1 hcomm _ _ k l m hk hl hm, hr]

/-- C150. In particular evolving forwards and then backwards in time changes no outcome probability and no expectation value.  Missing: terms that do not commute, see
`there_and_back_counterexample` and `reversed_back`. -/
theorem there_and_back_partial {ρ : String → ℂ} (sim : Simulator W) (hsim : Correct sim ρ) (sim' : Simulator W') (hsim' : Correct sim' ρ) {c : Circuit} (hc : Unitary ρ c) {H : Terms Letter}
    (hH : CanonicalOp H) (hne : H ≠ []) (hb : Below c.n H) (hreal : ∀ kv ∈ H, kv.2.im = 0) (hcomm : ∀ s ∈ keys H, ∀ t ∈ keys H, Commute (pauliString c.n s) (pauliString c.n t))
    (s t : Expr) (hs : (s.eval ρ).im = 0) (ht : t.eval ρ = -s.eval ρ) (k l : ℕ) (hk : 0 < k) (hl : 0 < l) (st : St W) (st' : St W') :
    ∃ u v c₁ c₂, timeEvolution H s "Trotter" k = .ok u ∧ timeEvolution H t "Trotter" l = .ok v ∧ append c (.circuit u) = .ok c₁ ∧ append c₁ (.circuit v) = .ok c₂ ∧
      (∃ d d', (exactDistribution sim ρ c₂ st).1 = .ok d ∧ (exactDistribution sim' ρ c st').1 = .ok d' ∧
        ∀ x : Fin c.n → Bool, Dist.pmf d ((bits x).map fun b : ℕ => (b : ℤ)) = Dist.pmf d' ((bits x).map fun b : ℕ => (b : ℤ))) ∧
      ∀ (isIsing : Bool) (A : Terms Letter), CanonicalOp A → Below c.n A → ∃ e, (getExactExpectationValues sim ρ c₂ isIsing A st).1 = .ok e ∧
        (getExactExpectationValues sim' ρ c isIsing A st').1 = .ok e := by
  obtain ⟨u, v, c₁, c₂, h1, h2, h3, h4, ops, rfl, h5, h6⟩ := twice hc hH hH hne hne hb hb hreal hreal s t hs (by rw [ht, Complex.neg_im, hs, neg_zero]) k l hk hl
  refine ⟨u, v, c₁, _, h1, h2, h3, h4, same_results sim hsim sim' hsim' (b := c.ops) h5 hc ?_ st st'⟩
  rw [h6, commuting_add hH.1 hcomm _ _ k l 1 hk hl one_pos, ht, add_neg_cancel, commuting_zero hH.1 hcomm 1 one_pos, one_mulVec]

/-! ### Any terms, taken back in the reverse order -/

theorem factor_inverse (n : ℕ) (τ : ℂ) (kv : Term Letter × ℂ) : termFactor n (-τ) kv * termFactor n τ kv = 1 := by
  unfold termFactor
  split
  · exact one_mul 1
  · rw [← Matrix.exp_add_of_commute _ _ (((Commute.refl (pauliString n kv.1)).smul_left _).smul_right _), ← add_smul,
      show -(Complex.I * (-τ * kv.2)) + -(Complex.I * (τ * kv.2)) = 0 by ring, zero_smul, NormedSpace.exp_zero]

theorem step_inverse (n : ℕ) (τ : ℂ) (H : Terms Letter) : trotterStep n (-τ) H.reverse * trotterStep n τ H = 1 := by
  induction H with
  | nil => simp [trotterStep]
  | cons kv H ih =>
    have e : trotterStep n (-τ) (kv :: H).reverse = termFactor n (-τ) kv * trotterStep n (-τ) H.reverse := by simp [trotterStep]
    rw [e, trotterStep_cons, mul_assoc, ← mul_assoc (trotterStep n (-τ) H.reverse), ih, one_mul, factor_inverse]

/-- C150. For every Hamiltonian: an evolution is undone by the evolution, with the same number of Trotter steps, for the negative time and with the terms in the reverse order. -/
theorem reversed_back {ρ : String → ℂ} (sim : Simulator W) (hsim : Correct sim ρ) (sim' : Simulator W') (hsim' : Correct sim' ρ) {c : Circuit} (hc : Unitary ρ c) {H : Terms Letter}
    (hH : CanonicalOp H) (hne : H ≠ []) (hb : Below c.n H) (hreal : ∀ kv ∈ H, kv.2.im = 0) (s t : Expr) (hs : (s.eval ρ).im = 0) (ht : t.eval ρ = -s.eval ρ) (k : ℕ) (hk : 0 < k)
    (st : St W) (st' : St W') :
    ∃ u v c₁ c₂, timeEvolution H s "Trotter" k = .ok u ∧ timeEvolution H.reverse t "Trotter" k = .ok v ∧ append c (.circuit u) = .ok c₁ ∧ append c₁ (.circuit v) = .ok c₂ ∧
      (∃ d d', (exactDistribution sim ρ c₂ st).1 = .ok d ∧ (exactDistribution sim' ρ c st').1 = .ok d' ∧
        ∀ x : Fin c.n → Bool, Dist.pmf d ((bits x).map fun b : ℕ => (b : ℤ)) = Dist.pmf d' ((bits x).map fun b : ℕ => (b : ℤ))) ∧
      ∀ (isIsing : Bool) (A : Terms Letter), CanonicalOp A → Below c.n A → ∃ e, (getExactExpectationValues sim ρ c₂ isIsing A st).1 = .ok e ∧
        (getExactExpectationValues sim' ρ c isIsing A st').1 = .ok e := by
  have hR : CanonicalOp H.reverse := by
    refine ⟨?_, fun t ht => hH.2 t ?_⟩
    · have := hH.1
      rw [WF, keys] at this ⊢
      rw [List.map_reverse, List.nodup_reverse]; exact this
    · rw [keys, List.map_reverse, List.mem_reverse] at ht; exact ht
  obtain ⟨u, v, c₁, c₂, h1, h2, h3, h4, ops, rfl, h5, h6⟩ := twice hc hH hR hne (by simpa using hne) hb (fun kv hkv => hb kv (List.mem_reverse.1 hkv)) hreal
    (fun kv hkv => hreal kv (List.mem_reverse.1 hkv)) s t hs (by rw [ht, Complex.neg_im, hs, neg_zero]) k k hk hk
  refine ⟨u, v, c₁, _, h1, h2, h3, h4, same_results sim hsim sim' hsim' (b := c.ops) h5 hc ?_ st st'⟩
  have hpow : ∀ (A B : Matrix (Fin c.n → Bool) (Fin c.n → Bool) ℂ), A * B = 1 → ∀ j : ℕ, A ^ j * B ^ j = 1 := by
    intro A B h j
    induction j with
    | zero => simp
    | succ j ih => rw [pow_succ, pow_succ', mul_assoc, ← mul_assoc A B, h, one_mul, ih]
  rw [h6, ht, neg_div, hpow _ _ (step_inverse _ _ _), one_mulVec]

/-! ### Terms that do not commute -/

/-- `X₀ + Z₀`. -/
noncomputable def xPlusZ : Terms Letter := [([(0, .X)], 1), ([(0, .Z)], 1)]

theorem xPlusZ_ok : CanonicalOp xPlusZ ∧ xPlusZ ≠ [] ∧ Below 1 xPlusZ ∧ ∀ kv ∈ xPlusZ, kv.2.im = 0 := by
  refine ⟨⟨by simp [xPlusZ, WF, PyDict.keys], ?_⟩, by simp [xPlusZ], ?_, ?_⟩
  · intro t ht
    simp only [xPlusZ, PyDict.keys, List.map_cons, List.map_nil, List.mem_cons, List.not_mem_nil, or_false] at ht
    rcases ht with rfl | rfl <;> exact ⟨by decide, by decide⟩
  · intro kv hkv f hf
    simp only [xPlusZ, List.mem_cons, List.not_mem_nil, or_false] at hkv
    rcases hkv with rfl | rfl <;> simp at hf <;> simp [hf]
  · intro kv hkv
    simp only [xPlusZ, List.mem_cons, List.not_mem_nil, or_false] at hkv
    rcases hkv with rfl | rfl <;> exact Complex.one_im

theorem sum_one_qubit (f : (Fin 1 → Bool) → ℂ) : ∑ y, f y = f (fun _ => true) + f (fun _ => false) := by
  rw [← (Equiv.funUnique (Fin 1) Bool).symm.sum_comp f, Fintype.sum_bool]
  rfl

theorem x_acts (ψ : (Fin 1 → Bool) → ℂ) (x : Fin 1 → Bool) : (pauliString 1 [(0, .X)] *ᵥ ψ) x = ψ fun _ => !(x 0) := by
  show ∑ y, pauliString 1 [(0, .X)] x y * ψ y = _
  rw [sum_one_qubit]
  cases h : x 0 <;> simp [pauliString, tensor, letterAt, letterMatrix, pauliX, h]

theorem z_acts (ψ : (Fin 1 → Bool) → ℂ) (x : Fin 1 → Bool) : (pauliString 1 [(0, .Z)] *ᵥ ψ) x = if x 0 then -ψ x else ψ x := by
  show ∑ y, pauliString 1 [(0, .Z)] x y * ψ y = _
  rw [sum_one_qubit]
  have e : x = fun _ => x 0 := by funext i; rw [Subsingleton.elim i 0]
  rw [e]
  cases h : x 0 <;> simp [pauliString, tensor, letterAt, letterMatrix, pauliZ]

theorem factor_acts (τ : ℂ) (a : Letter) (ψ : (Fin 1 → Bool) → ℂ) :
    termFactor 1 τ ([(0, a)], 1) *ᵥ ψ = fun x => Complex.cos τ * ψ x - Complex.I * Complex.sin τ * (pauliString 1 [(0, a)] *ᵥ ψ) x := by
  rw [termFactor, if_neg (by simp)]
  show NormedSpace.exp (-(Complex.I * (τ * 1)) • pauliString 1 [(0, a)]) *ᵥ ψ = _
  rw [mul_one, matrix_exp_I _ (pauliString_sq _), Matrix.sub_mulVec, Matrix.smul_mulVec, Matrix.smul_mulVec, Matrix.one_mulVec]
  rfl

theorem half_half : (((√2 / 2 : ℝ) : ℂ)) * ((√2 / 2 : ℝ) : ℂ) = 1 / 2 := by
  rw [← Complex.ofReal_mul, show (√2 / 2) * (√2 / 2) = (1 / 2 : ℝ) by
    have := Real.mul_self_sqrt (show (0 : ℝ) ≤ 2 by norm_num)
    linarith]
  norm_num

theorem back_state : (trotterStep 1 (-((Real.pi / 4 : ℝ) : ℂ)) xPlusZ * trotterStep 1 ((Real.pi / 4 : ℝ) : ℂ) xPlusZ) *ᵥ Pi.single (fun _ => false) 1 =
    fun x => if x 0 then (1 - Complex.I) / 2 else (1 + Complex.I) / 2 := by
  have hc : Complex.cos ((Real.pi / 4 : ℝ) : ℂ) = ((√2 / 2 : ℝ) : ℂ) := by rw [← Complex.ofReal_cos, Real.cos_pi_div_four]
  have hs : Complex.sin ((Real.pi / 4 : ℝ) : ℂ) = ((√2 / 2 : ℝ) : ℂ) := by rw [← Complex.ofReal_sin, Real.sin_pi_div_four]
  have ht : ∀ τ, trotterStep 1 τ xPlusZ = termFactor 1 τ ([(0, .Z)], 1) * termFactor 1 τ ([(0, .X)], 1) := fun τ => by simp [trotterStep, xPlusZ]
  have h0 : ∀ b : Bool, (Pi.single (fun _ => false) 1 : (Fin 1 → Bool) → ℂ) (fun _ => b) = if b then 0 else 1 := by
    intro b
    cases b
    · simp
    · rw [Pi.single_eq_of_ne (fun h => by simpa using congrFun h 0)]; rfl
  have hI := Complex.I_mul_I
  have hr := half_half
  set r : ℂ := ((√2 / 2 : ℝ) : ℂ) with hrdef
  rw [ht, ht, ← Matrix.mulVec_mulVec, ← Matrix.mulVec_mulVec, ← Matrix.mulVec_mulVec, factor_acts, factor_acts, factor_acts, factor_acts, Complex.cos_neg, Complex.sin_neg, hc, hs]
  funext x
  have e : x = fun _ => x 0 := by funext i; rw [Subsingleton.elim i 0]
  rw [e]
  simp only [x_acts, z_acts, h0]
  have hr3 : r * r * (r * r) = 1 / 4 := by rw [hr]; norm_num
  cases x 0
  · simp
    linear_combination (1 - 2 * Complex.I ^ 2 - 2 * Complex.I ^ 3 - Complex.I ^ 4) * hr3 - 1 / 4 * (Complex.I ^ 2 + 2 * Complex.I + 1) * hI
  · simp
    linear_combination (-2 * Complex.I ^ 2 + 2 * Complex.I ^ 3) * hr3 + 1 / 4 * (2 * Complex.I - 2) * hI

theorem zero_circuit (ρ : String → ℂ) : Unitary ρ ⟨[], 1⟩ := ⟨fun h => absurd h (by decide), by simp, by simp⟩

theorem z_ok : CanonicalOp [([(0, Letter.Z)], (1 : ℂ))] ∧ Below 1 [([(0, Letter.Z)], (1 : ℂ))] := by
  refine ⟨⟨by simp [WF, PyDict.keys], ?_⟩, ?_⟩
  · intro t ht
    simp only [PyDict.keys, List.map_cons, List.map_nil, List.mem_cons, List.not_mem_nil, or_false] at ht
    subst ht; exact ⟨by decide, by decide⟩
  · intro kv hkv f hf
    simp only [List.mem_cons, List.not_mem_nil, or_false] at hkv
    subst hkv; simp at hf; simp [hf]

/-- C150. With terms that do not commute, evolving for a time and then for the negative time does not restore the state: for `X₀ + Z₀` and time `π/4`, starting from a qubit in state 0, the
expectation value of `Z₀` is 1 before and 0 after. -/
theorem there_and_back_counterexample {ρ : String → ℂ} (sim : Simulator W) (hsim : Correct sim ρ) (st st' : St W) :
    ∃ u v c₁ c₂, timeEvolution xPlusZ (.num ((Real.pi / 4 : ℝ) : ℂ)) "Trotter" 1 = .ok u ∧ timeEvolution xPlusZ (.num (-((Real.pi / 4 : ℝ) : ℂ))) "Trotter" 1 = .ok v ∧
      append ⟨[], 1⟩ (.circuit u) = .ok c₁ ∧ append c₁ (.circuit v) = .ok c₂ ∧
      (getExactExpectationValues sim ρ ⟨[], 1⟩ false [([(0, .Z)], 1)] st).1 = .ok ⟨[1], none, none⟩ ∧
      (getExactExpectationValues sim ρ c₂ false [([(0, .Z)], 1)] st').1 = .ok ⟨[0], none, none⟩ := by
  obtain ⟨h1, h2, h3, h4⟩ := xPlusZ_ok
  obtain ⟨u, v, c₁, c₂, g1, g2, g3, g4, ops, rfl, g5, g6⟩ := twice (zero_circuit ρ) h1 h1 h2 h2 h3 h3 h4 h4 (.num ((Real.pi / 4 : ℝ) : ℂ)) (.num (-((Real.pi / 4 : ℝ) : ℂ)))
    (Complex.ofReal_im _) (by show (-((Real.pi / 4 : ℝ) : ℂ)).im = 0; rw [Complex.neg_im, Complex.ofReal_im, neg_zero]) 1 1 one_pos one_pos
  have hz : ∀ φ : (Fin 1 → Bool) → ℂ, braket φ ((1 : ℂ) • pauliString 1 [(0, .Z)]) = (starRingEnd ℂ) (φ fun _ => false) * φ (fun _ => false) - (starRingEnd ℂ) (φ fun _ => true) * φ fun _ => true := by
    intro φ
    rw [one_smul]
    show ∑ x, (starRingEnd ℂ) (φ x) * (pauliString 1 [(0, .Z)] *ᵥ φ) x = _
    rw [sum_one_qubit, z_acts, z_acts]
    simp only [if_true, Bool.false_eq_true, if_false]
    ring
  have e0 : outputState ρ ⟨[], 1⟩ = Pi.single (fun _ => false) 1 := by
    show (1 : Matrix (Fin 1 → Bool) (Fin 1 → Bool) ℂ) *ᵥ Pi.single (fun _ => false) 1 = _
    rw [one_mulVec]
  refine ⟨u, v, c₁, _, g1, g2, g3, g4, ?_, ?_⟩
  · rw [(exactValues_spec sim ρ hsim _ (zero_circuit ρ) false z_ok.1 z_ok.2 st).1]
    show Except.ok (ZQ.Meas.ExpectationValues.mk [(braket (outputState ρ ⟨[], 1⟩) ((1 : ℂ) • pauliString 1 [(0, .Z)])).re] none none) = _
    rw [hz, e0, Pi.single_eq_same, Pi.single_eq_of_ne (fun h => by simpa using congrFun h 0)]
    simp
  · rw [(exactValues_spec sim ρ hsim _ g5 false z_ok.1 z_ok.2 st').1]
    show Except.ok (ZQ.Meas.ExpectationValues.mk [(braket (outputState ρ ⟨ops, 1⟩) ((1 : ℂ) • pauliString 1 [(0, .Z)])).re] none none) = _
    have e1 : outputState ρ ⟨ops, 1⟩ = fun x => if x 0 then (1 - Complex.I) / 2 else (1 + Complex.I) / 2 := by
      rw [g6, e0, ← back_state]
      simp [Expr.eval]
    rw [hz, e1]
    norm_num [map_div₀, Complex.ext_iff, Complex.div_re, Complex.div_im, Complex.normSq]

/-- The hypotheses of `reversed_back` are met by terms that do not commute on a circuit of three qubits. -/
example : ∃ ρ : String → ℂ, Unitary ρ exampleCircuit ∧ CanonicalOp xPlusZ ∧ Below exampleCircuit.n xPlusZ ∧ (∀ kv ∈ xPlusZ, kv.2.im = 0) ∧ ((Expr.num 2).eval ρ).im = 0 ∧
    (Expr.num (-2)).eval ρ = -(Expr.num 2).eval ρ := by
  obtain ⟨-, h1, h2⟩ := exampleCircuit_valid
  refine ⟨fun _ => 0, ⟨fun h => absurd h (by decide), h1, fun op hop => h2 op hop⟩, xPlusZ_ok.1, fun kv hkv f hf => ?_, xPlusZ_ok.2.2.2, by simp [Expr.eval], by simp [Expr.eval]⟩
  have hn : exampleCircuit.n = 3 := rfl
  have := xPlusZ_ok.2.2.1 kv hkv f hf
  omega

/-- Two commuting strings, as the theorems on commuting terms ask for. -/
example : ∀ s ∈ keys ([([], 1), ([(0, .Z)], 2), ([(0, .Z), (1, .Z)], 3)] : Terms Letter), ∀ t ∈ keys ([([], 1), ([(0, .Z)], 2), ([(0, .Z), (1, .Z)], 3)] : Terms Letter),
    Commute (pauliString 2 s) (pauliString 2 t) := by
  intro s hs t ht
  simp only [PyDict.keys, List.map_cons, List.map_nil, List.mem_cons, List.not_mem_nil, or_false] at hs ht
  show pauliString 2 _ * pauliString 2 _ = pauliString 2 _ * pauliString 2 _
  unfold pauliString
  rw [tensor_mul, tensor_mul]
  congr 1
  funext q
  rcases hs with rfl | rfl | rfl <;> rcases ht with rfl | rfl | rfl <;> fin_cases q <;> simp [letterAt, letterMatrix]

end ZQ.Reversal
