import Verif.Lemmas.Evolution

/-!
# C39, C40: time evolution circuits
-/

namespace ZQ.Evol

open scoped BigOperators Matrix
open ZQ ZQ.PyDict ZQ.Op ZQ.Circuits ZQ.Gates ZQ.Est

/-! ### C39 -/

/-- `exp(-i τ c P)` for a term `c P`, where a constant term counts as the identity. -/
noncomputable def termFactor (n : ℕ) (τ : ℂ) (kv : Term Letter × ℂ) : Matrix (Fin n → Bool) (Fin n → Bool) ℂ :=
  if kv.1 = [] then 1 else NormedSpace.exp (-(Complex.I * (τ * kv.2)) • pauliString n kv.1)

theorem appendOps_inv : ∀ (ops : List GateOp) (c c' : Circuit), (∀ op ∈ ops, op.qubits ≠ []) → c.Inv → appendOps c ops = .ok c' →
    c'.Inv ∧ c.n ≤ c'.n ∧ (∀ op ∈ ops, ∀ q ∈ op.qubits, q < c'.n) ∧
    ∀ N, c.n ≤ N → (∀ op ∈ ops, ∀ q ∈ op.qubits, q < N) → c'.n ≤ N := by
  intro ops
  induction ops with
  | nil => intro c c' _ hc h; cases h; exact ⟨hc, le_refl _, by simp, fun N h _ => h⟩
  | cons o ops ih =>
    intro c c' hne hc h
    cases hm : o.qubits.max? with
    | none => exact absurd (List.max?_eq_none_iff.1 hm) (hne o (by simp))
    | some m =>
      obtain ⟨hm1, hm2⟩ := (List.max?_eq_some_iff (xs := o.qubits)).1 hm
      rw [appendOps, append_op c o m hm] at h
      obtain ⟨h1, h2, h3, h4⟩ := ih ⟨c.ops ++ [o], max c.n (m + 1)⟩ c' (fun op hop => hne op (by simp [hop]))
        (by intro h0; simp only at h0; omega) h
      simp only at h2 h4
      refine ⟨h1, by omega, ?_, ?_⟩
      · intro op hop q hq
        rcases List.mem_cons.1 hop with rfl | hop
        · have := hm2 q hq; omega
        · exact h3 op hop q hq
      · intro N hN hb
        have : m < N := hb o (by simp) m hm1
        exact h4 N (by omega) (fun op hop => hb op (by simp [hop]))

theorem cnots_qubits (t : Term Letter) : ∀ op ∈ cnots t, op.qubits ≠ [] ∧ ∀ q ∈ op.qubits, q ∈ t.map Prod.fst := by
  induction t with
  | nil => simp [cnots]
  | cons f t ih =>
    cases t with
    | nil => simp [cnots]
    | cons g t =>
      rw [cnots]
      intro op hop
      rcases List.mem_cons.1 hop with rfl | hop
      · simp
      · obtain ⟨h1, h2⟩ := ih op hop
        exact ⟨h1, fun q hq => List.mem_cons_of_mem _ (h2 q hq)⟩

theorem base_qubits (f : ℕ × Letter) : (∀ op ∈ baseChange f, op.qubits = [f.1]) ∧ ∀ op ∈ baseReversal f, op.qubits = [f.1] := by
  obtain ⟨q, a⟩ := f
  cases a <;> simp [baseChange, baseReversal]

theorem termOps_qubits (t : Term Letter) (e : Expr) : ∀ op ∈ termOps t e, op.qubits ≠ [] ∧ ∀ q ∈ op.qubits, q ∈ t.map Prod.fst := by
  intro op hop
  simp only [termOps, List.mem_append] at hop
  have base : ∀ f ∈ t, op.qubits = [f.1] → op.qubits ≠ [] ∧ ∀ q ∈ op.qubits, q ∈ t.map Prod.fst := by
    intro f hf h
    rw [h]
    exact ⟨by simp, fun q hq => by rw [List.mem_singleton] at hq; exact hq ▸ List.mem_map_of_mem hf⟩
  rcases hop with (((h | h) | h) | h) | h
  · obtain ⟨f, hf, h⟩ := List.mem_flatMap.1 h
    exact base f hf ((base_qubits f).1 op h)
  · exact cnots_qubits t op h
  · unfold central at h
    split at h
    · rename_i f hf
      rw [List.mem_singleton] at h
      subst h
      exact base f (List.mem_of_getLast? hf) rfl
    · simp at h
  · exact cnots_qubits t op (List.mem_reverse.1 h)
  · obtain ⟨f, hf, h⟩ := List.mem_flatMap.1 h
    exact base f hf ((base_qubits f).2 op h)

theorem appendOps_append (c : Circuit) (a b : List GateOp) : appendOps c (a ++ b) = (appendOps c a).bind fun c' => appendOps c' b := by
  induction a generalizing c with
  | nil => rfl
  | cons o a ih =>
    rw [List.cons_append, appendOps, appendOps]
    cases append c (.op o) with
    | error e => rfl
    | ok c' => exact ih c'

theorem binE_eval (f : ℂ → ℂ → ℂ) (a b : Expr) (ρ : String → ℂ) : (binE f a b).eval ρ = f (a.eval ρ) (b.eval ρ) := by
  cases a <;> cases b <;> rfl

/-- C39. For every Pauli string, coefficient and time (number or expression): the circuit uses only the qubits of the string, and its operator on any
register containing them is exactly `exp(-i t c P)`; for the constant term it is the empty circuit. -/
theorem evolveTerm_spec {t : Term Letter} (ht : Canonical t) (c : ℂ) (time : Expr) :
    ∃ circ, evolveTerm [(t, c)] time = .ok circ ∧ circ.Inv ∧ (t = [] → circ.ops = []) ∧
      (∀ f ∈ t, f.1 < circ.n) ∧ (∀ N, (∀ f ∈ t, f.1 < N) → circ.n ≤ N) ∧
      ∀ (n : ℕ) (ρ : String → ℂ), (∀ f ∈ t, f.1 < n) → opsOperator n ρ circ.ops = termFactor n (time.eval ρ) (t, c) := by
  by_cases hne : t = []
  · subst hne
    refine ⟨⟨[], 0⟩, ?_, fun _ => rfl, fun _ => rfl, by simp, fun N _ => Nat.zero_le _, ?_⟩
    · rw [evolveTerm]; rfl
    · intro n ρ _
      rw [termFactor, if_pos rfl, opsOperator_nil]
  · set e := binE (· * ·) (binE (· * ·) (.num 2) time) (.num c) with he
    have hq := termOps_qubits t e
    obtain ⟨circ, h1, h2⟩ := appendOps_spec (termOps t e) ⟨[], 0⟩ (fun op hop => (hq op hop).1)
    obtain ⟨i1, i2, i3, i4⟩ := appendOps_inv (termOps t e) ⟨[], 0⟩ circ (fun op hop => (hq op hop).1) (fun _ => rfl) h1
    have hops : circ.ops = termOps t e := by rw [h2, List.nil_append]
    refine ⟨circ, ?_, i1, fun h => absurd h hne, ?_, ?_, ?_⟩
    · rw [evolveTerm]
      have h1' := h1
      rw [termOps, appendOps_append, appendOps_append, appendOps_append, appendOps_append] at h1'
      simp only [Except.bind, bind] at h1' ⊢
      show (if t = [] then _ else _) = _
      rw [if_neg hne]
      rw [← h1']
      cases appendOps ⟨[], 0⟩ (t.flatMap baseChange) with
      | error _ => rfl
      | ok c1 =>
        dsimp only
        cases appendOps c1 (cnots t) with
        | error _ => rfl
        | ok c2 =>
          dsimp only
          cases appendOps c2 (central e t) with
          | error _ => rfl
          | ok c3 =>
            dsimp only
    · intro f hf
      obtain ⟨g, hg⟩ : ∃ g, t.getLast? = some g := Option.ne_none_iff_exists'.1 (by simpa using hne)
      -- every qubit of the string is touched: by the ladder, or as the last one
      have touch : ∀ (t : Term Letter), ∀ f ∈ t, (∃ op ∈ cnots t, f.1 ∈ op.qubits) ∨ t.getLast? = some f := by
        intro t
        induction t with
        | nil => simp
        | cons a t ih =>
          cases t with
          | nil => intro f hf; rw [List.mem_singleton] at hf; subst hf; exact .inr rfl
          | cons b t =>
            intro f hf
            rcases List.mem_cons.1 hf with rfl | hf
            · exact .inl ⟨⟨cnotGate, [f.1, b.1]⟩, by simp [cnots], by simp⟩
            · rcases ih f hf with ⟨op, h1, h2⟩ | h
              · exact .inl ⟨op, by rw [cnots]; exact List.mem_cons_of_mem _ h1, h2⟩
              · exact .inr (by rw [List.getLast?_cons_cons]; exact h)
      rcases touch t f hf with ⟨op, h1, h2⟩ | h
      · exact i3 op (by simp [termOps, h1]) _ h2
      · exact i3 ⟨rzGate e, [f.1]⟩ (by simp [termOps, central, h]) _ (by simp)
    · intro N hN
      refine i4 N (Nat.zero_le _) fun op hop q hq' => ?_
      obtain ⟨f, hf, rfl⟩ := List.mem_map.1 ((hq op hop).2 q hq')
      exact hN f hf
    · intro n ρ hb
      rw [hops, termOps_operator ρ ht hne hb, termFactor, if_neg hne]
      congr 2
      rw [he, binE_eval, binE_eval]
      show -(Complex.I * (2 * time.eval ρ * c / 2)) = _
      ring

/-- C39. Operators that are not a single term are refused. -/
theorem evolveTerm_rejects {o : Terms Letter} (h : o.length ≠ 1) (time : Expr) : evolveTerm o time = .error .valueError := by
  match o, h with
  | [], _ => rfl
  | [a], h => exact absurd rfl h
  | _ :: _ :: _, _ => rfl

theorem exp_smul_one {n : ℕ} (z : ℂ) : NormedSpace.exp (z • (1 : Matrix (Fin n → Bool) (Fin n → Bool) ℂ)) = Complex.exp z • 1 := by
  rw [matrix_exp_involution 1 (mul_one 1), ← add_smul, Complex.cosh_add_sinh]

theorem pauliString_nil (n : ℕ) : pauliString n [] = 1 := by rw [← tensor_one]; rfl

/-- `exp(-i τ c P)` exactly, with the phase that is lost for a constant term. -/
theorem termFactor_exp (n : ℕ) (τ : ℂ) (kv : Term Letter × ℂ) :
    termFactor n τ kv = (if kv.1 = [] then Complex.exp (Complex.I * (τ * kv.2)) else 1) • NormedSpace.exp (-(Complex.I * (τ * kv.2)) • pauliString n kv.1) := by
  rw [termFactor]
  split
  · rename_i h
    rw [h, pauliString_nil, exp_smul_one, smul_smul, ← Complex.exp_add]
    simp
  · rw [one_smul]

/-- C39. For real time and coefficient the operator of the circuit is `exp(-i t c P)` up to a global phase, which is 1 unless the term is constant. -/
theorem evolveTerm_phase {t : Term Letter} (ht : Canonical t) (c time : ℝ) :
    ∃ circ, evolveTerm [(t, (c : ℂ))] (.num time) = .ok circ ∧
      ∀ (n : ℕ) (ρ : String → ℂ), (∀ f ∈ t, f.1 < n) →
        EqUpToPhase (opsOperator n ρ circ.ops) (NormedSpace.exp (-(Complex.I * ((time : ℂ) * c)) • pauliString n t)) ∧
        (t ≠ [] → opsOperator n ρ circ.ops = NormedSpace.exp (-(Complex.I * ((time : ℂ) * c)) • pauliString n t)) := by
  obtain ⟨circ, h1, -, -, -, -, h2⟩ := evolveTerm_spec ht c (.num time)
  refine ⟨circ, h1, fun n ρ hb => ⟨?_, fun hne => ?_⟩⟩
  · rw [h2 n ρ hb, termFactor_exp]
    refine ⟨_, ?_, rfl⟩
    split
    · show ‖Complex.exp (Complex.I * ((time : ℂ) * c))‖ = 1
      rw [show Complex.I * ((time : ℂ) * c) = ((time * c : ℝ) : ℂ) * Complex.I by push_cast; ring, Complex.norm_exp_ofReal_mul_I]
    · simp
  · rw [h2 n ρ hb, termFactor, if_neg hne]
    rfl

/-- `X0 Y2 Z3` is such a string. -/
example : Canonical [(0, .X), (2, .Y), (3, .Z)] := by refine ⟨by simp, ?_⟩; intro f hf; simp at hf; rcases hf with rfl | rfl | rfl <;> simp

/-! ### C40: composition -/

/-- The product of the term evolutions, the first term of the operator rightmost (applied first). -/
noncomputable def trotterStep (n : ℕ) (τ : ℂ) (o : Terms Letter) : Matrix (Fin n → Bool) (Fin n → Bool) ℂ := (o.reverse.map (termFactor n τ)).prod

theorem trotterStep_cons (n : ℕ) (τ : ℂ) (kv : Term Letter × ℂ) (o : Terms Letter) : trotterStep n τ (kv :: o) = trotterStep n τ o * termFactor n τ kv := by
  simp [trotterStep]

theorem getOperators_canonical {o : Terms Letter} (h : ∀ kv ∈ o, Canonical kv.1) : getOperators qubit o = o.map fun kv => [kv] := by
  rw [getOperators]
  refine List.map_congr_left fun kv hkv => ?_
  show [((qubitSimplify kv.1 kv.2).2, (qubitSimplify kv.1 kv.2).1)] = _
  rw [qubitSimplify_of_canonical (h kv hkv)]

/-- A list of evolved terms, with the time of each. -/
theorem evolve_fold : ∀ (L : List ((Term Letter × ℂ) × Expr)) (acc : Circuit), acc.Inv → (∀ p ∈ L, Canonical p.1.1) →
    ∃ circ, L.foldlM (fun acc p => do
        let d ← evolveTerm [p.1] p.2
        append acc (.circuit d)) acc = .ok circ ∧ circ.Inv ∧
      ∀ (n : ℕ) (ρ : String → ℂ), (∀ p ∈ L, ∀ f ∈ p.1.1, f.1 < n) →
        opsOperator n ρ circ.ops = (L.reverse.map fun p => termFactor n (p.2.eval ρ) p.1).prod * opsOperator n ρ acc.ops := by
  intro L
  induction L with
  | nil => intro acc hi _; exact ⟨acc, rfl, hi, fun n ρ _ => by simp⟩
  | cons p L ih =>
    intro acc hi hc
    obtain ⟨d, h1, h2, -, -, -, h3⟩ := evolveTerm_spec (hc p (by simp)) p.1.2 p.2
    obtain ⟨circ, h4, h5, h6⟩ := ih ⟨acc.ops ++ d.ops, max acc.n d.n⟩ (by
      intro h0
      simp only at h0
      show acc.ops ++ d.ops = []
      rw [hi (by omega), h2 (by omega)]; rfl) (fun q hq => hc q (by simp [hq]))
    refine ⟨circ, ?_, h5, ?_⟩
    · rw [List.foldlM_cons, h1]
      show (append acc (.circuit d) >>= _) = _
      rw [append_circuit acc d hi h2]
      exact h4
    · intro n ρ hb
      rw [h6 n ρ (fun q hq => hb q (by simp [hq])), opsOperator_append, h3 n ρ (hb p (by simp))]
      simp [mul_assoc]

theorem evolve_reduce (L : List ((Term Letter × ℂ) × Expr)) (hne : L ≠ []) (hc : ∀ p ∈ L, Canonical p.1.1) :
    ∃ circ, (do
        let cs ← L.mapM fun (p : (Term Letter × ℂ) × Expr) => evolveTerm [p.1] p.2
        reduceAdd cs) = .ok circ ∧ circ.Inv ∧
      ∀ (n : ℕ) (ρ : String → ℂ), (∀ p ∈ L, ∀ f ∈ p.1.1, f.1 < n) →
        opsOperator n ρ circ.ops = (L.reverse.map fun p => termFactor n (p.2.eval ρ) p.1).prod := by
  have hm : ∀ L : List ((Term Letter × ℂ) × Expr), (∀ p ∈ L, Canonical p.1.1) → ∃ cs : List Circuit, L.mapM (fun p => evolveTerm [p.1] p.2) = .ok cs ∧
      ∀ (acc : Circuit), cs.foldlM (fun acc d => append acc (.circuit d)) acc = L.foldlM (fun acc p => do
        let d ← evolveTerm [p.1] p.2
        append acc (.circuit d)) acc := by
    intro L
    induction L with
    | nil => intro _; exact ⟨[], rfl, fun _ => rfl⟩
    | cons p L ih =>
      intro hc
      obtain ⟨d, h1, -⟩ := evolveTerm_spec (hc p (by simp)) p.1.2 p.2
      obtain ⟨cs, h2, h3⟩ := ih (fun q hq => hc q (by simp [hq]))
      refine ⟨d :: cs, ?_, ?_⟩
      · rw [List.mapM_cons, h1, h2]; rfl
      · intro acc
        rw [List.foldlM_cons, List.foldlM_cons, h1]
        show (append acc (.circuit d) >>= _) = (append acc (.circuit d) >>= _)
        congr 1
        funext a
        exact h3 a
  obtain ⟨p, L, rfl⟩ := List.exists_cons_of_ne_nil hne
  obtain ⟨d, h1, h2, -, -, -, h3⟩ := evolveTerm_spec (hc p (by simp)) p.1.2 p.2
  obtain ⟨cs, h4, h5⟩ := hm L (fun q hq => hc q (by simp [hq]))
  obtain ⟨circ, h6, h7, h8⟩ := evolve_fold L d h2 (fun q hq => hc q (by simp [hq]))
  refine ⟨circ, ?_, h7, ?_⟩
  · rw [List.mapM_cons, h1, h4]
    show cs.foldlM (fun acc d => append acc (.circuit d)) d = _
    rw [h5, h6]
  · intro n ρ hb
    rw [h8 n ρ (fun q hq => hb q (by simp [hq])), h3 n ρ (hb p (by simp))]
    simp

/-- C40. For every operator with at least one term and every order `k ≥ 1` the circuit is `k` repetitions of the term evolutions for time `t/k`, in term
order. -/
theorem timeEvolution_spec {o : Terms Letter} (h : CanonicalOp o) (hne : o ≠ []) (time : Expr) (k : ℕ) (hk : 0 < k) :
    ∃ circ, timeEvolution o time "Trotter" k = .ok circ ∧ circ.Inv ∧
      ∀ (n : ℕ) (ρ : String → ℂ), Below n o → opsOperator n ρ circ.ops = trotterStep n (time.eval ρ / k) o ^ k := by
  have hcan : ∀ kv ∈ o, Canonical kv.1 := fun kv hkv => h.2 kv.1 (List.mem_map_of_mem hkv)
  set step := binE (· / ·) time (.num ((k : ℤ) : ℂ)) with hstep
  set L : List ((Term Letter × ℂ) × Expr) := (List.range k).flatMap fun _ => o.map fun kv => (kv, step) with hL
  obtain ⟨circ, h1, h2, h3⟩ := evolve_reduce L (by
    obtain ⟨kv, o', rfl⟩ := List.exists_cons_of_ne_nil hne
    obtain ⟨k, rfl⟩ := Nat.exists_eq_add_of_lt hk
    rw [hL, List.range_succ, List.flatMap_append]
    simp) (by
    intro p hp
    obtain ⟨_, _, hp⟩ := List.mem_flatMap.1 hp
    obtain ⟨kv, hkv, rfl⟩ := List.mem_map.1 hp
    exact hcan kv hkv)
  refine ⟨circ, ?_, h2, ?_⟩
  · rw [timeEvolution, if_neg (by simp)]
    rw [← h1, getOperators_canonical hcan]
    have : (List.range ((k : ℤ).toNat)).flatMap (fun _ => o.map fun kv => [kv]) = L.map fun p => [p.1] := by
      rw [hL, List.map_flatMap, Int.toNat_natCast]
      refine List.flatMap_congr fun _ _ => ?_
      rw [List.map_map]
      rfl
    show ((_ : List (Terms Letter)).mapM _ >>= _) = _
    rw [this, List.mapM_map]
    have hstep2 : ∀ p ∈ L, p.2 = step := by
      intro p hp
      obtain ⟨_, _, hp⟩ := List.mem_flatMap.1 hp
      obtain ⟨kv, hkv, rfl⟩ := List.mem_map.1 hp
      rfl
    have hmap : ∀ M : List ((Term Letter × ℂ) × Expr), (∀ p ∈ M, p.2 = step) →
        M.mapM (fun p => evolveTerm [p.1] step) = M.mapM fun p => evolveTerm [p.1] p.2 := by
      intro M
      induction M with
      | nil => intro _; rfl
      | cons p M ih =>
        intro hM
        rw [List.mapM_cons, List.mapM_cons, ih (fun q hq => hM q (by simp [hq])), hM p (by simp)]
    rw [← hmap L hstep2]
    rfl
  · intro n ρ hb
    rw [h3 n ρ (by
      intro p hp
      obtain ⟨_, _, hp⟩ := List.mem_flatMap.1 hp
      obtain ⟨kv, hkv, rfl⟩ := List.mem_map.1 hp
      exact hb kv hkv)]
    have heval : step.eval ρ = time.eval ρ / k := by
      rw [hstep, binE_eval]
      show time.eval ρ / ((k : ℤ) : ℂ) = _
      push_cast
      rfl
    rw [hL, ← heval]
    clear h1 h3 hL hk heval hstep
    clear_value step
    clear L
    induction k with
    | zero => simp
    | succ k ih =>
      rw [List.range_succ, List.flatMap_append, List.reverse_append, List.map_append, List.prod_append, ih, pow_succ']
      congr 1
      rw [trotterStep]
      simp [← List.map_reverse, Function.comp_def]

theorem bindOk {α β : Type} {x : Except Err α} {f : α → Except Err β} {b : β} (h : (x >>= f) = .ok b) : ∃ a, x = .ok a ∧ f a = .ok b := by
  cases x with
  | error e => cases h
  | ok a => exact ⟨a, rfl, h⟩

theorem make_ops {ops : List GateOp} {q : Option ℚ} {c : Circuit} (h : Circuit.make ops q = .ok c) : c.ops = ops := by
  have key : ∀ c, (sizeByOperations ops).map (fun n => (⟨ops, n⟩ : Circuit)) = .ok c → c.ops = ops := by
    intro c h
    cases hs : sizeByOperations ops with
    | error e => rw [hs] at h; cases h
    | ok n => rw [hs] at h; cases h; rfl
  unfold Circuit.make at h
  split at h
  · split at h
    · split at h
      · cases h
      · split at h
        · cases h
        · cases h; rfl
    · exact key c h
  · exact key c h

/-- Every operation's gate acts on as many qubits as it is given. -/
def Fits (c : Circuit) : Prop := ∀ op ∈ c.ops, op.gate.numQubits = op.qubits.length

theorem appendOps_fits : ∀ (ops : List GateOp) (c c' : Circuit), (∀ op ∈ ops, op.qubits ≠ [] ∧ op.gate.numQubits = op.qubits.length) → Fits c →
    appendOps c ops = .ok c' → Fits c' := by
  intro ops c c' h hc ha
  obtain ⟨d, h1, h2⟩ := appendOps_spec ops c (fun op hop => (h op hop).1)
  obtain rfl := Except.ok.inj (h1.symm.trans ha)
  intro op hop
  rw [h2] at hop
  rcases List.mem_append.1 hop with hop | hop
  · exact hc op hop
  · exact (h op hop).2

theorem cnots_fit (t : Term Letter) : ∀ op ∈ cnots t, op.gate.numQubits = op.qubits.length := by
  induction t with
  | nil => simp [cnots]
  | cons f t ih =>
    cases t with
    | nil => simp [cnots]
    | cons g t =>
      rw [cnots]
      intro op hop
      rcases List.mem_cons.1 hop with rfl | hop
      · rfl
      · exact ih op hop

/-- C39. Every gate of the circuit is given as many qubits as it acts on. -/
theorem evolveTerm_fits (o : Terms Letter) (time : Expr) {circ : Circuit} (h : evolveTerm o time = .ok circ) : Fits circ := by
  match o, h with
  | [], h => cases h
  | _ :: _ :: _, h => cases h
  | [(t, c)], h =>
    rw [evolveTerm] at h
    change (if t = [] then _ else _) = _ at h
    have h0 : Fits ⟨[], 0⟩ := by intro op hop; cases hop
    by_cases ht : t = []
    · rw [if_pos ht] at h
      obtain rfl := Except.ok.inj h
      exact h0
    · rw [if_neg ht] at h
      obtain ⟨c1, h1, h⟩ := bindOk h
      obtain ⟨c2, h2, h⟩ := bindOk h
      obtain ⟨c3, h3, h⟩ := bindOk h
      obtain ⟨c4, h4, h⟩ := bindOk h
      have hc := fun op hop => And.intro (cnots_qubits t op hop).1 (cnots_fit t op hop)
      refine appendOps_fits _ _ _ ?_ (appendOps_fits _ _ _ ?_ (appendOps_fits _ _ _ ?_ (appendOps_fits _ _ _ hc (appendOps_fits _ _ _ ?_ h0 h1) h2) h3) h4) h
      · intro op hop
        obtain ⟨⟨q, a⟩, -, hf⟩ := List.mem_flatMap.1 hop
        cases a <;> simp only [baseReversal, List.mem_singleton, List.not_mem_nil] at hf <;> subst hf <;> exact ⟨by simp, rfl⟩
      · exact fun op hop => hc op (List.mem_reverse.1 hop)
      · intro op hop
        unfold central at hop
        split at hop
        · rw [List.mem_singleton] at hop; subst hop; exact ⟨by simp, rfl⟩
        · cases hop
      · intro op hop
        obtain ⟨⟨q, a⟩, -, hf⟩ := List.mem_flatMap.1 hop
        cases a <;> simp only [baseChange, List.mem_singleton, List.not_mem_nil] at hf <;> subst hf <;> exact ⟨by simp, rfl⟩

/-- C40. Every gate of the evolution is given as many qubits as it acts on. -/
theorem timeEvolution_fits (o : Terms Letter) (time : Expr) (method : String) (order : ℤ) {circ : Circuit} (h : timeEvolution o time method order = .ok circ) :
    Fits circ := by
  have hadd : ∀ {a b c : Circuit}, Fits a → Fits b → append a (.circuit b) = .ok c → Fits c := by
    intro a b c ha hb hc
    have hops : c.ops = a.ops ++ b.ops := by rw [append] at hc; exact make_ops hc
    intro op hop
    rw [hops] at hop
    rcases List.mem_append.1 hop with hop | hop
    · exact ha op hop
    · exact hb op hop
  have hfold : ∀ (cs : List Circuit) (a : Circuit), (∀ c ∈ cs, Fits c) → Fits a → cs.foldlM (fun acc d => append acc (.circuit d)) a = .ok circ → Fits circ := by
    intro cs
    induction cs with
    | nil => intro a _ ha h; obtain rfl := Except.ok.inj h; exact ha
    | cons c cs ih =>
      intro a hcs ha h
      rw [List.foldlM_cons] at h
      obtain ⟨b, hb, h⟩ := bindOk h
      exact ih b (fun d hd => hcs d (by simp [hd])) (hadd ha (hcs c (by simp)) hb) h
  have hmap : ∀ (l : List (Terms Letter)) (e : Expr) (cs : List Circuit), l.mapM (fun t => evolveTerm t e) = .ok cs → ∀ c ∈ cs, Fits c := by
    intro l e
    induction l with
    | nil => intro cs h; obtain rfl := Except.ok.inj h; simp
    | cons t l ih =>
      intro cs h
      rw [List.mapM_cons] at h
      obtain ⟨c, hc, h⟩ := bindOk h
      obtain ⟨cs', hcs, h⟩ := bindOk h
      obtain rfl := Except.ok.inj h
      intro d hd
      rcases List.mem_cons.1 hd with rfl | hd
      · exact evolveTerm_fits t e hc
      · exact ih cs' hcs d hd
  rw [timeEvolution] at h
  by_cases hm : method ≠ "Trotter"
  · rw [if_pos hm] at h; cases h
  · rw [if_neg hm] at h
    obtain ⟨cs, h1, h⟩ := bindOk h
    have := hmap _ _ cs h1
    cases cs with
    | nil => cases h
    | cons c cs => exact hfold cs c (fun d hd => this d (by simp [hd])) (this c (by simp)) h

/-- C40. Other methods are refused; without terms or with an order below 1 Python's `reduce` fails. -/
theorem timeEvolution_rejects (o : Terms Letter) (time : Expr) (method : String) (order : ℤ) :
    (method ≠ "Trotter" → timeEvolution o time method order = .error .valueError) ∧
    (o = [] ∨ order < 1 → timeEvolution o time "Trotter" order = .error .typeError) := by
  constructor
  · intro h; rw [timeEvolution, if_pos h]
  · intro h
    rw [timeEvolution, if_neg (by simp)]
    have : (List.range order.toNat).flatMap (fun _ => getOperators qubit o) = [] := by
      rcases h with rfl | h
      · simp [getOperators]
      · rw [show order.toNat = 0 by omega]; rfl
    rw [this]
    rfl

theorem trotterStep_commuting (n : ℕ) (τ : ℂ) : ∀ (o : Terms Letter), WF o →
    (∀ s ∈ keys o, ∀ t ∈ keys o, Commute (pauliString n s) (pauliString n t)) →
    trotterStep n τ o = Complex.exp (Complex.I * (τ * coeff o [])) • NormedSpace.exp (-(Complex.I * τ) • opMatrix n o) := by
  intro o
  induction o with
  | nil =>
    intro _ _
    rw [coeff_of_not_mem (by simp [keys])]
    simp [trotterStep, opMatrix]
  | cons kv o ih =>
    intro hw hcomm
    obtain ⟨t, c⟩ := kv
    have hw' : t ∉ keys o ∧ WF o := by rw [WF, keys, List.map_cons, List.nodup_cons] at hw; exact hw
    rw [trotterStep_cons, ih hw'.2 (fun s hs u hu => hcomm s (by rw [keys, List.map_cons]; exact List.mem_cons_of_mem _ hs) u
      (by rw [keys, List.map_cons]; exact List.mem_cons_of_mem _ hu)), termFactor_exp]
    have hsum : opMatrix n ((t, c) :: o) = c • pauliString n t + opMatrix n o := by rw [opMatrix, List.map_cons, List.sum_cons]; rfl
    have hco : Commute (pauliString n t) (opMatrix n o) := by
      have : ∀ l : Terms Letter, (∀ kv ∈ l, kv.1 ∈ keys o) → Commute (pauliString n t) (opMatrix n l) := by
        intro l
        induction l with
        | nil => intro _; exact Commute.zero_right _
        | cons kv l ihl =>
          intro hl
          rw [opMatrix, List.map_cons, List.sum_cons]
          refine Commute.add_right ?_ (ihl fun kv hkv => hl kv (by simp [hkv]))
          exact (hcomm t (by simp [keys]) kv.1 (by rw [keys, List.map_cons]; exact List.mem_cons_of_mem _ (hl kv (by simp)))).smul_right _
      exact this o fun kv hkv => List.mem_map_of_mem hkv
    have hco2 : Commute (-(Complex.I * τ) • opMatrix n o) (-(Complex.I * (τ * c)) • pauliString n t) :=
      (hco.symm.smul_left _).smul_right _
    rw [smul_mul_smul_comm, ← Matrix.exp_add_of_commute _ _ hco2, hsum]
    congr 1
    · rw [coeff_cons]
      by_cases ht : t = []
      · subst ht
        rw [if_pos rfl, if_pos rfl, coeff_of_not_mem hw'.1]
        simp
      · rw [if_neg ht, if_neg ht, mul_one]
    · congr 1
      rw [smul_add, add_comm, smul_smul]
      congr 2
      ring

/-- C40. If the Pauli strings commute, the circuit for every order is exactly `exp(-i t H)`, times the phase that the constant term of `H` contributes. -/
theorem timeEvolution_commuting {o : Terms Letter} (h : CanonicalOp o) (hne : o ≠ []) (time : Expr) (k : ℕ) (hk : 0 < k) (n : ℕ) (hb : Below n o)
    (hcomm : ∀ s ∈ keys o, ∀ t ∈ keys o, Commute (pauliString n s) (pauliString n t)) :
    ∃ circ, timeEvolution o time "Trotter" k = .ok circ ∧
      ∀ ρ : String → ℂ, opsOperator n ρ circ.ops =
        Complex.exp (Complex.I * (time.eval ρ * coeff o [])) • NormedSpace.exp (-(Complex.I * time.eval ρ) • opMatrix n o) := by
  obtain ⟨circ, h1, -, h2⟩ := timeEvolution_spec h hne time k hk
  refine ⟨circ, h1, fun ρ => ?_⟩
  have hk0 : (k : ℂ) ≠ 0 := by exact_mod_cast hk.ne'
  rw [h2 n ρ hb, trotterStep_commuting n _ o h.1 hcomm, smul_pow, ← Complex.exp_nat_mul, ← Matrix.exp_nsmul, ← Nat.cast_smul_eq_nsmul ℂ, smul_smul]
  congr 2
  · field_simp
  · congr 1
    field_simp

/-- C40. For a real operator and time that is `exp(-i t H)` up to a global phase. -/
theorem timeEvolution_commuting_phase {o : Terms Letter} (h : CanonicalOp o) (hne : o ≠ []) (hreal : ∀ kv ∈ o, kv.2.im = 0) (time : ℝ) (k : ℕ) (hk : 0 < k)
    (n : ℕ) (hb : Below n o) (hcomm : ∀ s ∈ keys o, ∀ t ∈ keys o, Commute (pauliString n s) (pauliString n t)) :
    ∃ circ, timeEvolution o (.num time) "Trotter" k = .ok circ ∧
      ∀ ρ : String → ℂ, EqUpToPhase (opsOperator n ρ circ.ops) (NormedSpace.exp (-(Complex.I * time) • opMatrix n o)) := by
  obtain ⟨circ, h1, h2⟩ := timeEvolution_commuting h hne (.num time) k hk n hb hcomm
  refine ⟨circ, h1, fun ρ => ⟨_, ?_, h2 ρ⟩⟩
  have hc : (coeff o []).im = 0 := by
    by_cases hm : [] ∈ keys o
    · obtain ⟨kv, hkv, e⟩ := List.mem_map.1 hm
      have := coeff_of_mem h.1 (show (kv.1, kv.2) ∈ o from hkv)
      rw [← e, this]
      exact hreal kv hkv
    · rw [coeff_of_not_mem hm]; rfl
  have : coeff o [] = ((coeff o []).re : ℂ) := Complex.ext rfl (by simp [hc])
  rw [this]
  show ‖Complex.exp (Complex.I * ((time : ℂ) * ((coeff o []).re : ℂ)))‖ = 1
  rw [show Complex.I * ((time : ℂ) * ((coeff o []).re : ℂ)) = ((time * (coeff o []).re : ℝ) : ℂ) * Complex.I by push_cast; ring, Complex.norm_exp_ofReal_mul_I]

end ZQ.Evol
