import Verif.Model.Estimation
import Verif.Lemmas.Tensor
import Verif.Props.Grouping
import Verif.Props.Generators
import Verif.Props.BuiltinMeaning

/-!
# C37: context selection
-/

namespace ZQ.Est

open ZQ ZQ.PyDict ZQ.Op ZQ.Circuits ZQ.Gates
open scoped Matrix

/-- The same qubits with the letter `Z`. -/
def zTerm (t : Term Letter) : Term Letter := t.map fun f => (f.1, .Z)

theorem isingSimplify_fixed {t : Term Letter} (h : (t.map Prod.fst).Pairwise (· < ·)) (hz : AllZ t) (c : ℂ) : isingSimplify t c = (c, t) := by
  obtain ⟨h1, h2, h3⟩ := isingSimplify_spec t c
  have hcan : Canonical t := ⟨h, fun f hf => by rw [hz f hf]; decide⟩
  refine Prod.ext h1 (canonical_ext h2 hcan fun q => ?_)
  have hmem : ∀ f, f ∈ (isingSimplify t c).2 ↔ f ∈ t := by
    intro f
    rw [h3]
    constructor
    · rintro ⟨hf, hc⟩
      have : f.1 ∈ t.map Prod.fst := by
        by_contra hn; rw [List.count_eq_zero_of_not_mem hn] at hc; omega
      obtain ⟨g, hg, e⟩ := List.mem_map.1 this
      have : g = f := Prod.ext e (by rw [hz g hg, hf])
      exact this ▸ hg
    · intro hf
      refine ⟨hz f hf, ?_⟩
      rw [List.count_eq_one_of_mem hcan.nodup (List.mem_map_of_mem hf)]
  by_cases hq : ∃ a, (q, a) ∈ t
  · obtain ⟨a, ha⟩ := hq
    rw [letterAt_of_mem hcan.nodup ha, letterAt_of_mem h2.nodup ((hmem _).2 ha)]
  · rw [letterAt_of_not_mem, letterAt_of_not_mem]
    · intro hm; obtain ⟨g, hg, e⟩ := List.mem_map.1 hm; exact hq ⟨g.2, e ▸ hg⟩
    · intro hm; obtain ⟨g, hg, e⟩ := List.mem_map.1 hm; exact hq ⟨g.2, e ▸ (hmem _).1 hg⟩

/-- The context: one letter per qubit. -/
def GoodContext (ctx : List (ℕ × Letter)) : Prop := (ctx.map Prod.fst).Nodup

theorem contextTerm_ok : ∀ (t : Term Letter) (pre : Term Letter) (ctx : List (ℕ × Letter)), Canonical (pre ++ t) → GoodContext ctx →
    (∀ f ∈ t, ∀ e ∈ ctx, e.1 = f.1 → e.2 = f.2) →
    ∃ ctx', contextTerm t ctx [(zTerm pre, 1)] = .ok (ctx', [(zTerm (pre ++ t), 1)]) ∧ GoodContext ctx' ∧ ∀ e, e ∈ ctx' ↔ e ∈ ctx ∨ e ∈ t := by
  intro t
  induction t with
  | nil => intro pre ctx _ hg _; exact ⟨ctx, by rw [contextTerm, List.append_nil], hg, by simp⟩
  | cons f t ih =>
    intro pre ctx hcan hg hco
    have hno : (ctx.any fun e => decide (e.1 = f.1) && decide (e.2 ≠ f.2)) = false := by
      rw [List.any_eq_false]
      intro e he
      simp only [Bool.and_eq_true, decide_eq_true_eq, not_and, not_not]
      exact hco f (by simp) e he
    rw [contextTerm, if_neg (by rw [hno]; decide)]
    have hcan' : Canonical ((pre ++ [f]) ++ t) := by rwa [List.append_assoc, List.singleton_append]
    have hone : ofTerm ising [(f.1, Letter.Z)] 1 = [([(f.1, Letter.Z)], 1)] := by
      rw [ofTerm]
      show [((isingSimplify [(f.1, Letter.Z)] 1).2, (isingSimplify [(f.1, Letter.Z)] 1).1)] = _
      rw [isingSimplify_fixed (by simp) (by intro g hg; rw [List.mem_singleton] at hg; rw [hg])]
    have hmul : Op.mul ising [(zTerm pre, 1)] (ofTerm ising [(f.1, .Z)] 1) = [(zTerm (pre ++ [f]), 1)] := by
      rw [hone, mul_single]
      show [((isingSimplify _ _).2, (isingSimplify _ _).1)] = _
      have : zTerm pre ++ [(f.1, Letter.Z)] = zTerm (pre ++ [f]) := by simp [zTerm]
      rw [this, isingSimplify_fixed, one_mul]
      · have : (zTerm (pre ++ [f])).map Prod.fst = (pre ++ [f]).map Prod.fst := by simp [zTerm]
        rw [this]
        exact hcan'.1.sublist ((List.sublist_append_left _ _).map _)
      · intro g hg; obtain ⟨x, _, rfl⟩ := List.mem_map.1 hg; rfl
    rw [hmul]
    have hg' : GoodContext (if f ∈ ctx then ctx else ctx ++ [f]) := by
      split
      · exact hg
      · rename_i hf
        rw [GoodContext, List.map_append, List.map_singleton, List.nodup_append]
        refine ⟨hg, List.nodup_singleton _, ?_⟩
        rintro a ha b hb rfl
        rw [List.mem_singleton] at hb
        obtain ⟨e, he, he1⟩ := List.mem_map.1 ha
        have h1 : e.1 = f.1 := he1.trans hb
        exact hf ((Prod.ext h1 (hco f (by simp) e he h1) : e = f) ▸ he)
    have hmem : ∀ e, e ∈ (if f ∈ ctx then ctx else ctx ++ [f]) ↔ e ∈ ctx ∨ e = f := by
      intro e
      split
      · rename_i hf
        exact ⟨.inl, fun h => h.elim id (fun h => h ▸ hf)⟩
      · simp
    obtain ⟨ctx', h1, h2, h3⟩ := ih (pre ++ [f]) _ hcan' hg' (by
      intro g hgt e he heq
      rcases (hmem e).1 he with he | rfl
      · exact hco g (by simp [hgt]) e he heq
      · have hn := hcan.nodup
        rw [List.map_append, List.map_cons] at hn
        have := (List.nodup_cons.1 (List.nodup_append.1 hn).2.1).1
        exact absurd (heq ▸ List.mem_map_of_mem hgt) this)
    refine ⟨ctx', ?_, h2, ?_⟩
    · rw [h1, List.append_assoc, List.singleton_append]
    · intro e
      rw [h3, hmem, List.mem_cons, or_assoc]

theorem contextTerm_error : ∀ (t : Term Letter) (ctx : List (ℕ × Letter)) (op : Terms Letter),
    (∃ f ∈ t, ∃ e ∈ ctx, e.1 = f.1 ∧ e.2 ≠ f.2) → contextTerm t ctx op = .error .valueError := by
  intro t
  induction t with
  | nil => rintro ctx op ⟨f, hf, -⟩; simp at hf
  | cons g t ih =>
    rintro ctx op ⟨f, hf, e, he, h1, h2⟩
    rw [contextTerm]
    split
    · rfl
    · rename_i hno
      rcases List.mem_cons.1 hf with rfl | hf
      · exact absurd (List.any_eq_true.2 ⟨e, he, by simp [h1, h2]⟩) hno
      · refine ih _ _ ⟨f, hf, e, ?_, h1, h2⟩
        split
        · exact he
        · simp [he]

theorem contextLoop_ok : ∀ (o : Terms Letter) (ctx : List (ℕ × Letter)) (out : Terms Letter), (∀ kv ∈ o, Canonical kv.1) → GoodContext ctx →
    (∀ kv ∈ o, ∀ f ∈ kv.1, ∀ e ∈ ctx, e.1 = f.1 → e.2 = f.2) → (∀ kv ∈ o, ∀ kv' ∈ o, CoMeasurable kv.1 kv'.1) →
    ∃ ctx', contextLoop o ctx out = .ok (ctx', o.foldl (fun acc kv => Op.add acc [(zTerm kv.1, kv.2)]) out) ∧ GoodContext ctx' ∧
      ∀ e, e ∈ ctx' ↔ e ∈ ctx ∨ ∃ kv ∈ o, e ∈ kv.1 := by
  intro o
  induction o with
  | nil => intro ctx out _ hg _ _; exact ⟨ctx, rfl, hg, by simp⟩
  | cons kv o ih =>
    obtain ⟨t, c⟩ := kv
    intro ctx out hcan hg hctx hco
    obtain ⟨ctx1, h1, h2, h3⟩ := contextTerm_ok t [] ctx (hcan (t, c) (by simp)) hg (hctx (t, c) (by simp))
    obtain ⟨ctx2, h4, h5, h6⟩ := ih ctx1 (Op.add out (Op.smul [(zTerm ([] ++ t), 1)] c)) (fun kv hkv => hcan kv (by simp [hkv])) h2 (by
      intro kv hkv f hf e he heq
      rcases (h3 e).1 he with he | he
      · exact hctx kv (by simp [hkv]) f hf e he heq
      · exact hco (t, c) (by simp) kv (by simp [hkv]) f.1 e.2 f.2 (heq ▸ he) hf) (fun kv hkv kv' hkv' => hco kv (by simp [hkv]) kv' (by simp [hkv']))
    refine ⟨ctx2, ?_, h5, ?_⟩
    · rw [contextLoop]
      have : ofTerm ising [] 1 = [(zTerm [], 1)] := by
        rw [ofTerm]
        show [((isingSimplify [] 1).2, (isingSimplify [] 1).1)] = _
        rw [isingSimplify_fixed (by simp) (by intro g hg; simp at hg)]
        rfl
      rw [this, h1]
      dsimp only
      rw [h4, List.foldl_cons]
      simp only [Op.smul, List.map_cons, List.map_nil, one_mul, List.nil_append]
    · intro e
      rw [h6, h3, or_assoc]
      refine or_congr Iff.rfl ?_
      simp only [List.mem_cons, exists_eq_or_imp]

theorem contextLoop_error : ∀ (o : Terms Letter) (ctx : List (ℕ × Letter)) (out : Terms Letter), (∀ kv ∈ o, Canonical kv.1) → GoodContext ctx →
    ((∃ kv ∈ o, ∃ f ∈ kv.1, ∃ e ∈ ctx, e.1 = f.1 ∧ e.2 ≠ f.2) ∨ ¬ ∀ kv ∈ o, ∀ kv' ∈ o, CoMeasurable kv.1 kv'.1) →
    contextLoop o ctx out = .error .valueError := by
  intro o
  induction o with
  | nil => rintro ctx out _ _ (⟨kv, hkv, -⟩ | h); · simp at hkv
           · simp at h
  | cons kv o ih =>
    obtain ⟨t, c⟩ := kv
    intro ctx out hcan hg hbad
    rw [contextLoop]
    by_cases hconf : ∃ f ∈ t, ∃ e ∈ ctx, e.1 = f.1 ∧ e.2 ≠ f.2
    · rw [contextTerm_error t ctx _ hconf]
    · push Not at hconf
      have hcant := hcan (t, c) (by simp)
      obtain ⟨ctx1, h1, h2, h3⟩ := contextTerm_ok t [] ctx hcant hg (fun f hf e he h => hconf f hf e he h)
      have : ofTerm ising [] 1 = [(zTerm [], 1)] := by
        rw [ofTerm]
        show [((isingSimplify [] 1).2, (isingSimplify [] 1).1)] = _
        rw [isingSimplify_fixed (by simp) (by intro g hg; simp at hg)]
        rfl
      rw [this, h1]
      dsimp only
      refine ih ctx1 _ (fun kv hkv => hcan kv (by simp [hkv])) h2 ?_
      rcases hbad with ⟨kv, hkv, f, hf, e, he, h4, h5⟩ | hbad
      · rcases List.mem_cons.1 hkv with rfl | hkv
        · exact absurd (hconf f hf e he h4) h5
        · exact .inl ⟨kv, hkv, f, hf, e, (h3 e).2 (.inl he), h4, h5⟩
      · by_cases hbad' : ∀ kv ∈ o, ∀ kv' ∈ o, CoMeasurable kv.1 kv'.1
        · left
          by_contra hcon
          push Not at hcon
          apply hbad
          have hself : CoMeasurable t t := fun q a b ha hb => (Prod.mk.inj (List.inj_on_of_nodup_map hcant.nodup ha hb rfl)).2
          have hto : ∀ kv ∈ o, CoMeasurable t kv.1 := fun kv hkv q a b ha hb => hcon kv hkv (q, b) hb (q, a) ((h3 _).2 (.inr ha)) rfl
          intro kv hkv kv' hkv'
          rcases List.mem_cons.1 hkv with rfl | hkv <;> rcases List.mem_cons.1 hkv' with rfl | hkv'
          · exact hself
          · exact hto kv' hkv'
          · exact coMeasurable_comm (hto kv hkv)
          · exact hbad' kv hkv kv' hkv'
        · exact .inr hbad'

/-! ### The circuit -/

theorem appendOps_spec : ∀ (ops : List GateOp) (c : Circuit), (∀ op ∈ ops, op.qubits ≠ []) →
    ∃ c', appendOps c ops = .ok c' ∧ c'.ops = c.ops ++ ops := by
  intro ops
  induction ops with
  | nil => intro c _; exact ⟨c, rfl, by simp⟩
  | cons o ops ih =>
    intro c h
    have ho := h o (by simp)
    cases hm : o.qubits.max? with
    | none => exact absurd (List.max?_eq_none_iff.1 hm) ho
    | some m =>
      have h1 := append_op c o m hm
      obtain ⟨c', h2, h3⟩ := ih ⟨c.ops ++ [o], max c.n (m + 1)⟩ (fun op hop => h op (by simp [hop]))
      refine ⟨c', ?_, ?_⟩
      · rw [appendOps, h1]; exact h2
      · rw [h3]; simp

theorem opsOperator_append (n : ℕ) (ρ : String → ℂ) (a b : List GateOp) :
    opsOperator n ρ (a ++ b) = opsOperator n ρ b * opsOperator n ρ a := by
  simp [opsOperator]

theorem opsOperator_nil (n : ℕ) (ρ : String → ℂ) : opsOperator n ρ [] = 1 := rfl

theorem opsOperator_singleton (n : ℕ) (ρ : String → ℂ) (o : GateOp) : opsOperator n ρ [o] = o.operator n ρ := by simp [opsOperator]

/-- RX and RY as matrices on one bit. -/
noncomputable def rxBit (a : ℂ) : Matrix Bool Bool ℂ := fun i j => if i = j then Complex.cos (a / 2) else -Complex.I * Complex.sin (a / 2)
noncomputable def ryBit (a : ℂ) : Matrix Bool Bool ℂ := fun i j => if i = j then Complex.cos (a / 2) else if i then Complex.sin (a / 2) else -Complex.sin (a / 2)

theorem rxMatrix_onBits (a : ℂ) : (rxMatrix a).onBits 1 = onOne (rxBit a) := by
  apply ext_one
  intro x y
  cases x <;> cases y <;> simp [Mat.onBits, basisIndex_one, rxMatrix, Mat.ofRows, onOne, rxBit]

theorem ryMatrix_onBits (a : ℂ) : (ryMatrix a).onBits 1 = onOne (ryBit a) := by
  apply ext_one
  intro x y
  cases x <;> cases y <;> simp [Mat.onBits, basisIndex_one, ryMatrix, Mat.ofRows, onOne, ryBit]

/-- The rotation that the context circuit applies to a qubit. -/
noncomputable def basisChange : Letter → Matrix Bool Bool ℂ
  | .X => ryBit ((-Real.pi / 2 : ℝ) : ℂ)
  | .Y => rxBit ((Real.pi / 2 : ℝ) : ℂ)
  | _ => 1

/-- `1/√2`. -/
noncomputable def invSqrt2 : ℂ := ((√2 / 2 : ℝ) : ℂ)

theorem invSqrt2_sq : invSqrt2 * invSqrt2 = 1 / 2 := by
  rw [invSqrt2, ← Complex.ofReal_mul, show (√2 / 2 : ℝ) * (√2 / 2) = (√2 * √2) / 4 by ring, Real.mul_self_sqrt (by norm_num)]
  norm_num

theorem cos_quarter : Complex.cos ((Real.pi / 4 : ℝ) : ℂ) = invSqrt2 := by rw [← Complex.ofReal_cos, Real.cos_pi_div_four]; rfl
theorem sin_quarter : Complex.sin ((Real.pi / 4 : ℝ) : ℂ) = invSqrt2 := by rw [← Complex.ofReal_sin, Real.sin_pi_div_four]; rfl

theorem ryBit_minus : ryBit ((-Real.pi / 2 : ℝ) : ℂ) = Matrix.of fun i j => if i then (if j then invSqrt2 else -invSqrt2) else invSqrt2 := by
  have h : (((-Real.pi / 2 : ℝ) : ℂ) / 2) = -((Real.pi / 4 : ℝ) : ℂ) := by push_cast; ring
  funext i j
  rw [Matrix.of_apply, ryBit, h, Complex.cos_neg, Complex.sin_neg, cos_quarter, sin_quarter]
  cases i <;> cases j <;> simp

theorem rxBit_plus : rxBit ((Real.pi / 2 : ℝ) : ℂ) = Matrix.of fun i j => if i = j then invSqrt2 else -Complex.I * invSqrt2 := by
  have h : (((Real.pi / 2 : ℝ) : ℂ) / 2) = ((Real.pi / 4 : ℝ) : ℂ) := by push_cast; ring
  funext i j
  rw [Matrix.of_apply, rxBit, h, cos_quarter, sin_quarter]

theorem star_invSqrt2 : (starRingEnd ℂ) invSqrt2 = invSqrt2 := Complex.conj_ofReal _

theorem basisChange_unitary (a : Letter) : (basisChange a)ᴴ * basisChange a = 1 := by
  have hs := invSqrt2_sq
  have hI : Complex.I * Complex.I = -1 := Complex.I_mul_I
  cases a
  · simp [basisChange]
  · rw [basisChange, ryBit_minus]
    ext i j
    cases i <;> cases j <;> simp [Matrix.mul_apply, Matrix.conjTranspose_apply, star_invSqrt2, hs]
    norm_num
  · rw [basisChange, rxBit_plus]
    ext i j
    cases i <;> cases j <;> simp [Matrix.mul_apply, Matrix.conjTranspose_apply, star_invSqrt2]
    · linear_combination (2 : ℂ) * hs - invSqrt2 * invSqrt2 * hI
    · ring
    · ring
    · linear_combination (2 : ℂ) * hs - invSqrt2 * invSqrt2 * hI
  · simp [basisChange]

theorem basisChange_conj (a : Letter) (ha : a ≠ .I) : (basisChange a)ᴴ * pauliZ * basisChange a = letterMatrix a := by
  have hs := invSqrt2_sq
  have hI : Complex.I * Complex.I = -1 := Complex.I_mul_I
  cases a
  · exact absurd rfl ha
  · rw [basisChange, ryBit_minus]
    ext i j
    cases i <;> cases j <;> simp [Matrix.mul_apply, Matrix.conjTranspose_apply, star_invSqrt2, hs, pauliZ, letterMatrix, pauliX] <;> norm_num
  · rw [basisChange, rxBit_plus]
    ext i j
    cases i <;> cases j <;> simp [Matrix.mul_apply, Matrix.conjTranspose_apply, star_invSqrt2, pauliZ, letterMatrix, pauliY]
    · linear_combination invSqrt2 * invSqrt2 * hI
    · linear_combination -(2 : ℂ) * Complex.I * hs
    · linear_combination (2 : ℂ) * Complex.I * hs
    · linear_combination -(invSqrt2 * invSqrt2) * hI
  · simp [basisChange, letterMatrix]

theorem basisChange_I : basisChange .I = 1 := rfl
theorem basisChange_Z : basisChange .Z = 1 := rfl

theorem contextGate_operator {n : ℕ} (ρ : String → ℂ) (f : ℕ × Letter) (hf : f.1 < n) :
    opsOperator n ρ (contextGate f) = tensor (Function.update (fun _ => 1) ⟨f.1, hf⟩ (basisChange f.2)) := by
  obtain ⟨q, a⟩ := f
  cases a
  · show opsOperator n ρ [] = tensor (Function.update (fun _ => 1) ⟨q, hf⟩ 1)
    rw [opsOperator_nil, ← tensor_one]
    congr 1
    simp
  · rw [contextGate, opsOperator_singleton]
    refine operator_single ρ _ q hf ?_
    show (ryMatrix _).onBits 1 = _
    rw [ryMatrix_onBits]
    rfl
  · rw [contextGate, opsOperator_singleton]
    refine operator_single ρ _ q hf ?_
    show (rxMatrix _).onBits 1 = _
    rw [rxMatrix_onBits]
    rfl
  · show opsOperator n ρ [] = tensor (Function.update (fun _ => 1) ⟨q, hf⟩ 1)
    rw [opsOperator_nil, ← tensor_one]
    congr 1
    simp

theorem contextCircuit_operator {n : ℕ} (ρ : String → ℂ) : ∀ ctx : List (ℕ × Letter), GoodContext ctx → (∀ f ∈ ctx, f.1 < n) →
    opsOperator n ρ (ctx.flatMap contextGate) = tensor fun q => basisChange (letterAt ctx q) := by
  intro ctx
  induction ctx with
  | nil => intro _ _; exact tensor_one.symm
  | cons f ctx ih =>
    intro hg hn
    have hg' := List.nodup_cons.1 (show (f.1 :: ctx.map Prod.fst).Nodup from hg)
    rw [List.flatMap_cons, opsOperator_append, ih hg'.2 (fun g h => hn g (by simp [h])), contextGate_operator ρ f (hn f (by simp)), tensor_mul]
    congr 1
    funext q
    rw [letterAt]
    by_cases hq : f.1 = q
    · have : q = ⟨f.1, hn f (by simp)⟩ := Fin.ext hq.symm
      rw [if_pos hq, letterAt_of_not_mem (hq ▸ hg'.1), this, Function.update_self, basisChange_I, one_mul]
    · have : q ≠ ⟨f.1, hn f (by simp)⟩ := fun e => hq (by rw [e])
      rw [if_neg hq, Function.update_of_ne this, mul_one]

theorem zTerm_fst (t : Term Letter) : (zTerm t).map Prod.fst = t.map Prod.fst := by rw [zTerm, List.map_map]; rfl

theorem zTerm_injOn {s t : Term Letter} (hs : Canonical s) (ht : Canonical t) (h : CoMeasurable s t) (e : zTerm s = zTerm t) : s = t := by
  have hq : s.map Prod.fst = t.map Prod.fst := by
    rw [← zTerm_fst s, e, zTerm_fst]
  refine canonical_ext hs ht fun q => ?_
  by_cases hm : q ∈ s.map Prod.fst
  · obtain ⟨f, hf, rfl⟩ := List.mem_map.1 hm
    obtain ⟨g, hg, e⟩ := List.mem_map.1 (hq ▸ hm)
    rw [letterAt_of_mem hs.nodup hf, ← e, letterAt_of_mem ht.nodup hg]
    exact h f.1 f.2 g.2 hf (e ▸ hg)
  · rw [letterAt_of_not_mem hm, letterAt_of_not_mem (hq ▸ hm)]

theorem letterAt_zTerm (t : Term Letter) (q : ℕ) : letterAt (zTerm t) q = if q ∈ t.map Prod.fst then .Z else .I := by
  induction t with
  | nil => simp [zTerm, letterAt]
  | cons f t ih =>
    show letterAt ((f.1, Letter.Z) :: zTerm t) q = _
    rw [letterAt, ih]
    by_cases h : f.1 = q
    · rw [if_pos h, if_pos (by simp [h])]
    · rw [if_neg h]
      refine if_congr ?_ rfl rfl
      simp only [List.map_cons, List.mem_cons]
      exact ⟨.inr, fun hh => hh.resolve_left (fun e => h e.symm)⟩

/-- C37. For an operator whose terms can be measured together, the context circuit's unitary `U` and the returned operator `D` satisfy
`U† D U =` the operator (without the terms whose coefficient is below the tolerance of operator addition), on every register that holds the
operator's qubits; `U` is unitary and `D` is a sum of products of `Z`s, one per kept term, on the same qubits with the same coefficient. -/
theorem contextSelection_spec {o : Terms Letter} (h : CanonicalOp o) (hco : ∀ s ∈ keys o, ∀ t ∈ keys o, CoMeasurable s t) :
    ∃ c D, contextSelection o = .ok (c, D) ∧ D = (bigTerms o).map (fun kv => (kv.1.map fun f => (f.1, Letter.Z), kv.2)) ∧
      ∀ (n : ℕ) (ρ : String → ℂ), Below n o →
        (opsOperator n ρ c.ops)ᴴ * opsOperator n ρ c.ops = 1 ∧
        (opsOperator n ρ c.ops)ᴴ * opMatrix n D * opsOperator n ρ c.ops = opMatrix n (bigTerms o) := by
  have hcan : ∀ kv ∈ o, Canonical kv.1 := fun kv hkv => h.2 kv.1 (List.mem_map_of_mem hkv)
  obtain ⟨ctx, h1, h2, h3⟩ := contextLoop_ok o [] [] hcan (by simp [GoodContext]) (by simp)
    (fun kv hkv kv' hkv' => hco _ (List.mem_map_of_mem hkv) _ (List.mem_map_of_mem hkv'))
  rw [rename_fold zTerm o h.1 (fun s hs t ht => zTerm_injOn (h.2 s hs) (h.2 t ht) (hco s hs t ht))] at h1
  obtain ⟨c, h4, h5⟩ := appendOps_spec (ctx.flatMap contextGate) ⟨[], 0⟩ (by
    intro op hop
    obtain ⟨f, _, hf⟩ := List.mem_flatMap.1 hop
    obtain ⟨q, a⟩ := f
    cases a <;> simp [contextGate] at hf <;> subst hf <;> simp)
  refine ⟨c, _, ?_, rfl, ?_⟩
  · rw [contextSelection]
    show (contextLoop o [] [] >>= _) = _
    rw [h1]
    show (appendOps ⟨[], 0⟩ (ctx.flatMap contextGate) >>= _) = _
    rw [h4]
    rfl
  intro n ρ hn
  rw [h5, List.nil_append, contextCircuit_operator ρ ctx h2 (by
    intro f hf
    rcases (h3 f).1 hf with hf | ⟨kv, hkv, hf⟩
    · simp at hf
    · exact hn kv hkv f hf), tensor_conjTranspose]
  refine ⟨?_, ?_⟩
  · rw [tensor_mul, ← tensor_one]
    congr 1
    funext q
    exact basisChange_unitary _
  · have hbig : ∀ kv ∈ bigTerms o, kv ∈ o := fun kv hkv => (List.mem_filter.1 hkv).1
    generalize bigTerms o = b at hbig
    induction b with
    | nil => simp [opMatrix]
    | cons kv b ih =>
      have := ih (fun kv hkv => hbig kv (by simp [hkv]))
      simp only [opMatrix, List.map_cons, List.sum_cons, Matrix.mul_add, Matrix.add_mul, Matrix.mul_smul, Matrix.smul_mul] at this ⊢
      rw [this]
      congr 2
      rw [pauliString, pauliString, tensor_mul, tensor_mul]
      congr 1
      funext q
      have hkv := hbig kv (by simp)
      show _ * letterMatrix (letterAt (zTerm kv.1) q) * _ = _
      rw [letterAt_zTerm]
      by_cases hq : (q : ℕ) ∈ kv.1.map Prod.fst
      · obtain ⟨f, hf, e⟩ := List.mem_map.1 hq
        have hfc : f ∈ ctx := (h3 f).2 (.inr ⟨kv, hkv, hf⟩)
        rw [if_pos hq, ← e, letterAt_of_mem h2 hfc, letterAt_of_mem (hcan kv hkv).nodup hf]
        exact basisChange_conj _ ((hcan kv hkv).2 f hf)
      · rw [if_neg hq, letterAt_of_not_mem hq, letterMatrix, mul_one]
        exact basisChange_unitary _

/-- C37. Terms that cannot be measured together are refused. -/
theorem contextSelection_rejects {o : Terms Letter} (h : CanonicalOp o) (hco : ¬ ∀ s ∈ keys o, ∀ t ∈ keys o, CoMeasurable s t) :
    contextSelection o = .error .valueError := by
  have := contextLoop_error o [] [] (fun kv hkv => h.2 kv.1 (List.mem_map_of_mem hkv)) (by simp [GoodContext]) (.inr (by
    intro hh
    apply hco
    intro s hs t ht
    obtain ⟨kv, hkv, rfl⟩ := List.mem_map.1 hs
    obtain ⟨kv', hkv', rfl⟩ := List.mem_map.1 ht
    exact hh kv hkv kv' hkv'))
  rw [contextSelection]
  show (contextLoop o [] [] >>= _) = _
  rw [this]
  rfl

/-- C37. Diagonal entry of an operator that is a sum of products of `Z`s. -/
noncomputable def diagEntry {n : ℕ} (D : Terms Letter) (x : Fin n → Bool) : ℂ := (D.map fun kv => kv.2 * ∏ q : Fin n, if (q : ℕ) ∈ kv.1.map Prod.fst ∧ x q then (-1) else 1).sum

theorem pauliString_zTerm {n : ℕ} (t : Term Letter) :
    pauliString n (zTerm t) = Matrix.diagonal fun x => ∏ q : Fin n, if (q : ℕ) ∈ t.map Prod.fst ∧ x q then (-1) else 1 := by
  ext x y
  rw [pauliString, tensor]
  by_cases hxy : x = y
  · subst hxy
    rw [Matrix.diagonal_apply_eq]
    refine Finset.prod_congr rfl fun q _ => ?_
    rw [letterAt_zTerm]
    by_cases hq : (q : ℕ) ∈ t.map Prod.fst
    · rw [if_pos hq, letterMatrix, pauliZ]
      cases hx : x q <;> simp [hq, -List.mem_map]
    · rw [if_neg hq, letterMatrix]
      simp [hq, -List.mem_map]
  · rw [Matrix.diagonal_apply_ne _ hxy]
    obtain ⟨q, hq⟩ := Function.ne_iff.1 hxy
    refine Finset.prod_eq_zero (Finset.mem_univ q) ?_
    rw [letterAt_zTerm]
    split
    · rw [letterMatrix, pauliZ, if_neg hq]
    · rw [letterMatrix, Matrix.one_apply_ne hq]

/-- C37. For every state `ψ`, the expectation of the operator in `ψ` is the average, over the outcome probabilities of the computational basis after
the context circuit, of the signed sums that the returned operator assigns to the outcomes. -/
theorem contextSelection_expectation {o : Terms Letter} (h : CanonicalOp o) (hco : ∀ s ∈ keys o, ∀ t ∈ keys o, CoMeasurable s t)
    (hbig : ∀ kv ∈ o, 1 / 10 ^ 8 ≤ ‖kv.2‖) {c : Circuit} {D : Terms Letter} (hr : contextSelection o = .ok (c, D))
    (n : ℕ) (ρ : String → ℂ) (hn : Below n o) (ψ : (Fin n → Bool) → ℂ) :
    star ψ ⬝ᵥ (opMatrix n o).mulVec ψ =
      ∑ x, ((‖(opsOperator n ρ c.ops).mulVec ψ x‖ ^ 2 : ℝ) : ℂ) * diagEntry D x := by
  obtain ⟨c', D', h1, h2, h3⟩ := contextSelection_spec h hco
  rw [hr] at h1
  injection h1 with h1
  obtain ⟨rfl, rfl⟩ := Prod.mk.inj h1
  obtain ⟨-, h4⟩ := h3 n ρ hn
  rw [bigTerms_eq_self hbig] at h4 h2
  rw [← h4, Matrix.mul_assoc, ← Matrix.mulVec_mulVec, Matrix.dotProduct_mulVec, ← Matrix.star_mulVec, ← Matrix.mulVec_mulVec]
  have hD : opMatrix n D = Matrix.diagonal (diagEntry D) := by
    rw [h2]
    clear h2 h3 h4 hr hbig h hco hn
    induction o with
    | nil => ext x y; simp [opMatrix, diagEntry, Matrix.diagonal_apply]
    | cons kv o ih =>
      simp only [opMatrix, List.map_cons, List.sum_cons] at ih ⊢
      rw [ih]
      show kv.2 • pauliString n (zTerm kv.1) + _ = _
      rw [pauliString_zTerm]
      ext x y
      rw [Matrix.add_apply, Matrix.smul_apply]
      by_cases hxy : x = y
      · subst hxy
        have hz : (kv.1.map fun f => (f.1, Letter.Z)).map Prod.fst = kv.1.map Prod.fst := zTerm_fst kv.1
        simp only [Matrix.diagonal_apply_eq, diagEntry, List.map_cons, List.sum_cons, smul_eq_mul]
        rw [hz]
      · simp [Matrix.diagonal_apply_ne _ hxy]
  rw [hD, dotProduct]
  refine Finset.sum_congr rfl fun x _ => ?_
  rw [Matrix.mulVec_diagonal, Pi.star_apply, Complex.star_def, mul_left_comm, mul_comm]
  congr 1
  rw [mul_comm, Complex.mul_conj, Complex.normSq_eq_norm_sq]

example : (∀ s ∈ keys ([([(0, .X), (1, .Y)], 2), ([(1, .Y)], -1), ([(2, .Z)], 3)] : Terms Letter),
    ∀ t ∈ keys ([([(0, .X), (1, .Y)], 2), ([(1, .Y)], -1), ([(2, .Z)], 3)] : Terms Letter), CoMeasurable s t) := by
  intro s hs t ht
  rw [← isComeasureable_iff]
  simp only [keys, List.map_cons, List.map_nil, List.mem_cons, List.not_mem_nil, or_false] at hs ht
  rcases hs with rfl | rfl | rfl <;> rcases ht with rfl | rfl | rfl <;> decide

end ZQ.Est
