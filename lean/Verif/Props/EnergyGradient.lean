import Verif.Model.CostGradient
import Verif.Props.Gradient
import Verif.Props.Expectation
import Verif.Props.ContextSelection
import Mathlib.Analysis.SpecialFunctions.Trigonometric.Deriv
import Mathlib.Analysis.SpecialFunctions.Trigonometric.Bounds

/-! C137: finite difference gradients of circuit energies. -/

namespace ZQ.EnergyGradient

open ZQ ZQ.Op ZQ.Gates ZQ.Circuits ZQ.Expect ZQ.Gradient ZQ.Backend ZQ.Est Matrix

/-- Specification: the built-in gates that turn by one angle: in a suitable basis, a diagonal matrix with two different phases `angle` apart. -/
def Turning (b : Base) : Prop := b ∈ parametricGates ∧ b.name ∈ ["RX", "RY", "RZ", "RH", "PHASE", "CPHASE", "XX", "YY", "ZZ"]

/-- Specification: such a gate, or its dagger, with the symbol `s` for the angle. -/
def Turns (s : String) (g : Gate) : Prop := ∃ b, Turning b ∧ (g = .factory b [.sym s] ∨ g = .dag (.factory b [.sym s]))

/-- Specification: the symbol is the angle of one operation of the circuit and occurs nowhere else. -/
def Once (c : Circuit) (s : String) : Prop :=
  ∃ pre op post, c.ops = pre ++ op :: post ∧ Turns s op.gate ∧ ∀ o ∈ pre ++ post, s ∉ o.freeSymbols

/-- Specification: the energy of the operator in the state of the circuit. -/
noncomputable def energy (c : Circuit) (A : Matrix (Fin c.n → Bool) (Fin c.n → Bool) ℂ) (ρ : String → ℂ) : ℝ := (braket (outputState ρ c) A).re

/-! ## Entries -/

/-- Up to a common phase, a combination of a constant and `exp(i t)`. -/
def Ent (φ f : ℝ → ℂ) : Prop := ∃ α β : ℂ, ∀ t : ℝ, f t = φ t * (α + Complex.exp (t * Complex.I) * β)

theorem Ent.zero (φ : ℝ → ℂ) : Ent φ fun _ => 0 := ⟨0, 0, by simp⟩

theorem Ent.add {φ f g : ℝ → ℂ} (hf : Ent φ f) (hg : Ent φ g) : Ent φ fun t => f t + g t := by
  obtain ⟨a, b, h⟩ := hf
  obtain ⟨a', b', h'⟩ := hg
  exact ⟨a + a', b + b', fun t => by dsimp only; rw [h, h']; ring⟩

theorem Ent.smul {φ f : ℝ → ℂ} (z : ℂ) (hf : Ent φ f) : Ent φ fun t => z * f t := by
  obtain ⟨a, b, h⟩ := hf
  exact ⟨z * a, z * b, fun t => by dsimp only; rw [h]; ring⟩

theorem Ent.sub {φ f g : ℝ → ℂ} (hf : Ent φ f) (hg : Ent φ g) : Ent φ fun t => f t - g t := by
  have := hf.add (hg.smul (-1))
  simpa [sub_eq_add_neg] using this

theorem Ent.times {φ f : ℝ → ℂ} (ψ : ℝ → ℂ) (hf : Ent φ f) : Ent (fun t => ψ t * φ t) fun t => ψ t * f t := by
  obtain ⟨a, b, h⟩ := hf
  exact ⟨a, b, fun t => by dsimp only; rw [h]; ring⟩

/-- The phase of the half angle. -/
noncomputable def half (t : ℝ) : ℂ := Complex.exp (-(t / 2) * Complex.I)

theorem half_unit (t : ℝ) : star (half t) * half t = 1 := by
  have h : star (half t) = Complex.exp ((t / 2) * Complex.I) := by
    show (starRingEnd ℂ) (half t) = _
    unfold half
    rw [← Complex.exp_conj]
    congr 1
    have : ((t : ℂ) / 2) = ((t / 2 : ℝ) : ℂ) := by push_cast; rfl
    rw [this, map_mul, map_neg, Complex.conj_ofReal, Complex.conj_I]
    ring
  rw [h, half, ← Complex.exp_add]
  simp

theorem half_exp (t : ℝ) : half t * Complex.exp (t * Complex.I) = Complex.exp (t / 2 * Complex.I) := by
  rw [half, ← Complex.exp_add]
  congr 1
  ring

theorem Ent.cos : Ent half fun t => Complex.cos (t / 2) := by
  refine ⟨1 / 2, 1 / 2, fun t => ?_⟩
  have h : Complex.cos (t / 2) = (Complex.exp (t / 2 * Complex.I) + Complex.exp (-(t / 2) * Complex.I)) / 2 := rfl
  rw [mul_add, ← mul_assoc, half_exp, half]
  dsimp only
  rw [h]
  ring

theorem Ent.sin : Ent half fun t => Complex.sin (t / 2) := by
  refine ⟨Complex.I / 2, -Complex.I / 2, fun t => ?_⟩
  have h : Complex.sin (t / 2) = (Complex.exp (-(t / 2) * Complex.I) - Complex.exp (t / 2 * Complex.I)) * Complex.I / 2 := rfl
  rw [mul_add, ← mul_assoc, half_exp, half]
  dsimp only
  rw [h]
  ring

theorem Ent.minus : Ent half fun t => Complex.exp (-1 * Complex.I * t / 2) := by
  refine ⟨1, 0, fun t => ?_⟩
  rw [half, mul_zero, add_zero, mul_one]
  dsimp only
  congr 1; ring

theorem Ent.plus : Ent half fun t => Complex.exp (Complex.I * t / 2) := by
  refine ⟨0, 1, fun t => ?_⟩
  rw [zero_add, mul_one, half_exp]
  dsimp only
  congr 1; ring

theorem Ent.const (z : ℂ) : Ent (fun _ => 1) fun _ => z := ⟨z, 0, by simp⟩

theorem Ent.full : Ent (fun _ => 1) fun t => Complex.exp (Complex.I * t) := ⟨0, 1, fun t => by dsimp only; rw [mul_comm Complex.I]; ring⟩

theorem Ent.adjoint {φ f : ℝ → ℂ} (hf : Ent φ f) : Ent (fun t => star (φ t) * Complex.exp (-t * Complex.I)) fun t => star (f t) := by
  obtain ⟨a, b, h⟩ := hf
  refine ⟨star b, star a, fun t => ?_⟩
  have he : star (Complex.exp (t * Complex.I)) = Complex.exp (-t * Complex.I) := by
    show (starRingEnd ℂ) _ = _
    rw [← Complex.exp_conj]
    congr 1
    simp [Complex.conj_ofReal]
  have h1 : Complex.exp (-t * Complex.I) * Complex.exp (t * Complex.I) = 1 := by rw [← Complex.exp_add]; simp
  dsimp only
  rw [h, star_mul', star_add, star_mul', he]
  linear_combination (-(star (φ t) * star a)) * h1

/-- All entries of a matrix of a list of rows. -/
theorem Ent.rows {φ : ℝ → ℂ} (rows : ℝ → List (List ℂ)) (fs : List (List (ℝ → ℂ))) (h : ∀ t, rows t = fs.map fun l => l.map fun f => f t)
    (hf : ∀ l ∈ fs, ∀ f ∈ l, Ent φ f) (i j : ℕ) : Ent φ fun t => (Mat.ofRows (rows t)).e i j := by
  have e : (fun t => (Mat.ofRows (rows t)).e i j) = fun t => ((fs.getD i []).getD j fun _ => 0) t := by
    funext t
    show ((rows t).getD i []).getD j 0 = _
    rw [h]
    simp only [List.getD_eq_getElem?_getD, List.getElem?_map]
    cases fs[i]? with
    | none => simp
    | some l =>
      simp only [Option.map_some, Option.getD_some, List.getElem?_map]
      cases l[j]? <;> simp
  rw [e]
  have hz : ∀ l ∈ fs, Ent φ (l.getD j fun _ => 0) := by
    intro l hl
    by_cases hj : j < l.length
    · rw [List.getD_eq_getElem _ _ hj]
      exact hf l hl _ (List.getElem_mem _)
    · rw [List.getD_eq_default _ _ (not_lt.1 hj)]
      exact Ent.zero φ
  by_cases hi : i < fs.length
  · rw [List.getD_eq_getElem _ _ hi]
    exact hz _ (List.getElem_mem _)
  · rw [List.getD_eq_default _ _ (not_lt.1 hi)]
    exact Ent.zero φ

theorem turning_entries (b : Base) (hb : Turning b) (s : String) (ρ : String → ℂ) :
    ∃ φ : ℝ → ℂ, (∀ t, star (φ t) * φ t = 1) ∧ ∀ i j, Ent φ fun t => ((Gate.factory b [.sym s]).matrix (Function.update ρ s (t : ℂ))).e i j := by
  have hs : ∀ t : ℝ, ([Expr.sym s].map (Expr.eval (Function.update ρ s (t : ℂ)))).getD 0 0 = (t : ℂ) := by
    intro t; simp [Expr.eval]
  have key : ∀ (F : ℂ → Mat ℂ) (φ : ℝ → ℂ), b.factory = param1 F → (∀ t, star (φ t) * φ t = 1) → (∀ i j, Ent φ fun t => (F t).e i j) →
      ∃ φ : ℝ → ℂ, (∀ t, star (φ t) * φ t = 1) ∧ ∀ i j, Ent φ fun t => ((Gate.factory b [.sym s]).matrix (Function.update ρ s (t : ℂ))).e i j := by
    intro F φ hF h1 h2
    refine ⟨φ, h1, fun i j => ?_⟩
    have : (fun t : ℝ => ((Gate.factory b [.sym s]).matrix (Function.update ρ s (t : ℂ))).e i j) = fun t : ℝ => (F t).e i j := by
      funext t
      show (b.factory.matrix [.sym s] _).e i j = _
      rw [hF]
      show (F (([Expr.sym s].map (Expr.eval (Function.update ρ s (t : ℂ)))).getD 0 0)).e i j = _
      rw [hs]
    rw [this]
    exact h2 i j
  obtain ⟨h1, h2⟩ := hb
  have one : ∀ t : ℝ, star ((fun _ => 1 : ℝ → ℂ) t) * (fun _ => 1 : ℝ → ℂ) t = 1 := by simp
  simp only [parametricGates, List.mem_cons, List.not_mem_nil, or_false] at h1
  rcases h1 with rfl | rfl | rfl | rfl | rfl | rfl | rfl | rfl | rfl | rfl | rfl
  · refine key rxMatrix half rfl half_unit (Ent.rows _ [[_, _], [_, _]] (fun t => rfl) ?_)
    simp only [List.mem_cons, List.not_mem_nil, or_false, forall_eq_or_imp, forall_eq]
    exact ⟨⟨Ent.cos, Ent.sin.smul _⟩, Ent.sin.smul _, Ent.cos⟩
  · refine key ryMatrix half rfl half_unit (Ent.rows _ [[_, _], [_, _]] (fun t => rfl) ?_)
    simp only [List.mem_cons, List.not_mem_nil, or_false, forall_eq_or_imp, forall_eq]
    exact ⟨⟨Ent.cos, Ent.sin.smul _⟩, Ent.sin, Ent.cos⟩
  · refine key rzMatrix half rfl half_unit (Ent.rows _ [[_, _], [_, _]] (fun t => rfl) ?_)
    simp only [List.mem_cons, List.not_mem_nil, or_false, forall_eq_or_imp, forall_eq]
    exact ⟨⟨Ent.minus, Ent.zero _⟩, Ent.zero _, Ent.plus⟩
  · have hp : ∀ t : ℝ, (Complex.cos (t / 2) + Complex.I * Complex.sin (t / 2)) = Complex.exp (t / 2 * Complex.I) := by
      intro t; rw [Complex.exp_mul_I]; ring
    have hu : ∀ t : ℝ, star (Complex.exp (t / 2 * Complex.I) * half t) * (Complex.exp (t / 2 * Complex.I) * half t) = 1 := by
      intro t
      have : Complex.exp (t / 2 * Complex.I) * half t = 1 := by
        rw [half, ← Complex.exp_add]; simp
      rw [this]; simp
    refine key rhMatrix (fun t => Complex.exp (t / 2 * Complex.I) * half t) rfl hu fun i j => ?_
    have h := Ent.rows (φ := half) (fun t : ℝ => [[Complex.cos (t / 2) - Complex.I / (√2 : ℝ) * Complex.sin (t / 2), -Complex.I / (√2 : ℝ) * Complex.sin (t / 2)],
      [-Complex.I / (√2 : ℝ) * Complex.sin (t / 2), Complex.cos (t / 2) + Complex.I / (√2 : ℝ) * Complex.sin (t / 2)]]) [[_, _], [_, _]] (fun t => rfl) (by
        simp only [List.mem_cons, List.not_mem_nil, or_false, forall_eq_or_imp, forall_eq]
        exact ⟨⟨Ent.cos.sub (Ent.sin.smul _), Ent.sin.smul _⟩, Ent.sin.smul _, Ent.cos.add (Ent.sin.smul _)⟩) i j
    have h2 := h.times fun t => Complex.exp (t / 2 * Complex.I)
    refine (congrArg (Ent _) (funext fun t => ?_)).mp h2
    rw [← hp]
    rfl
  · refine key phaseMatrix (fun _ => 1) rfl one (Ent.rows _ [[_, _], [_, _]] (fun t => rfl) ?_)
    simp only [List.mem_cons, List.not_mem_nil, or_false, forall_eq_or_imp, forall_eq]
    exact ⟨⟨Ent.const _, Ent.const _⟩, Ent.const _, Ent.full⟩
  · simp at h2
  · refine key cphaseMatrix (fun _ => 1) rfl one (Ent.rows _ [[_, _, _, _], [_, _, _, _], [_, _, _, _], [_, _, _, _]] (fun t => rfl) ?_)
    simp only [List.mem_cons, List.not_mem_nil, or_false, forall_eq_or_imp, forall_eq]
    exact ⟨⟨Ent.const _, Ent.const _, Ent.const _, Ent.const _⟩, ⟨Ent.const _, Ent.const _, Ent.const _, Ent.const _⟩,
      ⟨Ent.const _, Ent.const _, Ent.const _, Ent.const _⟩, Ent.const _, Ent.const _, Ent.const _, Ent.full⟩
  · refine key xxMatrix half rfl half_unit (Ent.rows _ [[_, _, _, _], [_, _, _, _], [_, _, _, _], [_, _, _, _]] (fun t => rfl) ?_)
    simp only [List.mem_cons, List.not_mem_nil, or_false, forall_eq_or_imp, forall_eq]
    exact ⟨⟨Ent.cos, Ent.zero _, Ent.zero _, Ent.sin.smul _⟩, ⟨Ent.zero _, Ent.cos, Ent.sin.smul _, Ent.zero _⟩,
      ⟨Ent.zero _, Ent.sin.smul _, Ent.cos, Ent.zero _⟩, Ent.sin.smul _, Ent.zero _, Ent.zero _, Ent.cos⟩
  · refine key yyMatrix half rfl half_unit (Ent.rows _ [[_, _, _, _], [_, _, _, _], [_, _, _, _], [_, _, _, _]] (fun t => rfl) ?_)
    simp only [List.mem_cons, List.not_mem_nil, or_false, forall_eq_or_imp, forall_eq]
    exact ⟨⟨Ent.cos, Ent.zero _, Ent.zero _, Ent.sin.smul _⟩, ⟨Ent.zero _, Ent.cos, Ent.sin.smul _, Ent.zero _⟩,
      ⟨Ent.zero _, Ent.sin.smul _, Ent.cos, Ent.zero _⟩, Ent.sin.smul _, Ent.zero _, Ent.zero _, Ent.cos⟩
  · refine key zzMatrix half rfl half_unit (Ent.rows _ [[_, _, _, _], [_, _, _, _], [_, _, _, _], [_, _, _, _]] (fun t => rfl) ?_)
    simp only [List.mem_cons, List.not_mem_nil, or_false, forall_eq_or_imp, forall_eq]
    exact ⟨⟨Ent.cos.sub (Ent.sin.smul _), Ent.zero _, Ent.zero _, Ent.zero _⟩, ⟨Ent.zero _, Ent.cos.add (Ent.sin.smul _), Ent.zero _, Ent.zero _⟩,
      ⟨Ent.zero _, Ent.zero _, Ent.cos.add (Ent.sin.smul _), Ent.zero _⟩, Ent.zero _, Ent.zero _, Ent.zero _, Ent.cos.sub (Ent.sin.smul _)⟩
  · simp at h2

/-! ## Operators -/

/-- Up to a phase, a combination of a constant matrix and another times `exp(i t)`. -/
def Wave {m : Type} (M : ℝ → Matrix m m ℂ) : Prop :=
  ∃ (φ : ℝ → ℂ) (A B : Matrix m m ℂ), (∀ t, star (φ t) * φ t = 1) ∧ ∀ t : ℝ, M t = φ t • (A + Complex.exp (t * Complex.I) • B)

theorem turns_wave {n : ℕ} (op : GateOp) (s : String) (hs : Turns s op.gate) (ρ : String → ℂ) :
    Wave fun t : ℝ => op.operator n (Function.update ρ s (t : ℂ)) := by
  obtain ⟨g, qs⟩ := op
  have hent : ∃ φ : ℝ → ℂ, (∀ t, star (φ t) * φ t = 1) ∧ ∀ i j, Ent φ fun t : ℝ => (g.matrix (Function.update ρ s (t : ℂ))).e i j := by
    obtain ⟨b, hb, hg⟩ := hs
    obtain ⟨φ, h1, h2⟩ := turning_entries b hb s ρ
    rcases hg with hg | hg
    · dsimp only at hg
      subst hg
      exact ⟨φ, h1, h2⟩
    · dsimp only at hg
      subst hg
      refine ⟨fun t => star (φ t) * Complex.exp (-t * Complex.I), fun t => ?_, fun i j => (h2 j i).adjoint⟩
      have he : star (Complex.exp (-t * Complex.I)) = Complex.exp (t * Complex.I) := by
        show (starRingEnd ℂ) _ = _
        rw [← Complex.exp_conj]
        congr 1
        simp [Complex.conj_ofReal]
      have h3 : Complex.exp (t * Complex.I) * Complex.exp (-t * Complex.I) = 1 := by rw [← Complex.exp_add]; simp
      show star (star (φ t) * Complex.exp (-t * Complex.I)) * (star (φ t) * Complex.exp (-t * Complex.I)) = 1
      rw [star_mul', star_star, he]
      linear_combination (Complex.exp (t * Complex.I) * Complex.exp (-t * Complex.I)) * h1 t + h3
  obtain ⟨φ, h1, h2⟩ := hent
  choose α β hαβ using h2
  by_cases hq : ∀ q ∈ qs, q < n
  · refine ⟨φ, actOn (fun i : Fin qs.length => (⟨qs[i], hq _ (List.getElem_mem _)⟩ : Fin n)) (Matrix.of fun x y => α (basisIndex x) (basisIndex y)),
      actOn (fun i : Fin qs.length => (⟨qs[i], hq _ (List.getElem_mem _)⟩ : Fin n)) (Matrix.of fun x y => β (basisIndex x) (basisIndex y)), h1, fun t => ?_⟩
    unfold GateOp.operator
    dsimp only
    rw [dif_pos hq]
    ext x y
    simp only [Matrix.smul_apply, Matrix.add_apply, smul_eq_mul, actOn]
    by_cases hc : ∀ q, (∀ i : Fin qs.length, (⟨qs[i], hq _ (List.getElem_mem _)⟩ : Fin n) ≠ q) → x q = y q
    · rw [if_pos hc, if_pos hc, if_pos hc]
      exact hαβ _ _ t
    · rw [if_neg hc, if_neg hc, if_neg hc]
      simp
  · refine ⟨fun _ => 1, 0, 0, by simp, fun t => ?_⟩
    unfold GateOp.operator
    dsimp only
    rw [dif_neg hq]
    simp

/-- A gate without a symbol does not depend on its value. -/
theorem matrix_free (g : Gate) (hv : g.AllBase fun b ps => b.ByValue ps) (s : String) (hs : s ∉ g.freeSymbols) (ρ : String → ℂ) (v : ℂ) :
    g.matrix (Function.update ρ s v) = g.matrix ρ := by
  induction g with
  | factory b ps =>
    have hp : ∀ p ∈ ps, p.eval (Function.update ρ s v) = p.eval ρ := by
      intro p hp
      refine Expr.eval_congr p fun x hx => Function.update_of_ne ?_ _ _
      rintro rfl
      exact hs ((Expr.mem_getFreeSymbols _ _).2 ⟨p, hp, hx⟩)
    show b.factory.matrix ps _ = b.factory.matrix ps _
    have hv' : b.ByValue ps := hv
    unfold Base.ByValue at hv'
    cases hf : b.factory with
    | builtin f =>
      show f _ = f _
      congr 1
      exact List.map_congr_left hp
    | custom d =>
      rw [hf] at hv'
      obtain ⟨h1, h2, h3, h4⟩ := hv'
      show (⟨_, _, _⟩ : Mat ℂ) = ⟨_, _, _⟩
      congr 1
      funext i j
      have e1 := custom_by_value d ps (Function.update ρ s v) h1 h2 h4 i j
      have e2 := custom_by_value d ps ρ h1 h2 h4 i j
      refine e1.trans (Eq.trans ?_ e2.symm)
      refine Expr.eval_congr _ fun x hx => ?_
      have hx' := h3 i j x hx
      unfold updateEnv
      cases hl : (d.paramsOrdering.zip ps).lookup x with
      | none =>
        exfalso
        rw [List.lookup_eq_none_iff] at hl
        obtain ⟨k, hk, rfl⟩ := List.getElem_of_mem hx'
        have := hl (d.paramsOrdering[k], ps[k]'(by omega)) (by
          have : (d.paramsOrdering.zip ps)[k]'(by simp; omega) = (d.paramsOrdering[k], ps[k]'(by omega)) := by simp
          rw [← this]; exact List.getElem_mem _)
        simp at this
      | some p =>
        dsimp only
        apply hp
        have := Expr.lookup_mem hl
        exact (List.of_mem_zip this).2
  | ctrl g k ih =>
    show Mat.diag _ _ = Mat.diag _ _
    rw [ih hv hs]
  | dag g ih =>
    show Mat.adjoint _ = Mat.adjoint _
    rw [ih hv hs]

theorem opsOperator_free {n : ℕ} (ops : List GateOp) (s : String) (hv : ∀ o ∈ ops, o.gate.AllBase fun b ps => b.ByValue ps)
    (hs : ∀ o ∈ ops, s ∉ o.freeSymbols) (ρ : String → ℂ) (v : ℂ) : opsOperator n (Function.update ρ s v) ops = opsOperator n ρ ops := by
  unfold opsOperator
  congr 1
  refine List.map_congr_left fun o ho => ?_
  have ho' := List.mem_reverse.1 ho
  unfold GateOp.operator
  rw [matrix_free o.gate (hv o ho') s (hs o ho')]

theorem Wave.mul {m : Type} [Fintype m] {M : ℝ → Matrix m m ℂ} (h : Wave M) (L R : Matrix m m ℂ) : Wave fun t => L * M t * R := by
  obtain ⟨φ, A, B, h1, h2⟩ := h
  refine ⟨φ, L * A * R, L * B * R, h1, fun t => ?_⟩
  dsimp only
  rw [h2]
  simp only [Matrix.mul_smul, Matrix.smul_mul, Matrix.mul_add, Matrix.add_mul]

/-- The energy of a state that depends on `t` this way. -/
theorem wave_energy {m : Type} [Fintype m] {M : ℝ → Matrix m m ℂ} (h : Wave M) (v : m → ℂ) (H : Matrix m m ℂ) :
    ∃ a b d : ℝ, ∀ t : ℝ, (braket (M t *ᵥ v) H).re = a + b * Real.cos t + d * Real.sin t := by
  obtain ⟨φ, A, B, h1, h2⟩ := h
  set p := star (A *ᵥ v) ⬝ᵥ (H *ᵥ (A *ᵥ v)) with hp
  set q := star (B *ᵥ v) ⬝ᵥ (H *ᵥ (B *ᵥ v)) with hq
  set r := star (A *ᵥ v) ⬝ᵥ (H *ᵥ (B *ᵥ v)) with hr
  set u := star (B *ᵥ v) ⬝ᵥ (H *ᵥ (A *ᵥ v)) with hu
  refine ⟨p.re + q.re, r.re + u.re, u.im - r.im, fun t => ?_⟩
  have e : braket (M t *ᵥ v) H = (star (φ t) * φ t) * (p + star (Complex.exp (t * Complex.I)) * Complex.exp (t * Complex.I) * q
      + Complex.exp (t * Complex.I) * r + star (Complex.exp (t * Complex.I)) * u) := by
    unfold braket
    rw [h2, smul_mulVec, star_smul, mulVec_smul, smul_dotProduct, dotProduct_smul, add_mulVec, smul_mulVec, star_add, star_smul, mulVec_add,
      mulVec_smul, add_dotProduct, dotProduct_add, dotProduct_add, smul_dotProduct, smul_dotProduct, dotProduct_smul, dotProduct_smul]
    simp only [smul_eq_mul, ← hp, ← hq, ← hr, ← hu]
    ring
  have hx : star (Complex.exp (t * Complex.I)) * Complex.exp (t * Complex.I) = 1 := by
    have he : star (Complex.exp (t * Complex.I)) = Complex.exp (-t * Complex.I) := by
      show (starRingEnd ℂ) _ = _
      rw [← Complex.exp_conj]
      congr 1
      simp [Complex.conj_ofReal]
    rw [he, ← Complex.exp_add]
    simp
  rw [e, h1, hx, one_mul, one_mul]
  have hc : Complex.exp (t * Complex.I) = ⟨Real.cos t, Real.sin t⟩ := by
    rw [Complex.exp_mul_I]
    apply Complex.ext <;> simp [Complex.cos_ofReal_re, Complex.sin_ofReal_re, Complex.cos_ofReal_im, Complex.sin_ofReal_im]
  rw [hc]
  show (p + q + _ + _).re = _
  simp only [Complex.add_re, Complex.mul_re]
  show p.re + q.re + (Real.cos t * r.re - Real.sin t * r.im) + (Real.cos t * u.re - (-Real.sin t) * u.im) = _
  ring

/-- The energy of a circuit as a function of the value of a symbol that turns one gate. -/
theorem energy_wave (c : Circuit) (hb : Ansatz.Bindable c) (s : String) (hs : Once c s) (A : Matrix (Fin c.n → Bool) (Fin c.n → Bool) ℂ)
    (ρ : String → ℂ) : ∃ a b d : ℝ, ∀ t : ℝ, energy c A (Function.update ρ s (t : ℂ)) = a + b * Real.cos t + d * Real.sin t := by
  obtain ⟨pre, op, post, h1, h2, h3⟩ := hs
  have hv : ∀ o ∈ c.ops, o.gate.AllBase fun b ps => b.ByValue ps := fun o ho =>
    Ansatz.allBase_and (fun b ps h _ => h.1) o.gate ((hb.2 o ho).2.2 []) ((hb.2 o ho).2.2 [])
  have hw := ((turns_wave (n := c.n) op s h2 ρ).mul (opsOperator c.n ρ post) (opsOperator c.n ρ pre))
  obtain ⟨a, b, d, h⟩ := wave_energy hw (Pi.single (fun _ => false) 1) A
  refine ⟨a, b, d, fun t => ?_⟩
  rw [← h t]
  unfold energy outputState
  have e : (c.ops.reverse.map (GateOp.operator c.n (Function.update ρ s (t : ℂ)))).prod =
      opsOperator c.n ρ post * op.operator c.n (Function.update ρ s (t : ℂ)) * opsOperator c.n ρ pre := by
    have : opsOperator c.n (Function.update ρ s (t : ℂ)) c.ops =
        opsOperator c.n ρ post * op.operator c.n (Function.update ρ s (t : ℂ)) * opsOperator c.n ρ pre := by
      rw [h1, ← List.singleton_append, ← List.append_assoc, opsOperator_append, opsOperator_append, opsOperator_singleton,
        opsOperator_free pre s (fun o ho => hv o (by rw [h1]; simp [ho])) (fun o ho => h3 o (by simp [ho])),
        opsOperator_free post s (fun o ho => hv o (by rw [h1]; simp [ho])) (fun o ho => h3 o (by simp [ho])), ← mul_assoc]
    exact this
  rw [e]

/-- A function that does not fail, whatever the state is: the finite differences are those of its values. -/
theorem finiteDifferences_value {W E : Type} (z : E) (f : History.Target W E (List ℝ) ℝ) (F : List ℝ → ℝ) (h : ℝ) (hh : h ≠ 0) (p : List ℝ)
    (hf : ∀ w q, q.length = p.length → (f w q).1 = .ok (F q)) (w : W) :
    (finiteDifferences z f h p w).1 = .ok ((List.range p.length).map fun i => (F (shifted p i h) - F (shifted p i (-h))) / (2 * h)) := by
  have key : ∀ (is : List ℕ) (acc : List ℝ) (w : W), (gradientLoop z f h p is acc w).1 =
      .ok (acc ++ is.map fun i => (F (shifted p i h) - F (shifted p i (-h))) / (2 * h)) := by
    intro is
    induction is with
    | nil => intro acc w; simp [gradientLoop]
    | cons i is ih =>
      intro acc w
      have e1 := hf w (shifted p i h) (by simp [shifted])
      rw [gradientLoop]
      cases hx : f w (shifted p i h) with
      | mk o w1 =>
        rw [hx] at e1
        dsimp only at e1 ⊢
        subst e1
        dsimp only
        have e2 := hf w1 (shifted p i (-h)) (by simp [shifted])
        cases hy : f w1 (shifted p i (-h)) with
        | mk o w2 =>
          rw [hy] at e2
          dsimp only at e2 ⊢
          subst e2
          dsimp only
          rw [if_neg (mul_ne_zero two_ne_zero hh), ih]
          simp
  exact key _ [] w

theorem assigns_shift {symbols : List String} (hn : symbols.Nodup) {ps : List ℝ} {ρ ρ' : String → ℂ} (ha : Assigns symbols ps ρ ρ') {i : ℕ} {s : String} {p : ℝ}
    (hs : symbols[i]? = some s) (hp : ps[i]? = some p) (d : ℝ) :
    Assigns symbols (shifted ps i d) ρ (Function.update ρ' s ((p + d : ℝ) : ℂ)) := by
  refine ⟨fun j s' p' hs' hp' => ?_, fun s' hs' => ?_⟩
  · have hp'' : (ps.modify i (· + d))[j]? = some p' := hp'
    rw [List.getElem?_modify] at hp''
    by_cases hij : i = j
    · subst hij
      rw [hp] at hp''
      rw [hs] at hs'
      cases hs'
      have : p + d = p' := by simpa using hp''
      rw [Function.update_self, this]
    · simp only [if_neg hij] at hp''
      have : s' ≠ s := by
        rintro rfl
        obtain ⟨h1, h2⟩ := List.getElem?_eq_some_iff.1 hs
        obtain ⟨h3, h4⟩ := List.getElem?_eq_some_iff.1 hs'
        exact hij (hn.getElem_inj_iff.1 (h2.trans h4.symm))
      rw [Function.update_of_ne this]
      exact ha.1 j s' p' hs' (by simpa using hp'')
  · have : s' ≠ s := by
      rintro rfl
      exact hs' (List.mem_of_getElem? hs)
    rw [Function.update_of_ne this]
    exact ha.2 s' hs'

variable {W : Type}

/-- C137: the gradient of the cost function of a circuit and an operator, with exact estimation: it never fails, and its entries are the central differences of the energy in
the symbols of the circuit, in their order. -/
theorem gradient_spec (sim : Simulator W) (ρ : String → ℂ) (hsim : Correct sim ρ) (order : List String → List String) (ho : Cost.IsSetOrder order)
    (key : List Char → List Sorting.Item) (hk : ∀ x, Sorting.Alternating (key x)) {H : Terms Letter} (hH : CanonicalOp H) (c : Circuit) (hb : Below c.n H)
    (hbind : Ansatz.Bindable c) (st : St W) :
    ∃ symbols, Cost.prepare order key H c [] st () = (.ok ([⟨H, c, none⟩], symbols), st) ∧ symbols.Nodup ∧ (∀ s, s ∈ symbols ↔ s ∈ c.freeSymbols) ∧
      ∀ (h : ℝ), h ≠ 0 → ∀ (ps : List ℝ) (ρ' : String → ℂ), symbols.length = ps.length → Assigns symbols ps ρ ρ' →
        (∀ ps' : List ℝ, ps'.length = ps.length → ∀ ρ'', Assigns symbols ps' ρ ρ'' → Unitary ρ'' c) → ∀ st' : St W,
        ∃ g : List ℝ, (Cost.costGradient (exactMethod sim ρ false) (Cost.expectationValueFactory ([⟨H, c, none⟩], symbols)) [] h ps st').1 = .ok g ∧
          g.length = ps.length ∧
          ∀ (i : ℕ) s p, symbols[i]? = some s → ps[i]? = some p → g[i]? =
            some ((energy c (opMatrix c.n H) (Function.update ρ' s ((p + h : ℝ) : ℂ)) - energy c (opMatrix c.n H) (Function.update ρ' s ((p - h : ℝ) : ℂ))) / (2 * h)) := by
  obtain ⟨symbols, h1, h2, h3, -⟩ := exactCost_spec sim ρ hsim order ho key hk hH c hb hbind st
  refine ⟨symbols, h1, h2, h3, fun h hh ps ρ' hl ha hu st' => ?_⟩
  -- the values of the cost function in every state
  have hval : ∀ (w : St W) (q : List ℝ) (ρ'' : String → ℂ), q.length = ps.length → Assigns symbols q ρ ρ'' →
      (Cost.asNumber (Cost.createCostFunction (exactMethod sim ρ false) (Cost.expectationValueFactory ([⟨H, c, none⟩], symbols)) []) w q).1 =
        .ok (energy c (opMatrix c.n H) ρ'') := by
    intro w q ρ'' hq hqa
    obtain ⟨symbols', g1, -, -, g4⟩ := exactCost_spec sim ρ hsim order ho key hk hH c hb hbind w
    have hsym : symbols' = symbols := by
      have e : ∀ (v : St W) (l : List String), Cost.prepare order key H c [] v () = (.ok ([⟨H, c, none⟩], l), v) →
          (Cost.sortedSymbols order key [⟨H, c, none⟩]) = .ok l := by
        intro v l hv
        have hv1 := congrArg Prod.fst hv
        have hv2 : (Cost.sortedSymbols order key [⟨H, c, none⟩]).map (fun symbols => (([⟨H, c, none⟩] : List Est.Task), symbols)) = .ok ([⟨H, c, none⟩], l) := hv1
        cases hx : Cost.sortedSymbols order key [⟨H, c, none⟩] with
        | error e => rw [hx] at hv2; cases hv2
        | ok l' =>
          rw [hx] at hv2
          have : l' = l := congrArg Prod.snd (Except.ok.inj hv2)
          rw [this]
      have := (e w symbols' g1).symm.trans (e st symbols h1)
      exact Except.ok.inj this
    subst hsym
    have := g4 q ρ'' (hl.trans hq.symm) hqa (hu q hq ρ'' hqa)
    unfold Cost.asNumber
    dsimp only
    rw [this]
    rfl
  -- a valuation for every list of parameters
  have hex : ∀ q : List ℝ, q.length = ps.length → ∃ ρ'', Assigns symbols q ρ ρ'' := by
    intro q hq
    refine ⟨fun s => if hs : s ∈ symbols then ((q.getD (symbols.idxOf s) 0 : ℝ) : ℂ) else ρ s, fun i s p hs hp => ?_, fun s hs => dif_neg hs⟩
    have hm := List.mem_of_getElem? hs
    obtain ⟨hi, rfl⟩ := List.getElem?_eq_some_iff.1 hs
    dsimp only
    rw [dif_pos hm, h2.idxOf_getElem, List.getD_eq_getElem?_getD, hp, Option.getD_some]
  choose! val hvalA using hex
  have hfd := finiteDifferences_value (Err.zeroDivision) (Cost.asNumber (Cost.createCostFunction (exactMethod sim ρ false)
    (Cost.expectationValueFactory ([⟨H, c, none⟩], symbols)) [])) (fun q => energy c (opMatrix c.n H) (val q)) h hh ps
    (fun w q hq => hval w q (val q) hq (hvalA q hq)) st'
  refine ⟨_, hfd, by simp, fun i s p hs hp => ?_⟩
  have hi : i < ps.length := (List.getElem?_eq_some_iff.1 hp).1
  have same : ∀ d : ℝ, energy c (opMatrix c.n H) (val (shifted ps i d)) = energy c (opMatrix c.n H) (Function.update ρ' s ((p + d : ℝ) : ℂ)) := by
    intro d
    have e1 := hval st' (shifted ps i d) _ (by simp [shifted]) (hvalA (shifted ps i d) (by simp [shifted]))
    have e2 := hval st' (shifted ps i d) _ (by simp [shifted]) (assigns_shift h2 ha hs hp d)
    exact Except.ok.inj (e1.symm.trans e2)
  rw [List.getElem?_map, List.getElem?_range hi, Option.map_some, same, same, ← sub_eq_add_neg]

/-- C137: the central difference of the energy in a symbol that turns one gate is the derivative times `sin h / h`, for every step, at every point, for every operator. -/
theorem energy_difference (c : Circuit) (hb : Ansatz.Bindable c) (s : String) (hs : Once c s) (A : Matrix (Fin c.n → Bool) (Fin c.n → Bool) ℂ)
    (ρ : String → ℂ) (p : ℝ) : ∃ D : ℝ, HasDerivAt (fun t : ℝ => energy c A (Function.update ρ s (t : ℂ))) D p ∧
      ∀ h : ℝ, h ≠ 0 → (energy c A (Function.update ρ s ((p + h : ℝ) : ℂ)) - energy c A (Function.update ρ s ((p - h : ℝ) : ℂ))) / (2 * h) = Real.sin h / h * D := by
  obtain ⟨a, b, d, he⟩ := energy_wave c hb s hs A ρ
  refine ⟨d * Real.cos p - b * Real.sin p, ?_, fun h hh => ?_⟩
  · have : (fun t : ℝ => energy c A (Function.update ρ s (t : ℂ))) = fun t => a + b * Real.cos t + d * Real.sin t := funext he
    rw [this]
    have h1 := (((Real.hasDerivAt_cos p).const_mul b).const_add a).add ((Real.hasDerivAt_sin p).const_mul d)
    refine h1.congr_deriv ?_
    ring
  · rw [he, he, Real.cos_add, Real.cos_sub, Real.sin_add, Real.sin_sub]
    field_simp
    ring

/-- C137: if every symbol turns one gate, the gradient of the cost function is the gradient of the energy times `sin h / h`: it points in the same direction, whatever the step
below `π` is, and each entry is off by at most the fraction `h² / 6` of the derivative. -/
theorem gradient_turning (sim : Simulator W) (ρ : String → ℂ) (hsim : Correct sim ρ) (order : List String → List String) (ho : Cost.IsSetOrder order)
    (key : List Char → List Sorting.Item) (hk : ∀ x, Sorting.Alternating (key x)) {H : Terms Letter} (hH : CanonicalOp H) (c : Circuit) (hb : Below c.n H)
    (hbind : Ansatz.Bindable c) (honce : ∀ s ∈ c.freeSymbols, Once c s) (st : St W) :
    ∃ symbols, Cost.prepare order key H c [] st () = (.ok ([⟨H, c, none⟩], symbols), st) ∧ symbols.Nodup ∧ (∀ s, s ∈ symbols ↔ s ∈ c.freeSymbols) ∧
      ∀ (h : ℝ), h ≠ 0 → ∀ (ps : List ℝ) (ρ' : String → ℂ), symbols.length = ps.length → Assigns symbols ps ρ ρ' →
        (∀ ps' : List ℝ, ps'.length = ps.length → ∀ ρ'', Assigns symbols ps' ρ ρ'' → Unitary ρ'' c) → ∀ st' : St W,
        ∃ g D : List ℝ, (Cost.costGradient (exactMethod sim ρ false) (Cost.expectationValueFactory ([⟨H, c, none⟩], symbols)) [] h ps st').1 = .ok g ∧
          D.length = ps.length ∧
          (∀ (i : ℕ) s p d, symbols[i]? = some s → ps[i]? = some p → D[i]? = some d →
            HasDerivAt (fun t : ℝ => energy c (opMatrix c.n H) (Function.update ρ' s (t : ℂ))) d p) ∧
          g = D.map (Real.sin h / h * ·) ∧ |Real.sin h / h - 1| ≤ h ^ 2 / 6 ∧ (0 < h → h < Real.pi → 0 < Real.sin h / h) := by
  obtain ⟨symbols, h1, h2, h3, h4⟩ := gradient_spec sim ρ hsim order ho key hk hH c hb hbind st
  refine ⟨symbols, h1, h2, h3, fun h hh ps ρ' hl ha hu st' => ?_⟩
  obtain ⟨g, g1, g2, g3⟩ := h4 h hh ps ρ' hl ha hu st'
  have hD : ∀ i : Fin ps.length, ∃ D : ℝ, HasDerivAt (fun t : ℝ => energy c (opMatrix c.n H) (Function.update ρ' (symbols[i]'(by omega)) (t : ℂ))) D ps[i] ∧
      g[i]? = some (Real.sin h / h * D) := by
    intro i
    obtain ⟨D, d1, d2⟩ := energy_difference c hbind (symbols[i]'(by omega)) (honce _ ((h3 _).1 (List.getElem_mem _))) (opMatrix c.n H) ρ' ps[i]
    refine ⟨D, d1, ?_⟩
    rw [← d2 h hh]
    exact g3 i _ _ (List.getElem?_eq_getElem _) (List.getElem?_eq_getElem _)
  choose D hD1 hD2 using hD
  refine ⟨g, List.ofFn D, g1, by simp, fun i s p d hs hp hd => ?_, ?_, ?_, fun h0 hpi => div_pos (Real.sin_pos_of_pos_of_lt_pi h0 hpi) h0⟩
  · obtain ⟨hi, rfl⟩ := List.getElem?_eq_some_iff.1 hp
    obtain ⟨hi', rfl⟩ := List.getElem?_eq_some_iff.1 hs
    rw [List.getElem?_ofFn, dif_pos hi] at hd
    cases hd
    exact hD1 ⟨i, hi⟩
  · apply List.ext_getElem?
    intro i
    by_cases hi : i < ps.length
    · rw [List.getElem?_map, List.getElem?_ofFn, dif_pos hi, Option.map_some]
      exact hD2 ⟨i, hi⟩
    · rw [List.getElem?_eq_none (by omega), List.getElem?_eq_none (by simp; omega)]
  · have hs := Real.abs_sub_sin_le h
    have e : Real.sin h / h - 1 = -((h - Real.sin h) / h) := by field_simp; ring
    rw [e, abs_neg, abs_div, div_le_iff₀ (abs_pos.2 hh)]
    refine hs.trans (le_of_eq ?_)
    rw [← sq_abs h]
    ring

/-! ## A symbol that occurs twice -/

/-- `RX(t)` twice on one qubit. -/
noncomputable def twice : Circuit := ⟨[⟨Est.rxGate (.sym "t"), [0]⟩, ⟨Est.rxGate (.sym "t"), [0]⟩], 1⟩

theorem twice_bindable : Ansatz.Bindable twice := by
  refine ⟨fun h => absurd h (by simp [twice]), ?_⟩
  intro op hop
  have : op = ⟨Est.rxGate (.sym "t"), [0]⟩ := by simpa [twice] using hop
  subst this
  exact ⟨.factory _ _, builtin_wf _ (by simp [builtinGates, parametricGates]) _, fun m => ⟨trivial, trivial⟩⟩

theorem twice_unitary (ρ : String → ℂ) (h : (ρ "t").im = 0) : Unitary ρ twice := by
  refine ⟨twice_bindable.1, fun op hop => ?_, fun op hop => ?_⟩ <;>
  · have : op = ⟨Est.rxGate (.sym "t"), [0]⟩ := by simpa [twice] using hop
    subst this
    first
    | exact ⟨by simp, by simp, by simp [twice], rfl, builtin_wf _ (by simp [builtinGates, parametricGates]) _⟩
    | exact Gates.builtin_unitary _ (by simp [builtinGates, parametricGates]) [.sym "t"] ρ (by
        intro p hp
        rw [List.mem_singleton.1 hp]
        exact h)

/-- The state of `RX(t) RX(t)`. -/
theorem twice_output (ρ : String → ℂ) (t : ℝ) (x : Fin 1 → Bool) :
    outputState (Function.update ρ "t" (t : ℂ)) twice x = if x 0 then -Complex.I * Complex.sin t else Complex.cos t := by
  have hA : ((Est.rxGate (.sym "t")).matrix (Function.update ρ "t" (t : ℂ))).onBits 1 = onOne (rxBit t) := by
    have : (Est.rxGate (.sym "t")).matrix (Function.update ρ "t" (t : ℂ)) = rxMatrix t := by
      show rxMatrix (([Expr.sym "t"].map (Expr.eval (Function.update ρ "t" (t : ℂ)))).getD 0 0) = _
      simp [Expr.eval]
    rw [this]
    exact rxMatrix_onBits _
  have e : outputState (Function.update ρ "t" (t : ℂ)) twice = (tensor (Function.update (fun _ : Fin 1 => 1) 0 (rxBit t * rxBit t))) *ᵥ Pi.single (fun _ => false) 1 := by
    unfold outputState twice
    simp only [List.reverse_cons, List.reverse_nil, List.nil_append, List.cons_append, List.map_cons, List.map_nil, List.prod_cons, List.prod_nil, mul_one]
    rw [operator_single _ _ 0 (by norm_num) hA, tensor_mul]
    congr 2
    funext q
    have : q = 0 := Subsingleton.elim _ _
    subst this
    simp
  rw [e, Matrix.mulVec_single_one]
  have hc : (t : ℂ) = 2 * ((t : ℂ) / 2) := by ring
  simp only [tensor, Matrix.col_apply, Finset.univ_unique, Fin.default_eq_zero, Fin.isValue, Finset.prod_singleton, Function.update_self, Matrix.mul_apply, Fintype.sum_bool]
  have h1 := Complex.sin_two_mul ((t : ℂ) / 2)
  have h2 := Complex.cos_two_mul' ((t : ℂ) / 2)
  rw [← hc] at h1 h2
  cases x 0 <;> simp only [rxBit] <;> simp
  · rw [h2]
    linear_combination (Complex.sin (↑t / 2)) ^ 2 * Complex.I_sq
  · rw [h1]; ring

theorem twice_energy (ρ : String → ℂ) (t : ℝ) : energy twice (opMatrix 1 [([(0, .Z)], 1)]) (Function.update ρ "t" (t : ℂ)) = Real.cos (2 * t) := by
  have hst := twice_output ρ t
  have hs : ∀ f : (Fin 1 → Bool) → ℂ, ∑ x, f x = f (fun _ => false) + f (fun _ => true) := by
    intro f
    rw [← Equiv.sum_comp (Equiv.funUnique (Fin 1) Bool).symm, Fintype.sum_bool, add_comm]
    rfl
  have hz : ∀ (v : (Fin 1 → Bool) → ℂ) (b : Bool), (opMatrix 1 [([(0, Letter.Z)], 1)] *ᵥ v) (fun _ => b) = (if b then -1 else 1) * v (fun _ => b) := by
    intro v b
    unfold Matrix.mulVec dotProduct
    rw [hs]
    cases b <;> simp [opMatrix, pauliString, tensor, letterAt, letterMatrix, pauliZ]
  have hb : ∀ v : (Fin 1 → Bool) → ℂ, braket v (opMatrix 1 [([(0, Letter.Z)], 1)]) =
      star (v fun _ => false) * v (fun _ => false) - star (v fun _ => true) * v (fun _ => true) := by
    intro v
    unfold braket dotProduct
    rw [hs, hz, hz]
    simp
    ring
  have h0 : energy twice (opMatrix 1 [([(0, .Z)], 1)]) (Function.update ρ "t" (t : ℂ)) = _ :=
    congrArg Complex.re (hb (outputState (Function.update ρ "t" (t : ℂ)) twice))
  rw [h0, hst, hst, Real.cos_two_mul', ← Complex.ofReal_cos, ← Complex.ofReal_sin]
  simp
  rw [Complex.cos_ofReal_re, Complex.sin_ofReal_re]
  ring

/-- C137 in full: for every circuit, the differences are proportional to the derivatives. -/
def DifferenceProportional : Prop := ∀ (c : Circuit), Ansatz.Bindable c → ∀ s ∈ c.freeSymbols, ∀ (H : Terms Letter), CanonicalOp H → Below c.n H → ∀ (ρ : String → ℂ),
  (∀ t : ℝ, Unitary (Function.update ρ s (t : ℂ)) c) → ∀ h : ℝ, 0 < h → h < Real.pi → ∃ k : ℝ, 0 < k ∧ ∀ p D : ℝ,
    HasDerivAt (fun t : ℝ => energy c (opMatrix c.n H) (Function.update ρ s (t : ℂ))) D p →
    (energy c (opMatrix c.n H) (Function.update ρ s ((p + h : ℝ) : ℂ)) - energy c (opMatrix c.n H) (Function.update ρ s ((p - h : ℝ) : ℂ))) / (2 * h) = k * D

/-- It fails for a symbol that occurs twice: for `RX(t) RX(t)` and `Z` the energy is `cos 2t`, and with the step `π/2` all differences vanish. -/
theorem difference_counterexample : ¬ DifferenceProportional := by
  intro hall
  have hcan : CanonicalOp [([(0, Letter.Z)], (1 : ℂ))] := ⟨by simp [WF, PyDict.keys], fun t ht => by
    rw [PyDict.keys, List.map_singleton, List.mem_singleton] at ht
    rw [ht]; exact ⟨by simp, by simp⟩⟩
  obtain ⟨k, hk, h⟩ := hall twice twice_bindable "t" (by decide +kernel) _ hcan (by
      intro kv hkv f hf
      rw [List.mem_singleton.1 hkv] at hf
      rw [List.mem_singleton.1 hf]
      exact one_pos) (fun _ => 0)
    (fun t => twice_unitary _ (by simp)) (Real.pi / 2) (by positivity) (by linarith [Real.pi_pos])
  have hfun : (fun t : ℝ => energy twice (opMatrix 1 [([(0, .Z)], 1)]) (Function.update (fun _ => 0) "t" (t : ℂ))) = fun t => Real.cos (2 * t) :=
    funext fun t => twice_energy _ t
  have hder : HasDerivAt (fun t : ℝ => Real.cos (2 * t)) (-2) (Real.pi / 4) := by
    have h1 := (Real.hasDerivAt_cos (2 * (Real.pi / 4))).comp (Real.pi / 4) ((hasDerivAt_id (Real.pi / 4)).const_mul 2)
    refine h1.congr_deriv ?_
    rw [show 2 * (Real.pi / 4) = Real.pi / 2 by ring, Real.sin_pi_div_two]
    norm_num
  have h0 := h (Real.pi / 4) (-2) (by
    show HasDerivAt (fun t : ℝ => energy twice (opMatrix 1 [([(0, .Z)], 1)]) (Function.update (fun _ => 0) "t" (t : ℂ))) _ _
    rw [hfun]; exact hder)
  have e1 : energy twice (opMatrix twice.n [([(0, .Z)], 1)]) (Function.update (fun _ => 0) "t" ((Real.pi / 4 + Real.pi / 2 : ℝ) : ℂ)) = _ := twice_energy _ _
  have e2 : energy twice (opMatrix twice.n [([(0, .Z)], 1)]) (Function.update (fun _ => 0) "t" ((Real.pi / 4 - Real.pi / 2 : ℝ) : ℂ)) = _ := twice_energy _ _
  rw [e1, e2] at h0
  have c1 : Real.cos (2 * (Real.pi / 4 + Real.pi / 2)) = 0 := by
    rw [show 2 * (Real.pi / 4 + Real.pi / 2) = Real.pi / 2 + Real.pi by ring, Real.cos_add_pi, Real.cos_pi_div_two, neg_zero]
  have c2 : Real.cos (2 * (Real.pi / 4 - Real.pi / 2)) = 0 := by
    rw [show 2 * (Real.pi / 4 - Real.pi / 2) = -(Real.pi / 2) by ring, Real.cos_neg, Real.cos_pi_div_two]
  rw [c1, c2] at h0
  simp at h0
  exact hk.ne' h0

/-- C137: the parameter shift rule.  With a step of `π/2` the derivative is half the difference of the two energies. -/
theorem parameter_shift (c : Circuit) (hb : Ansatz.Bindable c) (s : String) (hs : Once c s) (A : Matrix (Fin c.n → Bool) (Fin c.n → Bool) ℂ)
    (ρ : String → ℂ) (p : ℝ) : HasDerivAt (fun t : ℝ => energy c A (Function.update ρ s (t : ℂ)))
      ((energy c A (Function.update ρ s ((p + Real.pi / 2 : ℝ) : ℂ)) - energy c A (Function.update ρ s ((p - Real.pi / 2 : ℝ) : ℂ))) / 2) p := by
  obtain ⟨D, h1, h2⟩ := energy_difference c hb s hs A ρ p
  have h := h2 (Real.pi / 2) (by positivity)
  rw [Real.sin_pi_div_two] at h
  refine h1.congr_deriv ?_
  have hp := Real.pi_pos
  generalize energy c A (Function.update ρ s ((p + Real.pi / 2 : ℝ) : ℂ)) - energy c A (Function.update ρ s ((p - Real.pi / 2 : ℝ) : ℂ)) = x at h ⊢
  field_simp at h
  linarith

/-- C137: the default step `1e-5` gives every derivative up to a relative error of `2e-11`. -/
theorem default_step : |Real.sin (1e-5) / 1e-5 - 1| ≤ 2e-11 := by
  have hs := Real.abs_sub_sin_le (1e-5)
  have e : Real.sin (1e-5) / 1e-5 - 1 = -((1e-5 - Real.sin (1e-5)) / 1e-5) := by field_simp; ring
  rw [e, abs_neg, abs_div, div_le_iff₀ (by norm_num)]
  refine hs.trans ?_
  norm_num [abs_of_pos]

/-! ## Non-vacuity -/

/-- `RX(a)` and `RY(b)` on two qubits, entangled by `CZ`, then the dagger of `ZZ(d)`. -/
noncomputable def sample : Circuit :=
  ⟨[⟨Est.rxGate (.sym "a"), [0]⟩, ⟨.factory ⟨"RY", param1 ryMatrix, 1, false⟩ [.sym "b"], [1]⟩, ⟨.factory ⟨"CZ", .builtin fun _ => czMatrix, 2, true⟩ [], [0, 1]⟩,
    ⟨.dag (.factory ⟨"ZZ", param1 zzMatrix, 2, false⟩ [.sym "d"]), [0, 1]⟩], 2⟩

example : (∀ s ∈ sample.freeSymbols, Once sample s) ∧ sample.freeSymbols = ["a", "b", "d"] := by
  have hf : sample.freeSymbols = ["a", "b", "d"] := by decide +kernel
  refine ⟨fun s hs => ?_, hf⟩
  rw [hf] at hs
  simp only [List.mem_cons, List.not_mem_nil, or_false] at hs
  rcases hs with rfl | rfl | rfl
  · refine ⟨[], _, _, rfl, ⟨_, ⟨by simp [parametricGates], by simp⟩, .inl rfl⟩, ?_⟩
    decide +kernel
  · refine ⟨[_], _, _, rfl, ⟨⟨"RY", param1 ryMatrix, 1, false⟩, ⟨by simp [parametricGates], by simp⟩, .inl rfl⟩, ?_⟩
    decide +kernel
  · refine ⟨[_, _, _], _, _, rfl, ⟨⟨"ZZ", param1 zzMatrix, 2, false⟩, ⟨by simp [parametricGates], by simp⟩, .inr rfl⟩, ?_⟩
    decide +kernel

/-- The sample circuit is bindable, and unitary at all real parameters. -/
example : Ansatz.Bindable sample ∧ ∀ (ps : List ℝ) (ρ ρ' : String → ℂ), ps.length = 3 → Assigns ["a", "b", "d"] ps ρ ρ' → Unitary ρ' sample := by
  have hmem : ∀ P : GateOp → Prop, P ⟨Est.rxGate (.sym "a"), [0]⟩ → P ⟨.factory ⟨"RY", param1 ryMatrix, 1, false⟩ [.sym "b"], [1]⟩ →
      P ⟨.factory ⟨"CZ", .builtin fun _ => czMatrix, 2, true⟩ [], [0, 1]⟩ → P ⟨.dag (.factory ⟨"ZZ", param1 zzMatrix, 2, false⟩ [.sym "d"]), [0, 1]⟩ →
      ∀ op ∈ sample.ops, P op := by
    intro P h1 h2 h3 h4 op hop
    simp only [sample, List.mem_cons, List.not_mem_nil, or_false] at hop
    rcases hop with rfl | rfl | rfl | rfl <;> assumption
  have hwf : ∀ b ∈ builtinGates, ∀ ps, (Gate.factory b ps).WF := fun b hb ps => builtin_wf b hb ps
  have b1 : (⟨"RX", param1 rxMatrix, 1, false⟩ : Base) ∈ builtinGates := by simp [builtinGates, parametricGates]
  have b2 : (⟨"RY", param1 ryMatrix, 1, false⟩ : Base) ∈ builtinGates := by simp [builtinGates, parametricGates]
  have b3 : (⟨"CZ", .builtin fun _ => czMatrix, 2, true⟩ : Base) ∈ builtinGates := by simp [builtinGates, fixedGates]
  have b4 : (⟨"ZZ", param1 zzMatrix, 2, false⟩ : Base) ∈ builtinGates := by simp [builtinGates, parametricGates]
  have w4 : (Gate.dag (.factory ⟨"ZZ", param1 zzMatrix, 2, false⟩ [.sym "d"])).WF := hwf _ b4 [.sym "d"]
  refine ⟨⟨fun h => absurd h (by simp [sample]), hmem _ ?_ ?_ ?_ ?_⟩, fun ps ρ ρ' hl ha => ⟨fun h => absurd h (by simp [sample]), hmem _ ?_ ?_ ?_ ?_, hmem _ ?_ ?_ ?_ ?_⟩⟩
  · exact ⟨.factory _ _, hwf _ b1 _, fun m => ⟨trivial, trivial⟩⟩
  · exact ⟨.factory _ _, hwf _ b2 _, fun m => ⟨trivial, trivial⟩⟩
  · exact ⟨.factory _ _, hwf _ b3 _, fun m => ⟨trivial, trivial⟩⟩
  · exact ⟨.dagger (.factory ⟨"ZZ", param1 zzMatrix, 2, false⟩ [.sym "d"]), w4, fun m => ⟨trivial, trivial⟩⟩
  · exact ⟨by simp, by simp, by simp [sample], rfl, hwf _ b1 _⟩
  · exact ⟨by simp, by simp, by simp [sample], rfl, hwf _ b2 _⟩
  · exact ⟨by simp, by simp, by simp [sample], rfl, hwf _ b3 _⟩
  · exact ⟨by simp, by simp, by simp [sample], rfl, w4⟩
  all_goals
    have hr : ∀ s ∈ ["a", "b", "d"], (ρ' s).im = 0 := by
      intro s hs
      obtain ⟨i, hi, rfl⟩ := List.getElem_of_mem hs
      have hi' : i < ps.length := by rw [hl]; exact hi
      rw [ha.1 i _ _ (List.getElem?_eq_getElem hi) (List.getElem?_eq_getElem hi')]
      exact Complex.ofReal_im _
  · exact builtin_unitary _ b1 [.sym "a"] ρ' fun p hp => by rw [List.mem_singleton.1 hp]; exact hr _ (by simp)
  · exact builtin_unitary _ b2 [.sym "b"] ρ' fun p hp => by rw [List.mem_singleton.1 hp]; exact hr _ (by simp)
  · exact builtin_unitary _ b3 [] ρ' fun p hp => by simp at hp
  · exact builtin_unitary _ b4 [.sym "d"] ρ' fun p hp => by rw [List.mem_singleton.1 hp]; exact hr _ (by simp)

end ZQ.EnergyGradient
