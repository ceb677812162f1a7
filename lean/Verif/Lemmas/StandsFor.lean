import Verif.Lemmas.ExactSum
import Verif.Props.SymOp

/-! Operators built by repeated additions: how far they can be from an operator with the intended action. -/

namespace ZQ.Op

open PyDict

variable {A : Type} [DecidableEq A]

/-- `o` stands for the operator `M`: up to `n` times `1e-8` in every coefficient, and exactly when `G` holds (then its coefficients are also
multiples of `δ`). -/
structure StandsFor (ev : ℕ × A → Module.End ℂ State) (P : Term A → Prop) (G : Prop) (δ : ℝ) (n : ℕ) (o : Terms A) (M : Module.End ℂ State) : Prop where
  wf : WF o
  terms : ∀ t ∈ keys o, P t
  err : ∃ E : Terms A, WF E ∧ (∀ t ∈ keys E, P t) ∧ action ev E = M ∧ ∀ t, ‖coeff o t - coeff E t‖ ≤ n * (1 / 10 ^ 8)
  exact : G → OnGrid δ o ∧ action ev o = M

variable {ev : ℕ × A → Module.End ℂ State} {P : Term A → Prop} {G : Prop} {δ : ℝ}

theorem StandsFor.of_exact {o : Terms A} {M : Module.End ℂ State} (hw : WF o) (hP : ∀ t ∈ keys o, P t) (ha : action ev o = M) (hg : G → OnGrid δ o) :
    StandsFor ev P G δ 0 o M :=
  ⟨hw, hP, ⟨o, hw, hP, ha, fun t => by simp⟩, fun h => ⟨hg h, ha⟩⟩

theorem StandsFor.nil : StandsFor ev P G δ 0 [] 0 := StandsFor.of_exact wf_nil (fun t ht => by simp [keys] at ht) rfl fun _ => OnGrid.nil δ

theorem StandsFor.mono {n m : ℕ} {o : Terms A} {M : Module.End ℂ State} (h : StandsFor ev P G δ n o M) (hnm : n ≤ m) : StandsFor ev P G δ m o M := by
  obtain ⟨h1, h2, ⟨E, e1, e2, e3, e4⟩, h4⟩ := h
  refine ⟨h1, h2, ⟨E, e1, e2, e3, fun t => (e4 t).trans ?_⟩, h4⟩
  have : (n : ℝ) ≤ m := by exact_mod_cast hnm
  exact mul_le_mul_of_nonneg_right this (by norm_num)

theorem StandsFor.congr {n : ℕ} {o : Terms A} {M N : Module.End ℂ State} (h : StandsFor ev P G δ n o M) (e : M = N) : StandsFor ev P G δ n o N := e ▸ h

theorem StandsFor.add (hδ : 1 / 10 ^ 8 ≤ δ) {n m : ℕ} {a b : Terms A} {M N : Module.End ℂ State} (ha : StandsFor ev P G δ n a M) (hb : StandsFor ev P G δ m b N) :
    StandsFor ev P G δ (n + m + 1) (Op.add a b) (M + N) := by
  obtain ⟨a1, a2, ⟨E, e1, e2, e3, e4⟩, a4⟩ := ha
  obtain ⟨b1, b2, ⟨F, f1, f2, f3, f4⟩, b4⟩ := hb
  obtain ⟨x1, x2, x3, x4⟩ := exactAdd_spec e1 f1
  refine ⟨(add_spec a1 b1).1, fun t ht => (mem_keys_add a1 b1 ht).elim (a2 t) (b2 t),
    ⟨exactAdd E F, x1, fun t ht => ((x4 t).1 ht).elim (e2 t) (f2 t), by rw [x2, e3, f3], fun t => ?_⟩, fun g => ?_⟩
  · have k := add_error a1 b1 t
    rw [x3, show coeff (Op.add a b) t - (coeff E t + coeff F t)
      = (coeff (Op.add a b) t - (coeff a t + coeff b t)) + ((coeff a t - coeff E t) + (coeff b t - coeff F t)) by ring]
    refine (norm_add_le _ _).trans ((add_le_add k.le ((norm_add_le _ _).trans (add_le_add (e4 t) (f4 t)))).trans ?_)
    push_cast
    linarith
  · obtain ⟨g1, g2⟩ := a4 g
    obtain ⟨g3, g4⟩ := b4 g
    obtain ⟨_, y2, _, y4⟩ := add_onGrid hδ a1 b1 g1 g3
    exact ⟨y2, by rw [y4, g2, g4]⟩

theorem StandsFor.neg {n : ℕ} {a : Terms A} {M : Module.End ℂ State} (ha : StandsFor ev P G δ n a M) : StandsFor ev P G δ n (Op.neg a) (-M) := by
  have key : ∀ (o : Terms A) (N : Module.End ℂ State), action ev o = N → action ev (Op.neg o) = -N := by
    intro o N h
    rw [Op.neg, action_smul, h]
    apply LinearMap.ext; intro ψ
    rw [LinearMap.smul_apply, LinearMap.neg_apply, neg_smul, one_smul]
  obtain ⟨a1, a2, ⟨E, e1, e2, e3, e4⟩, a4⟩ := ha
  have hk : ∀ o : Terms A, keys (Op.neg o) = keys o := fun o => (neg_spec o).1
  refine ⟨by rw [WF, hk]; exact a1, fun t ht => a2 t (by rwa [hk] at ht), ⟨Op.neg E, by rw [WF, hk]; exact e1, fun t ht => e2 t (by rwa [hk] at ht), key E M e3, fun t => ?_⟩,
    fun g => ⟨fun t => ?_, key a M (a4 g).2⟩⟩
  · rw [(neg_spec a).2, (neg_spec E).2, show -coeff a t - -coeff E t = -(coeff a t - coeff E t) by ring, norm_neg]
    exact e4 t
  · rw [(neg_spec a).2]; exact (Grid δ).neg_mem ((a4 g).1 t)

theorem StandsFor.sub (hδ : 1 / 10 ^ 8 ≤ δ) {n m : ℕ} {a b : Terms A} {M N : Module.End ℂ State} (ha : StandsFor ev P G δ n a M) (hb : StandsFor ev P G δ m b N) :
    StandsFor ev P G δ (n + m + 1) (Op.sub a b) (M - N) := by
  rw [sub_eq, sub_eq_add_neg]
  exact ha.add hδ hb.neg

theorem StandsFor.foldl {ι : Type} {k : ℕ} (step : Terms A → ι → Terms A) (M : ι → Module.End ℂ State) (l : List ι)
    (hs : ∀ i ∈ l, ∀ n acc N, StandsFor ev P G δ n acc N → StandsFor ev P G δ (n + k) (step acc i) (N + M i)) :
    ∀ n acc N, StandsFor ev P G δ n acc N → StandsFor ev P G δ (n + l.length * k) (l.foldl step acc) (N + (l.map M).sum) := by
  induction l with
  | nil => intro n acc N h; simpa using h
  | cons i l ih =>
    intro n acc N h
    have := ih (fun j hj => hs j (List.mem_cons_of_mem _ hj)) _ _ _ (hs i (List.mem_cons_self ..) n acc N h)
    rw [List.foldl_cons, List.map_cons, List.sum_cons, List.length_cons, ← add_assoc]
    exact this.mono (le_of_eq (by ring))

theorem StandsFor.foldl_add {ι : Type} (hδ : 1 / 10 ^ 8 ≤ δ) {k : ℕ} (f : ι → Terms A) (M : ι → Module.End ℂ State) (l : List ι)
    (hf : ∀ i ∈ l, StandsFor ev P G δ k (f i) (M i)) {n : ℕ} {acc : Terms A} {N : Module.End ℂ State} (h : StandsFor ev P G δ n acc N) :
    StandsFor ev P G δ (n + l.length * (k + 1)) (l.foldl (fun acc i => Op.add acc (f i)) acc) (N + (l.map M).sum) :=
  StandsFor.foldl (fun acc i => Op.add acc (f i)) M l (fun i hi _ _ _ h => (h.add hδ (hf i hi)).mono (le_of_eq (by ring))) n acc N h

theorem StandsFor.weaken {G' : Prop} {n : ℕ} {o : Terms A} {M : Module.End ℂ State} (h : StandsFor ev P G δ n o M) (hg : G' → G) : StandsFor ev P G' δ n o M :=
  ⟨h.wf, h.terms, h.err, fun g => h.exact (hg g)⟩

end ZQ.Op
