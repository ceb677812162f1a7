import Verif.Lemmas.GateBind

/-! Helpers: structural facts about gates. -/

namespace ZQ.Gates

open Matrix

namespace Gate

theorem shape {g : Gate} (h : g.WF) (ρ : String → ℂ) :
    (g.matrix ρ).rows = 2 ^ g.numQubits ∧ (g.matrix ρ).cols = 2 ^ g.numQubits := by
  induction g with
  | factory b ps => exact h.1 ps ρ
  | ctrl g k ih => exact ⟨ctrlMat_rows (ih h.2).1, ctrlMat_cols (ih h.2).2⟩
  | dag g ih => exact (ih h).symm

theorem numQubits_dagger (g : Gate) : g.dagger.numQubits = g.numQubits := by
  induction g with
  | factory b ps => unfold dagger; split <;> rfl
  | ctrl g k ih => simp only [dagger, numQubits, ih]
  | dag g ih => rfl

theorem wf_dagger {g : Gate} (h : g.WF) : g.dagger.WF := by
  induction g with
  | factory b ps => unfold dagger; split <;> exact h
  | ctrl g k ih => exact ⟨h.1, ih h.2⟩
  | dag g ih => exact h

theorem allBase_dagger {P : Base → List Expr → Prop} {g : Gate} (h : g.AllBase P) : g.dagger.AllBase P := by
  induction g with
  | factory b ps => unfold dagger; split <;> exact h
  | ctrl g k ih => exact ih h
  | dag g ih => exact h

theorem adjoint_adjoint_same (A : Mat ℂ) : A.adjoint.adjoint.Same A :=
  ⟨rfl, rfl, fun _ _ _ _ => star_star _⟩

theorem dagger_same {g : Gate} (h : g.WF) (ρ : String → ℂ) : (g.dagger.matrix ρ).Same (g.matrix ρ).adjoint := by
  induction g with
  | factory b ps =>
    unfold dagger
    split
    · rename_i hh
      have hs := h.1 ps ρ
      refine ⟨hs.1.trans hs.2.symm, hs.2.trans hs.1.symm, ?_⟩
      intro i hi j hj
      have hi' : i < (b.factory.matrix ps ρ).rows := hi
      have hj' : j < (b.factory.matrix ps ρ).cols := hj
      exact h.2 hh ps ρ i (hs.1 ▸ hi') j (hs.2 ▸ hj')
    · exact Mat.Same.refl _
  | ctrl g k ih =>
    show (ctrlMat g.dagger.numQubits k (g.dagger.matrix ρ)).Same (ctrlMat g.numQubits k (g.matrix ρ)).adjoint
    rw [numQubits_dagger]
    exact (ctrlMat_congr (ih h.2)).trans (ctrlMat_adjoint _ _ _).symm
  | dag g ih => exact (adjoint_adjoint_same _).symm

theorem controlled_ok {g : Gate} (h : g.WF) (k : ℤ) (hk : 1 ≤ k) :
    ∃ g', g.controlled k = .ok g' ∧ g'.WF ∧ g'.numQubits = g.numQubits + k.toNat ∧
      ∀ ρ, (g'.matrix ρ).Same (ctrlMat g.numQubits k.toNat (g.matrix ρ)) := by
  induction g with
  | factory b ps =>
    refine ⟨ctrl (factory b ps) k.toNat, ?_, ⟨by omega, h⟩, rfl, fun ρ => Mat.Same.refl _⟩
    unfold controlled mkCtrl
    rw [if_neg (by omega)]
  | ctrl g c ih =>
    refine ⟨ctrl g (c + k).toNat, ?_, ⟨by omega, h.2⟩, ?_, ?_⟩
    · unfold controlled mkCtrl
      rw [if_neg (by have := h.1; omega)]
    · simp only [numQubits]; omega
    · intro ρ
      have e : ((c : ℤ) + k).toNat = c + k.toNat := by omega
      show (ctrlMat g.numQubits ((c : ℤ) + k).toNat (g.matrix ρ)).Same
        (ctrlMat (g.numQubits + c) k.toNat (ctrlMat g.numQubits c (g.matrix ρ)))
      rw [e]
      exact (ctrlMat_ctrlMat _ _ _ _ (shape h.2 ρ).1 (shape h.2 ρ).2).symm
  | dag g ih =>
    obtain ⟨g', h1, h2, h3, h4⟩ := ih h
    refine ⟨g'.dagger, ?_, wf_dagger h2, ?_, ?_⟩
    · unfold controlled; rw [h1]; rfl
    · rw [numQubits_dagger, h3]; rfl
    · intro ρ
      exact ((dagger_same h2 ρ).trans (h4 ρ).adjoint).trans (ctrlMat_adjoint _ _ _)

theorem controlled_allBase {P : Base → List Expr → Prop} {g g' : Gate} (h : g.AllBase P) (k : ℤ)
    (hk : g.controlled k = .ok g') : g'.AllBase P := by
  induction g generalizing g' with
  | factory b ps =>
    unfold controlled mkCtrl at hk
    split at hk
    · cases hk
    · cases hk; exact h
  | ctrl g c ih =>
    unfold controlled mkCtrl at hk
    split at hk
    · cases hk
    · cases hk; exact h
  | dag g ih =>
    unfold controlled at hk
    cases hg : g.controlled k with
    | error e => rw [hg] at hk; cases hk
    | ok g1 =>
      rw [hg] at hk; cases hk
      exact allBase_dagger (ih h hg)

end Gate

/-- A custom factory's matrix depends only on the values of the parameters. -/
theorem custom_matrix_value (d : CustomDef) (ps : List Expr) (ρ : String → ℂ)
    (h1 : d.paramsOrdering.Nodup) (h2 : ps.length = d.paramsOrdering.length)
    (h4 : ∀ sp ∈ d.paramsOrdering.zip ps, ∀ s ∈ sp.2.free, s ∈ d.paramsOrdering → s = sp.1) (i j : ℕ) :
    ((Factory.custom d).matrix ps ρ).e i j = (d.matrix.e i j).eval (updateEnv ρ (d.paramsOrdering.zip ps)) := by
  have hk : (d.paramsOrdering.zip ps).map Prod.fst = d.paramsOrdering := List.map_fst_zip (by omega)
  show (Expr.subs (d.paramsOrdering.zip ps) (d.matrix.e i j)).eval ρ = _
  apply Expr.eval_subs
  · rw [hk]; exact h1
  · rw [hk]; exact h4

theorem lookup_zip_map (ks : List String) (ps : List Expr) (f : Expr → Expr) (s : String) :
    (ks.zip (ps.map f)).lookup s = ((ks.zip ps).lookup s).map f := by
  induction ks generalizing ps with
  | nil => rfl
  | cons k ks ih =>
    cases ps with
    | nil => rfl
    | cons p ps =>
      simp only [List.map_cons, List.zip_cons_cons, List.lookup_cons]
      cases s == k
      · exact ih ps
      · rfl

/-- Binding in the parameters of a factory gate is evaluating its matrix in the updated valuation. -/
theorem factory_bind_value (b : Base) (ps : List Expr) (m : Expr.SymMap) (ρ : String → ℂ)
    (hnd : (m.map Prod.fst).Nodup)
    (hc : ∀ kv ∈ m, ∀ s ∈ kv.2.free, s ∈ m.map Prod.fst → s = kv.1)
    (hb : b.ByValue ps) (hb' : b.ByValue (ps.map (Expr.subSymbols m))) :
    (b.factory.matrix (ps.map (Expr.subSymbols m)) ρ).Same (b.factory.matrix ps (updateEnv ρ m)) := by
  unfold Base.ByValue at hb hb'
  split at hb
  · rename_i f hf
    rw [hf]
    simp only [Factory.matrix, List.map_map]
    have : (Expr.eval ρ ∘ Expr.subSymbols m) = Expr.eval (updateEnv ρ m) := by
      funext e
      exact Expr.eval_subSymbols m hnd hc e ρ
    rw [this]
    exact Mat.Same.refl _
  · rename_i d hd
    rw [hd] at hb' ⊢
    refine ⟨rfl, rfl, ?_⟩
    intro i _ j _
    rw [custom_matrix_value d _ ρ hb'.1 hb'.2.1 hb'.2.2.2, custom_matrix_value d _ _ hb.1 hb.2.1 hb.2.2.2]
    apply Expr.eval_congr
    intro s hs
    have hs' := hb.2.2.1 i j s hs
    unfold updateEnv
    rw [lookup_zip_map]
    cases hl : (d.paramsOrdering.zip ps).lookup s with
    | none =>
      exfalso
      apply Expr.lookup_none hl
      rw [List.map_fst_zip (by have := hb.2.1; omega)]
      exact hs'
    | some v =>
      exact Expr.eval_subSymbols m hnd hc v ρ

/-- The gate with its parameters replaced, keeping the structure. -/
def Gate.withParams : Gate → List Expr → Gate
  | .factory b _, ps => .factory b ps
  | .ctrl g k, ps => .ctrl (g.withParams ps) k
  | .dag g, ps => .dag (g.withParams ps)

/-- Factory gates, and daggers of non-hermitian factory gates. -/
def Gate.Atom : Gate → Prop
  | .factory _ _ => True
  | .dag (.factory b _) => b.isHermitian = false
  | _ => False

/-- Normal forms: an atom, or a controlled atom. -/
def Gate.Normal : Gate → Prop
  | .ctrl g k => 1 ≤ k ∧ g.Atom
  | g => g.Atom

namespace Gate

theorem Atom.cases' {g : Gate} (h : g.Atom) :
    (∃ b ps, g = factory b ps) ∨ ∃ b ps, g = dag (factory b ps) ∧ b.isHermitian = false := by
  cases g with
  | factory b ps => exact Or.inl ⟨b, ps, rfl⟩
  | ctrl g k => exact absurd h (by simp [Atom])
  | dag g =>
    cases g with
    | factory b ps => exact Or.inr ⟨b, ps, rfl, h⟩
    | ctrl g k => exact absurd h (by simp [Atom])
    | dag g => exact absurd h (by simp [Atom])

theorem Normal.cases' {g : Gate} (h : g.Normal) : g.Atom ∨ ∃ g' k, g = ctrl g' k ∧ 1 ≤ k ∧ g'.Atom := by
  cases g with
  | factory b ps => exact Or.inl h
  | ctrl g k => exact Or.inr ⟨g, k, rfl, h⟩
  | dag g => exact Or.inl h

theorem atom_normal {g : Gate} (h : g.Atom) : g.Normal := by
  cases g with
  | factory b ps => exact h
  | ctrl g k => exact absurd h (by simp [Atom])
  | dag g => exact h

theorem atom_dagger {g : Gate} (h : g.Atom) : g.dagger.Atom := by
  rcases h.cases' with ⟨b, ps, rfl⟩ | ⟨b, ps, rfl, hb⟩
  · unfold dagger
    split
    · trivial
    · rename_i hh; simpa [Atom] using hh
  · trivial

theorem atom_dagger_dagger {g : Gate} (h : g.Atom) : g.dagger.dagger = g := by
  rcases h.cases' with ⟨b, ps, rfl⟩ | ⟨b, ps, rfl, hb⟩
  · cases hb : b.isHermitian <;> simp [dagger, hb]
  · simp [dagger, hb]

theorem normal_dagger {g : Gate} (h : g.Normal) : g.dagger.Normal := by
  rcases h.cases' with h | ⟨g', k, rfl, hk, h⟩
  · exact atom_normal (atom_dagger h)
  · exact ⟨hk, atom_dagger h⟩

theorem normal_dagger_dagger {g : Gate} (h : g.Normal) : g.dagger.dagger = g := by
  rcases h.cases' with h | ⟨g', k, rfl, hk, h⟩
  · exact atom_dagger_dagger h
  · simp only [dagger, atom_dagger_dagger h]

theorem atom_controlled {g : Gate} (h : g.Atom) (k : ℤ) : g.controlled k = mkCtrl g k := by
  rcases h.cases' with ⟨b, ps, rfl⟩ | ⟨b, ps, rfl, hb⟩
  · rfl
  · unfold controlled controlled mkCtrl
    split
    · rfl
    · simp [Except.map, dagger, hb]

theorem normal_controlled {g g' : Gate} (h : g.Normal) (k : ℤ) (hk : g.controlled k = .ok g') : g'.Normal := by
  rcases h.cases' with h | ⟨g1, c, rfl, hc, h⟩
  · rw [atom_controlled h] at hk
    unfold mkCtrl at hk
    split at hk
    · cases hk
    · cases hk; exact ⟨by omega, h⟩
  · unfold controlled mkCtrl at hk
    split at hk
    · cases hk
    · cases hk; exact ⟨by omega, h⟩

theorem atom_withParams {g : Gate} (h : g.Atom) (ps : List Expr) : (g.withParams ps).Atom := by
  rcases h.cases' with ⟨b, qs, rfl⟩ | ⟨b, qs, rfl, hb⟩
  · trivial
  · exact hb

theorem atom_replaceParams {g : Gate} (h : g.Atom) (ps : List Expr) :
    g.replaceParams ps = .ok (g.withParams ps) := by
  rcases h.cases' with ⟨b, qs, rfl⟩ | ⟨b, qs, rfl, hb⟩
  · rfl
  · simp [replaceParams, Except.map, dagger, hb, withParams]

theorem atom_bind {g : Gate} (h : g.Atom) (m : Expr.SymMap) :
    g.bind m = .ok (g.withParams (g.params.map (Expr.subSymbols m))) := by
  rcases h.cases' with ⟨b, qs, rfl⟩ | ⟨b, qs, rfl, hb⟩
  · rfl
  · simp [bind, replaceParams, Except.map, dagger, hb, withParams, params]

theorem mkCtrl_ok (g : Gate) (k : ℕ) (hk : 1 ≤ k) : mkCtrl g k = .ok (ctrl g k) := by
  unfold mkCtrl
  rw [if_neg (by omega)]
  simp

theorem normal_replaceParams {g : Gate} (h : g.Normal) (ps : List Expr) :
    g.replaceParams ps = .ok (g.withParams ps) := by
  rcases h.cases' with h | ⟨g1, c, rfl, hc, h⟩
  · exact atom_replaceParams h ps
  · unfold replaceParams
    rw [atom_replaceParams h]
    simp only [Except.bind, withParams]
    rw [atom_controlled (atom_withParams h ps), mkCtrl_ok _ _ hc]

theorem normal_bind {g : Gate} (h : g.Normal) (m : Expr.SymMap) :
    g.bind m = .ok (g.withParams (g.params.map (Expr.subSymbols m))) := by
  rcases h.cases' with h | ⟨g1, c, rfl, hc, h⟩
  · exact atom_bind h m
  · unfold bind
    rw [atom_bind h]
    simp only [Except.bind, withParams, params]
    rw [atom_controlled (atom_withParams h _), mkCtrl_ok _ _ hc]

theorem normal_withParams {g : Gate} (h : g.Normal) (ps : List Expr) : (g.withParams ps).Normal := by
  rcases h.cases' with h | ⟨g1, c, rfl, hc, h⟩
  · exact atom_normal (atom_withParams h ps)
  · exact ⟨hc, atom_withParams h ps⟩

theorem reachable_normal {g : Gate} (h : g.Reachable) : g.Normal := by
  induction h with
  | factory b ps => trivial
  | controlled k _ hk ih => exact normal_controlled ih k hk
  | dagger _ ih => exact normal_dagger ih
  | bind m _ hm ih =>
    rw [normal_bind ih] at hm
    cases hm
    exact normal_withParams ih _
  | replaceParams ps _ hm ih =>
    rw [normal_replaceParams ih] at hm
    cases hm
    exact normal_withParams ih _

theorem withParams_self (g : Gate) : g.withParams g.params = g := by
  induction g with
  | factory b ps => rfl
  | ctrl g k ih => simp only [withParams, params, ih]
  | dag g ih => simp only [withParams, params, ih]

theorem params_withParams (g : Gate) (ps : List Expr) : (g.withParams ps).params = ps := by
  induction g with
  | factory b ps => rfl
  | ctrl g k ih => exact ih
  | dag g ih => exact ih

theorem params_dagger (g : Gate) : g.dagger.params = g.params := by
  induction g with
  | factory b ps => unfold dagger; split <;> rfl
  | ctrl g k ih => exact ih
  | dag g ih => rfl

theorem dagger_withParams (g : Gate) (ps : List Expr) : (g.withParams ps).dagger = g.dagger.withParams ps := by
  induction g with
  | factory b qs => simp only [withParams, dagger]; split <;> rfl
  | ctrl g k ih => simp only [withParams, dagger, ih]
  | dag g ih => rfl

theorem numQubits_withParams (g : Gate) (ps : List Expr) : (g.withParams ps).numQubits = g.numQubits := by
  induction g with
  | factory b ps => rfl
  | ctrl g k ih => simp only [withParams, numQubits, ih]
  | dag g ih => exact ih

theorem withParams_withParams (g : Gate) (ps qs : List Expr) : (g.withParams ps).withParams qs = g.withParams qs := by
  induction g with
  | factory b ps => rfl
  | ctrl g k ih => simp only [withParams, ih]
  | dag g ih => simp only [withParams, ih]

theorem params_controlled {g g' : Gate} (k : ℤ) (hk : g.controlled k = .ok g') : g'.params = g.params := by
  induction g generalizing g' with
  | factory b ps =>
    unfold controlled mkCtrl at hk
    split at hk <;> cases hk
    rfl
  | ctrl g c ih =>
    unfold controlled mkCtrl at hk
    split at hk <;> cases hk
    rfl
  | dag g ih =>
    unfold controlled at hk
    cases hg : g.controlled k with
    | error e => rw [hg] at hk; cases hk
    | ok g1 =>
      rw [hg] at hk; cases hk
      rw [params_dagger, ih hg]; rfl

end Gate

end ZQ.Gates
