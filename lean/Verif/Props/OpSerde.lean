import Verif.Model.OpSerde
import Verif.Props.SymOp
import Verif.Props.ContextSelection
import Verif.Lemmas.ExceptList

/-! C52: qubit and Ising operators survive the dictionary format. -/

namespace ZQ.OpSerde

open ZQ ZQ.Op ZQ.PyDict

theorem dictCoefficient_termToDict (isComplex : Term Letter → Bool) (kv : Term Letter × ℂ) (h : isComplex kv.1 = false → kv.2.im = 0) :
    dictCoefficient (termToDict isComplex kv) = kv.2 := by
  cases hc : isComplex kv.1 with
  | false =>
    rw [termToDict, if_neg (by simp [hc])]
    exact Complex.ext rfl (h hc).symm
  | true =>
    rw [termToDict, if_pos hc]
    show (if kv.2.im = 0 then (kv.2.re : ℂ) else (kv.2.re : ℂ) + Complex.I * (kv.2.im : ℂ)) = kv.2
    by_cases hz : kv.2.im = 0
    · rw [if_pos hz]; exact Complex.ext rfl hz.symm
    · rw [if_neg hz, mul_comm]; exact Complex.re_add_im kv.2

theorem pauliOps_termToDict (isComplex : Term Letter → Bool) (kv : Term Letter × ℂ) :
    dictTerm (termToDict isComplex kv) = kv.1 := by
  have : ∀ t : Term Letter, ((t.map fun f => PauliOpDict.mk f.1 f.2).map fun p => (p.qubit, p.op)) = t := by
    intro t
    rw [List.map_map]
    conv_rhs => rw [← List.map_id t]
    rfl
  rw [termToDict, dictTerm]
  split <;> exact this _

theorem foldlM_terms (S : OpClass Letter) (constructor : Term Letter → ℂ → Except Err (Terms Letter)) (isComplex : Term Letter → Bool)
    (items : Terms Letter) (hty : ∀ kv ∈ items, isComplex kv.1 = false → kv.2.im = 0)
    (hcon : ∀ kv ∈ items, ∀ c, constructor kv.1 c = .ok (ofTerm S kv.1 c)) (acc : Terms Letter) :
    (items.map (termToDict isComplex)).foldlM (dictStep constructor) acc = .ok ((getOperators S items).foldl add acc) := by
  induction items generalizing acc with
  | nil => rfl
  | cons kv items ih =>
    rw [List.map_cons, List.foldlM_cons, dictStep, pauliOps_termToDict, dictCoefficient_termToDict _ _ (hty kv (List.mem_cons_self ..)),
      hcon kv (List.mem_cons_self ..)]
    exact ih (fun x hx => hty x (List.mem_cons_of_mem _ hx)) (fun x hx => hcon x (List.mem_cons_of_mem _ hx)) (add acc (ofTerm S kv.1 kv.2))

/-- What a dictionary keeps of an operator: the terms, in their order, with coefficients of size at least `1e-8`. -/
noncomputable def kept (o : Terms Letter) : Terms Letter := o.filter fun kv => decide (¬ ‖kv.2‖ < 1 / 10 ^ 8)

theorem isclose_kept {o : Terms Letter} (hw : WF o) (common : List (Term Letter)) (hcom : IsCommon (kept o) o common) :
    isclose (kept o) o common = true := by
  have hwk : WF (kept o) := hw.sublist (List.Sublist.map _ List.filter_sublist)
  have hmem : ∀ t, t ∈ keys (kept o) → (t, coeff o t) ∈ kept o ∧ coeff (kept o) t = coeff o t := by
    intro t ht
    obtain ⟨kv, hkv, rfl⟩ := List.mem_map.1 ht
    have h1 : kv ∈ o := (List.mem_filter.1 hkv).1
    rw [coeff_of_mem hwk hkv, coeff_of_mem hw h1]
    exact ⟨hkv, rfl⟩
  refine isclose_of_close_partial hwk hw common hcom (fun t h1 _ => ?_) fun t h => ?_
  · rw [(hmem t h1).2, sub_self, norm_zero]
    have := le_max_left (1 : ℝ) (max ‖coeff o t‖ ‖coeff o t‖)
    positivity
  · by_cases hk : t ∈ keys (kept o)
    · rw [(hmem t hk).2, sub_self, norm_zero]; positivity
    · rw [coeff_of_not_mem hk, zero_sub, norm_neg]
      by_cases ho : t ∈ keys o
      · by_contra hbig
        apply hk
        obtain ⟨kv, hkv, rfl⟩ := List.mem_map.1 ho
        refine List.mem_map.2 ⟨kv, List.mem_filter.2 ⟨hkv, ?_⟩, rfl⟩
        rw [coeff_of_mem hw hkv] at hbig
        exact decide_eq_true hbig
      · rw [coeff_of_not_mem ho, norm_zero]; positivity

theorem roundtrip_core (S : OpClass Letter) (constructor : Term Letter → ℂ → Except Err (Terms Letter)) (isComplex : Term Letter → Bool)
    (o : Terms Letter) (s : String) (hw : WF o) (hty : ∀ kv ∈ o, isComplex kv.1 = false → kv.2.im = 0)
    (hcon : ∀ kv ∈ o, ∀ c, constructor kv.1 c = .ok (ofTerm S kv.1 c)) (hfix : ∀ kv ∈ o, S.simplify kv.1 kv.2 = (kv.2, kv.1)) :
    dictToOperator constructor ⟨s, o.map (termToDict isComplex)⟩ = .ok (kept o) := by
  refine (foldlM_terms S constructor isComplex o hty hcon []).trans ?_
  rw [accumulate_singletons S [] o hw hfix, List.nil_append]
  rfl

theorem kept_eq {o : Terms Letter} (h : ∀ kv ∈ o, 1 / 10 ^ 8 ≤ ‖kv.2‖) : kept o = o := by
  rw [kept, List.filter_eq_self]
  intro kv hkv
  exact decide_eq_true (not_lt.2 (h kv hkv))

/-- C52: a qubit operator is recovered from its dictionary: no error is raised, the terms with coefficient below `1e-8` are gone, all others are
there in their order with exactly their coefficients; the result equals the operator (`==`); and it is the operator if no coefficient is below
`1e-8`. -/
theorem qubitop_roundtrip (isComplex : Term Letter → Bool) (o : Terms Letter) (ho : CanonicalOp o)
    (hty : ∀ kv ∈ o, isComplex kv.1 = false → kv.2.im = 0) :
    dictToQubitop (qubitopToDict isComplex o) = .ok (kept o) ∧
    (∀ common, IsCommon (kept o) o common → isclose (kept o) o common = true) ∧
    ((∀ kv ∈ o, 1 / 10 ^ 8 ≤ ‖kv.2‖) → dictToQubitop (qubitopToDict isComplex o) = .ok o) := by
  have hcan : ∀ kv ∈ o, Canonical kv.1 := fun kv hkv => ho.2 kv.1 (List.mem_map.2 ⟨kv, hkv, rfl⟩)
  have main : dictToQubitop (qubitopToDict isComplex o) = .ok (kept o) :=
    roundtrip_core qubit qubitOf isComplex o _ ho.1 hty (fun kv hkv c => if_pos (hcan kv hkv).2)
      fun kv hkv => qubitSimplify_of_canonical (hcan kv hkv) kv.2
  exact ⟨main, fun common hc => isclose_kept ho.1 common hc, fun h => by rw [main, kept_eq h]⟩

/-- C52: the same for an Ising operator. -/
theorem isingop_roundtrip (isComplex : Term Letter → Bool) (o : Terms Letter) (ho : CanonicalOp o) (hz : ∀ t ∈ keys o, ∀ f ∈ t, f.2 = .Z)
    (hty : ∀ kv ∈ o, isComplex kv.1 = false → kv.2.im = 0) :
    dictToIsingop (isingopToDict isComplex o) = .ok (kept o) ∧
    (∀ common, IsCommon (kept o) o common → isclose (kept o) o common = true) ∧
    ((∀ kv ∈ o, 1 / 10 ^ 8 ≤ ‖kv.2‖) → dictToIsingop (isingopToDict isComplex o) = .ok o) := by
  have hmem : ∀ kv ∈ o, kv.1 ∈ keys o := fun kv hkv => List.mem_map.2 ⟨kv, hkv, rfl⟩
  have main : dictToIsingop (isingopToDict isComplex o) = .ok (kept o) :=
    roundtrip_core ising isingOf isComplex o _ ho.1 hty (fun kv hkv c => if_pos (hz kv.1 (hmem kv hkv)))
      fun kv hkv => Est.isingSimplify_fixed (ho.2 kv.1 (hmem kv hkv)).1 (hz kv.1 (hmem kv hkv)) kv.2
  exact ⟨main, fun common hc => isclose_kept ho.1 common hc, fun h => by rw [main, kept_eq h]⟩

/-- C52: an operator that is not an Ising operator cannot be loaded as one: the first factor that is not `Z` raises `ValueError`. -/
theorem isingop_rejects (isComplex : Term Letter → Bool) (o : Terms Letter) (hx : ∃ t ∈ keys o, ∃ f ∈ t, f.2 ≠ .Z) :
    dictToIsingop (qubitopToDict isComplex o) = .error .valueError := by
  have key : ∀ (o : Terms Letter) (acc : Terms Letter), (∃ t ∈ keys o, ∃ f ∈ t, f.2 ≠ .Z) →
      (o.map (termToDict isComplex)).foldlM (dictStep isingOf) acc = .error .valueError := by
    intro o
    induction o with
    | nil => rintro acc ⟨t, ht, _⟩; cases ht
    | cons kv o ih =>
      intro acc hx
      rw [List.map_cons, List.foldlM_cons, dictStep, pauliOps_termToDict]
      by_cases hz : ∀ f ∈ kv.1, f.2 = .Z
      · have e : isingOf kv.1 (dictCoefficient (termToDict isComplex kv)) = .ok (ofTerm ising kv.1 (dictCoefficient (termToDict isComplex kv))) := if_pos hz
        rw [e]
        refine ih _ ?_
        obtain ⟨t, ht, f, hf, hne⟩ := hx
        rcases List.mem_cons.1 ht with rfl | ht
        · exact absurd (hz f hf) hne
        · exact ⟨t, ht, f, hf, hne⟩
      · have e : isingOf kv.1 (dictCoefficient (termToDict isComplex kv)) = .error .valueError := if_neg hz
        rw [e]
        rfl
  exact key o [] hx

/-- C52: a set of operators is recovered, operator by operator, in order. -/
theorem operatorSet_roundtrip (ops : List ((Term Letter → Bool) × Terms Letter)) (ho : ∀ p ∈ ops, CanonicalOp p.2)
    (hty : ∀ p ∈ ops, ∀ kv ∈ p.2, p.1 kv.1 = false → kv.2.im = 0) :
    loadSet (saveSet ops) = .ok (ops.map fun p => kept p.2) := by
  induction ops with
  | nil => rfl
  | cons p ops ih =>
    have ih := ih (fun q hq => ho q (List.mem_cons_of_mem _ hq)) fun q hq => hty q (List.mem_cons_of_mem _ hq)
    rw [saveSet, loadSet] at ih ⊢
    rw [List.map_cons, List.mapM_cons, (qubitop_roundtrip p.1 p.2 (ho p (List.mem_cons_self ..)) (hty p (List.mem_cons_self ..))).1, ih]
    rfl

/-- `(2 + i) X0 Z3 + 5` with an `int` constant meets the hypotheses. -/
example : ∃ (ty : Term Letter → Bool) (o : Terms Letter), CanonicalOp o ∧ o.length = 2 ∧ (∀ kv ∈ o, ty kv.1 = false → kv.2.im = 0) ∧
    ty [] = false ∧ ∀ kv ∈ o, 1 / 10 ^ 8 ≤ ‖kv.2‖ := by
  refine ⟨fun t => !t.isEmpty, [([(0, .X), (3, .Z)], 2 + Complex.I), ([], 5)], ⟨by simp [WF, keys], ?_⟩, rfl, ?_, rfl, ?_⟩
  · intro t ht
    simp only [keys, List.map_cons, List.map_nil, List.mem_cons, List.not_mem_nil, or_false] at ht
    rcases ht with rfl | rfl <;> constructor <;> simp
  · intro kv hkv
    simp only [List.mem_cons, List.not_mem_nil, or_false] at hkv
    rcases hkv with rfl | rfl <;> simp
  · intro kv hkv
    simp only [List.mem_cons, List.not_mem_nil, or_false] at hkv
    rcases hkv with rfl | rfl
    · refine le_trans ?_ (Complex.abs_re_le_norm _)
      norm_num
    · norm_num

end ZQ.OpSerde
