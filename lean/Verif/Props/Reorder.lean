import Verif.Model.Reorder
import Verif.Props.BravyiKitaev
import Verif.Props.ReverseJW
import Verif.Props.NormalOrder
import Verif.Lemmas.ExceptList

/-! # C50: relabelling qubits and modes -/

namespace ZQ.Op

open PyDict

/-! ### up_then_down -/

/-- C50: `up_then_down` permutes the modes `0 .. n-1`, for every `n`. -/
theorem upThenDown_bijective (n : ℕ) : Set.BijOn (fun i => upThenDown i n) (Set.Iio n) (Set.Iio n) := by
  refine ⟨fun i hi => ?_, fun i hi j hj h => ?_, fun k hk => ?_⟩
  · simp only [Set.mem_Iio] at hi ⊢
    unfold upThenDown
    split <;> omega
  · simp only [Set.mem_Iio] at hi hj
    simp only [upThenDown] at h
    split at h <;> split at h <;> omega
  · simp only [Set.mem_Iio] at hk
    by_cases h : k < (n + 1) / 2
    · refine ⟨2 * k, by simp only [Set.mem_Iio]; omega, ?_⟩
      simp only [upThenDown]
      split <;> omega
    · refine ⟨2 * (k - (n + 1) / 2) + 1, by simp only [Set.mem_Iio]; omega, ?_⟩
      simp only [upThenDown]
      split <;> omega

/-- C50: all even (up) modes come before all odd (down) modes, each in their order: orbital `i` goes to `i` and `ceil(n/2) + i`. -/
theorem upThenDown_order (n i : ℕ) : upThenDown (upIndex i) n = i ∧ upThenDown (downIndex i) n = (n + 1) / 2 + i := by
  unfold upThenDown upIndex downIndex
  constructor <;> split <;> omega

/-! ### Rebuilding an operator term by term -/

/-- The terms that addition does not drop. -/
noncomputable def bigTerms {A : Type} (o : Terms A) : Terms A := o.filter fun kv => decide (1 / 10 ^ 8 ≤ ‖kv.2‖)

theorem bigTerms_eq_self {A : Type} {o : Terms A} (h : ∀ kv ∈ o, 1 / 10 ^ 8 ≤ ‖kv.2‖) : bigTerms o = o :=
  List.filter_eq_self.2 fun kv hkv => by simpa using h kv hkv

theorem wf_sublist {A : Type} {o o' : Terms A} (h : WF o) (hs : o'.Sublist o) : WF o' := List.Nodup.sublist (hs.map _) h

theorem wf_bigTerms {A : Type} {o : Terms A} (h : WF o) : WF (bigTerms o) := wf_sublist h List.filter_sublist

theorem add_small {A : Type} [DecidableEq A] {acc : Terms A} {t : Term A} {c : ℂ} (hn : t ∉ keys acc) (hc : ‖c‖ < 1 / 10 ^ 8) :
    add acc [(t, c)] = acc := by
  show addStep acc (t, c) = _
  rw [addStep]
  dsimp only
  rw [coeff_of_not_mem hn, zero_add, if_pos (show IsSmall c eqTol from hc), del_set_of_not_mem hn]

theorem rename_fold {A : Type} [DecidableEq A] (ren : Term A → Term A) (o : Terms A) (hw : WF o) (hinj : ∀ t ∈ keys o, ∀ u ∈ keys o, ren t = ren u → t = u) :
    o.foldl (fun acc kv => add acc [(ren kv.1, kv.2)]) [] = (bigTerms o).map fun kv => (ren kv.1, kv.2) := by
  have key : ∀ (o acc : Terms A), WF o → (∀ t ∈ keys o, ∀ u ∈ keys o, ren t = ren u → t = u) → (∀ t ∈ keys o, ren t ∉ keys acc) →
      o.foldl (fun acc kv => add acc [(ren kv.1, kv.2)]) acc = acc ++ (bigTerms o).map fun kv => (ren kv.1, kv.2) := by
    intro o
    induction o with
    | nil => intro acc _ _ _; simp [bigTerms]
    | cons kv o ih =>
      obtain ⟨t, c⟩ := kv
      intro acc hw hinj hacc
      have hw' : t ∉ keys o ∧ WF o := by simpa [WF, keys] using hw
      have hsub : ∀ u ∈ keys o, u ∈ keys ((t, c) :: o) := fun u hu => by rw [keys, List.map_cons]; exact List.mem_cons_of_mem _ hu
      have ht : t ∈ keys ((t, c) :: o) := by simp [keys]
      have hinj' : ∀ a ∈ keys o, ∀ b ∈ keys o, ren a = ren b → a = b := fun a ha b hb => hinj a (hsub a ha) b (hsub b hb)
      rw [List.foldl_cons]
      dsimp only
      by_cases hc : ‖c‖ < 1 / 10 ^ 8
      · rw [add_small (hacc t ht) hc, ih acc hw'.2 hinj' (fun u hu => hacc u (hsub u hu)), bigTerms, bigTerms,
          List.filter_cons_of_neg (by simpa using hc)]
      · rw [add_fresh (hacc t ht) hc, ih (acc ++ [(ren t, c)]) hw'.2 hinj', bigTerms, bigTerms, List.filter_cons_of_pos (by simpa using hc)]
        · simp
        · intro u hu hm
          rw [keys, List.map_append, List.mem_append] at hm
          rcases hm with hm | hm
          · exact hacc u (hsub u hu) hm
          · simp at hm
            exact hw'.1 (hinj u (hsub u hu) t ht hm ▸ hu)
  rw [key o [] hw hinj (fun t _ => by simp [keys]), List.nil_append]

theorem foldlM_ok {α β ε : Type} (f : β → α → Except ε β) (g : β → α → β) (l : List α) (h : ∀ a ∈ l, ∀ b, f b a = .ok (g b a)) (b : β) :
    l.foldlM f b = .ok (l.foldl g b) := by
  induction l generalizing b with
  | nil => rfl
  | cons a l ih =>
    rw [List.foldlM_cons, h a (List.mem_cons_self ..)]
    exact ih (fun a ha => h a (List.mem_cons_of_mem _ ha)) _

/-- Simplifying a product of letters on different qubits only sorts it. -/
theorem qubitSimplify_distinct {t : Term Letter} (hn : (t.map Prod.fst).Nodup) (hI : ∀ f ∈ t, f.2 ≠ .I) (c : ℂ) :
    qubitSimplify t c = (c, sortByIndex t) ∧ Canonical (sortByIndex t) := by
  have hp := perm_sortByIndex t
  have hcan : Canonical (sortByIndex t) := by
    refine ⟨?_, fun f hf => hI f (hp.mem_iff.1 hf)⟩
    have h1 := sorted_sortByIndex t
    have h2 : ((sortByIndex t).map Prod.fst).Nodup := (hp.map Prod.fst).nodup_iff.2 hn
    rw [List.pairwise_map]
    rw [List.Nodup, List.pairwise_map] at h2
    exact (h1.and h2).imp fun ⟨a, b⟩ => lt_of_le_of_ne a b
  exact ⟨by rw [qubitSimplify_perm hp.symm hn, qubitSimplify_of_canonical hcan], hcan⟩

/-- Sorted rearrangements of a canonical term are the term itself. -/
theorem canonical_eq_of_perm {t u : Term Letter} (ht : Canonical t) (hu : Canonical u) (h : t.Perm u) : t = u := by
  refine List.Perm.eq_of_pairwise (le := fun a b => a.1 ≤ b.1) ?_ (List.pairwise_map.1 (ht.1.imp le_of_lt)) (List.pairwise_map.1 (hu.1.imp le_of_lt)) h
  intro a b ha hb h1 h2
  exact List.inj_on_of_nodup_map ht.nodup ha (h.mem_iff.2 hb) (le_antisymm h1 h2)

/-! ### reverse_qubit_order -/

/-- Qubit `i` becomes qubit `n - 1 - i`; the order of the factors is reversed so that the indices increase. -/
def mirror (n : ℕ) (t : Term Letter) : Term Letter := (t.map fun f => (n - 1 - f.1, f.2)).reverse

theorem mirror_canonical {n : ℕ} {t : Term Letter} (h : Canonical t) (hn : ∀ f ∈ t, f.1 < n) : Canonical (mirror n t) := by
  refine ⟨?_, ?_⟩
  · rw [mirror, List.map_reverse, List.pairwise_reverse, List.map_map, List.pairwise_map]
    have := List.pairwise_map.1 h.1
    refine (List.Pairwise.and_mem.1 this).imp ?_
    rintro a b ⟨ha, hb, hab⟩
    have := hn a ha
    have := hn b hb
    show n - 1 - b.1 < n - 1 - a.1
    omega
  · intro f hf
    rw [mirror, List.mem_reverse] at hf
    obtain ⟨g, hg, rfl⟩ := List.mem_map.1 hf
    exact h.2 g hg

theorem mirror_mirror {n : ℕ} {t : Term Letter} (hn : ∀ f ∈ t, f.1 < n) : mirror n (mirror n t) = t := by
  rw [mirror, mirror, List.map_reverse, List.reverse_reverse, List.map_map]
  conv_rhs => rw [← List.map_id t]
  refine List.map_congr_left fun f hf => ?_
  have := hn f hf
  show (n - 1 - (n - 1 - f.1), f.2) = f
  rw [show n - 1 - (n - 1 - f.1) = f.1 by omega]

theorem mirror_bound {n : ℕ} {t : Term Letter} (hn : ∀ f ∈ t, f.1 < n) : ∀ f ∈ mirror n t, f.1 < n := by
  intro f hf
  rw [mirror, List.mem_reverse] at hf
  obtain ⟨g, hg, rfl⟩ := List.mem_map.1 hf
  have := hn g hg
  show n - 1 - g.1 < n
  omega

/-- C50: the result lists the terms in their order, with qubit `i` renamed to `n - 1 - i` and the coefficients unchanged, except that terms with
a coefficient below `1e-8` are dropped. -/
theorem reverseQubitOrder_spec {o : Terms Letter} (h : CanonicalOp o) (nQubits : Option ℕ) (hn : countQubit o ≤ nQubits.getD (countQubit o)) :
    reverseQubitOrder o nQubits = .ok ((bigTerms o).map fun kv => (mirror (nQubits.getD (countQubit o)) kv.1, kv.2)) := by
  rw [reverseQubitOrder]
  set n := nQubits.getD (countQubit o) with hdef
  rw [if_neg (by omega)]
  have hb : ∀ kv ∈ o, ∀ f ∈ kv.1, f.1 < n := fun kv hkv f hf => lt_of_lt_of_le (countQubit_bound h kv hkv f hf) hn
  have hk : ∀ t ∈ keys o, ∀ f ∈ t, f.1 < n := by
    intro t ht
    obtain ⟨kv, hkv, rfl⟩ := List.mem_map.1 ht
    exact hb kv hkv
  rw [← rename_fold (mirror n) o h.1 (fun t ht u hu e => by rw [← mirror_mirror (hk t ht), e, mirror_mirror (hk u hu)])]
  congr 1
  refine List.foldl_ext _ _ _ fun acc kv hkv => ?_
  have hc := h.2 kv.1 (List.mem_map_of_mem hkv)
  have hm := mirror_canonical hc (hb kv hkv)
  have hp : (mirror n kv.1).Perm (kv.1.map fun f => (n - 1 - f.1, f.2)) := List.reverse_perm _
  have e := qubitSimplify_perm hp hm.nodup kv.2
  rw [qubitSimplify_of_canonical hm] at e
  rw [ofTerm]
  show add acc [((qubitSimplify _ _).2, (qubitSimplify _ _).1)] = _
  rw [← e]

/-- C50: reversing twice with the same register size gives the operator back (up to the dropped tiny terms: exactly, when there are none). -/
theorem reverseQubitOrder_involutive {o : Terms Letter} (h : CanonicalOp o) (n : ℕ) (hn : countQubit o ≤ n) :
    ∃ r, reverseQubitOrder o (some n) = .ok r ∧ CanonicalOp r ∧ reverseQubitOrder r (some n) = .ok (bigTerms o) := by
  have hb : ∀ kv ∈ o, ∀ f ∈ kv.1, f.1 < n := fun kv hkv f hf => lt_of_lt_of_le (countQubit_bound h kv hkv f hf) hn
  have hsub : ∀ kv ∈ bigTerms o, kv ∈ o := fun kv hkv => (List.mem_filter.1 hkv).1
  set r : Terms Letter := (bigTerms o).map fun kv => (mirror n kv.1, kv.2) with hr
  have hcan : CanonicalOp r := by
    constructor
    · rw [WF, keys, hr, List.map_map]
      have := wf_bigTerms h.1
      rw [WF, keys, List.Nodup, List.pairwise_map] at this
      rw [List.Nodup, List.pairwise_map]
      refine (List.Pairwise.and_mem.1 this).imp ?_
      rintro a b ⟨ha, hb', hab⟩ e
      apply hab
      have e' : mirror n a.1 = mirror n b.1 := e
      rw [← mirror_mirror (hb a (hsub a ha)), e', mirror_mirror (hb b (hsub b hb'))]
    · intro t ht
      obtain ⟨kv', hkv', rfl⟩ := List.mem_map.1 ht
      obtain ⟨kv, hkv, rfl⟩ := List.mem_map.1 hkv'
      exact mirror_canonical (h.2 kv.1 (List.mem_map_of_mem (hsub kv hkv))) (hb kv (hsub kv hkv))
  have hcount : countQubit r ≤ n := by
    have step : ∀ (o : Terms Letter) (m : ℕ), m ≤ n → (∀ kv ∈ o, ∀ f ∈ kv.1, f.1 < n) → o.foldl (fun (n : ℕ) (kv : Term Letter × ℂ) => match kv.1.getLast? with
      | none => n
      | some f => if f.1 + 1 > n then f.1 + 1 else n) m ≤ n := by
      intro o
      induction o with
      | nil => intro m hm _; exact hm
      | cons kv o ih =>
        intro m hm ho
        rw [List.foldl_cons]
        refine ih _ ?_ (fun kv hkv => ho kv (List.mem_cons_of_mem _ hkv))
        cases hl : kv.1.getLast? with
        | none => exact hm
        | some f =>
          have := ho kv (List.mem_cons_self ..) f (List.mem_of_getLast? hl)
          dsimp only
          split <;> omega
    refine step r 0 (Nat.zero_le _) fun kv hkv => ?_
    obtain ⟨kv', hkv', rfl⟩ := List.mem_map.1 hkv
    exact mirror_bound (hb kv' (hsub kv' hkv'))
  refine ⟨r, reverseQubitOrder_spec h (some n) hn, hcan, ?_⟩
  rw [reverseQubitOrder_spec hcan (some n) hcount]
  have hbig : bigTerms r = r := bigTerms_eq_self fun kv hkv => by
    obtain ⟨kv', hkv', rfl⟩ := List.mem_map.1 hkv
    simpa using (List.mem_filter.1 hkv').2
  rw [hbig, hr, List.map_map]
  congr 1
  conv_rhs => rw [← List.map_id (bigTerms o)]
  refine List.map_congr_left fun kv hkv => ?_
  show (mirror n (mirror n kv.1), kv.2) = kv
  rw [mirror_mirror (hb kv (hsub kv hkv))]

/-- C50: too small a register is rejected. -/
theorem reverseQubitOrder_rejects (o : Terms Letter) (n : ℕ) (hn : n < countQubit o) : reverseQubitOrder o (some n) = .error .valueError := if_pos hn

/-- Reading the bit of qubit `i` at position `π i`. -/
def permuteState (π : ℕ → ℕ) : Module.End ℂ State where
  toFun ψ := fun s => ψ (s ∘ π)
  map_add' _ _ := rfl
  map_smul' _ _ := rfl

theorem permute_pauli {π : ℕ → ℕ} (hπ : Function.Injective π) (f : ℕ × Letter) :
    permuteState π * pauliAction f = pauliAction (π f.1, f.2) * permuteState π := by
  apply LinearMap.ext; intro ψ; funext s
  have hu : ∀ b, Function.update s (π f.1) b ∘ π = Function.update (s ∘ π) f.1 b := by
    intro b; funext i
    by_cases h : i = f.1
    · subst h; simp
    · simp [h, hπ.ne h]
  show (pauliAction f ψ) (s ∘ π) = pauliAction (π f.1, f.2) (fun s => ψ (s ∘ π)) s
  rw [pauliAction, pauliAction, atQubit_apply, atQubit_apply]
  dsimp only
  rw [hu, hu]
  rfl

theorem permute_term {π : ℕ → ℕ} (hπ : Function.Injective π) (t : Term Letter) :
    permuteState π * termAction pauliAction t = termAction pauliAction (t.map fun f => (π f.1, f.2)) * permuteState π := by
  induction t with
  | nil => rw [List.map_nil, termAction_nil, mul_one, one_mul]
  | cons f t ih => rw [List.map_cons, termAction_cons, termAction_cons, ← mul_assoc, permute_pauli hπ, mul_assoc, ih, mul_assoc]

/-- The reversal of `n` qubits as a permutation of all qubit indices. -/
def flipIndex (n i : ℕ) : ℕ := if i < n then n - 1 - i else i

theorem flipIndex_injective (n : ℕ) : Function.Injective (flipIndex n) := by
  intro i j h
  unfold flipIndex at h
  split at h <;> split at h <;> omega

/-- C50: the reversed operator acts as the operator does after the qubits have been reversed (no coefficient below `1e-8`). -/
theorem reverseQubitOrder_action {o : Terms Letter} (h : CanonicalOp o) (n : ℕ) (hn : countQubit o ≤ n) (hbig : ∀ kv ∈ o, 1 / 10 ^ 8 ≤ ‖kv.2‖) :
    ∃ r, reverseQubitOrder o (some n) = .ok r ∧ permuteState (flipIndex n) * action pauliAction o = action pauliAction r * permuteState (flipIndex n) := by
  refine ⟨_, reverseQubitOrder_spec h (some n) hn, ?_⟩
  rw [bigTerms_eq_self hbig]
  have hb : ∀ kv ∈ o, ∀ f ∈ kv.1, f.1 < n := fun kv hkv f hf => lt_of_lt_of_le (countQubit_bound h kv hkv f hf) hn
  have hc : ∀ kv ∈ o, Canonical kv.1 := fun kv hkv => h.2 kv.1 (List.mem_map_of_mem hkv)
  show _ = action pauliAction (o.map fun kv => (mirror n kv.1, kv.2)) * _
  clear h hn hbig
  induction o with
  | nil => rw [List.map_nil, action_nil, mul_zero, zero_mul]
  | cons kv o ih =>
    obtain ⟨t, c⟩ := kv
    rw [List.map_cons, action_cons, action_cons, mul_add, add_mul, ih (fun kv hkv => hb kv (List.mem_cons_of_mem _ hkv)) (fun kv hkv => hc kv (List.mem_cons_of_mem _ hkv))]
    congr 1
    have ht := hb (t, c) (List.mem_cons_self ..)
    have hct := hc (t, c) (List.mem_cons_self ..)
    dsimp only at ht hct ⊢
    rw [mul_smul_comm, permute_term (flipIndex_injective n), smul_mul_assoc]
    have e : (t.map fun f => (flipIndex n f.1, f.2)) = t.map fun f => (n - 1 - f.1, f.2) :=
      List.map_congr_left fun f hf => by rw [flipIndex, if_pos (ht f hf)]
    rw [e]
    have hm := mirror_canonical hct ht
    have hp : (mirror n t).Perm (t.map fun f => (n - 1 - f.1, f.2)) := List.reverse_perm _
    have e2 := qubitSimplify_perm hp hm.nodup 1
    rw [qubitSimplify_of_canonical hm] at e2
    have e3 := qubitSimplify_action (t.map fun f => (n - 1 - f.1, f.2)) 1
    rw [← e2, one_smul, one_smul] at e3
    rw [e3]

/-! ### reorder -/

theorem get?_modeMap (order : ℕ → ℕ → ℕ) (n i : ℕ) (hi : i < n) : get? (modeMap order n false) i = some (order i n) := by
  have hnd : (((List.range n).map fun i => (i, order i n)).map Prod.fst).Nodup := by
    rw [List.map_map]; exact (List.map_id (List.range n)).symm ▸ List.nodup_range
  show get? (ofItems _) i = _
  rw [ofItems_eq_self hnd]
  exact get?_of_mem hnd (List.mem_map.2 ⟨i, List.mem_range.2 hi, rfl⟩)

theorem get?_modeMap_none (order : ℕ → ℕ → ℕ) (n i : ℕ) (hi : n ≤ i) : get? (modeMap order n false) i = none := by
  have hnd : (((List.range n).map fun i => (i, order i n)).map Prod.fst).Nodup := by
    rw [List.map_map]; exact (List.map_id (List.range n)).symm ▸ List.nodup_range
  show get? (ofItems _) i = _
  rw [ofItems_eq_self hnd, get?_eq_none_iff, keys, List.map_map]
  intro h
  obtain ⟨j, hj, e⟩ := List.mem_map.1 h
  have := List.mem_range.1 hj
  have : j = i := e
  omega

theorem get?_modeMap_reverse (order : ℕ → ℕ → ℕ) (n i : ℕ) (hi : i < n) (hinj : ∀ i < n, ∀ j < n, order i n = order j n → i = j) :
    get? (modeMap order n true) (order i n) = some i := by
  have hnd : (((List.range n).map fun i => (i, order i n)).map Prod.fst).Nodup := by
    rw [List.map_map]; exact (List.map_id (List.range n)).symm ▸ List.nodup_range
  show get? (ofItems ((ofItems _).map _)) _ = _
  rw [ofItems_eq_self hnd, List.map_map]
  have hnd' : (((List.range n).map ((fun kv : ℕ × ℕ => (kv.2, kv.1)) ∘ fun i => (i, order i n))).map Prod.fst).Nodup := by
    rw [List.map_map]
    exact List.Nodup.map_on (fun a ha b hb e => hinj a (List.mem_range.1 ha) b (List.mem_range.1 hb) e) List.nodup_range
  rw [ofItems_eq_self hnd']
  exact get?_of_mem hnd' (List.mem_map.2 ⟨i, List.mem_range.2 hi, rfl⟩)

theorem relabel_ok {A : Type} (mm : PyDict ℕ ℕ) (g : ℕ → ℕ) (t : Term A) (h : ∀ f ∈ t, get? mm f.1 = some (g f.1)) :
    relabel mm t = .ok (t.map fun f => (g f.1, f.2)) := by
  rw [relabel, mapM_ok_iff]
  induction t with
  | nil => exact .nil
  | cons f t ih =>
    exact .cons (by rw [h f (List.mem_cons_self ..)]) (ih fun f hf => h f (List.mem_cons_of_mem _ hf))

theorem reorder_core {A : Type} [DecidableEq A] (S : OpClass A) (o : Terms A) (hw : WF o) (mm : PyDict ℕ ℕ) (g : ℕ → ℕ) (can : Term A → Term A)
    (h1 : ∀ kv ∈ o, ∀ f ∈ kv.1, get? mm f.1 = some (g f.1))
    (h2 : ∀ kv ∈ o, S.simplify (kv.1.map fun f => (g f.1, f.2)) kv.2 = (kv.2, can kv.1))
    (hinj : ∀ t ∈ keys o, ∀ u ∈ keys o, can t = can u → t = u) :
    o.foldlM (fun acc kv => do
      let t ← relabel mm kv.1
      .ok (add acc (ofTerm S t kv.2))) [] = (.ok ((bigTerms o).map fun kv => (can kv.1, kv.2)) : Except Err _) := by
  rw [foldlM_ok _ (fun acc kv => add acc [(can kv.1, kv.2)]), rename_fold can o hw hinj]
  intro kv hkv acc
  rw [relabel_ok mm g kv.1 (h1 kv hkv)]
  show Except.ok (add acc (ofTerm S _ _)) = _
  rw [ofTerm, h2 kv hkv]

/-- C50: `reorder` of a fermion operator with a one-to-one order function renames mode `i` to `order(i, n)` in every term and keeps the
coefficients (terms below `1e-8` are dropped). -/
theorem reorder_fermion {o : Terms Bool} (hw : WF o) (order : ℕ → ℕ → ℕ) (n : ℕ) (hn : ∀ kv ∈ o, ∀ f ∈ kv.1, f.1 < n)
    (hinj : ∀ i < n, ∀ j < n, order i n = order j n → i = j) :
    reorder fermion o order (some n) false = .ok ((bigTerms o).map fun kv => (kv.1.map fun f => (order f.1 n, f.2), kv.2)) := by
  have hk : ∀ t ∈ keys o, ∀ f ∈ t, f.1 < n := by
    intro t ht
    obtain ⟨kv, hkv, rfl⟩ := List.mem_map.1 ht
    exact hn kv hkv
  refine reorder_core fermion o hw (modeMap order n false) (fun i => order i n) (fun t => t.map fun f => (order f.1 n, f.2))
    (fun kv hkv f hf => get?_modeMap order n f.1 (hn kv hkv f hf)) (fun kv _ => rfl) ?_
  intro t ht u hu e
  have ht' := hk t ht
  have hu' := hk u hu
  clear ht hu
  induction t generalizing u with
  | nil => cases u with
    | nil => rfl
    | cons g u => simp at e
  | cons f t ih => cases u with
    | nil => simp at e
    | cons g u =>
      rw [List.map_cons, List.map_cons, List.cons.injEq, Prod.mk.injEq] at e
      have e1 := hinj f.1 (ht' f (List.mem_cons_self ..)) g.1 (hu' g (List.mem_cons_self ..)) e.1.1
      rw [ih u e.2 (fun f hf => ht' f (List.mem_cons_of_mem _ hf)) (fun f hf => hu' f (List.mem_cons_of_mem _ hf)), Prod.ext e1 e.1.2]

/-- C50: for qubit operators the renamed factors are sorted again. -/
theorem reorder_qubit {o : Terms Letter} (h : CanonicalOp o) (order : ℕ → ℕ → ℕ) (n : ℕ) (hn : ∀ kv ∈ o, ∀ f ∈ kv.1, f.1 < n)
    (hinj : ∀ i < n, ∀ j < n, order i n = order j n → i = j) :
    reorder qubit o order (some n) false = .ok ((bigTerms o).map fun kv => (sortByIndex (kv.1.map fun f => (order f.1 n, f.2)), kv.2)) := by
  have hk : ∀ t ∈ keys o, (∀ f ∈ t, f.1 < n) ∧ Canonical t := by
    intro t ht
    refine ⟨?_, h.2 t ht⟩
    obtain ⟨kv, hkv, rfl⟩ := List.mem_map.1 ht
    exact hn kv hkv
  have nd : ∀ t ∈ keys o, ((t.map fun f => (order f.1 n, f.2)).map Prod.fst).Nodup := by
    intro t ht
    rw [List.map_map]
    refine List.Nodup.map_on (fun a ha b hb e => ?_) (List.Nodup.of_map _ (hk t ht).2.nodup)
    exact List.inj_on_of_nodup_map (hk t ht).2.nodup ha hb (hinj _ ((hk t ht).1 a ha) _ ((hk t ht).1 b hb) e)
  refine reorder_core qubit o h.1 (modeMap order n false) (fun i => order i n) (fun t => sortByIndex (t.map fun f => (order f.1 n, f.2)))
    (fun kv hkv f hf => get?_modeMap order n f.1 (hn kv hkv f hf)) (fun kv hkv => ?_) ?_
  · refine (qubitSimplify_distinct (nd kv.1 (List.mem_map_of_mem hkv)) (fun f hf => ?_) kv.2).1
    obtain ⟨g, hg, rfl⟩ := List.mem_map.1 hf
    exact (hk kv.1 (List.mem_map_of_mem hkv)).2.2 g hg
  · intro t ht u hu e
    have hp : (t.map fun f => (order f.1 n, f.2)).Perm (u.map fun f => (order f.1 n, f.2)) := by
      have h1 := perm_sortByIndex (t.map fun f => (order f.1 n, f.2))
      have h2 := perm_sortByIndex (u.map fun f => (order f.1 n, f.2))
      rw [e] at h1
      exact h1.symm.trans h2
    refine canonical_eq_of_perm (hk t ht).2 (hk u hu).2 ?_
    rw [List.perm_ext_iff_of_nodup (List.Nodup.of_map _ (hk t ht).2.nodup) (List.Nodup.of_map _ (hk u hu).2.nodup)]
    have half : ∀ t ∈ keys o, ∀ u ∈ keys o, (t.map fun f => (order f.1 n, f.2)).Perm (u.map fun f => (order f.1 n, f.2)) → ∀ a ∈ t, a ∈ u := by
      intro t ht u hu hp a ha
      obtain ⟨b, hb, e⟩ := List.mem_map.1 (hp.mem_iff.1 (List.mem_map_of_mem ha))
      rw [Prod.mk.injEq] at e
      have := hinj b.1 ((hk u hu).1 b hb) a.1 ((hk t ht).1 a ha) e.1
      rwa [← Prod.ext this e.2]
    exact fun a => ⟨half t ht u hu hp a, half u hu t ht hp.symm a⟩

/-- C50: `reorder(..., reverse=True)` with the same number of modes undoes `reorder` (fermion operators). -/
theorem reorder_fermion_reverse {o : Terms Bool} (hw : WF o) (order : ℕ → ℕ → ℕ) (n : ℕ) (hn : ∀ kv ∈ o, ∀ f ∈ kv.1, f.1 < n)
    (hinj : ∀ i < n, ∀ j < n, order i n = order j n → i = j) :
    (reorder fermion o order (some n) false).bind (fun r => reorder fermion r order (some n) true) = .ok (bigTerms o) := by
  classical
  rw [reorder_fermion hw order n hn hinj]
  set r : Terms Bool := (bigTerms o).map fun kv => (kv.1.map fun f => (order f.1 n, f.2), kv.2) with hr
  show reorder fermion r order (some n) true = _
  have hsub : ∀ kv ∈ bigTerms o, kv ∈ o := fun kv hkv => (List.mem_filter.1 hkv).1
  let inv : ℕ → ℕ := fun j => (get? (modeMap order n true) j).getD 0
  have hinv : ∀ i < n, inv (order i n) = i := fun i hi => by
    show (get? _ _).getD 0 = i
    rw [get?_modeMap_reverse order n i hi hinj]; rfl
  have hback : ∀ kv ∈ bigTerms o, (kv.1.map fun f => (order f.1 n, f.2)).map (fun f => (inv f.1, f.2)) = kv.1 := by
    intro kv hkv
    rw [List.map_map]
    conv_rhs => rw [← List.map_id kv.1]
    refine List.map_congr_left fun f hf => ?_
    show (inv (order f.1 n), f.2) = f
    rw [hinv f.1 (hn kv (hsub kv hkv) f hf)]
  have hwr : WF r := by
    rw [WF, keys, hr, List.map_map]
    have := wf_bigTerms hw
    rw [WF, keys, List.Nodup, List.pairwise_map] at this
    rw [List.Nodup, List.pairwise_map]
    refine (List.Pairwise.and_mem.1 this).imp ?_
    rintro a b ⟨ha, hb, hab⟩ e
    apply hab
    rw [← hback a ha, ← hback b hb]
    exact congrArg (List.map fun f => (inv f.1, f.2)) e
  have hrk : ∀ t ∈ keys r, ∃ kv ∈ bigTerms o, t = kv.1.map fun f => (order f.1 n, f.2) := by
    intro t ht
    obtain ⟨kv', hkv', rfl⟩ := List.mem_map.1 ht
    obtain ⟨kv, hkv, rfl⟩ := List.mem_map.1 hkv'
    exact ⟨kv, hkv, rfl⟩
  have hcore := reorder_core fermion r hwr (modeMap order n true) inv (fun t => t.map fun f => (inv f.1, f.2)) ?_ (fun kv _ => rfl) ?_
  · refine hcore.trans ?_
    have hbig : bigTerms r = r := bigTerms_eq_self fun kv hkv => by
      obtain ⟨kv', hkv', rfl⟩ := List.mem_map.1 hkv
      simpa using (List.mem_filter.1 hkv').2
    rw [hbig, hr, List.map_map]
    congr 1
    conv_rhs => rw [← List.map_id (bigTerms o)]
    refine List.map_congr_left fun kv hkv => ?_
    show ((kv.1.map fun f => (order f.1 n, f.2)).map (fun f => (inv f.1, f.2)), kv.2) = kv
    rw [hback kv hkv]
  · intro kv hkv f hf
    obtain ⟨kv', hkv', e⟩ := hrk kv.1 (List.mem_map_of_mem hkv)
    rw [e] at hf
    obtain ⟨g, hg, rfl⟩ := List.mem_map.1 hf
    have hgn := hn kv' (hsub kv' hkv') g hg
    dsimp only
    rw [get?_modeMap_reverse order n g.1 hgn hinj, hinv g.1 hgn]
  · intro t ht u hu e
    obtain ⟨a, ha, rfl⟩ := hrk t ht
    obtain ⟨b, hb, rfl⟩ := hrk u hu
    rw [hback a ha, hback b hb] at e
    rw [e]

/-- C50: `reorder(..., reverse=True)` with the same number of modes undoes `reorder` (qubit operators). -/
theorem reorder_qubit_reverse {o : Terms Letter} (h : CanonicalOp o) (order : ℕ → ℕ → ℕ) (n : ℕ) (hn : ∀ kv ∈ o, ∀ f ∈ kv.1, f.1 < n)
    (hinj : ∀ i < n, ∀ j < n, order i n = order j n → i = j) :
    (reorder qubit o order (some n) false).bind (fun r => reorder qubit r order (some n) true) = .ok (bigTerms o) := by
  classical
  rw [reorder_qubit h order n hn hinj]
  set sh : Term Letter → Term Letter := fun t => sortByIndex (t.map fun f => (order f.1 n, f.2)) with hsh
  set r : Terms Letter := (bigTerms o).map fun kv => (sh kv.1, kv.2) with hr
  show reorder qubit r order (some n) true = _
  have hsub : ∀ kv ∈ bigTerms o, kv ∈ o := fun kv hkv => (List.mem_filter.1 hkv).1
  have hcan : ∀ kv ∈ bigTerms o, Canonical kv.1 := fun kv hkv => h.2 kv.1 (List.mem_map_of_mem (hsub kv hkv))
  let inv : ℕ → ℕ := fun j => (get? (modeMap order n true) j).getD 0
  have hinv : ∀ i < n, inv (order i n) = i := fun i hi => by
    show (get? _ _).getD 0 = i
    rw [get?_modeMap_reverse order n i hi hinj]; rfl
  -- mapping back gives a rearrangement of the original term
  have hperm : ∀ kv ∈ bigTerms o, ((sh kv.1).map fun f => (inv f.1, f.2)).Perm kv.1 := by
    intro kv hkv
    refine ((perm_sortByIndex _).map _).trans ?_
    rw [List.map_map]
    have : kv.1.map ((fun f : ℕ × Letter => (inv f.1, f.2)) ∘ fun f => (order f.1 n, f.2)) = kv.1 := by
      conv_rhs => rw [← List.map_id kv.1]
      refine List.map_congr_left fun f hf => ?_
      show (inv (order f.1 n), f.2) = f
      rw [hinv f.1 (hn kv (hsub kv hkv) f hf)]
    rw [this]
  have hback : ∀ kv ∈ bigTerms o, ∀ c, qubitSimplify ((sh kv.1).map fun f => (inv f.1, f.2)) c = (c, kv.1) := by
    intro kv hkv c
    rw [← qubitSimplify_perm (hperm kv hkv).symm (hcan kv hkv).nodup, qubitSimplify_of_canonical (hcan kv hkv)]
  have hwr : WF r := by
    rw [WF, keys, hr, List.map_map]
    have := wf_bigTerms h.1
    rw [WF, keys, List.Nodup, List.pairwise_map] at this
    rw [List.Nodup, List.pairwise_map]
    refine (List.Pairwise.and_mem.1 this).imp ?_
    rintro a b ⟨ha, hb, hab⟩ e
    apply hab
    have e' : sh a.1 = sh b.1 := e
    have h1 := hback a ha 1
    rw [e', hback b hb 1] at h1
    exact (Prod.mk.injEq .. ▸ h1).2.symm
  have hrk : ∀ t ∈ keys r, ∃ kv ∈ bigTerms o, t = sh kv.1 := by
    intro t ht
    obtain ⟨kv', hkv', rfl⟩ := List.mem_map.1 ht
    obtain ⟨kv, hkv, rfl⟩ := List.mem_map.1 hkv'
    exact ⟨kv, hkv, rfl⟩
  have hcore := reorder_core qubit r hwr (modeMap order n true) inv (fun t => (qubitSimplify (t.map fun f => (inv f.1, f.2)) 1).2) ?_ ?_ ?_
  · refine hcore.trans ?_
    have hbig : bigTerms r = r := bigTerms_eq_self fun kv hkv => by
      obtain ⟨kv', hkv', rfl⟩ := List.mem_map.1 hkv
      simpa using (List.mem_filter.1 hkv').2
    rw [hbig, hr, List.map_map]
    congr 1
    conv_rhs => rw [← List.map_id (bigTerms o)]
    refine List.map_congr_left fun kv hkv => ?_
    show ((qubitSimplify ((sh kv.1).map fun f => (inv f.1, f.2)) 1).2, kv.2) = kv
    rw [hback kv hkv]
  · intro kv hkv f hf
    obtain ⟨kv', hkv', e⟩ := hrk kv.1 (List.mem_map_of_mem hkv)
    rw [e] at hf
    obtain ⟨g, hg, rfl⟩ := List.mem_map.1 ((perm_sortByIndex _).mem_iff.1 hf)
    have hgn := hn kv' (hsub kv' hkv') g hg
    dsimp only
    rw [get?_modeMap_reverse order n g.1 hgn hinj, hinv g.1 hgn]
  · intro kv hkv
    obtain ⟨kv', hkv', e⟩ := hrk kv.1 (List.mem_map_of_mem hkv)
    show qubitSimplify _ _ = _
    rw [e, hback kv' hkv', hback kv' hkv']
  · intro t ht u hu e
    obtain ⟨a, ha, rfl⟩ := hrk t ht
    obtain ⟨b, hb, rfl⟩ := hrk u hu
    rw [hback a ha, hback b hb] at e
    dsimp only at e
    rw [e]

/-- A mode outside the map raises `KeyError`. -/
theorem reorder_keyError {A : Type} [DecidableEq A] (S : OpClass A) (o : Terms A) (order : ℕ → ℕ → ℕ) (n : ℕ)
    (h : ∃ kv ∈ o, ∃ f ∈ kv.1, n ≤ f.1) : reorder S o order (some n) false = .error .keyError := by
  have hrel : ∀ t : Term A, (∃ f ∈ t, n ≤ f.1) → relabel (modeMap order n false) t = .error .keyError := by
    intro t
    induction t with
    | nil => rintro ⟨f, hf, _⟩; simp at hf
    | cons g t ih =>
      rintro ⟨f, hf, hnf⟩
      rw [relabel, List.mapM_cons]
      by_cases hg : g.1 < n
      · rw [get?_modeMap order n g.1 hg]
        have : ∃ f ∈ t, n ≤ f.1 := by
          rcases List.mem_cons.1 hf with rfl | hf
          · omega
          · exact ⟨f, hf, hnf⟩
        have e := ih this
        rw [relabel] at e
        rw [e]; rfl
      · rw [get?_modeMap_none order n g.1 (by omega)]; rfl
  have hrel' : ∀ t : Term A, (∃ t', relabel (modeMap order n false) t = .ok t') ∨ relabel (modeMap order n false) t = .error .keyError := by
    intro t
    by_cases ht : ∃ f ∈ t, n ≤ f.1
    · exact Or.inr (hrel t ht)
    · push Not at ht
      exact Or.inl ⟨_, relabel_ok _ (fun i => order i n) t fun f hf => get?_modeMap order n f.1 (ht f hf)⟩
  show List.foldlM _ [] o = _
  generalize ([] : Terms A) = acc
  induction o generalizing acc with
  | nil => obtain ⟨kv, hkv, _⟩ := h; simp at hkv
  | cons kv o ih =>
    rw [List.foldlM_cons]
    rcases hrel' kv.1 with ⟨t', ht'⟩ | ht'
    · rw [ht']
      refine ih ?_ _
      obtain ⟨kv', hkv', f, hf, hnf⟩ := h
      rcases List.mem_cons.1 hkv' with rfl | hkv'
      · rw [hrel kv'.1 ⟨f, hf, hnf⟩] at ht'; simp at ht'
      · exact ⟨kv', hkv', f, hf, hnf⟩
    · rw [ht']; rfl

/-- `up_then_down` on six modes meets the hypotheses of the reordering theorems. -/
example : ∀ i < 6, ∀ j < 6, upThenDown i 6 = upThenDown j 6 → i = j := by decide

/-- For every `n`, too. -/
example (n : ℕ) : ∀ i < n, ∀ j < n, upThenDown i n = upThenDown j n → i = j :=
  fun _ hi _ hj e => (upThenDown_bijective n).2.1 hi hj e

end ZQ.Op
