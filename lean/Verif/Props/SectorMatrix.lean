import Verif.Props.SectorOp
import Verif.Lemmas.NormalModes

/-! # C91: `get_number_preserving_sparse_operator` -/

namespace ZQ.Sector

open ZQ ZQ.Op PyDict

instance (P : ℕ → Bool) (t : Term Bool) : Decidable (Conserves P t) := inferInstanceAs (Decidable (_ = _))

theorem conserves_closed (P : ℕ → Bool) : Closed (Conserves P) := by
  refine ⟨fun t u h ht => ?_, fun p u h => ?_⟩
  · unfold Conserves FTools.countOps at *
    rwa [← h.countP_eq, ← h.countP_eq]
  · unfold Conserves FTools.countOps at *
    simp only [List.countP_cons] at h
    generalize u.countP (fun f => (f.2 == true) && P f.1) = a at h ⊢
    generalize u.countP (fun f => (f.2 == false) && P f.1) = b at h ⊢
    cases hp : P p <;> simp [hp] at h <;> omega

theorem length_modes (t : Term Bool) (b : Bool) : (modes t b).length = FTools.countOps t b fun _ => true := by
  rw [modes, List.length_reverse, List.length_map, FTools.countOps, List.countP_eq_length_filter]
  congr 2
  funext f; simp

theorem flip_count (r : List (ℕ × Bool)) (P : ℕ → Bool) (d : Det) (p : ℤ) (hr : ∀ f ∈ r, f.1 < d.length) (ha : Applicable r d) :
    ((occupied (r.foldl flipStep (p, d)).2).filter fun i => P i = true).card + r.countP (fun f => (f.2 == false) && P f.1) =
      ((occupied d).filter fun i => P i = true).card + r.countP (fun f => (f.2 == true) && P f.1) := by
  induction r generalizing d p with
  | nil => rfl
  | cons f r ih =>
    obtain ⟨i, b⟩ := f
    obtain ⟨h1, h2⟩ := ha
    dsimp only at h1 h2
    have hi : i < d.length := hr _ (List.mem_cons_self ..)
    have e : flipStep (p, d) (i, b) = (p * (-1) ^ (d.take i).count true, d.set i b) := by
      rw [flipStep]; dsimp only; rw [h1, Bool.not_not]
    have := ih (d.set i b) (p * (-1) ^ (d.take i).count true) (fun g hg => by rw [List.length_set]; exact hr g (List.mem_cons_of_mem _ hg)) h2
    rw [List.foldl_cons, e, List.countP_cons, List.countP_cons]
    dsimp only
    generalize r.countP (fun f => (f.2 == true) && P f.1) = na at this ⊢
    generalize r.countP (fun f => (f.2 == false) && P f.1) = nb at this ⊢
    cases b with
    | true =>
      have ho : occupied (d.set i true) = insert i (occupied d) := by
        ext j
        rw [mem_occupied, getD_set, Finset.mem_insert, mem_occupied]
        by_cases h : i = j
        · subst h; rw [if_pos ⟨rfl, hi⟩]; simp
        · rw [if_neg fun e => h e.1]; simp [Ne.symm h]
      have hni : i ∉ occupied d := by rw [mem_occupied, h1]; simp
      rw [ho, Finset.filter_insert] at this
      cases hP : P i with
      | true =>
        rw [hP, if_pos rfl, Finset.card_insert_of_notMem (fun h => hni (Finset.mem_filter.1 h).1)] at this
        simp; omega
      | false =>
        rw [hP, if_neg (by simp)] at this
        simp; omega
    | false =>
      have ho : occupied d = insert i (occupied (d.set i false)) := by
        ext j
        rw [mem_occupied, Finset.mem_insert, mem_occupied, getD_set]
        by_cases h : i = j
        · subst h; simp only [h1]; simp
        · rw [if_neg fun e => h e.1]; simp [Ne.symm h]
      have hni : i ∉ occupied (d.set i false) := by rw [mem_occupied, getD_set, if_pos ⟨rfl, hi⟩]; simp
      rw [ho, Finset.filter_insert]
      cases hP : P i with
      | true =>
        rw [if_pos rfl, Finset.card_insert_of_notMem (fun h => hni (Finset.mem_filter.1 h).1)]
        simp; omega
      | false =>
        rw [if_neg (by simp)]
        simp; omega

/-- A product with as many creation as annihilation operators on some modes keeps the number of electrons there. -/
theorem target_count {t : Term Bool} {P : ℕ → Bool} (hP : Conserves P t) {d : Det} (hr : ∀ f ∈ t, f.1 < d.length) (ha : Applicable t.reverse d) :
    ((occupied (target t d)).filter fun i => P i = true).card = ((occupied d).filter fun i => P i = true).card := by
  have := flip_count t.reverse P d 1 (fun f hf => hr f (List.mem_reverse.1 hf)) ha
  unfold Conserves FTools.countOps at hP
  rw [(List.reverse_perm t).countP_eq, (List.reverse_perm t).countP_eq, hP] at this
  rw [target]
  omega

theorem target_card {t : Term Bool} (hP : Conserves (fun _ => true) t) {d : Det} (hr : ∀ f ∈ t, f.1 < d.length) (ha : Applicable t.reverse d) :
    (occupied (target t d)).card = (occupied d).card := by
  have := target_count hP hr ha
  simpa using this

/-! ### The loop over the terms -/

/-- The matrix of one term: the identity for the empty one. -/
noncomputable def termMatrix (n : ℕ) (states : List Det) (t : Term Bool) : Except Err (Mat ℂ) :=
  if t.length = 0 then .ok (Mat.eye states.length) else buildTermOp n states (states.map encode) (argsort (states.map encode)) t

theorem termStep_eq (n : ℕ) (states : List Det) (M : Mat ℂ) (kv : Term Bool × ℂ) : termStep n states (states.map encode) (argsort (states.map encode)) M kv =
    (termMatrix n states kv.1).map fun T => ⟨states.length, states.length, fun i j => M.e i j + kv.2 * T.e i j⟩ := by
  unfold termStep termMatrix
  split_ifs with h
  · rfl
  · cases buildTermOp n states (states.map encode) (argsort (states.map encode)) kv.1 <;> rfl

/-- The matrix has the elements of the term. -/
def Represents (states : List Det) (t : Term Bool) (T : Mat ℂ) : Prop :=
  ∀ i j, i < states.length → j < states.length →
    T.e i j = termAction ladderAction t (basisState (occupation (states.getD j []))) (occupation (states.getD i []))

theorem eye_represents {states : List Det} {n : ℕ} (hn : states.Nodup) (hl : ∀ d ∈ states, d.length = n) : Represents states [] (Mat.eye states.length) := by
  intro i j hi hj
  rw [termAction_nil]
  show (if i = j then 1 else 0) = basisState _ _
  by_cases h : i = j
  · subst h; rw [basisState_self, if_pos rfl]
  · rw [if_neg h, basisState_ne]
    intro e
    have h1 : states.getD i [] = states.getD j [] := by
      refine occupation_inj ?_ e
      rw [List.getD_eq_getElem _ _ hi, List.getD_eq_getElem _ _ hj, hl _ (List.getElem_mem hi), hl _ (List.getElem_mem hj)]
    rw [List.getD_eq_getElem _ _ hi, List.getD_eq_getElem _ _ hj] at h1
    exact h ((hn.getElem_inj_iff).1 h1)

theorem fold_ok {states : List Det} {n : ℕ} (l : Terms Bool) (h : ∀ kv ∈ l, ∃ T, termMatrix n states kv.1 = .ok T ∧ Represents states kv.1 T) (M : Mat ℂ)
    (hM : M.rows = states.length ∧ M.cols = states.length) :
    ∃ M', l.foldlM (termStep n states (states.map encode) (argsort (states.map encode))) M = .ok M' ∧ M'.rows = states.length ∧ M'.cols = states.length ∧
      ∀ i j, i < states.length → j < states.length →
        M'.e i j = M.e i j + element l (occupation (states.getD i [])) (occupation (states.getD j [])) := by
  induction l generalizing M with
  | nil => exact ⟨M, rfl, hM.1, hM.2, fun i j _ _ => by rw [element_eq]; simp⟩
  | cons kv l ih =>
    obtain ⟨T, hT, hR⟩ := h kv (List.mem_cons_self ..)
    have hs : termStep n states (states.map encode) (argsort (states.map encode)) M kv =
        .ok ⟨states.length, states.length, fun i j => M.e i j + kv.2 * T.e i j⟩ := by
      rw [termStep_eq, hT]
      rfl
    obtain ⟨M', h1, h2, h3, h4⟩ := ih (fun kv hkv => h kv (List.mem_cons_of_mem _ hkv)) ⟨states.length, states.length, fun i j => M.e i j + kv.2 * T.e i j⟩ ⟨rfl, rfl⟩
    refine ⟨M', ?_, h2, h3, fun i j hi hj => ?_⟩
    · rw [List.foldlM_cons, hs]
      exact h1
    · rw [h4 i j hi hj, element_eq, element_eq, List.map_cons, List.sum_cons]
      dsimp only
      rw [hR i j hi hj]
      ring

theorem fold_error {states : List Det} {n : ℕ} (l : Terms Bool) (e : Err)
    (h : ∀ kv ∈ l, termMatrix n states kv.1 = .error e ∨ ∃ T, termMatrix n states kv.1 = .ok T) (he : ∃ kv ∈ l, termMatrix n states kv.1 = .error e) (M : Mat ℂ) :
    l.foldlM (termStep n states (states.map encode) (argsort (states.map encode))) M = .error e := by
  induction l generalizing M with
  | nil => obtain ⟨_, h, _⟩ := he; cases h
  | cons kv l ih =>
    rw [List.foldlM_cons]
    rcases h kv (List.mem_cons_self ..) with h' | ⟨T, h'⟩
    · rw [termStep_eq, h']
      rfl
    · have he' : ∃ kv ∈ l, termMatrix n states kv.1 = .error e := by
        obtain ⟨kv', h1, h2⟩ := he
        rcases List.mem_cons.1 h1 with rfl | h1
        · rw [h'] at h2; cases h2
        · exact ⟨kv', h1, h2⟩
      have hs : termStep n states (states.map encode) (argsort (states.map encode)) M kv =
          .ok ⟨states.length, states.length, fun i j => M.e i j + kv.2 * T.e i j⟩ := by
        rw [termStep_eq, h']
        rfl
      rw [hs]
      exact ih (fun kv hkv => h kv (List.mem_cons_of_mem _ hkv)) he' _

theorem fold_sound {states : List Det} {n : ℕ} (l : Terms Bool) (M M' : Mat ℂ)
    (h : l.foldlM (termStep n states (states.map encode) (argsort (states.map encode))) M = .ok M') : ∀ kv ∈ l, ∃ T, termMatrix n states kv.1 = .ok T := by
  induction l generalizing M with
  | nil => intro kv hkv; cases hkv
  | cons kv l ih =>
    rw [List.foldlM_cons] at h
    intro kv' hkv'
    cases hT : termMatrix n states kv.1 with
    | error e =>
      have : termStep n states (states.map encode) (argsort (states.map encode)) M kv = .error e := by
        rw [termStep_eq, hT]
        rfl
      rw [this] at h
      cases h
    | ok T =>
      rcases List.mem_cons.1 hkv' with rfl | hkv'
      · exact ⟨T, hT⟩
      · have : termStep n states (states.map encode) (argsort (states.map encode)) M kv =
            .ok ⟨states.length, states.length, fun i j => M.e i j + kv.2 * T.e i j⟩ := by
          rw [termStep_eq, hT]
          rfl
        rw [this] at h
        exact ih _ h kv' hkv'

theorem build_sound {states : List Det} {n : ℕ} (hn : states.Nodup) (hl : ∀ d ∈ states, d.length = n) {t : Term Bool} (ht : NormalTerm t) {T : Mat ℂ}
    (h : buildTermOp n states (states.map encode) (argsort (states.map encode)) t = .ok T) : Represents states t T := by
  have hb : (modes t true).length = (modes t false).length := by
    by_contra hb
    rw [buildTermOp, if_pos] at h
    · cases h
    · rw [needs_eq ht]; dsimp only; omega
  have hlt : ∀ f ∈ t, f.1 < n := by
    rw [← modes_lt ht n]
    by_contra hlt
    rw [buildTermOp, if_neg (by rw [needs_eq ht]; dsimp only; omega), if_pos hlt] at h
    cases h
  have hmax : ∀ d ∈ states, Applicable t.reverse d → ∃ d' ∈ states, encode (target t d) ≤ encode d' := by
    intro d hd ha
    by_contra hno
    have hno' : ∀ d' ∈ states, encode d' < encode (target t d) := fun d' hd' => by
      by_contra hge; exact hno ⟨d', hd', Nat.le_of_not_lt hge⟩
    obtain ⟨j, hj, rfl⟩ := List.getElem_of_mem hd
    rw [buildTermOp, if_neg (by rw [needs_eq ht]; dsimp only; omega), if_neg (by rw [not_not]; exact (modes_lt ht n).2 hlt)] at h
    cases hm : (candidates states (t.reverse.foldl needsStep ⟨[], [], 0⟩)).mapM (stateEntry states (states.map encode) (argsort (states.map encode)) t) with
    | error e => rw [hm] at h; cases h
    | ok es =>
      rw [ZQ.mapM_ok_iff] at hm
      have hc := (mem_candidates ht states j).2 ⟨hj, by rw [List.getD_eq_getElem _ _ hj]; exact ha⟩
      have herr := (stateEntry_eq hn hl t hj).2 (by rw [List.getD_eq_getElem _ _ hj]; exact hno')
      obtain ⟨k, hk, hkj⟩ := List.getElem_of_mem hc
      have hk' : k < es.length := by rw [← hm.length_eq]; exact hk
      have := List.Forall₂.get hm hk hk'
      simp only [List.get_eq_getElem, hkj, herr] at this
      cases this
  obtain ⟨T', h1, h2⟩ := build_ok hn hl ht hb hlt hmax
  rw [h1] at h
  cases h
  exact h2

theorem basis_ok (ref : Det) {level : ℤ} (hL : 0 ≤ level) (spin : Bool) : IsSectorBasis ref level spin (iterateBasis ref level spin) ∧
    (∀ d ∈ iterateBasis ref level spin, d.length = ref.length) ∧ iterateBasis ref level spin ≠ [] ∧ ref ∈ iterateBasis ref level spin := by
  obtain ⟨h1, h2, h3⟩ := basis_spec ref level spin
  refine ⟨⟨h1, h2, h3 hL⟩, fun d hd => ((h2 d).1 hd).1, fun e => ?_, List.mem_of_head? (h3 hL)⟩
  have := h3 hL
  rw [e] at this
  cases this

theorem eval_of_action {o o' : Terms Bool} (h : action ladderAction o = action ladderAction o') (s s' : ℕ → Bool) : element o s s' = element o' s s' := by
  rw [element, element, h]

/-- C91: whenever a matrix is returned, it is the matrix of the operator in the sector. -/
theorem sector_sound (o : Terms Bool) (n : ℕ) (ne : ℤ) (spin : Bool) (ref : Option Det) (level : Option ℤ) (M : Mat ℂ)
    (h : numberPreservingSparse o n ne spin ref level = .ok M) :
    ∃ basis, IsSectorBasis (ref.getD (hartreeFock n ne)) (level.getD ne) spin basis ∧ IsMatrixOf (normalOrdered o) basis M ∧
      ∀ δ : ℝ, 1 / 10 ^ 8 ≤ δ → (∀ kv ∈ o, kv.2 ∈ Grid δ) → IsMatrixOf o basis M := by
  have hL : 0 ≤ level.getD ne := by
    by_contra hL
    obtain ⟨_, h2, _⟩ := basis_spec (ref.getD (hartreeFock n ne)) (level.getD ne) spin
    have he : iterateBasis (ref.getD (hartreeFock n ne)) (level.getD ne) spin = [] := by
      rw [List.eq_nil_iff_forall_not_mem]
      intro d hd
      have := ((h2 d).1 hd).2.2.1
      omega
    rw [numberPreservingSparse, if_neg (fun e => hL e.2), if_pos he] at h
    cases h
  obtain ⟨hB, hl, hne, _⟩ := basis_ok (ref.getD (hartreeFock n ne)) hL spin
  rw [numberPreservingSparse] at h
  dsimp only at h
  set R := ref.getD (hartreeFock n ne)
  set S := iterateBasis R (level.getD ne) spin
  split_ifs at h with h1
  have hN := normalOrdered_ordered o
  have hT : ∀ kv ∈ normalOrdered o, ∃ T, termMatrix R.length S kv.1 = .ok T ∧ Represents S kv.1 T := by
    intro kv hkv
    obtain ⟨T, hT⟩ := fold_sound _ _ _ h kv hkv
    refine ⟨T, hT, ?_⟩
    rw [termMatrix] at hT
    split_ifs at hT with h0
    · cases hT
      rw [List.length_eq_zero_iff.1 h0]
      exact eye_represents hB.1 hl
    · exact build_sound hB.1 hl (hN.2.1 _ (List.mem_map_of_mem hkv)) hT
  obtain ⟨M', m1, m2, m3, m4⟩ := fold_ok (normalOrdered o) hT ⟨S.length, S.length, fun _ _ => 0⟩ ⟨rfl, rfl⟩
  rw [h] at m1
  cases m1
  have hM : IsMatrixOf (normalOrdered o) S M := ⟨m2, m3, fun i j hi hj => by rw [m4 i j hi hj]; simp⟩
  refine ⟨S, hB, hM, fun δ hδ hg => ⟨m2, m3, fun i j hi hj => ?_⟩⟩
  rw [hM.2.2 i j hi hj]
  exact eval_of_action (normalOrdered_action o δ hδ hg) _ _

/-- The encoding of every target is at most that of a basis state. -/
theorem covered {R : Det} {L : ℤ} {spin : Bool} (hL : 0 ≤ L) {t : Term Bool} (hb : Conserves (fun _ => true) t) (hlt : ∀ f ∈ t, f.1 < R.length)
    (hcase : (∃ n ne, R = hartreeFock n ne) ∨ ((occupied R).card : ℤ) ≤ L ∧ (spin = true → Conserves (fun i => i % 2 == 0) t)) :
    ∀ d ∈ iterateBasis R L spin, Applicable t.reverse d → ∃ d' ∈ iterateBasis R L spin, encode (target t d) ≤ encode d' := by
  intro d hd ha
  obtain ⟨_, _, _, hmem⟩ := basis_ok R hL spin
  obtain ⟨i1, i2, i3, i4⟩ := ((basis_spec R L spin).2.1 d).1 hd
  have hlt' : ∀ f ∈ t, f.1 < d.length := by rw [i1]; exact hlt
  have hcard := target_card hb hlt' ha
  have hlen : (target t d).length = R.length := by rw [target, length_flip]; exact i1
  rcases hcase with ⟨n, ne, rfl⟩ | ⟨hc, hs⟩
  · refine ⟨hartreeFock n ne, hmem, hartreeFock_max n ne _ ?_ (hcard.trans i2)⟩
    rw [hlen]; simp [hartreeFock]
  · refine ⟨target t d, ((basis_spec R L spin).2.1 _).2 ⟨hlen, hcard.trans i2, ?_, fun hsp => ?_⟩, le_refl _⟩
    · have := Finset.card_le_card (Finset.sdiff_subset (s := occupied R) (t := occupied (target t d)))
      omega
    · have he := target_count (hs hsp) hlt' ha
      simp only [beq_iff_eq] at he
      have s1 := card_parity (occupied (target t d))
      have s2 := card_parity (occupied d)
      have := i4 hsp
      omega

/-- C91: number conserving operators on existing modes are represented, if the reference is the default one or all determinants of the sector are
included (for a spin sector: if the operator also conserves the spin).  Missing: other references with an excitation level, for which the claim is
refuted by `sector_counterexample`. -/
theorem sector_ok_partial (o : Terms Bool) (n : ℕ) (ne : ℤ) (spin : Bool) (ref : Option Det) (level : Option ℤ) (hL : 0 ≤ level.getD ne)
    (h0 : ref.getD (hartreeFock n ne) ≠ []) (hb : ∀ kv ∈ o, Conserves (fun _ => true) kv.1)
    (hlt : ∀ kv ∈ o, ∀ f ∈ kv.1, f.1 < (ref.getD (hartreeFock n ne)).length)
    (hcase : ref = none ∨ ((occupied (ref.getD (hartreeFock n ne))).card : ℤ) ≤ level.getD ne ∧
      (spin = true → ∀ kv ∈ o, Conserves (fun i => i % 2 == 0) kv.1)) :
    ∃ M, numberPreservingSparse o n ne spin ref level = .ok M := by
  obtain ⟨hB, hl, hne, _⟩ := basis_ok (ref.getD (hartreeFock n ne)) hL spin
  have hb' := normalOrdered_closed (conserves_closed fun _ => true) o hb
  have hlt' := normalOrdered_factors (Q := fun f => f.1 < (ref.getD (hartreeFock n ne)).length) o hlt
  have hT : ∀ kv ∈ normalOrdered o, ∃ T, termMatrix (ref.getD (hartreeFock n ne)).length (iterateBasis (ref.getD (hartreeFock n ne)) (level.getD ne) spin) kv.1 = .ok T ∧
      Represents (iterateBasis (ref.getD (hartreeFock n ne)) (level.getD ne) spin) kv.1 T := by
    intro kv hkv
    have hk := List.mem_map_of_mem (f := Prod.fst) hkv
    rw [termMatrix]
    split_ifs with hz
    · refine ⟨_, rfl, ?_⟩
      rw [List.length_eq_zero_iff.1 hz]
      exact eye_represents hB.1 hl
    · refine build_ok hB.1 hl ((normalOrdered_ordered o).2.1 _ hk) (by rw [length_modes, length_modes]; exact hb' _ hk) (hlt' _ hk)
        (covered hL (hb' _ hk) (hlt' _ hk) ?_)
      rcases hcase with rfl | ⟨h1, h2⟩
      · exact Or.inl ⟨n, ne, rfl⟩
      · exact Or.inr ⟨h1, fun hs => normalOrdered_closed (conserves_closed _) o (h2 hs) _ hk⟩
  obtain ⟨M, hM, _⟩ := fold_ok (normalOrdered o) hT ⟨(iterateBasis (ref.getD (hartreeFock n ne)) (level.getD ne) spin).length,
    (iterateBasis (ref.getD (hartreeFock n ne)) (level.getD ne) spin).length, fun _ _ => 0⟩ ⟨rfl, rfl⟩
  exact ⟨M, by rw [numberPreservingSparse, if_neg (fun e => h0 e.1), if_neg hne]; exact hM⟩

/-- C91: with the default reference, a product that does not conserve the particle number raises `ValueError` (modes in range) and a mode that does not
exist raises `IndexError` (number conserving); a negative excitation level raises `IndexError`. -/
theorem sector_error (o : Terms Bool) (n : ℕ) (ne : ℤ) (spin : Bool) (level : Option ℤ) :
    (level.getD ne < 0 → numberPreservingSparse o n ne spin none level = .error .indexError) ∧
    (0 ≤ level.getD ne → 0 < n → (∀ kv ∈ o, ∀ f ∈ kv.1, f.1 < n) → (∃ t ∈ keys (normalOrdered o), ¬ Conserves (fun _ => true) t) →
      numberPreservingSparse o n ne spin none level = .error .valueError) ∧
    (0 ≤ level.getD ne → 0 < n → (∀ kv ∈ o, Conserves (fun _ => true) kv.1) → (∃ t ∈ keys (normalOrdered o), ∃ f ∈ t, n ≤ f.1) →
      numberPreservingSparse o n ne spin none level = .error .indexError) := by
  have hlen : (hartreeFock n ne).length = n := by simp [hartreeFock]
  refine ⟨fun hL => ?_, fun hL h0 hlt he => ?_, fun hL h0 hb he => ?_⟩
  · obtain ⟨_, h2, _⟩ := basis_spec (hartreeFock n ne) (level.getD ne) spin
    have he : iterateBasis (hartreeFock n ne) (level.getD ne) spin = [] := by
      rw [List.eq_nil_iff_forall_not_mem]
      intro d hd
      have := ((h2 d).1 hd).2.2.1
      omega
    rw [numberPreservingSparse, if_neg (fun e => by have := e.2; omega)]
    exact if_pos he
  · obtain ⟨hB, hl, hne, _⟩ := basis_ok (hartreeFock n ne) hL spin
    have hlt' := normalOrdered_factors (Q := fun f => f.1 < n) o hlt
    have hne' : hartreeFock n ne ≠ [] := fun e => by rw [e] at hlen; simp at hlen; omega
    rw [numberPreservingSparse, if_neg (fun e => hne' e.1)]
    refine (if_neg hne).trans ?_
    have hcase : ∀ t ∈ keys (normalOrdered o), (¬ Conserves (fun _ => true) t → termMatrix (hartreeFock n ne).length
        (iterateBasis (hartreeFock n ne) (level.getD ne) spin) t = .error .valueError) ∧ (Conserves (fun _ => true) t → ∃ T, termMatrix (hartreeFock n ne).length
        (iterateBasis (hartreeFock n ne) (level.getD ne) spin) t = .ok T) := by
      intro t ht
      have hn := (normalOrdered_ordered o).2.1 t ht
      constructor
      · intro hc
        have hz : t.length ≠ 0 := by
          intro e
          rw [List.length_eq_zero_iff.1 e] at hc
          exact hc rfl
        rw [termMatrix, if_neg hz, buildTermOp, if_pos]
        rw [needs_eq hn]
        have : (modes t true).length ≠ (modes t false).length := by rw [length_modes, length_modes]; exact hc
        dsimp only; omega
      · intro hc
        rw [termMatrix]
        split_ifs with hz
        · exact ⟨_, rfl⟩
        · have hr : ∀ f ∈ t, f.1 < (hartreeFock n ne).length := by rw [hlen]; exact hlt' t ht
          obtain ⟨T, hT, _⟩ := build_ok hB.1 hl hn (by rw [length_modes, length_modes]; exact hc) hr (covered hL hc hr (Or.inl ⟨n, ne, rfl⟩))
          exact ⟨T, hT⟩
    refine fold_error (normalOrdered o) .valueError (fun kv hkv => ?_) ?_ _
    · have := hcase kv.1 (List.mem_map_of_mem hkv)
      by_cases hc : Conserves (fun _ => true) kv.1
      · exact Or.inr (this.2 hc)
      · exact Or.inl (this.1 hc)
    · obtain ⟨t, ht, hc⟩ := he
      obtain ⟨kv, hkv, rfl⟩ := List.mem_map.1 ht
      exact ⟨kv, hkv, (hcase kv.1 ht).1 hc⟩
  · obtain ⟨hB, hl, hne, _⟩ := basis_ok (hartreeFock n ne) hL spin
    have hb' := normalOrdered_closed (conserves_closed fun _ => true) o hb
    have hne' : hartreeFock n ne ≠ [] := fun e => by rw [e] at hlen; simp at hlen; omega
    rw [numberPreservingSparse, if_neg (fun e => hne' e.1)]
    refine (if_neg hne).trans ?_
    have hcase : ∀ t ∈ keys (normalOrdered o), (¬ (∀ f ∈ t, f.1 < (hartreeFock n ne).length) → termMatrix (hartreeFock n ne).length
        (iterateBasis (hartreeFock n ne) (level.getD ne) spin) t = .error .indexError) ∧ ((∀ f ∈ t, f.1 < (hartreeFock n ne).length) → ∃ T, termMatrix (hartreeFock n ne).length
        (iterateBasis (hartreeFock n ne) (level.getD ne) spin) t = .ok T) := by
      intro t ht
      have hn := (normalOrdered_ordered o).2.1 t ht
      have hc := hb' t ht
      have hbal : (modes t true).length = (modes t false).length := by rw [length_modes, length_modes]; exact hc
      constructor
      · intro hr
        have hz : t.length ≠ 0 := by
          intro e
          rw [List.length_eq_zero_iff.1 e] at hr
          exact hr (by simp)
        rw [termMatrix, if_neg hz, buildTermOp, if_neg (by rw [needs_eq hn]; dsimp only; omega), if_pos]
        rw [modes_lt hn]; exact hr
      · intro hr
        rw [termMatrix]
        split_ifs with hz
        · exact ⟨_, rfl⟩
        · obtain ⟨T, hT, _⟩ := build_ok hB.1 hl hn hbal hr (covered hL hc hr (Or.inl ⟨n, ne, rfl⟩))
          exact ⟨T, hT⟩
    refine fold_error (normalOrdered o) .indexError (fun kv hkv => ?_) ?_ _
    · have := hcase kv.1 (List.mem_map_of_mem hkv)
      by_cases hc : ∀ f ∈ kv.1, f.1 < (hartreeFock n ne).length
      · exact Or.inr (this.2 hc)
      · exact Or.inl (this.1 hc)
    · obtain ⟨t, ht, f, hf, hc⟩ := he
      obtain ⟨kv, hkv, rfl⟩ := List.mem_map.1 ht
      refine ⟨kv, hkv, (hcase kv.1 ht).1 fun h => ?_⟩
      have := h f hf
      omega

/-- C91 counterexample: with another reference and an excitation level, an operator that leads out of the space raises `IndexError` although
these states are documented to be left out. Modes 2 and 3 of four are occupied, `a†_1 a_3` takes the singly excited `1001` to `1100`. -/
theorem sector_counterexample : numberPreservingSparse [([(1, true), (3, false)], 1)] 4 2 false (some [false, false, true, true]) (some 1) = .error .indexError := by
  have hn : NormalTerm [(1, true), (3, false)] := (isNormalOrderedTerm_iff _).1 (by decide +kernel)
  have hfix : normalOrdered [([(1, true), (3, false)], (1 : ℂ))] = [([(1, true), (3, false)], 1)] := by
    refine normalOrdered_fixed (wf_single _ _) ?_ ?_
    · intro t ht; rw [keys, List.map_singleton, List.mem_singleton] at ht; rw [ht]; exact hn
    · intro kv hkv; rw [List.mem_singleton] at hkv; rw [hkv]; norm_num
  obtain ⟨hB, hl, hne, _⟩ := basis_ok [false, false, true, true] (show (0 : ℤ) ≤ 1 by decide) false
  rw [numberPreservingSparse, hfix]
  refine (if_neg (by simp)).trans ((if_neg hne).trans ?_)
  have hT : termMatrix 4 (iterateBasis [false, false, true, true] 1 false) [(1, true), (3, false)] = .error .indexError := by
    have hm : (candidates (iterateBasis [false, false, true, true] 1 false) (([(1, true), (3, false)] : Term Bool).reverse.foldl needsStep ⟨[], [], 0⟩)).mapM
        (stateEntry (iterateBasis [false, false, true, true] 1 false) ((iterateBasis [false, false, true, true] 1 false).map encode)
          (argsort ((iterateBasis [false, false, true, true] 1 false).map encode)) [(1, true), (3, false)]) = .error .indexError := by decide +kernel
    rw [termMatrix, if_neg (by simp), buildTermOp, if_neg (by decide +kernel), if_neg (by decide +kernel), hm]
    rfl
  refine fold_error _ .indexError (fun kv hkv => Or.inl ?_) ⟨_, List.mem_singleton_self _, hT⟩ _
  rw [List.mem_singleton] at hkv
  rw [hkv]; exact hT

/-- Non-vacuity: a Hermitian hopping term between modes of equal spin, two electrons in four modes, all cases of the flags. -/
example (spin : Bool) (level : Option ℤ) (hL : 0 ≤ level.getD 2) :
    ∃ M, numberPreservingSparse [([(0, true), (2, false)], 1), ([(2, true), (0, false)], 1)] 4 2 spin none level = .ok M :=
  sector_ok_partial _ 4 2 spin none level hL (by decide) (by intro kv hkv; rcases List.mem_cons.1 hkv with rfl | hkv; (· decide +kernel); (· rw [List.mem_singleton.1 hkv]; decide +kernel)) (by intro kv hkv; rcases List.mem_cons.1 hkv with rfl | hkv; (· decide +kernel); (· rw [List.mem_singleton.1 hkv]; decide +kernel)) (Or.inl rfl)

/-- Non-vacuity: the full sector over another reference. -/
example : ∃ M, numberPreservingSparse [([(0, true), (2, false)], 1)] 4 2 true (some [false, false, true, true]) none = .ok M :=
  sector_ok_partial _ 4 2 true _ none (by decide) (by decide) (by intro kv hkv; rw [List.mem_singleton.1 hkv]; decide +kernel) (by intro kv hkv; rw [List.mem_singleton.1 hkv]; decide +kernel)
    (Or.inr ⟨by decide +kernel, fun _ kv hkv => by rw [List.mem_singleton.1 hkv]; decide +kernel⟩)

/-- Non-vacuity: a single creation operator is refused. -/
example : numberPreservingSparse [([(1, true)], 1)] 4 2 false none none = .error .valueError := by
  refine (sector_error _ 4 2 false none).2.1 (by decide) (by decide) (by intro kv hkv; rw [List.mem_singleton.1 hkv]; decide +kernel) ⟨[(1, true)], ?_, by decide +kernel⟩
  rw [normalOrdered_fixed (wf_single _ _) (fun t ht => ?_) (fun kv hkv => ?_)]
  · simp [keys]
  · rw [keys, List.map_singleton, List.mem_singleton] at ht; rw [ht]; exact (isNormalOrderedTerm_iff _).1 (by decide +kernel)
  · rw [List.mem_singleton] at hkv; rw [hkv]; norm_num

/-- Non-vacuity: mode 7 of four does not exist. -/
example : numberPreservingSparse [([(7, true), (1, false)], 1)] 4 2 false none none = .error .indexError := by
  refine (sector_error _ 4 2 false none).2.2 (by decide) (by decide) (by intro kv hkv; rw [List.mem_singleton.1 hkv]; decide +kernel)
    ⟨[(7, true), (1, false)], ?_, (7, true), by simp, by decide⟩
  rw [normalOrdered_fixed (wf_single _ _) (fun t ht => ?_) (fun kv hkv => ?_)]
  · simp [keys]
  · rw [keys, List.map_singleton, List.mem_singleton] at ht; rw [ht]; exact (isNormalOrderedTerm_iff _).1 (by decide +kernel)
  · rw [List.mem_singleton] at hkv; rw [hkv]; norm_num

end ZQ.Sector
