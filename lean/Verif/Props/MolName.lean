import Verif.Model.MolName
import Verif.Props.ActiveSpace

/-! C99: names, electrons and Hamiltonians of molecules. -/

namespace ZQ.MolStore

open ZQ ZQ.Results ZQ.PolyT ZQ.Op

/-- A set is iterated in some order, each element once. -/
def SetOrder (order : List Str → List Str) : Prop := ∀ l, (order l).Perm l.dedup

theorem bind_ok {α β : Type} {x : Except Err α} {f : α → Except Err β} {b : β} (h : (x >>= f) = .ok b) : ∃ a, x = .ok a ∧ f a = .ok b := by
  cases x with
  | error e => cases h
  | ok a => exact ⟨a, rfl, h⟩

/-! ## Symbols -/

/-- A text of an element: letters or the question mark, not empty. -/
def Symbol (s : Str) : Prop := s ≠ [] ∧ ∀ c ∈ s, c.isDigit = false ∧ c ≠ '-' ∧ c ≠ '_'

theorem symbols : ∀ s ∈ periodicTable.map String.toList, s ≠ [] ∧ ∀ c ∈ s, c.isDigit = false ∧ c ≠ '-' ∧ c ≠ '_' := by decide +kernel

theorem number_some {s : Str} (h : (number s).isSome) : s ∈ periodicTable.map String.toList := by
  by_contra hs
  rw [number, if_neg hs] at h
  cases h

theorem number_symbol {s : Str} (h : (number s).isSome) : Symbol s := symbols s (number_some h)

theorem number_inj {s t : Str} (hs : (number s).isSome) (ht : (number t).isSome) (h : (number s).getD 0 = (number t).getD 0) : s = t := by
  have h1 := number_some hs
  have h2 := number_some ht
  rw [number, if_pos h1, number, if_pos h2, Option.getD_some, Option.getD_some] at h
  exact (List.idxOf_inj h1).1 h

/-! ## The same name -/

theorem mem_order {order : List Str → List Str} (ho : SetOrder order) (l : List Str) (s : Str) : s ∈ order l ↔ s ∈ l := by
  rw [(ho l).mem_iff, List.mem_dedup]

theorem sortedInfo_perm {order order' : List Str → List Str} (ho : SetOrder order) (ho' : SetOrder order') {l l' : List Str} (hl : l.Perm l') :
    sortedInfo l (order l) = sortedInfo l' (order' l') := by
  have hp : (order l).Perm (order' l') := (ho l).trans ((hl.dedup).trans (ho' l').symm)
  rw [sortedInfo, sortedInfo]
  by_cases h : (order l).all fun s => (number s).isSome
  · have h' : (order' l').all fun s => (number s).isSome := by
      rw [List.all_eq_true] at h ⊢
      exact fun s hs => h s (hp.mem_iff.2 hs)
    rw [if_pos h, if_pos h']
    congr 1
    have hmap : ((order l).map fun s => (s, l.count s)).Perm ((order' l').map fun s => (s, l'.count s)) := by
      have : (order l).map (fun s => (s, l.count s)) = (order l).map fun s => (s, l'.count s) := by
        refine List.map_congr_left fun s _ => ?_
        rw [hl.count_eq]
      rw [this]
      exact hp.map _
    refine List.Perm.eq_of_pairwise ?_ (List.pairwise_insertionSort _ _) (List.pairwise_insertionSort _ _)
      ((List.perm_insertionSort _ _).trans (hmap.trans (List.perm_insertionSort _ _).symm))
    intro x y hx hy h1 h2
    rw [List.mem_insertionSort] at hx hy
    obtain ⟨s, hs, rfl⟩ := List.mem_map.1 hx
    obtain ⟨t, ht, rfl⟩ := List.mem_map.1 hy
    rw [List.all_eq_true] at h h'
    obtain rfl := number_inj (h s hs) (h' t ht) (le_antisymm h1 h2)
    rw [hl.count_eq]
  · have h' : ¬ (order' l').all fun s => (number s).isSome := by
      intro h'
      rw [List.all_eq_true] at h'
      exact h (List.all_eq_true.2 fun s hs => h' s (hp.mem_iff.1 hs))
    rw [if_neg h, if_neg h']

/-- C99: the name does not depend on the order of the atoms, on their positions or on the order in which a set is iterated. -/
theorem name_perm {order order' : List Str → List Str} (ho : SetOrder order) (ho' : SetOrder order') {l l' : List (Str × List ℝ)}
    (h : (l.map Prod.fst).Perm (l'.map Prod.fst)) (basis : Str) (m c : ℤ) (d : Str) :
    nameMolecule order (.atoms l) basis m c d = nameMolecule order' (.atoms l') basis m c d := by
  rw [nameMolecule, nameMolecule, nameStart, nameStart, sortedInfo_perm ho ho' h]

/-- C99. A molecule whose geometry is given by name is named after it, and the constructor accepts it exactly for the twelve multiplicities; it then has no
atoms and no electrons. -/
theorem name_text {D : Type} (order : List Str → List Str) (s basis : Str) (m c : ℤ) (d f dir : Str) :
    (1 ≤ m ∧ m ≤ 12 → ∃ (o : Obj D) (r : Str), construct order (.text s) basis m c d f dir = .ok o ∧ o.info.name = s ++ '_' :: basis ++ '_' :: r ∧
      o.info.nAtoms = 0 ∧ o.info.atoms = [] ∧ o.info.nElectrons = some 0) ∧
    (¬ (1 ≤ m ∧ m ≤ 12) → (construct order (.text s) basis m c d f dir : Except Err (Obj D)) = .error .runtimeError) := by
  constructor
  · intro hm
    obtain ⟨t, ht⟩ : ∃ t, multiplicityName m = some t := by
      rw [multiplicityName, if_neg (by omega)]
      exact ⟨_, List.getElem?_eq_getElem (by simp only [List.length_cons, List.length_nil]; omega)⟩
    rw [construct, nameMolecule, nameStart, nameRest, ht]
    exact ⟨_, t.toList ++ chargeText c ++ (if d = [] then [] else '_' :: d), rfl, by simp, rfl, rfl, rfl⟩
  · intro hm
    have ht : multiplicityName m = none := by
      rw [multiplicityName]
      by_cases h : m < 1
      · rw [if_pos h]
      · rw [if_neg h]
        exact List.getElem?_eq_none (by simp only [List.length_cons, List.length_nil]; omega)
    rw [construct, nameMolecule, nameStart, nameRest, ht]
    rfl

/-! ## Different names -/

theorem split_digits {a d t a' d' t' : Str} (ha : ∀ c ∈ a, c.isDigit = false) (ha' : ∀ c ∈ a', c.isDigit = false) (hd : d ≠ []) (hd' : d' ≠ [])
    (h1 : ∀ c ∈ d, c.isDigit) (h2 : ∀ c ∈ d', c.isDigit) (ht : ∀ c u, t = c :: u → c.isDigit = false) (ht' : ∀ c u, t' = c :: u → c.isDigit = false)
    (h : a ++ (d ++ t) = a' ++ (d' ++ t')) : a = a' ∧ d = d' ∧ t = t' := by
  have key : ∀ {a d t : Str}, (∀ c ∈ a, c.isDigit = false) → d ≠ [] → (∀ c ∈ d, c.isDigit) → (∀ c u, t = c :: u → c.isDigit = false) →
      (a ++ (d ++ t)).takeWhile (fun c => !c.isDigit) = a ∧ (d ++ t).takeWhile Char.isDigit = d := by
    intro a d t ha hd h1 ht
    constructor
    · rw [List.takeWhile_append_of_pos fun c hc => by simp [ha c hc]]
      cases d with
      | nil => exact absurd rfl hd
      | cons c d => rw [List.cons_append, List.takeWhile_cons_of_neg (by simp [h1 c (by simp)]), List.append_nil]
    · rw [List.takeWhile_append_of_pos h1]
      cases t with
      | nil => simp
      | cons c t => rw [List.takeWhile_cons_of_neg (by simp [ht c t rfl]), List.append_nil]
  have e1 := (key ha hd h1 ht).1
  have e2 := (key ha' hd' h2 ht').1
  rw [h] at e1
  have ea : a = a' := e1.symm.trans e2
  subst ea
  have h' := List.append_cancel_left h
  have f1 := (key ha hd h1 ht).2
  have f2 := (key ha hd' h2 ht').2
  rw [h'] at f1
  have ed : d = d' := f1.symm.trans f2
  subst ed
  exact ⟨rfl, rfl, List.append_cancel_left h'⟩

theorem digits_inj {m n : ℕ} (h : Nat.toDigits 10 m = Nat.toDigits 10 n) : m = n := by
  have h1 := Nat.ofDigitChars_ten_toDigits (n := m)
  rw [h, Nat.ofDigitChars_ten_toDigits] at h1
  exact h1.symm

/-- What follows an entry in a name. -/
def tailText (l : List (Str × ℕ)) (r : Str) : Str := (l.flatMap fun y => '-' :: infoText y) ++ '_' :: r

theorem tailText_cons (x : Str × ℕ) (l : List (Str × ℕ)) (r : Str) : tailText (x :: l) r = '-' :: (infoText x ++ tailText l r) := by
  rw [tailText, List.flatMap_cons, List.cons_append, List.cons_append, List.append_assoc]; rfl

theorem tailText_start (l : List (Str × ℕ)) (r : Str) : ∀ c u, tailText l r = c :: u → c.isDigit = false := by
  intro c u h
  cases l with
  | nil =>
    have : '_' :: r = c :: u := h
    rw [← (List.cons.inj this).1]; decide
  | cons x l =>
    rw [tailText_cons] at h
    have : '-' :: (infoText x ++ tailText l r) = c :: u := h
    rw [← (List.cons.inj this).1]; decide

theorem info_split {x y : Str × ℕ} (hx : Symbol x.1) (hy : Symbol y.1) {t u : Str} (ht : ∀ c v, t = c :: v → c.isDigit = false)
    (hu : ∀ c v, u = c :: v → c.isDigit = false) (h : infoText x ++ t = infoText y ++ u) : x = y ∧ t = u := by
  rw [infoText, infoText, List.append_assoc, List.append_assoc] at h
  have hdig : ∀ n : ℕ, ∀ c ∈ Nat.toDigits 10 n, c.isDigit := fun n c hc => Nat.isDigit_of_mem_toDigits (by decide) (by decide) hc
  obtain ⟨h1, h2, h3⟩ := split_digits (fun c hc => (hx.2 c hc).1) (fun c hc => (hy.2 c hc).1) Nat.toDigits_ne_nil Nat.toDigits_ne_nil (hdig _) (hdig _) ht hu h
  exact ⟨Prod.ext h1 (digits_inj h2), h3⟩

theorem tail_inj : ∀ {l l' : List (Str × ℕ)} {r r' : Str}, (∀ x ∈ l, Symbol x.1) → (∀ x ∈ l', Symbol x.1) → tailText l r = tailText l' r' → l = l'
  | [], [], _, _, _, _, _ => rfl
  | [], y :: l', r, r', _, _, h => by
    have : '_' :: r = '-' :: (infoText y ++ tailText l' r') := h.trans (tailText_cons _ _ _)
    exact absurd (List.cons.inj this).1 (by decide)
  | x :: l, [], r, r', _, _, h => by
    have : '_' :: r' = '-' :: (infoText x ++ tailText l r) := h.symm.trans (tailText_cons _ _ _)
    exact absurd (List.cons.inj this).1 (by decide)
  | x :: l, y :: l', r, r', hl, hl', h => by
    rw [tailText_cons, tailText_cons] at h
    obtain ⟨h1, h2⟩ := info_split (hl x (by simp)) (hl' y (by simp)) (tailText_start l r) (tailText_start l' r') (List.cons.inj h).2
    rw [h1, tail_inj (fun z hz => hl z (by simp [hz])) (fun z hz => hl' z (by simp [hz])) h2]

theorem mem_sortedInfo {order : List Str → List Str} (ho : SetOrder order) {l : List Str} {r : List (Str × ℕ)} (h : sortedInfo l (order l) = .ok r) :
    (∀ s n, (s, n) ∈ r ↔ s ∈ l ∧ n = l.count s) ∧ ∀ x ∈ r, Symbol x.1 := by
  rw [sortedInfo] at h
  by_cases ha : (order l).all fun s => (number s).isSome
  · rw [if_pos ha] at h
    obtain rfl := Except.ok.inj h
    have hm : ∀ s n, (s, n) ∈ ((order l).map fun s => (s, l.count s)).insertionSort (fun x y => (number x.1).getD 0 ≤ (number y.1).getD 0) ↔ s ∈ l ∧ n = l.count s := by
      intro s n
      rw [List.mem_insertionSort, List.mem_map]
      constructor
      · rintro ⟨t, ht, he⟩
        obtain ⟨rfl, rfl⟩ := Prod.mk.inj he
        exact ⟨(mem_order ho l t).1 ht, rfl⟩
      · rintro ⟨h1, rfl⟩
        exact ⟨s, (mem_order ho l s).2 h1, rfl⟩
    refine ⟨hm, fun x hx => ?_⟩
    have := ((hm x.1 x.2).1 hx).1
    exact number_symbol (List.all_eq_true.1 ha x.1 ((mem_order ho l x.1).2 this))
  · rw [if_neg ha] at h; cases h

/-- C99: two molecules given by atoms have the same name only if every element occurs as often in one as in the other, whatever their bases, charges and
descriptions are. -/
theorem name_formula {order order' : List Str → List Str} (ho : SetOrder order) (ho' : SetOrder order') {l l' : List (Str × List ℝ)} {basis basis' : Str} {m m' c c' : ℤ}
    {d d' : Str} {name : Str} (h : nameMolecule order (.atoms l) basis m c d = .ok name) (h' : nameMolecule order' (.atoms l') basis' m' c' d' = .ok name) (s : Str) :
    (l.map Prod.fst).count s = (l'.map Prod.fst).count s := by
  have key : ∀ {order : List Str → List Str}, SetOrder order → ∀ {l : List (Str × List ℝ)} {basis : Str} {m c : ℤ} {d : Str},
      nameMolecule order (.atoms l) basis m c d = .ok name → ∃ x t r, sortedInfo (l.map Prod.fst) (order (l.map Prod.fst)) = .ok (x :: t) ∧ name = infoText x ++ tailText t r := by
    intro order ho l basis m c d h
    rw [nameMolecule, nameStart] at h
    cases hi : sortedInfo (l.map Prod.fst) (order (l.map Prod.fst)) with
    | error e => rw [hi] at h; cases h
    | ok i =>
      rw [hi] at h
      cases i with
      | nil => cases h
      | cons x t =>
        cases hr : nameRest basis m c d with
        | error e => rw [hr] at h; cases h
        | ok r =>
          rw [hr] at h
          have hn : name = (infoText x ++ t.flatMap fun y => '-' :: infoText y) ++ r := (Except.ok.inj h).symm
          rw [nameRest] at hr
          cases hm : multiplicityName m with
          | none => rw [hm] at hr; cases hr
          | some mt =>
            rw [hm] at hr
            have hr' := (Except.ok.inj hr).symm
            refine ⟨x, t, basis ++ '_' :: mt.toList ++ chargeText c ++ (if d = [] then [] else '_' :: d), rfl, ?_⟩
            rw [hn, hr', tailText, List.append_assoc]
            simp only [List.cons_append, List.append_assoc]
  obtain ⟨x, t, r, h1, h2⟩ := key ho h
  obtain ⟨x', t', r', h1', h2'⟩ := key ho' h'
  obtain ⟨m1, s1⟩ := mem_sortedInfo ho h1
  obtain ⟨m2, s2⟩ := mem_sortedInfo ho' h1'
  obtain ⟨e1, e2⟩ := info_split (s1 x (by simp)) (s2 x' (by simp)) (tailText_start t r) (tailText_start t' r') (h2.symm.trans h2')
  have e3 := tail_inj (fun y hy => s1 y (by simp [hy])) (fun y hy => s2 y (by simp [hy])) e2
  subst e1 e3
  by_cases hs : s ∈ l.map Prod.fst
  · exact ((m2 s _).1 ((m1 s _).2 ⟨hs, rfl⟩)).2
  · by_cases hs' : s ∈ l'.map Prod.fst
    · exact ((m1 s _).1 ((m2 s _).2 ⟨hs', rfl⟩)).2.symm
    · rw [List.count_eq_zero_of_not_mem hs, List.count_eq_zero_of_not_mem hs']

/-- C99, the negation for the rest of the name: the charge and the description cannot be told apart, so that different molecules get the same default file. -/
theorem name_counterexample {D : Type} (order : List Str → List Str) (basis directory : Str) (l : List (Str × List ℝ)) {o o' : Obj D}
    (h : construct order (.atoms l) basis 1 1 [] [] directory = .ok o) (h' : construct order (.atoms l) basis 1 0 "1+".toList [] directory = .ok o') :
    o.filename = o'.filename ∧ o.info.charge ≠ o'.info.charge := by
  have hr : nameRest basis 1 1 [] = nameRest basis 1 0 "1+".toList := by
    show Except.ok _ = Except.ok _
    congr 1
    rw [show chargeText 1 = "_1+".toList by decide, show chargeText 0 = [] by decide, if_pos rfl, if_neg (by decide), List.append_nil, List.append_nil]
    rfl
  have hn : nameMolecule order (.atoms l) basis 1 1 [] = nameMolecule order (.atoms l) basis 1 0 "1+".toList := by rw [nameMolecule, nameMolecule, hr]
  rw [construct] at h h'
  obtain ⟨a, ha, h⟩ := bind_ok h
  obtain ⟨a', ha', h'⟩ := bind_ok h'
  rw [hn, ha'] at ha
  obtain rfl := Except.ok.inj ha
  obtain rfl := Except.ok.inj h
  obtain rfl := Except.ok.inj h'
  exact ⟨rfl, fun h => absurd (show (1 : ℤ) = 0 from h) (by decide)⟩

/-! ## Electrons -/

/-- C99: the constructor counts the atoms, sorts them by atomic number and subtracts the charge from the sum of the atomic numbers. -/
theorem construct_electrons {D : Type} {order : List Str → List Str} (ho : SetOrder order) {l : List (Str × List ℝ)} {basis : Str} {m c : ℤ} {d f dir : Str} {o : Obj D}
    (h : construct order (.atoms l) basis m c d f dir = .ok o) :
    o.info.nAtoms = l.length ∧ o.info.atoms.Perm (l.map Prod.fst) ∧ o.info.protons.Pairwise (· ≤ ·) ∧
    (∀ s ∈ l.map Prod.fst, (number s).isSome) ∧ o.info.protons = o.info.atoms.map (fun s => (number s).getD 0) ∧
    o.info.nElectrons = some (((l.map fun x => (number x.1).getD 0).sum : ℕ) - c) ∧ o.info.charge = c ∧ o.info.multiplicity = m := by
  rw [construct] at h
  obtain ⟨name, hn, h⟩ := bind_ok h
  obtain rfl := Except.ok.inj h
  have hp : (sortedAtoms (l.map Prod.fst)).Perm (l.map Prod.fst) := List.perm_insertionSort _ _
  refine ⟨rfl, hp, ?_, ?_, rfl, ?_, rfl, rfl⟩
  · show ((sortedAtoms (l.map Prod.fst)).map fun s => (number s).getD 0).Pairwise (· ≤ ·)
    rw [List.pairwise_map]
    exact List.pairwise_insertionSort _ _
  · rw [nameMolecule] at hn
    obtain ⟨a, ha, _⟩ := bind_ok hn
    rw [nameStart] at ha
    obtain ⟨i, hi, _⟩ := bind_ok ha
    intro s hs
    rw [sortedInfo] at hi
    by_cases hall : (order (l.map Prod.fst)).all fun s => (number s).isSome
    · exact List.all_eq_true.1 hall s ((mem_order ho _ s).2 hs)
    · rw [if_neg hall] at hi; cases hi
  · show some ((((sortedAtoms (l.map Prod.fst)).map fun s => (number s).getD 0).sum : ℕ) - c) = _
    rw [(hp.map _).sum_eq, List.map_map]
    rfl

/-- C99: the electrons with spin up exceed those with spin down by the multiplicity less one; together they are all electrons if the multiplicity is possible for
this number of electrons. -/
theorem alpha_beta (n m : ℤ) : nAlpha n m - nBeta n m = m - 1 ∧ (nAlpha n m + nBeta n m = n ↔ (n + m) % 2 = 1) := by
  rw [nAlpha, nBeta]
  constructor
  · omega
  · omega

/-- C99, the negation for impossible multiplicities: no exception is raised and an electron is missing. -/
theorem alpha_beta_counterexample (n m : ℤ) (h : (n + m) % 2 = 0) : nAlpha n m + nBeta n m = n - 1 := by
  rw [nAlpha, nBeta]
  omega

/-! ## Molecules from operators -/

open Mol in
/-- C99: `get_molecular_data` applied to the Hamiltonian of a molecule gives the number of orbitals and qubits, the constant and the one-electron integrals
of the molecule, but half of its two-electron integrals. -/
theorem data_of_hamiltonian (m : ℕ) (c : ℝ) (h g : RTensor) :
    let r := getMolecularData (2 * m) c (fun i => ((spinorbFromSpatial m h g).1 i : ℂ)) (fun i => ((1 / 2 * (spinorbFromSpatial m h g).2 i : ℝ) : ℂ)) true
    r.nOrbitals = m ∧ r.nQubits = 2 * m ∧ r.nuclearRepulsion = c ∧ (∀ p q, p < m → q < m → r.one [p, q] = (chop (h [p, q]) : ℂ)) ∧
    ∀ p q s t, p < m → q < m → s < m → t < m → r.two [p, q, s, t] = (chop (g [p, q, s, t]) / 2 : ℂ) := by
  have hlen : (2 * m + 1) / 2 = m := by omega
  have hget : ∀ a, a < m → (((List.range ((2 * m + 1) / 2)).map (2 * ·)).getD a 0) = 2 * a := by
    intro a ha
    rw [hlen, List.getD_eq_getElem?_getD, List.getElem?_map, List.getElem?_range ha]
    rfl
  refine ⟨?_, rfl, rfl, fun p q hp hq => ?_, fun p q s t hp hq hs ht => ?_⟩
  · show ((List.range ((2 * m + 1) / 2)).map (2 * ·)).length = m
    simp [hlen]
  · show (((spinorbFromSpatial m h g).1 [_, _] : ℝ) : ℂ) = _
    rw [if_pos rfl]
    dsimp only
    rw [hget p hp, hget q hq, spinorb_one m h g (by omega) (by omega), if_pos (by omega)]
    rw [Nat.mul_div_cancel_left _ (by decide), Nat.mul_div_cancel_left _ (by decide)]
  · show ((1 / 2 * (spinorbFromSpatial m h g).2 [_, _, _, _] : ℝ) : ℂ) = _
    rw [if_pos rfl]
    dsimp only
    rw [hget p hp, hget q hq, hget s hs, hget t ht]
    rw [show (spinorbFromSpatial m h g).2 = truncate ((allIndices m 4).foldl (spinTwoStep 1 g) fun _ => 0) from rfl]
    rw [spinTwo_entry 1 m g (by omega) (by omega) (by omega) (by omega), if_pos ⟨by omega, by omega⟩, one_mul]
    rw [Nat.mul_div_cancel_left _ (by decide), Nat.mul_div_cancel_left _ (by decide), Nat.mul_div_cancel_left _ (by decide), Nat.mul_div_cancel_left _ (by decide)]
    push_cast
    ring

open Mol UCC in
/-- The repulsion of two electrons in one orbital. -/
theorem repulsion_value (a : ℝ) :
    electronic 1 0 (fun _ => 0) (fun _ => a) (basisState fun k => decide (k < 2)) (fun k => decide (k < 2)) = a := by
  have h0 : excite 0 0 = FTools.occupation 2 fun _ => 1 := by
    rw [← number_eq 2, Finset.sum_range_succ, Finset.sum_range_one]
    rfl
  have h1 : electronic 1 0 (fun _ => 0) (fun _ => a) = (1 / 2 : ℂ) • (a : ℂ) • excitePair 0 0 0 0 := by
    rw [electronic, electronicOn]
    simp
  have hocc : ∀ ψ : State, (FTools.occupation 2 fun _ => 1) ψ (fun k => decide (k < 2)) = 2 * ψ fun k => decide (k < 2) := by
    intro ψ
    show (∑ i ∈ Finset.range 2, if (decide (i < 2)) = true then (1 : ℂ) else 0) * _ = _
    rw [Finset.sum_range_succ, Finset.sum_range_one]
    norm_num
  rw [h1, excitePair_eq, if_pos rfl, h0]
  simp only [LinearMap.smul_apply, LinearMap.sub_apply, Module.End.mul_apply, Pi.smul_apply, Pi.sub_apply, smul_eq_mul]
  rw [hocc, hocc]
  rw [show basisState (fun k => decide (k < 2)) (fun k => decide (k < 2)) = 1 from if_pos rfl]
  ring

open Mol in
/-- C99, the negation for the way back: the Hamiltonian of the molecule that `get_molecular_data` makes of a Hamiltonian is another one. The energy of two electrons
in one orbital is halved. -/
theorem data_hamiltonian_counterexample :
    ∃ (h g h' g' : RTensor) (T T' : PolyTensor), getMolecularHamiltonian 1 0 (some (h, g)) none none = .ok T ∧
      (∀ r, r = getMolecularData (2 * 1) (0 : ℝ) (fun i => ((spinorbFromSpatial 1 h g).1 i : ℂ)) (fun i => ((1 / 2 * (spinorbFromSpatial 1 h g).2 i : ℝ) : ℂ)) true →
        (∀ p q, p < 1 → q < 1 → r.one [p, q] = (h' [p, q] : ℂ)) ∧ ∀ p q s t, p < 1 → q < 1 → s < 1 → t < 1 → r.two [p, q, s, t] = (g' [p, q, s, t] : ℂ)) ∧
      getMolecularHamiltonian 1 0 (some (h', g')) none none = .ok T' ∧
      polyAction T (basisState fun k => decide (k < 2)) (fun k => decide (k < 2)) = 1 ∧
      polyAction T' (basisState fun k => decide (k < 2)) (fun k => decide (k < 2)) = 1 / 2 := by
  have c0 : chop 0 = 0 := chop_zero
  have c1 : chop 1 = 1 := if_neg (by norm_num)
  have c2 : chop (1 / 2) = 1 / 2 := if_neg (by rw [abs_of_pos (by norm_num)]; norm_num)
  obtain ⟨T, h1, _, h2⟩ := hamiltonian_full 1 0 (fun _ => 0) (fun _ => 1)
  obtain ⟨T', h1', _, h2'⟩ := hamiltonian_full 1 0 (fun _ => 0) (fun _ => 1 / 2)
  refine ⟨fun _ => 0, fun _ => 1, fun _ => 0, fun _ => 1 / 2, T, T', h1, ?_, h1', ?_, ?_⟩
  · rintro r rfl
    obtain ⟨_, _, _, h4, h5⟩ := data_of_hamiltonian 1 0 (fun _ => 0) (fun _ => 1)
    refine ⟨fun p q hp hq => (h4 p q hp hq).trans (by rw [c0]), fun p q s t hp hq hs ht => (h5 p q s t hp hq hs ht).trans (by rw [c1]; push_cast; rfl)⟩
  · rw [h2, c0, c1, repulsion_value]; norm_num
  · rw [h2', c0, c2, repulsion_value]; norm_num

/-! ## Active spaces -/

open Mol in
/-- C99: `load_molecular_hamiltonian` freezes the lowest orbitals, with two electrons each, and keeps the following ones. If the other electrons are the active
ones it has, between states of the active orbitals, the matrix elements of the whole molecule's Hamiltonian. -/
theorem load_active {m electrons k orbitals : ℕ} (c : ℝ) {h g : RTensor} (hk : k ≤ electrons) (heven : (electrons - k) % 2 = 0) (horb : 1 ≤ orbitals)
    (hm : (electrons - k) / 2 + orbitals ≤ m) (hg : ∀ p q r s, g [p, q, r, s] = g [q, p, s, r]) (kh : ∀ i, chop (h i) = h i) (kg : ∀ i, chop (g i) = g i)
    (kh' : ∀ r, getActiveSpaceIntegrals m h g (some (List.range ((electrons - k) / 2))) (some (List.range' ((electrons - k) / 2) orbitals)) = .ok r → ∀ i, chop (r.2.1 i) = r.2.1 i) :
    electrons = 2 * ((electrons - k) / 2) + k ∧
    ∃ T T', getMolecularHamiltonian m c (some (h, g)) none none = .ok T ∧ loadMolecularHamiltonian m electrons c (some (h, g)) (some k) (some orbitals) = .ok T' ∧
      ∀ t t' : ℕ → Bool, (∀ j, 2 * orbitals ≤ j → t' j = t j) →
        polyAction T' (basisState t) t' =
          polyAction T (basisState (place (modes (List.range ((electrons - k) / 2))) (modes (List.range' ((electrons - k) / 2) orbitals)) t))
            (place (modes (List.range ((electrons - k) / 2))) (modes (List.range' ((electrons - k) / 2) orbitals)) t') := by
  refine ⟨by omega, ?_⟩
  obtain ⟨⟨core, h', g'⟩, hr⟩ := (active_errors m c h g (some (List.range ((electrons - k) / 2)))).2.2.2.1 (List.range' ((electrons - k) / 2) orbitals)
    (fun he => by have := congrArg List.length he; simp at this; omega)
    (fun i hi => by have := List.mem_range.1 (show i ∈ List.range ((electrons - k) / 2) from hi); omega)
    (fun i hi => by have := List.mem_range'_1.1 hi; omega)
  obtain ⟨T, T', h1, h2, h3⟩ := hamiltonian_elements (m := m) c hg kh kg (occupied := some (List.range ((electrons - k) / 2)))
    (active := List.range' ((electrons - k) / 2) orbitals) List.nodup_range List.pairwise_lt_range'
    (fun p hp hp' => by
      have h1 := List.mem_range.1 (show p ∈ List.range ((electrons - k) / 2) from hp)
      have h2 := List.mem_range'_1.1 hp'
      omega) hr (kh' _ hr)
  refine ⟨T, T', h1, h2, fun t t' ht => ?_⟩
  exact h3 t t' (by simpa using ht)

/-- C99, the negation for active electrons without active orbitals: `TypeError`, although both arguments are optional. -/
theorem load_counterexample (m electrons k : ℕ) (c : ℝ) (ints : Option (Mol.RTensor × Mol.RTensor)) :
    loadMolecularHamiltonian m electrons c ints (some k) none = .error .typeError :=
  (Mol.active_errors m c (fun _ => 0) (fun _ => 0) none).2.2.2.2.2.1 ints (List.range ((electrons - k) / 2))

/-- The hypotheses of C99 are met: water, whose atoms come in two orders. -/
example : SetOrder List.dedup ∧
    nameMolecule List.dedup (.atoms [("O".toList, [0, 0, 0]), ("H".toList, [0, 0, 1]), ("H".toList, [0, 1, 0])]) "sto-3g".toList 1 0 [] = .ok "H2-O1_sto-3g_singlet".toList ∧
    ([("O".toList, ([0, 0, 0] : List ℝ)), ("H".toList, [0, 0, 1]), ("H".toList, [0, 1, 0])].map Prod.fst).Perm
      ([("H".toList, ([0, 0, 1] : List ℝ)), ("H".toList, [0, 1, 0]), ("O".toList, [5, 5, 5])].map Prod.fst) := by
  refine ⟨fun l => List.Perm.refl _, ?_, ?_⟩
  · have h : nameStart List.dedup (.atoms [("O".toList, [0, 0, 0]), ("H".toList, [0, 0, 1]), ("H".toList, [0, 1, 0])]) = .ok "H2-O1".toList := by
      rw [nameStart]
      decide +kernel
    rw [nameMolecule, h]
    decide +kernel
  · decide

end ZQ.MolStore
