import Verif.Model.Nested
import Verif.Props.Optimizer
import Mathlib.Algebra.BigOperators.Group.Finset.Basic
import Mathlib.Tactic

/-! C115: what a nested optimizer does with the caller's parameters and what it returns. -/

namespace ZQ.Nested

open ZQ ZQ.History ZQ.Optimizer

variable {V G W E : Type}

/-- Specification: what happened in one round: whether the cost function had a gradient, what the inner optimizer found, and which values and gradients
it asked for, with the answers. -/
structure Log (V G : Type) where
  hasGradient : Bool
  found : Found V
  values : List (Params × V)
  gradients : List (Params × G)

/-- Specification: rounds from round `i`, each on the array, the random numbers and the world the round before left, each with a new cost function. -/
inductive Trace (raises : Raises E) (inner : Inner V G) (factory : Factory W E V G) : ℕ → Arr → ℕ → W → List (Log V G) → Arr → ℕ → W → Prop
  | nil (i a s w) : Trace raises inner factory i a s w [] a s w
  | cons {i a s w c w1 f a1 s1 w2 logs a2 s2 w3} (hf : factory i w = (.ok c, w1))
      (hr : run raises.noGradient c.target c.gradient (inner a s) w1 = (.ok (f, a1, s1), w2))
      (ht : Trace raises inner factory (i + 1) a1 s1 w2 logs a2 s2 w3) :
      Trace raises inner factory i a s w
        (⟨c.gradient.isSome, f, (asked c.target c.gradient (inner a s) w1).1, (asked c.target c.gradient (inner a s) w1).2⟩ :: logs) a2 s2 w3

/-- Specification: no cost function with gradient comes after one without. -/
def GradientsFirst (logs : List (Log V G)) : Prop := logs.Pairwise fun a b => b.hasGradient = true → a.hasGradient = true

/-- Specification: all evaluations of all rounds, in order; the evaluations of each round are numbered from 0. -/
def allValues (logs : List (Log V G)) : List (Entry Params V) := logs.flatMap fun l => numbered l.values

/-- Specification: the same for gradients. -/
def allGradients (logs : List (Log V G)) : List (Entry Params G) := logs.flatMap fun l => numbered l.gradients

/-- The histories after some rounds. -/
def histOf (logs : List (Log V G)) : Histories (Entry Params V) (Entry Params G) :=
  if logs = [] then ⟨some [], none, true⟩
  else ⟨some (allValues logs), if logs.all (·.hasGradient) then some (allGradients logs) else none, false⟩

/-- The state after some rounds. -/
def stOf (keep : Bool) (cur : Params) (logs : List (Log V G)) (a : Arr) (s : ℕ) (w : W) : St W V G :=
  ⟨a, s, w, if keep then histOf logs else histOf [], (logs.map (·.found.nfev)).sum, (logs.getLast?.map (·.found.optParams)).getD cur,
    logs.getLast?.map (·.found.optValue)⟩

theorem extend_histOf (g : Bool) (f : Found V) (vs : List (Params × V)) (gs : List (Params × G)) (pre : List (Log V G)) :
    extendHistories (chooseClass false g) (numbered vs) (numbered gs) (histOf pre) =
      if g = true ∧ pre.all (·.hasGradient) = false then .error .keyError else .ok (histOf (pre ++ [⟨g, f, vs, gs⟩])) := by
  have hne : pre ++ [(⟨g, f, vs, gs⟩ : Log V G)] ≠ [] := by simp
  rw [histOf, histOf, if_neg hne]
  by_cases hp : pre = []
  · subst hp
    cases g <;> simp [allValues, allGradients, chooseClass, extendHistories, constructHistoryInfo, lookup, hasGradient] <;> rfl
  · rw [if_neg hp]
    cases hall : pre.all (·.hasGradient) <;> cases g <;>
      simp [allValues, allGradients, chooseClass, extendHistories, constructHistoryInfo, lookup, hasGradient, List.all_append, hall] <;> rfl

theorem gradientsFirst_snoc (pre : List (Log V G)) (l : Log V G) :
    GradientsFirst (pre ++ [l]) ↔ GradientsFirst pre ∧ ¬ (l.hasGradient = true ∧ pre.all (·.hasGradient) = false) := by
  unfold GradientsFirst
  rw [List.pairwise_append]
  have : (pre.all (·.hasGradient) = false) ↔ ¬ ∀ x ∈ pre, x.hasGradient = true := by
    rw [← Bool.not_eq_true, List.all_eq_true]
  rw [this]
  simp
  tauto

/-- One round, from the state after the rounds `pre`. -/
theorem round_stOf (raises : Raises E) (inner : Inner V G) (factory : Factory W E V G) (keep : Bool) (cur : Params) (i : ℕ) (pre : List (Log V G))
    (a : Arr) (s : ℕ) (w : W) (hpre : keep = true → GradientsFirst pre) (st' : St W V G) :
    round raises inner factory keep i (stOf keep cur pre a s w) = .ok st' ↔
      ∃ c w1 f a1 s1 w2, factory i w = (.ok c, w1) ∧ run raises.noGradient c.target c.gradient (inner a s) w1 = (.ok (f, a1, s1), w2) ∧
        (keep = true → GradientsFirst (pre ++ [⟨c.gradient.isSome, f, (asked c.target c.gradient (inner a s) w1).1,
          (asked c.target c.gradient (inner a s) w1).2⟩])) ∧
        st' = stOf keep cur (pre ++ [⟨c.gradient.isSome, f, (asked c.target c.gradient (inner a s) w1).1,
          (asked c.target c.gradient (inner a s) w1).2⟩]) a1 s1 w2 := by
  unfold round
  cases hf : factory i w with
  | mk o w1 =>
    cases o with
    | error e => simp [stOf, hf]
    | ok c =>
      have hs : runInner raises inner c keep a s w1 = ((run raises.noGradient c.target c.gradient (inner a s) w1).1,
          (if keep then (numbered (asked c.target c.gradient (inner a s) w1).1, numbered (asked c.target c.gradient (inner a s) w1).2) else ([], [])),
          (run raises.noGradient c.target c.gradient (inner a s) w1).2) := by
        unfold runInner
        cases keep with
        | false => rfl
        | true =>
          obtain ⟨h1, h2, h3, h4⟩ := runRecorded_spec raises.noGradient c.target c.gradient always always (fun _ _ _ => true) (fun _ _ _ => true)
            (fun _ _ _ => rfl) (fun _ _ _ => rfl) (inner a s) fresh fresh w1
          rw [always_spec] at h3 h4
          simp only [if_true]
          rw [h1, h2, h3, h4]
          rfl
      cases hr : run raises.noGradient c.target c.gradient (inner a s) w1 with
      | mk o w2 =>
        cases o with
        | error e => simp [stOf, hf, hs, hr]
        | ok x =>
          obtain ⟨f, a1, s1⟩ := x
          simp only [stOf, hf, hs, hr]
          cases keep with
          | false =>
            simp only [extended, Bool.false_eq_true, if_false, false_implies, true_and]
            constructor
            · intro h
              refine ⟨c, w1, f, a1, s1, w2, rfl, hr, ?_⟩
              cases h
              simp
            · rintro ⟨c', w1', f', a1', s1', w2', h1, h2, h3⟩
              cases h1
              rw [hr] at h2
              cases h2
              rw [h3]
              simp
          | true =>
            have hx := extend_histOf c.gradient.isSome f (asked c.target c.gradient (inner a s) w1).1 (asked c.target c.gradient (inner a s) w1).2 pre
            have hg := gradientsFirst_snoc pre ⟨c.gradient.isSome, f, (asked c.target c.gradient (inner a s) w1).1,
              (asked c.target c.gradient (inner a s) w1).2⟩
            simp only [extended, if_true]
            rw [hx]
            by_cases hb : c.gradient.isSome = true ∧ pre.all (·.hasGradient) = false
            · rw [if_pos hb]
              constructor
              · intro h; cases h
              · rintro ⟨c', w1', f', a1', s1', w2', h1, h2, h3, _⟩
                cases h1
                rw [hr] at h2
                cases h2
                exact absurd hb (hg.1 (h3 trivial)).2
            · rw [if_neg hb]
              constructor
              · intro h
                refine ⟨c, w1, f, a1, s1, w2, rfl, hr, fun _ => hg.2 ⟨hpre rfl, hb⟩, ?_⟩
                cases h
                simp
              · rintro ⟨c', w1', f', a1', s1', w2', h1, h2, h3, h4⟩
                cases h1
                rw [hr] at h2
                cases h2
                rw [h4]
                simp

theorem rounds_stOf (raises : Raises E) (inner : Inner V G) (factory : Factory W E V G) (keep : Bool) (cur : Params) (n : ℕ) :
    ∀ (i : ℕ) (pre : List (Log V G)) (a : Arr) (s : ℕ) (w : W), (keep = true → GradientsFirst pre) → ∀ st' : St W V G,
    (rounds raises inner factory keep i n (stOf keep cur pre a s w) = .ok st' ↔
      ∃ logs a' s' w', Trace raises inner factory i a s w logs a' s' w' ∧ logs.length = n ∧ (keep = true → GradientsFirst (pre ++ logs)) ∧
        st' = stOf keep cur (pre ++ logs) a' s' w') := by
  induction n with
  | zero =>
    intro i pre a s w hpre st'
    constructor
    · intro h
      cases h
      exact ⟨[], a, s, w, .nil .., rfl, by simpa using hpre, by simp⟩
    · rintro ⟨logs, a', s', w', ht, hl, _, hst⟩
      cases List.length_eq_zero_iff.1 hl
      cases ht
      rw [hst]
      simp [rounds]
  | succ n ih =>
    intro i pre a s w hpre st'
    have hround := round_stOf raises inner factory keep cur i pre a s w hpre
    constructor
    · intro h
      rw [rounds] at h
      cases hr : round raises inner factory keep i (stOf keep cur pre a s w) with
      | error e => rw [hr] at h; cases h
      | ok st1 =>
        rw [hr] at h
        obtain ⟨c, w1, f, a1, s1, w2, h1, h2, h3, rfl⟩ := (hround st1).1 hr
        obtain ⟨logs, a', s', w', ht, hl, hg, hst⟩ := (ih (i + 1) _ a1 s1 w2 h3 st').1 h
        refine ⟨_ :: logs, a', s', w', .cons h1 h2 ht, by simp [hl], ?_, ?_⟩
        · rw [List.append_cons]; exact hg
        · rw [List.append_cons]; exact hst
    · rintro ⟨logs, a', s', w', ht, hl, hg, hst⟩
      cases ht with
      | nil => cases hl
      | cons hf hr' ht' =>
        rename_i c w1 f a1 s1 w2 logs
        rw [List.append_cons] at hg hst
        have hg1 : keep = true → GradientsFirst (pre ++ [(⟨c.gradient.isSome, f, (asked c.target c.gradient (inner a s) w1).1,
            (asked c.target c.gradient (inner a s) w1).2⟩ : Log V G)]) := fun h => (List.pairwise_append.1 (hg h)).1
        rw [rounds, (hround _).2 ⟨c, w1, f, a1, s1, w2, hf, hr', hg1, rfl⟩]
        exact (ih (i + 1) _ a1 s1 w2 hg1 st').2 ⟨logs, a', s', w', ht', by simpa using hl, hg, hst⟩

theorem stOf_nil (keep : Bool) (a : Arr) (s : ℕ) (w : W) :
    (stOf keep a.vals ([] : List (Log V G)) a s w) = ⟨a, s, w, ⟨some [], none, true⟩, 0, a.vals, none⟩ := by
  cases keep <;> rfl

/-- C115: a nested optimization succeeds exactly if its rounds do, each on the array the caller passed as the round before left it, there is at least one
round, and, if the history is kept, no cost function with gradient comes after one without.  The value and the parameters are those of the last round,
`nit` is the number of rounds, `nfev` the sum of what the inner optimizer reported, and the history has every evaluation of every round if it is
kept and is empty otherwise; the gradient history is there exactly if the history is kept and all cost functions have gradients. -/
theorem nested_iff (raises : Raises E) (inner : Inner V G) (n : ℕ) (factory : Factory W E V G) (arr : Arr) (keep : Bool) (s : ℕ) (w : W)
    (o : Outcome W V G) :
    nested raises inner n factory arr keep s w = .ok o ↔
      ∃ (before : List (Log V G)) (last : Log V G), Trace raises inner factory 0 arr s w (before ++ [last]) o.arr o.drawn o.world ∧
        before.length + 1 = n ∧ (keep = true → GradientsFirst (before ++ [last])) ∧
        o.result.optValue = last.found.optValue ∧ o.result.optParams = last.found.optParams ∧ o.result.nit = n ∧
        o.result.nfev = ((before ++ [last]).map (·.found.nfev)).sum ∧
        o.result.history = some (if keep then allValues (before ++ [last]) else []) ∧
        o.result.gradientHistory = if keep = true ∧ ∀ l ∈ before ++ [last], l.hasGradient = true then some (allGradients (before ++ [last])) else none := by
  have hr := rounds_stOf raises inner factory keep arr.vals n 0 [] arr s w (fun _ => List.Pairwise.nil)
  rw [stOf_nil] at hr
  have hh : ∀ (before : List (Log V G)) (last : Log V G) (a : Arr) (s' : ℕ) (w' : W),
      (stOf keep arr.vals (before ++ [last]) a s' w').histories.history = some (if keep then allValues (before ++ [last]) else []) ∧
      (stOf keep arr.vals (before ++ [last]) a s' w').histories.gradientHistory =
        (if keep = true ∧ ∀ l ∈ before ++ [last], l.hasGradient = true then some (allGradients (before ++ [last])) else none) := by
    intro before last a s' w'
    have hne : before ++ [last] ≠ [] := by simp
    cases keep with
    | false => exact ⟨rfl, by simp [stOf, histOf]⟩
    | true =>
      simp only [stOf, if_true, histOf, if_neg hne, true_and, List.all_eq_true]
  constructor
  · intro h
    unfold nested at h
    cases hx : rounds raises inner factory keep 0 n ⟨arr, s, w, ⟨some [], none, true⟩, 0, arr.vals, none⟩ with
    | error e => rw [hx] at h; cases h
    | ok st =>
      rw [hx] at h
      obtain ⟨logs, a', s', w', ht, hl, hg, rfl⟩ := (hr st).1 hx
      rw [List.nil_append] at hg h
      rcases List.eq_nil_or_concat logs with rfl | ⟨before, last, rfl⟩
      · cases h
      · rw [List.concat_eq_append] at *
        have hlast : (stOf keep arr.vals (before ++ [last]) a' s' w').last = some last.found.optValue := by simp [stOf]
        dsimp only at h
        rw [hlast] at h
        cases h
        exact ⟨before, last, ht, by simpa using hl, hg, rfl, by simp [stOf], rfl, rfl, (hh before last a' s' w').1, (hh before last a' s' w').2⟩
  · rintro ⟨before, last, ht, hl, hg, h1, h2, h3, h4, h5, h6⟩
    have hx := (hr _).2 ⟨before ++ [last], o.arr, o.drawn, o.world, ht, by simpa using hl, hg, rfl⟩
    unfold nested
    rw [hx, List.nil_append]
    have hlast : (stOf keep arr.vals (before ++ [last]) o.arr o.drawn o.world).last = some last.found.optValue := by simp [stOf]
    dsimp only
    rw [hlast]
    dsimp only
    obtain ⟨⟨v, p, nit, nfev, hi, gh⟩, oa, od, ow⟩ := o
    dsimp only at *
    subst h1 h2 h3 h4 h5 h6
    have := hh before last oa od ow
    rw [this.1, this.2]
    simp [stOf]

/-- C115: the specification of the rounds determines them. -/
theorem trace_unique (raises : Raises E) (inner : Inner V G) (factory : Factory W E V G) {i : ℕ} {a : Arr} {s : ℕ} {w : W} {l l' : List (Log V G)}
    {a1 a2 : Arr} {s1 s2 : ℕ} {w1 w2 : W} (h : Trace raises inner factory i a s w l a1 s1 w1) :
    Trace raises inner factory i a s w l' a2 s2 w2 → l.length = l'.length → l = l' ∧ a1 = a2 ∧ s1 = s2 ∧ w1 = w2 := by
  induction h generalizing l' with
  | nil =>
    intro h' hl
    cases List.length_eq_zero_iff.1 hl.symm
    cases h'
    exact ⟨rfl, rfl, rfl, rfl⟩
  | cons hf hr ht ih =>
    intro h' hl
    cases h' with
    | nil => cases hl
    | cons hf' hr' ht' =>
      rw [hf] at hf'
      cases hf'
      rw [hr] at hr'
      cases hr'
      obtain ⟨rfl, rfl, rfl, rfl⟩ := ih ht' (by simpa using hl)
      exact ⟨rfl, rfl, rfl, rfl⟩

/-- C115: without rounds the call raises. -/
theorem no_rounds (raises : Raises E) (inner : Inner V G) (factory : Factory W E V G) (arr : Arr) (keep : Bool) (s : ℕ) (w : W) :
    nested raises inner 0 factory arr keep s w = .error raises.unbound := rfl

/-- C115: keeping the history changes nothing but the histories. -/
theorem keep_same (raises : Raises E) (inner : Inner V G) (n : ℕ) (factory : Factory W E V G) (arr : Arr) (s : ℕ) (w : W) (o : Outcome W V G)
    (h : nested raises inner n factory arr true s w = .ok o) :
    nested raises inner n factory arr false s w = .ok { o with result := { o.result with history := some [], gradientHistory := none } } := by
  obtain ⟨before, last, ht, hl, _, h1, h2, h3, h4, _, _⟩ := (nested_iff ..).1 h
  exact (nested_iff ..).2 ⟨before, last, ht, hl, by simp, h1, h2, h3, h4, by simp, by simp⟩

/-- C115: the parameters a round found are not where the next one starts.  If the inner optimizer leaves the array it is given as it is, and the cost
functions of all rounds are the same and have no effects, every round finds the same as the first, however many there are. -/
theorem rounds_restart (raises : Raises E) (inner : Inner V G) (n : ℕ) (factory : Factory W E V G) (arr : Arr) (s : ℕ) (w : W) (c : Cost W E V G)
    (f : Found V) (hn : 0 < n) (hf : ∀ i, factory i w = (.ok c, w))
    (hr : run raises.noGradient c.target c.gradient (inner arr s) w = (.ok (f, arr, s), w)) :
    nested raises inner n factory arr false s w = .ok ⟨⟨f.optValue, f.optParams, n, n * f.nfev, some [], none⟩, arr, s, w⟩ := by
  have ht : ∀ n i, Trace raises inner factory i arr s w (List.replicate n ⟨c.gradient.isSome, f, (asked c.target c.gradient (inner arr s) w).1,
      (asked c.target c.gradient (inner arr s) w).2⟩) arr s w := by
    intro n
    induction n with
    | zero => intro i; exact .nil ..
    | succ n ih => intro i; rw [List.replicate_succ]; exact .cons (hf i) hr (ih (i + 1))
  obtain ⟨m, rfl⟩ : ∃ m, n = m + 1 := ⟨n - 1, by omega⟩
  have := ht (m + 1) 0
  rw [List.replicate_succ'] at this
  refine (nested_iff ..).2 ⟨_, _, this, by simp, by simp, rfl, rfl, rfl, ?_, rfl, by simp⟩
  rw [← List.replicate_succ', List.map_replicate, List.sum_replicate]
  simp

/-- C115: the vector of parameters is never lengthened: if the inner optimizer finds as many parameters as its array has and leaves its length as it is,
the result has as many as the initial parameters, however many rounds there are. -/
theorem length_kept (raises : Raises E) (inner : Inner V G) (n : ℕ) (factory : Factory W E V G) (arr : Arr) (keep : Bool) (s : ℕ) (w : W)
    (o : Outcome W V G)
    (hi : ∀ (c : Cost W E V G) a s w f a1 s1 w1, run raises.noGradient c.target c.gradient (inner a s) w = (.ok (f, a1, s1), w1) →
      f.optParams.length = a.vals.length ∧ a1.vals.length = a.vals.length)
    (h : nested raises inner n factory arr keep s w = .ok o) :
    o.result.optParams.length = arr.vals.length ∧ o.arr.vals.length = arr.vals.length := by
  have key : ∀ {i a s w logs a' s' w'}, Trace raises inner factory i a s w logs a' s' w' →
      a'.vals.length = a.vals.length ∧ ∀ l ∈ logs, l.found.optParams.length = a.vals.length := by
    intro i a s w logs a' s' w' ht
    induction ht with
    | nil => simp
    | cons hf hr _ ih =>
      obtain ⟨h1, h2⟩ := hi _ _ _ _ _ _ _ _ hr
      refine ⟨ih.1.trans h2, ?_⟩
      intro l hl
      rcases List.mem_cons.1 hl with rfl | hl
      · exact h1
      · exact (ih.2 l hl).trans h2
  obtain ⟨before, last, ht, _, _, _, h2, _⟩ := (nested_iff ..).1 h
  obtain ⟨k1, k2⟩ := key ht
  exact ⟨by rw [h2]; exact k2 last (by simp), k1⟩

/-! ## The optimizer of this repository -/

/-- Specification: the array after `k` rounds of random shifts. -/
def shifted (draws : ℕ → ℚ) (a : Arr) (s : ℕ) : ℕ → Arr
  | 0 => a
  | k + 1 => (shifted draws a s k).shift draws (s + k * a.vals.length)

theorem shift_length (a : Arr) (draws : ℕ → ℚ) (s : ℕ) : (a.shift draws s).vals.length = a.vals.length := by simp [Arr.shift]

theorem shifted_length (draws : ℕ → ℚ) (a : Arr) (s k : ℕ) : (shifted draws a s k).vals.length = a.vals.length := by
  induction k with
  | zero => rfl
  | succ k ih => rw [shifted, shift_length, ih]

theorem shifted_integer (draws : ℕ → ℚ) (a : Arr) (s k : ℕ) : (shifted draws a s k).integer = a.integer := by
  induction k with
  | zero => rfl
  | succ k ih => rw [shifted, Arr.shift, ih]

theorem shift_get (a : Arr) (draws : ℕ → ℚ) (s j : ℕ) (hj : j < a.vals.length) :
    (a.shift draws s).vals[j]? = some (a.stored (a.vals[j] + draws (s + j))) := by
  simp [Arr.shift, List.getElem?_map, List.getElem?_zipIdx, List.getElem?_eq_getElem hj]

/-- C115: each round adds a new random number to every parameter, in the caller's own array. -/
theorem shifted_float (draws : ℕ → ℚ) (a : Arr) (s k j : ℕ) (ha : a.integer = false) (hj : j < a.vals.length) :
    (shifted draws a s k).vals[j]? = some (a.vals[j] + ∑ i ∈ Finset.range k, draws (s + i * a.vals.length + j)) := by
  induction k with
  | zero => simp [shifted, List.getElem?_eq_getElem hj]
  | succ k ih =>
    have hj' : j < (shifted draws a s k).vals.length := by rw [shifted_length]; exact hj
    have hv : (shifted draws a s k).vals[j] = a.vals[j] + ∑ i ∈ Finset.range k, draws (s + i * a.vals.length + j) := by
      rw [List.getElem?_eq_getElem hj'] at ih
      exact Option.some.inj ih
    rw [shifted, shift_get _ _ _ _ hj', Arr.stored, shifted_integer, ha, if_neg (by simp), hv, Finset.sum_range_succ, add_assoc]

/-- C115: in an array of an integer type the random numbers are truncated away: parameters that are not negative never change, whatever is drawn. -/
theorem shifted_int (draws : ℕ → ℚ) (a : Arr) (s k : ℕ) (ha : a.integer = true) (hv : ∀ x ∈ a.vals, ∃ m : ℕ, x = m)
    (hd : ∀ i, 0 ≤ draws i ∧ draws i < 1) : shifted draws a s k = a := by
  induction k with
  | zero => rfl
  | succ k ih =>
    rw [shifted, ih, Arr.shift]
    obtain ⟨ai, av⟩ := a
    dsimp only at *
    subst ha
    congr 1
    apply List.ext_getElem
    · simp
    · intro j h1 h2
      obtain ⟨m, hm⟩ := hv av[j] (List.getElem_mem h2)
      simp only [List.getElem_map, List.getElem_zipIdx, Nat.zero_add, hm, Arr.stored, if_true]
      obtain ⟨d0, d1⟩ := hd (s + k * av.length + j)
      rw [if_pos (by positivity)]
      have : ⌊(m : ℚ) + draws (s + k * av.length + j)⌋ = m := by
        rw [Int.floor_eq_iff]
        push_cast
        constructor <;> linarith
      rw [this]
      simp

/-- C115: in an array of an integer type each round brings a negative parameter one step closer to 0, whatever is drawn, and it stays at 0 once there. -/
theorem shifted_int_negative (draws : ℕ → ℚ) (a : Arr) (s k j : ℕ) (ha : a.integer = true) (hj : j < a.vals.length) (m : ℕ) (hm : a.vals[j] = -(m : ℚ))
    (hd : ∀ i, 0 < draws i ∧ draws i < 1) : (shifted draws a s k).vals[j]? = some (-((m - k : ℕ) : ℚ)) := by
  induction k with
  | zero => simp [shifted, List.getElem?_eq_getElem hj, hm]
  | succ k ih =>
    have hj' : j < (shifted draws a s k).vals.length := by rw [shifted_length]; exact hj
    have hv : (shifted draws a s k).vals[j] = -((m - k : ℕ) : ℚ) := by
      rw [List.getElem?_eq_getElem hj'] at ih
      exact Option.some.inj ih
    obtain ⟨d0, d1⟩ := hd (s + k * a.vals.length + j)
    rw [shifted, shift_get _ _ _ _ hj', Arr.stored, shifted_integer, ha, if_pos rfl, hv]
    congr 1
    by_cases hk : m ≤ k
    · rw [Nat.sub_eq_zero_of_le hk, Nat.sub_eq_zero_of_le (by omega), Nat.cast_zero, neg_zero, zero_add, if_pos d0.le]
      rw [show ⌊draws (s + k * a.vals.length + j)⌋ = 0 from Int.floor_eq_zero_iff.2 ⟨d0.le, d1⟩]
      simp
    · have h1 : ((m - k : ℕ) : ℚ) = ((m - (k + 1) : ℕ) : ℚ) + 1 := by
        have : m - k = (m - (k + 1)) + 1 := by omega
        rw [this]; push_cast; ring
      have h0 : (0 : ℚ) ≤ ((m - (k + 1) : ℕ) : ℚ) := Nat.cast_nonneg _
      rw [h1, if_neg (by linarith)]
      have : ⌈-(((m - (k + 1) : ℕ) : ℚ) + 1) + draws (s + k * a.vals.length + j)⌉ = -((m - (k + 1) : ℕ) : ℤ) := by
        rw [Int.ceil_eq_iff]
        push_cast
        constructor <;> linarith
      rw [this]
      push_cast
      rfl

theorem run_mock (raises : Raises E) (draws : ℕ → ℚ) (c : Cost W E V G) (a : Arr) (s : ℕ) (w w1 : W) (v : V)
    (h : c.target w (a.shift draws s).vals = (.ok v, w1)) :
    run raises.noGradient c.target c.gradient (mockInner draws a s) w =
      (.ok (⟨v, (a.shift draws s).vals, 1⟩, a.shift draws s, s + a.vals.length), w1) ∧
    asked c.target c.gradient (mockInner draws a s) w = ([((a.shift draws s).vals, v)], []) := by
  simp only [mockInner, run, asked, h, and_self]

/-- C115: the nested optimizer of this repository with the mock optimizer inside, for cost functions without effects that do not raise: round `i` asks for
one value, at the initial parameters plus all random shifts up to and including round `i`.  The caller's array is changed and holds the returned parameters.
All entries of the history have the number 0, since every round has its own recorder. -/
theorem mock_spec (raises : Raises E) (draws : ℕ → ℚ) (n : ℕ) (hn : 0 < n) (factory : Factory W E V G) (arr : Arr) (keep : Bool) (s : ℕ) (w : W)
    (f : ℕ → Params → V) (g : Option (Target W E Params G)) (hf : ∀ i, factory i w = (.ok ⟨fun w p => (.ok (f i p), w), g⟩, w)) :
    mockNested raises draws n factory arr (some keep) s w = .ok
      ⟨⟨f (n - 1) (shifted draws arr s n).vals, (shifted draws arr s n).vals, n, n,
        some (if keep then (List.range n).map fun i => ⟨0, (shifted draws arr s (i + 1)).vals, f i (shifted draws arr s (i + 1)).vals⟩ else []),
        if keep = true ∧ g.isSome = true then some [] else none⟩,
      shifted draws arr s n, s + n * arr.vals.length, w⟩ := by
  let log : ℕ → Log V G := fun i => ⟨g.isSome, ⟨f i (shifted draws arr s (i + 1)).vals, (shifted draws arr s (i + 1)).vals, 1⟩,
    [((shifted draws arr s (i + 1)).vals, f i (shifted draws arr s (i + 1)).vals)], []⟩
  have ht : ∀ k i, Trace raises (mockInner draws) factory i (shifted draws arr s i) (s + i * arr.vals.length) w ((List.range' i k).map log)
      (shifted draws arr s (i + k)) (s + (i + k) * arr.vals.length) w := by
    intro k
    induction k with
    | zero => intro i; exact .nil ..
    | succ k ih =>
      intro i
      have hrun := run_mock raises draws ⟨fun w p => (.ok (f i p), w), g⟩ (shifted draws arr s i) (s + i * arr.vals.length) w w _ rfl
      have hcons := Trace.cons (raises := raises) (inner := mockInner draws) (factory := factory) (i := i) (a := shifted draws arr s i)
        (s := s + i * arr.vals.length) (w := w) (hf i) hrun.1
        (logs := (List.range' (i + 1) k).map log) (a2 := shifted draws arr s (i + 1 + k)) (s2 := s + (i + 1 + k) * arr.vals.length) (w3 := w)
        (by
          have h1 : s + i * arr.vals.length + (shifted draws arr s i).vals.length = s + (i + 1) * arr.vals.length := by
            rw [shifted_length]; ring
          rw [h1]
          exact ih (i + 1))
      rw [hrun.2] at hcons
      rw [List.range'_succ, List.map_cons, show i + (k + 1) = i + 1 + k by ring]
      exact hcons
  have h0 := ht n 0
  obtain ⟨m, rfl⟩ : ∃ m, n = m + 1 := ⟨n - 1, by omega⟩
  rw [Nat.zero_mul, Nat.add_zero, Nat.zero_add, ← List.range_eq_range', List.range_succ, List.map_append, List.map_singleton] at h0
  have hall : ∀ l ∈ (List.range m).map log ++ [log m], l.hasGradient = g.isSome := by
    intro l hl
    rw [← List.map_singleton, ← List.map_append] at hl
    obtain ⟨i, _, rfl⟩ := List.mem_map.1 hl
    rfl
  refine (nested_iff ..).2 ⟨(List.range m).map log, log m, h0, by simp, ?_, rfl, rfl, rfl, ?_, ?_, ?_⟩
  · intro _
    refine List.Pairwise.imp_of_mem ?_ (List.pairwise_of_forall (R := fun _ _ => True) (fun _ _ => trivial))
    intro a b ha hb _ h
    rw [hall a ha]
    rw [hall b hb] at h
    exact h
  · rw [← List.map_singleton, ← List.map_append, List.map_map]
    have : ((fun x : Log V G => x.found.nfev) ∘ log) = fun _ => 1 := rfl
    rw [this]
    simp
  · cases keep with
    | false => rfl
    | true =>
      simp only [Option.getD_some, if_true, allValues]
      rw [← List.map_singleton, ← List.map_append, ← List.range_succ, List.flatMap_map]
      rw [List.map_eq_flatMap]
      rfl
  · have hg : (∀ l ∈ (List.range m).map log ++ [log m], l.hasGradient = true) ↔ g.isSome = true := by
      constructor
      · intro h
        have := h (log m) (by simp)
        exact this
      · intro h l hl
        rw [hall l hl, h]
    have hz : allGradients ((List.range m).map log ++ [log m]) = [] := by
      rw [← List.map_singleton, ← List.map_append, allGradients, List.flatMap_map]
      apply List.flatMap_eq_nil_iff.2
      intro i _
      rfl
    simp only [Option.getD_some, hg, hz]

/-! ## The contracts of nested optimizers -/

/-- Specification: a factory whose cost functions never raise and all have gradients, or all have none. -/
def Reliable (factory : Factory W E V G) (b : Bool) : Prop :=
  ∀ i w, ∃ c w', factory i w = (.ok c, w') ∧ c.gradient.isSome = b ∧ ∀ w p, ∃ v w'', c.target w p = (.ok v, w'')

theorem mock_trace (raises : Raises E) (draws : ℕ → ℚ) (factory : Factory W E V G) (b : Bool) (hf : Reliable factory b) (n : ℕ) :
    ∀ (i : ℕ) (a : Arr) (s : ℕ) (w : W), ∃ logs a' s' w', Trace raises (mockInner draws) factory i a s w logs a' s' w' ∧ logs.length = n ∧
      ∀ l ∈ logs, l.hasGradient = b ∧ l.values.length = 1 := by
  induction n with
  | zero => intro i a s w; exact ⟨[], a, s, w, .nil .., rfl, by simp⟩
  | succ n ih =>
    intro i a s w
    obtain ⟨c, w', h1, h2, h3⟩ := hf i w
    obtain ⟨v, w'', h4⟩ := h3 w' (a.shift draws s).vals
    obtain ⟨r1, r2⟩ := run_mock raises draws c a s w' w'' v h4
    obtain ⟨logs, a', s', w3, ht, hl, hb⟩ := ih (i + 1) (a.shift draws s) (s + a.vals.length) w''
    refine ⟨_, a', s', w3, .cons h1 r1 ht, by simp [hl], ?_⟩
    intro l hl
    rcases List.mem_cons.1 hl with rfl | hl
    · exact ⟨h2, by rw [r2]; rfl⟩
    · exact hb l hl

theorem numbered_length {T : Type} (l : List (Params × T)) : (numbered l).length = l.length := by simp [numbered]

/-- C115: with a reliable factory the optimizer succeeds, in as many evaluations as rounds, all of which are in the history if it is kept. -/
theorem mock_reliable (raises : Raises E) (draws : ℕ → ℚ) (n : ℕ) (hn : 0 < n) (factory : Factory W E V G) (b : Bool) (hf : Reliable factory b) (arr : Arr)
    (keep : Bool) (s : ℕ) (w : W) :
    ∃ o, nested raises (mockInner draws) n factory arr keep s w = .ok o ∧ o.result.nit = n ∧
      (∃ h, o.result.history = some h ∧ h.length = if keep then n else 0) ∧
      (o.result.gradientHistory.isSome = true ↔ keep = true ∧ b = true) := by
  obtain ⟨logs, a', s', w', ht, hl, hb⟩ := mock_trace raises draws factory b hf n 0 arr s w
  rcases List.eq_nil_or_concat logs with rfl | ⟨before, last, rfl⟩
  · simp at hl; omega
  · rw [List.concat_eq_append] at *
    have hg : (∀ l ∈ before ++ [last], l.hasGradient = true) ↔ b = true := by
      constructor
      · intro h; rw [← h last (by simp)]; exact (hb last (by simp)).1.symm
      · intro h l hl; rw [(hb l hl).1, h]
    refine ⟨⟨⟨last.found.optValue, last.found.optParams, n, ((before ++ [last]).map (·.found.nfev)).sum,
      some (if keep then allValues (before ++ [last]) else []),
      if keep = true ∧ ∀ l ∈ before ++ [last], l.hasGradient = true then some (allGradients (before ++ [last])) else none⟩, a', s', w'⟩,
      (nested_iff ..).2 ⟨before, last, ht, by simpa using hl, ?_, rfl, rfl, rfl, rfl, rfl, rfl⟩, rfl, ⟨_, rfl, ?_⟩, ?_⟩
    · intro _
      refine List.Pairwise.imp_of_mem ?_ (List.pairwise_of_forall (R := fun _ _ => True) (fun _ _ => trivial))
      intro x y hx hy _ h
      rw [(hb x hx).1]
      rw [(hb y hy).1] at h
      exact h
    · cases keep with
      | false => rfl
      | true =>
        simp only [if_true, allValues, List.length_flatMap, numbered_length]
        rw [List.map_congr_left (g := fun _ => 1) fun l hl => (hb l hl).2]
        simpa using hl
    · dsimp only
      simp only [hg]
      by_cases h : keep = true ∧ b = true
      · rw [if_pos h]; simp [h]
      · rw [if_neg h]; simp [h]

theorem withGradient_reliable (fd : Target W E Params V → Target W E Params G) (factory : Factory W E V G) (b : Bool) (hf : Reliable factory b) :
    Reliable (withGradient fd factory) true := by
  intro i w
  obtain ⟨c, w', h1, _, h3⟩ := hf i w
  exact ⟨⟨c.target, some (fd c.target)⟩, w', by rw [withGradient, h1], rfl, h3⟩

/-- C115: for every number of rounds but 0 the nested optimizer of this repository fulfils all contracts, with every reliable factory, array of parameters
and state of the random number generator; without rounds every contract raises. -/
theorem mock_contracts (raises : Raises E) (draws : ℕ → ℚ) (fd : Target W E Params V → Target W E Params G) (n : ℕ) (factory : Factory W E V G) (b : Bool)
    (hf : Reliable factory b) (arr : Arr) (s : ℕ) (w : W) :
    ∀ contract ∈ contracts raises fd, contract (mockNested raises draws n) factory arr s w =
      if n = 0 then .error raises.unbound else .ok true := by
  intro contract hc
  rcases Nat.eq_zero_or_pos n with rfl | hn
  · rw [if_pos rfl]
    simp only [contracts, List.mem_cons, List.not_mem_nil, or_false] at hc
    rcases hc with rfl | rfl | rfl | rfl | rfl <;> rfl
  · rw [if_neg (by omega)]
    obtain ⟨o1, h1, _, ⟨l1, e1, len1⟩, _⟩ := mock_reliable raises draws n hn factory b hf arr true s w
    obtain ⟨o2, h2, _, _, g2⟩ := mock_reliable raises draws n hn _ true (withGradient_reliable fd factory b hf) arr true s w
    obtain ⟨o3, h3, _, ⟨l3, e3, len3⟩, _⟩ := mock_reliable raises draws n hn factory b hf arr false s w
    simp only [contracts, List.mem_cons, List.not_mem_nil, or_false] at hc
    rcases hc with rfl | rfl | rfl | rfl | rfl
    · simp only [recordsHistory, mockNested, Option.getD_some, h1, bind, Except.bind, historyLength, e1, len1, if_true]
      simp; omega
    · simp only [recordsGradient, mockNested, Option.getD_some, h2, bind, Except.bind, g2.2 ⟨rfl, rfl⟩]
    · simp only [emptyIfFalse, mockNested, Option.getD_some, h3, bind, Except.bind, historyLength, e3, len3]
      rfl
    · simp only [emptyByDefault, mockNested, Option.getD_none, h3, bind, Except.bind, historyLength, e3, len3]
      rfl
    · simp only [mandatoryFields, mockNested, Option.getD_none, h3, bind, Except.bind]

/-! ## What the contracts and the documentation miss -/

/-- A nested optimizer with a bug: only the last entry of the history is returned. -/
def forgetful (m : Minimize W E V G) : Minimize W E V G := fun factory arr keep s w =>
  match m factory arr keep s w with
  | .error e => .error e
  | .ok o => .ok { o with result := { o.result with history := o.result.history.map fun h => h.drop (h.length - 1) } }

/-- The factory of cost functions `p ↦ i + Σ p²`, without gradient. -/
def squares : Factory Unit String ℚ ℚ := fun i w => (.ok ⟨fun w p => (.ok (i + (p.map (· ^ 2)).sum), w), none⟩, w)

theorem squares_reliable : Reliable squares false := fun _ w => ⟨_, w, rfl, rfl, fun _ _ => ⟨_, _, rfl⟩⟩

/-- The exceptions as strings. -/
def raisesExample : Raises String := ⟨"AttributeError", "UnboundLocalError", fun _ => "KeyError"⟩

/-- C115: the contracts do not tell an optimizer that loses the history of all rounds but the last from one that keeps it. -/
theorem contracts_counterexample (fd : Target Unit String Params ℚ → Target Unit String Params ℚ) (draws : ℕ → ℚ) (arr : Arr) (s : ℕ) :
    (∀ contract ∈ contracts raisesExample fd, contract (forgetful (mockNested raisesExample draws 2)) squares arr s () = .ok true) ∧
    ∃ o, forgetful (mockNested raisesExample draws 2) squares arr (some true) s () = .ok o ∧ o.result.nfev = 2 ∧
      (o.result.history.getD []).length = 1 := by
  constructor
  · intro contract hc
    simp only [contracts, List.mem_cons, List.not_mem_nil, or_false] at hc
    rcases hc with rfl | rfl | rfl | rfl | rfl <;> rfl
  · exact ⟨_, rfl, rfl, rfl⟩

/-- C115: the comment in the code says that every round after the first makes the vector of parameters longer by 1; it stays as long as it was.  The
caller's array is changed. -/
theorem lengthening_counterexample :
    ∃ o, mockNested (W := Unit) (G := ℚ) raisesExample (fun _ => 1 / 2) 3 squares ⟨false, [1]⟩ none 0 () = .ok o ∧
      o.result.optParams.length = 1 ∧ o.arr.vals = [5 / 2] ∧ o.result.optParams = [5 / 2] :=
  ⟨_, rfl, by norm_num [shifted, Arr.shift, Arr.stored, rounds, round, stOf]⟩

/-- A case: two rounds on two parameters, with the history; `mock_spec`, `nested_iff` and `mock_contracts` apply to it. -/
example : ∃ o, mockNested (W := Unit) raisesExample (fun k => k / 4) 2 squares ⟨false, [1, 2]⟩ (some true) 1 () = .ok o ∧
    o.arr.vals = [2, 7 / 2] ∧ o.drawn = 5 ∧ o.result.history = some [⟨0, [5 / 4, 5 / 2], 125 / 16⟩, ⟨0, [2, 7 / 2], 69 / 4⟩] := by
  refine ⟨_, mock_spec raisesExample (fun k => k / 4) 2 (by norm_num) squares ⟨false, [1, 2]⟩ true 1 () (fun i p => i + (p.map (· ^ 2)).sum) none
    (fun _ => rfl), ?_⟩
  norm_num [shifted, Arr.shift, Arr.stored, List.range_succ]

/-- A case: integer parameters stay where they are. -/
example : shifted (fun _ => 1 / 2) ⟨true, [3, 0]⟩ 0 7 = ⟨true, [3, 0]⟩ :=
  shifted_int _ _ _ _ rfl (by simp only [List.mem_cons, List.not_mem_nil, or_false]; rintro x (rfl | rfl); exacts [⟨3, by norm_num⟩, ⟨0, by norm_num⟩]) fun _ => by norm_num

/-- A case: a negative integer parameter after two rounds. -/
example : (shifted (fun _ => 1 / 2) ⟨true, [3, -5]⟩ 0 2).vals[1]? = some (-3 : ℚ) := by
  have := shifted_int_negative (fun _ => 1 / 2) ⟨true, [3, -5]⟩ 0 2 1 rfl (by simp) 5 (by simp) fun _ => by norm_num
  rw [this]
  norm_num

/-- A case of `rounds_restart`: an inner optimizer that doubles its parameters without touching the array. -/
example : nested (W := Unit) (G := ℚ) raisesExample (fun a s => .value (a.vals.map (2 * ·)) fun v => .done (⟨v, a.vals.map (2 * ·), 1⟩, a, s)) 4
    (fun _ w => (.ok ⟨fun w p => (.ok p.sum, w), none⟩, w)) ⟨false, [1, 2]⟩ false 0 () = .ok
    ⟨⟨[2, 4].sum, [2, 4], 4, 4, some [], none⟩, ⟨false, [1, 2]⟩, 0, ()⟩ := by
  refine rounds_restart _ _ _ _ _ _ _ ⟨fun w p => (.ok p.sum, w), none⟩ ⟨[2, 4].sum, [2, 4], 1⟩ (by norm_num) (fun _ => rfl) ?_
  norm_num [run]

end ZQ.Nested
