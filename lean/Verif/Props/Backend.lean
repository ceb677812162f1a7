import Verif.Model.Backend
import Verif.Props.Circuit
import Verif.Props.Wavefunction
import Mathlib.Algebra.Order.Floor.Ring
import Mathlib.Data.Rat.Floor
import Verif.Lemmas.ExceptList

/-!
# C32, C68: execution counters, simulators and sampling
-/

namespace ZQ.Backend

open ZQ ZQ.Circuits ZQ.Gates
open scoped BigOperators Matrix

variable {W M : Type}

/-! ### C32: counters -/

/-- Specification: splitting a list of circuits into batches of at most `b`. -/
def batches (b : ℕ) (cs : List Circuit) : List (List Circuit) :=
  if h : b = 0 ∨ cs = [] then [] else cs.take b :: batches b (cs.drop b)
termination_by cs.length
decreasing_by
  have : 0 < cs.length := List.length_pos_iff.2 (fun e => h (.inr e))
  have : b ≠ 0 := fun e => h (.inl e)
  simp; omega

/-- Specification: the same device, keeping a list of the jobs it executed, each with its circuits. A batch device executes a set in batches. -/
def logging (dev : Device W M) (batch : Option ℕ) : Device (W × List (List Circuit)) M where
  exec w c n := let r := dev.exec w.1 c n; (r.1, (r.2, w.2 ++ [[c]]))
  execBatch w cs ns := let r := dev.execBatch w.1 cs ns; (r.1, (r.2, w.2 ++ batches (batch.getD 0) cs))

theorem batches_spec {b : ℕ} (hb : 0 < b) (cs : List Circuit) :
    (batches b cs).flatten = cs ∧ (∀ g ∈ batches b cs, g ≠ [] ∧ g.length ≤ b) ∧ ((batches b cs).length : ℤ) = ⌈(cs.length : ℚ) / b⌉ := by
  have hb' : (0 : ℚ) < b := by exact_mod_cast hb
  induction hn : cs.length using Nat.strong_induction_on generalizing cs with
  | _ n ih =>
    rw [batches]
    by_cases h : b = 0 ∨ cs = []
    · rcases h with h | h
      · omega
      · subst h
        simp at hn
        subst hn
        simp
    · rw [dif_neg h]
      push Not at h
      have hpos : 0 < cs.length := List.length_pos_iff.2 h.2
      obtain ⟨h1, h2, h3⟩ := ih (cs.drop b).length (by simp; omega) (cs.drop b) rfl
      refine ⟨by rw [List.flatten_cons, h1, List.take_append_drop], ?_, ?_⟩
      · intro g hg
        rcases List.mem_cons.1 hg with rfl | hg
        · refine ⟨fun e => ?_, by simp⟩
          rw [List.take_eq_nil_iff] at e
          rcases e with e | e
          · exact h.1 e
          · exact h.2 e
        · exact h2 g hg
      · rw [List.length_cons, Nat.cast_add, h3, List.length_drop]
        by_cases hle : b ≤ cs.length
        · rw [Nat.cast_sub hle, sub_div, div_self hb'.ne', Int.ceil_sub_one, hn]
          simp
        · push Not at hle
          have e1 : cs.length - b = 0 := by omega
          have e2 : ⌈((n : ℕ) : ℚ) / b⌉ = 1 := by
            rw [Int.ceil_eq_iff]
            have hn0 : (0 : ℚ) < n := by rw [← hn]; exact_mod_cast hpos
            have hnb : (n : ℚ) ≤ b := by rw [← hn]; exact_mod_cast hle.le
            refine ⟨?_, ?_⟩
            · push_cast; rw [sub_self]; positivity
            · push_cast; rw [div_le_one hb']; exact hnb
          rw [e1, e2]
          simp

/-- The counters agree with the list of executed jobs. -/
def Counted (st : St (W × List (List Circuit))) : Prop := st.jobs = st.world.2.length ∧ st.circuits = st.world.2.flatten.length

theorem run_counted (dev : Device W M) (batch : Option ℕ) (c : Circuit) (n : ℤ) (st : St (W × List (List Circuit))) (h : Counted st) :
    Counted (run (logging dev batch) c n st).2 := by
  obtain ⟨h1, h2⟩ := h
  rw [run, baseRun]
  split
  · rename_i e
    split at e
    · cases e; exact ⟨h1, h2⟩
    · cases e
  · rename_i e
    split at e
    · cases e
    · cases e
      exact ⟨by simp [logging, h1], by simp [logging, h2]⟩

theorem runLoop_counted (dev : Device W M) (batch : Option ℕ) : ∀ (l : List (Circuit × ℤ)) (st : St (W × List (List Circuit))), Counted st →
    Counted (runLoop (logging dev batch) l st).2 := by
  intro l
  induction l with
  | nil => intro st h; exact h
  | cons cn l ih =>
    intro st h
    have h1 := run_counted dev batch cn.1 cn.2 st h
    rw [runLoop]
    split
    · rename_i e; rw [e] at h1; exact h1
    · rename_i e
      rw [e] at h1
      have h2 := ih _ h1
      split
      · rename_i e; rw [e] at h2; exact h2
      · rename_i e; rw [e] at h2; exact h2

/-- C32. After every history of uses, successful or not, `number_of_jobs_run` is the number of jobs the device executed and `number_of_circuits_run` the number
of circuits in them. Sets are executed one circuit per job without batching, and in batches of at most the batch size with batching. -/
theorem counters_spec (dev : Device W M) (batch : Option ℕ) (hb : ∀ b ∈ batch, 0 < b) (uses : List Use) (w : W) :
    Counted (uses.foldl (step (logging dev batch) batch) ⟨0, 0, (w, [])⟩) := by
  have hstep : ∀ (st : St (W × List (List Circuit))) (u : Use), Counted st → Counted (step (logging dev batch) batch st u) := by
    intro st u h
    cases u with
    | run c n => exact run_counted dev batch c n st h
    | distribution c n => exact run_counted dev batch c n st h
    | runSet cs ns =>
      rw [step]
      cases batch with
      | none => exact runLoop_counted dev none _ st h
      | some b =>
        obtain ⟨h1, h2⟩ := h
        obtain ⟨e1, _, e3⟩ := batches_spec (hb b rfl) cs
        have e3 : (batches b cs).length = ⌈(cs.length : ℚ) / b⌉₊ := by
          have := Int.toNat_natCast (batches b cs).length
          rw [← this, e3]
          exact Int.ceil_toNat _
        refine ⟨?_, ?_⟩
        · show st.jobs + _ = (st.world.2 ++ batches b cs).length
          rw [List.length_append, h1, e3]
        · show st.circuits + _ = (st.world.2 ++ batches b cs).flatten.length
          rw [List.flatten_append, List.length_append, e1, h2]
  have key : ∀ (uses : List Use) (st : St (W × List (List Circuit))), Counted st → Counted (uses.foldl (step (logging dev batch) batch) st) := by
    intro uses
    induction uses with
    | nil => intro st h; exact h
    | cons u uses ih => intro st h; exact ih _ (hstep st u h)
  exact key uses _ ⟨rfl, rfl⟩

/-- C32. A call with fewer than one sample is rejected and leaves the counters and the device as they were. -/
theorem run_rejects (dev : Device W M) (c : Circuit) (n : ℤ) (st : St W) (h : n < 1) : run dev c n st = (.error .valueError, st) := by
  rw [run, baseRun, if_pos h]

/-- C32. Without batching, a set whose entries can all be run gives the results in order. -/
theorem runSet_results (dev : Device W M) (f : Circuit → ℤ → M) (hf : ∀ w c n, (dev.exec w c n).1 = .ok (f c n)) (cs : List Circuit) (ns : List ℤ)
    (hn : ∀ n ∈ ns, 1 ≤ n) (st : St W) : (runSet dev none cs ns st).1 = .ok ((cs.zip ns).map fun cn => f cn.1 cn.2) := by
  have key : ∀ (l : List (Circuit × ℤ)) (st : St W), (∀ cn ∈ l, 1 ≤ cn.2) → (runLoop dev l st).1 = .ok (l.map fun cn => f cn.1 cn.2) := by
    intro l
    induction l with
    | nil => intro st _; rfl
    | cons cn l ih =>
      intro st h
      have h1 := h cn (by simp)
      have e : ∃ st', run dev cn.1 cn.2 st = (.ok (f cn.1 cn.2), st') := by
        rw [run, baseRun, if_neg (by omega)]
        have := hf st.world cn.1 cn.2
        cases hx : dev.exec st.world cn.1 cn.2 with
        | mk o w' =>
          rw [hx] at this
          dsimp only at this ⊢
          exact ⟨_, by rw [hx, this]⟩
      obtain ⟨st', e⟩ := e
      have h2 := ih st' (fun x hx => h x (by simp [hx]))
      rw [runLoop, e]
      dsimp only
      cases hr : runLoop dev l st' with
      | mk o st'' =>
        rw [hr] at h2
        dsimp only at h2
        subst h2
        rfl
  exact key _ st (fun cn hcn => hn cn.2 (List.of_mem_zip hcn).2)

/-- C32. The constructor insists on a positive batch size for batching backends and starts the counters at 0. -/
theorem init_spec (supports : Bool) (b : Option ℤ) (w : W) :
    (init supports b w = .ok ⟨0, 0, w⟩ ↔ (supports = true → ∃ k, b = some k ∧ 0 < k)) ∧
      (init supports b w = .error .assertionError ↔ supports = true ∧ ¬ ∃ k, b = some k ∧ 0 < k) := by
  cases supports with
  | false => simp [init]
  | true =>
    cases b with
    | none => simp [init]
    | some k =>
      by_cases hk : 0 < k
      · simp [init, hk]
      · simp [init, hk]

/-! ### C68: simulators -/

/-- Specification: the number of maximal runs of native operations. `prev` tells whether the previous operation was native. -/
def nativeRuns (isNative : GateOp → Bool) (prev : Bool) : List GateOp → ℕ
  | [] => 0
  | op :: ops => (if isNative op && !prev then 1 else 0) + nativeRuns isNative (isNative op) ops

theorem groupby_runs (isNative : GateOp → Bool) : ∀ ops : List GateOp,
    nativeRuns isNative false ops = ((groupby isNative ops).filter Prod.fst).length ∧
      nativeRuns isNative true ops = ((groupby isNative ops).filter Prod.fst).length - (if ((groupby isNative ops).head?.map Prod.fst) = some true then 1 else 0) := by
  intro ops
  induction ops with
  | nil => simp [nativeRuns, groupby]
  | cons op ops ih =>
    obtain ⟨h1, h2⟩ := ih
    rw [nativeRuns, nativeRuns, groupby]
    cases hg : groupby isNative ops with
    | nil =>
      rw [hg] at h1 h2
      cases ho : isNative op <;> simp [ho, h1, h2]
    | cons kg rest =>
      obtain ⟨k, g⟩ := kg
      rw [hg] at h1 h2
      cases ho : isNative op <;> cases k <;> simp [ho, h1, h2] <;> omega

theorem applyAll_append (ρ : String → ℂ) (a b : List GateOp) (v : Vec ℂ) : applyAll ρ (a ++ b) v = (applyAll ρ a v).bind (applyAll ρ b) := by
  induction a generalizing v with
  | nil => rfl
  | cons o a ih =>
    rw [List.cons_append, applyAll, applyAll]
    cases o.apply ρ v with
    | error e => rfl
    | ok w => exact ih w

theorem wavefunctionLoop_spec (sim : Simulator W) (ρ : String → ℂ) (hsim : ∀ w sub v, (sim.native w sub v).1 = applyAll ρ sub.ops v) :
    ∀ (pieces : List (Bool × Circuit)) (v v' : Vec ℂ) (st : St W), applyAll ρ (pieces.flatMap fun p => p.2.ops) v = .ok v' →
      (wavefunctionLoop sim ρ pieces v st).1 = .ok v' ∧ (wavefunctionLoop sim ρ pieces v st).2.circuits = st.circuits + (pieces.filter Prod.fst).length ∧
        (wavefunctionLoop sim ρ pieces v st).2.jobs = st.jobs + (pieces.filter Prod.fst).length := by
  intro pieces
  induction pieces with
  | nil => intro v v' st h; cases h; exact ⟨rfl, rfl, rfl⟩
  | cons p pieces ih =>
    intro v v' st h
    obtain ⟨b, sub⟩ := p
    rw [List.flatMap_cons, applyAll_append] at h
    cases h1 : applyAll ρ sub.ops v with
    | error e => rw [h1] at h; cases h
    | ok u =>
      rw [h1] at h
      have h : applyAll ρ (pieces.flatMap fun p => p.2.ops) u = .ok v' := h
      cases b with
      | true =>
        have hs := hsim st.world sub v
        rw [h1] at hs
        rw [wavefunctionLoop]
        cases hn : sim.native st.world sub v with
        | mk o w =>
          rw [hn] at hs
          dsimp only at hs
          subst hs
          dsimp only
          obtain ⟨e1, e2, e3⟩ := ih u v' ⟨st.circuits + 1, st.jobs + 1, w⟩ h
          refine ⟨e1, ?_, ?_⟩
          · rw [e2]; simp; omega
          · rw [e3]; simp; omega
      | false =>
        rw [wavefunctionLoop, h1]
        dsimp only
        obtain ⟨e1, e2, e3⟩ := ih u v' st h
        exact ⟨e1, by rw [e2]; simp, by rw [e3]; simp⟩

theorem zeroVec_onBits (n : ℕ) : (zeroVec n).onBits n = Pi.single (fun _ => false) 1 := by
  funext x
  show (if basisIndex x = 0 then (1 : ℂ) else 0) = _
  have h0 : basisIndex (fun _ : Fin n => false) = 0 := by simp [basisIndex]
  by_cases h : x = fun _ => false
  · rw [h, h0]; simp
  · rw [if_neg (fun e => h (basisIndex_injective (e.trans h0.symm))), Pi.single_eq_of_ne h]

theorem sum_normSq_unitary {n : ℕ} {U : Matrix (Fin n → Bool) (Fin n → Bool) ℂ} (hU : U ∈ Matrix.unitaryGroup (Fin n → Bool) ℂ) (ψ : (Fin n → Bool) → ℂ) :
    ∑ x, Complex.normSq ((U *ᵥ ψ) x) = ∑ x, Complex.normSq (ψ x) := by
  have key : ∀ φ : (Fin n → Bool) → ℂ, ((∑ x, Complex.normSq (φ x) : ℝ) : ℂ) = star φ ⬝ᵥ φ := by
    intro φ
    rw [dotProduct, Complex.ofReal_sum]
    refine Finset.sum_congr rfl fun x _ => ?_
    rw [Complex.normSq_eq_conj_mul_self]
    rfl
  have h : ((∑ x, Complex.normSq ((U *ᵥ ψ) x) : ℝ) : ℂ) = ((∑ x, Complex.normSq (ψ x) : ℝ) : ℂ) := by
    rw [key, key, Matrix.star_mulVec, ← Matrix.dotProduct_mulVec, Matrix.mulVec_mulVec]
    have : Uᴴ * U = 1 := Matrix.mem_unitaryGroup_iff'.1 hU
    rw [this, Matrix.one_mulVec]
  exact_mod_cast h

/-- Specification: the operation's gate is made of unitary base gates. -/
def UnitaryOp (ρ : String → ℂ) (op : GateOp) : Prop :=
  op.gate.AllBase fun b ps => (b.factory.matrix ps ρ).onBits b.numQubits ∈ Matrix.unitaryGroup (Fin b.numQubits → Bool) ℂ

/-- C68. For every simulator whose native part is correct and every unitary circuit, `get_wavefunction` is the normalised state obtained by applying the
operations in order to the given state (all zeros by default); both counters grow by the number of maximal runs of native operations. -/
theorem getWavefunction_spec (sim : Simulator W) (ρ : String → ℂ) (hsim : ∀ w sub v, (sim.native w sub v).1 = applyAll ρ sub.ops v) (c : Circuit) (hc : c.Inv)
    (hv : ∀ op ∈ c.ops, op.Valid c.n) (hu : ∀ op ∈ c.ops, UnitaryOp ρ op) (initial : Option (Vec ℂ))
    (hi : ∀ v ∈ initial, v.dim = 2 ^ c.n ∧ ∑ x, Complex.normSq (v.onBits c.n x) = 1) (st : St W) :
    ∃ (w : Wavefunction.Wf Empty) (v : Vec ℂ), (getWavefunction sim ρ c initial st).1 = .ok w ∧
      w.amps = (List.range (2 ^ c.n)).map (fun i => .num (v.e i)) ∧
      v.onBits c.n = ((c.ops.reverse.map (GateOp.operator c.n ρ)).prod) *ᵥ ((initial.map fun v => v.onBits c.n).getD (Pi.single (fun _ => false) 1)) ∧
      (∑ x, Complex.normSq (v.onBits c.n x) = 1) ∧
      (getWavefunction sim ρ c initial st).2.circuits = st.circuits + nativeRuns sim.isNative false c.ops ∧
      (getWavefunction sim ρ c initial st).2.jobs = st.jobs + nativeRuns sim.isNative false c.ops := by
  obtain ⟨pieces, hp, hflat, -, -⟩ := split_spec c hc sim.isNative
  set v₀ := initial.getD (zeroVec c.n) with hv₀
  have hdim : v₀.dim = 2 ^ c.n := by
    cases initial with
    | none => rfl
    | some v => exact (hi v rfl).1
  have hst : v₀.onBits c.n = (initial.map fun v => v.onBits c.n).getD (Pi.single (fun _ => false) 1) := by
    cases initial with
    | none => exact zeroVec_onBits c.n
    | some v => rfl
  have hnorm : ∑ x, Complex.normSq (v₀.onBits c.n x) = 1 := by
    cases initial with
    | none =>
      show ∑ x, Complex.normSq ((zeroVec c.n).onBits c.n x) = 1
      rw [zeroVec_onBits, Finset.sum_eq_single (fun _ => false)]
      · simp
      · intro x _ hx; rw [Pi.single_eq_of_ne hx]; simp
      · simp
    | some v => exact (hi v rfl).2
  obtain ⟨v, hv1, hv2, hv3⟩ := applyAll_spec c.ops c.n ρ hv v₀ hdim
  have hloop := wavefunctionLoop_spec sim ρ hsim pieces v₀ v st (by rw [hflat]; exact hv1)
  have hlen : (pieces.filter Prod.fst).length = nativeRuns sim.isNative false c.ops := by
    rw [(groupby_runs sim.isNative c.ops).1]
    unfold splitCircuit at hp
    rw [ZQ.mapM_ok_iff] at hp
    clear hflat hloop
    generalize groupby sim.isNative c.ops = gs at hp
    induction hp with
    | nil => rfl
    | @cons kg p gs ps h _ ih =>
      cases hm : Circuit.make kg.2 (some (c.n : ℚ)) with
      | error e => rw [hm] at h; cases h
      | ok d =>
        rw [hm] at h
        cases h
        obtain ⟨k, g⟩ := kg
        cases k <;> simp [ih]
  have hunit : (c.ops.reverse.map (GateOp.operator c.n ρ)).prod ∈ Matrix.unitaryGroup (Fin c.n → Bool) ℂ := by
    apply Submonoid.list_prod_mem
    intro A hA
    obtain ⟨op, hop, rfl⟩ := List.mem_map.1 hA
    rw [List.mem_reverse] at hop
    exact operator_unitary c.n op (hv op hop) ρ (hu op hop)
  have hnorm' : ∑ x, Complex.normSq (v.onBits c.n x) = 1 := by rw [hv3, sum_normSq_unitary hunit, hnorm]
  have hamps : (Vec.toList v).map (Wavefunction.Amp.num (σ := Empty)) = (List.range (2 ^ c.n)).map fun i => .num (v.e i) := by
    rw [Vec.toList, hv2, List.map_map]; rfl
  have hmk : Wavefunction.mk? ((Vec.toList v).map (Wavefunction.Amp.num (σ := Empty))) = .ok ⟨true, (List.range (2 ^ c.n)).map fun i => .num (v.e i)⟩ := by
    rw [hamps]
    refine Wavefunction.mk_of_map c.n v.e ?_
    rw [← hnorm']
    exact sum_range_eq_sum_bits c.n fun i => Complex.normSq (v.e i)
  refine ⟨⟨true, _⟩, v, ?_, rfl, by rw [hv3, hst], hnorm', ?_, ?_⟩
  · rw [getWavefunction, hp]
    dsimp only
    cases hl : wavefunctionLoop sim ρ pieces (initial.getD (zeroVec c.n)) st with
    | mk o st' =>
      rw [← hv₀] at hl
      rw [hl] at hloop
      obtain ⟨h1, -, -⟩ := hloop
      dsimp only at h1
      subst h1
      dsimp only
      rw [hmk]
  all_goals
    rw [getWavefunction, hp]
    dsimp only
    cases hl : wavefunctionLoop sim ρ pieces (initial.getD (zeroVec c.n)) st with
    | mk o st' =>
      rw [← hv₀] at hl
      rw [hl] at hloop
      obtain ⟨h1, h2, h3⟩ := hloop
      dsimp only at h1 h2 h3
      subst h1
      dsimp only
      rw [hmk]
      dsimp only
      first
        | rw [h2, hlen]
        | rw [h3, hlen]

/-- A chooser draws as many positions as asked for, all of positive probability, from every probability distribution. -/
def Chooser.Draws (choose : Chooser) : Prop :=
  ∀ (ps : List ℝ) (k : ℕ), (∀ p ∈ ps, 0 ≤ p) → ps.sum = 1 → (choose ps k).length = k ∧ ∀ i ∈ choose ps k, ∃ p, ps[i]? = some p ∧ 0 < p

/-- C68. Sampling fewer than one bitstring is rejected. -/
theorem sample_rejects (choose : Chooser) (w : Wavefunction.Wf Empty) (k : ℤ) (h : k < 1) : sampleFromWavefunction choose w k = .error .valueError := by
  rw [sampleFromWavefunction, if_pos h]

/-- C68. Sampling `k` bitstrings draws `k` positions with the probabilities `|amplitude|²` in basis order and returns, for each, the bits of that basis
state with qubit 0 first. -/
theorem sample_spec (choose : Chooser) (hc : choose.Draws) (n : ℕ) (hn : 0 < n) (zs : List ℂ) (hl : zs.length = 2 ^ n) (hsum : (zs.map Complex.normSq).sum = 1)
    (w : Wavefunction.Wf Empty) (hw : w.amps = zs.map .num) (k : ℤ) (hk : 1 ≤ k) :
    ∃ samples, sampleFromWavefunction choose w k = .ok samples ∧ (samples.length : ℤ) = k ∧
      List.Forall₂ (fun i s => ∃ x : Fin n → Bool, i = basisIndex x ∧ s = List.ofFn fun q => (x q).toNat) (choose (zs.map Complex.normSq) k.toNat) samples ∧
      ∀ s ∈ samples, ∃ (x : Fin n → Bool) (z : ℂ), s = List.ofFn (fun q => (x q).toNat) ∧ zs[basisIndex x]? = some z ∧ z ≠ 0 := by
  obtain ⟨d, hd, hdl, hent, -, -, -, -⟩ := Wavefunction.getOutcomeProbs_spec w n hn zs hl hw
  have hsnd : d.map Prod.snd = zs.map Complex.normSq := by
    apply List.ext_getElem?
    intro i
    by_cases hi : i < 2 ^ n
    · obtain ⟨key, h1, -⟩ := hent i hi
      rw [List.getElem?_map, List.getElem?_map, h1]
      cases zs[i]? <;> rfl
    · rw [List.getElem?_eq_none (by simp [hdl]; omega), List.getElem?_eq_none (by simp [hl]; omega)]
  obtain ⟨c1, c2⟩ := hc (zs.map Complex.normSq) k.toNat (by intro p hp; obtain ⟨z, _, rfl⟩ := List.mem_map.1 hp; exact Complex.normSq_nonneg z) hsum
  have hpos : ∀ i ∈ choose (zs.map Complex.normSq) k.toNat, ∃ (x : Fin n → Bool) (z : ℂ), i = basisIndex x ∧
      ((d.map Prod.fst).getD i []).reverse = List.ofFn (fun q => (x q).toNat) ∧ zs[basisIndex x]? = some z ∧ z ≠ 0 := by
    intro i hi
    obtain ⟨p, hp1, hp2⟩ := c2 i hi
    rw [List.getElem?_map] at hp1
    cases hz : zs[i]? with
    | none => rw [hz] at hp1; cases hp1
    | some z =>
      rw [hz] at hp1
      cases hp1
      have hi2 : i < 2 ^ n := by
        have := (List.getElem?_eq_some_iff.1 hz).1
        omega
      obtain ⟨key, h1, h2, h3⟩ := hent i hi2
      rw [hz] at h1
      refine ⟨bitsOf n i, z, (basisIndex_bitsOf n i hi2).symm, ?_, by rw [basisIndex_bitsOf n i hi2]; exact hz, fun e => by rw [e] at hp2; simp at hp2⟩
      have hg : (d.map Prod.fst).getD i [] = key := by
        rw [List.getD_eq_getElem?_getD, List.getElem?_map, h1]; rfl
      rw [hg]
      apply List.ext_getElem?
      intro q
      by_cases hq : q < n
      · rw [List.getElem?_reverse (by omega), h2, h3 _ (by omega), List.getElem?_ofFn, dif_pos hq]
        simp only [bitsOf_toNat]
        rw [bitAt, Nat.testBit_eq_decide_div_mod_eq]
        have e : n - 1 - q = n - (q + 1) := by omega
        have : i / 2 ^ (n - 1 - q) % 2 = 0 ∨ i / 2 ^ (n - 1 - q) % 2 = 1 := by omega
        rcases this with h | h <;> simp [h]
      · rw [List.getElem?_eq_none (by simp; omega), List.getElem?_eq_none (by simp; omega)]
  refine ⟨(choose (zs.map Complex.normSq) k.toNat).map fun i => ((d.map Prod.fst).getD i []).reverse, ?_, ?_, ?_, ?_⟩
  · rw [sampleFromWavefunction, if_neg (by omega), hd]
    dsimp only
    rw [hsnd]
  · rw [List.length_map, c1]; omega
  · rw [List.forall₂_map_right_iff, List.forall₂_same]
    intro i hi
    obtain ⟨x, z, h1, h2, -⟩ := hpos i hi
    exact ⟨x, h1, h2⟩
  · intro s hs
    obtain ⟨i, hi, rfl⟩ := List.mem_map.1 hs
    obtain ⟨x, z, -, h2⟩ := hpos i hi
    exact ⟨x, z, h2⟩

/-- C68. Running a unitary circuit without free symbols on the symbolic simulator returns as many bitstrings as asked for, each the label of a basis state
with non-zero amplitude in the circuit's state; both counters grow by one, or not at all for a circuit without operations. -/
theorem symbolicRun_spec (choose : Chooser) (hch : choose.Draws) (ρ : String → ℂ) (c : Circuit) (hc : c.Inv) (hn : 0 < c.n) (hv : ∀ op ∈ c.ops, op.Valid c.n)
    (hu : ∀ op ∈ c.ops, UnitaryOp ρ op) (k : ℤ) (hk : 1 ≤ k) (st : St W) :
    ∃ samples, (symbolicRun choose (fun _ => false) ρ c k none st).1 = .ok samples ∧ (samples.length : ℤ) = k ∧
      (∀ s ∈ samples, ∃ x : Fin c.n → Bool, s = List.ofFn (fun q => (x q).toNat) ∧
        ((c.ops.reverse.map (GateOp.operator c.n ρ)).prod *ᵥ (Pi.single (fun _ => false) 1)) x ≠ 0) ∧
      (symbolicRun choose (fun _ => false) ρ c k none st).2.circuits = st.circuits + (if c.ops = [] then 0 else 1) ∧
      (symbolicRun choose (fun _ => false) ρ c k none st).2.jobs = st.jobs + (if c.ops = [] then 0 else 1) := by
  obtain ⟨w, v, h1, h2, h3, h4, h5, h6⟩ := getWavefunction_spec (symbolic ρ) ρ (fun _ _ _ => rfl) c hc hv hu none (by simp) st
  have hruns : nativeRuns (symbolic (W := W) ρ).isNative false c.ops = if c.ops = [] then 0 else 1 := by
    have ht : ∀ ops, nativeRuns (symbolic (W := W) ρ).isNative true ops = 0 := by
      intro ops
      induction ops with
      | nil => rfl
      | cons o ops ih => rw [nativeRuns]; simpa [symbolic] using ih
    cases c.ops with
    | nil => rfl
    | cons o ops =>
      have := ht ops
      rw [nativeRuns]
      simpa [symbolic] using this
  have hsum : (((List.range (2 ^ c.n)).map v.e).map Complex.normSq).sum = 1 := by
    rw [← h4, List.map_map]
    exact (sum_range_eq_sum_bits c.n fun i => Complex.normSq (v.e i))
  obtain ⟨samples, s1, s2, -, s4⟩ := sample_spec choose hch c.n hn ((List.range (2 ^ c.n)).map v.e) (by simp) hsum w
    (by rw [h2, List.map_map]; rfl) k hk
  have hrun : symbolicRun choose (fun _ => false) ρ c k none st = (.ok samples, (getWavefunction (symbolic ρ) ρ c none st).2) := by
    rw [symbolicRun]
    cases hg : getWavefunction (symbolic ρ) ρ c none st with
    | mk o st' =>
      rw [hg] at h1
      dsimp only at h1
      subst h1
      dsimp only
      rw [if_neg (by simp), s1]
  refine ⟨samples, by rw [hrun], s2, ?_, by rw [hrun, h5, hruns], by rw [hrun, h6, hruns]⟩
  intro s hs
  obtain ⟨x, z, e1, e2, e3⟩ := s4 s hs
  refine ⟨x, e1, ?_⟩
  have : (v.onBits c.n) x = z := by
    rw [List.getElem?_map, List.getElem?_range (basisIndex_lt x)] at e2
    exact Option.some.inj e2
  rw [h3] at this
  simp only [Option.map_none, Option.getD_none] at this
  rw [this]
  exact e3

/-- C32, negation. The symbolic simulator counts a call that it rejects: asked for 0 samples of the example circuit, it raises `ValueError` and increments
both counters. -/
theorem symbolicRun_counterexample (choose : Chooser) :
    ∃ (c : Circuit), (symbolicRun choose (fun _ => false) (fun _ => 0) c 0 none (⟨0, 0, ()⟩ : St Unit)).1 = .error .valueError ∧
      (symbolicRun choose (fun _ => false) (fun _ => 0) c 0 none (⟨0, 0, ()⟩ : St Unit)).2.circuits = 1 ∧
      (symbolicRun choose (fun _ => false) (fun _ => 0) c 0 none (⟨0, 0, ()⟩ : St Unit)).2.jobs = 1 := by
  refine ⟨exampleCircuit, ?_⟩
  obtain ⟨hne, hv, hu⟩ := exampleCircuit_valid
  obtain ⟨w, v, h1, -, -, -, h5, h6⟩ := getWavefunction_spec (symbolic (W := Unit) fun _ => 0) (fun _ => 0) (fun _ _ _ => rfl) exampleCircuit
    (by intro h; cases h) hv hu none (by simp) ⟨0, 0, ()⟩
  have hrun : symbolicRun choose (fun _ => false) (fun _ => 0) exampleCircuit 0 none (⟨0, 0, ()⟩ : St Unit) =
      (.error .valueError, (getWavefunction (symbolic fun _ => 0) (fun _ => 0) exampleCircuit none ⟨0, 0, ()⟩).2) := by
    rw [symbolicRun]
    cases hg : getWavefunction (symbolic (W := Unit) fun _ => 0) (fun _ => 0) exampleCircuit none ⟨0, 0, ()⟩ with
    | mk o st' =>
      rw [hg] at h1
      dsimp only at h1
      subst h1
      dsimp only
      rw [if_neg (by simp), sample_rejects _ _ _ (by omega)]
  rw [hrun]
  refine ⟨rfl, ?_, ?_⟩
  · rw [h5]; rfl
  · rw [h6]; rfl

/-- Non-vacuity: a chooser that satisfies the contract (it always takes the first position of positive probability). -/
example : ∃ choose : Chooser, choose.Draws := by
  classical
  refine ⟨fun ps k => List.replicate k (ps.findIdx fun p => decide (0 < p)), ?_⟩
  intro ps k h0 h1
  have hex : ∃ p ∈ ps, 0 < p := by
    by_contra hno
    push Not at hno
    have : ps.sum = 0 := List.sum_eq_zero fun p hp => le_antisymm (hno p hp) (h0 p hp)
    rw [this] at h1
    exact zero_ne_one h1
  refine ⟨by simp, ?_⟩
  intro i hi
  obtain ⟨-, rfl⟩ := List.mem_replicate.1 hi
  obtain ⟨p, hp, hp0⟩ := hex
  have hlt : ps.findIdx (fun p => decide (0 < p)) < ps.length := List.findIdx_lt_length_of_exists ⟨p, hp, by simpa using hp0⟩
  refine ⟨ps[ps.findIdx fun p => decide (0 < p)], List.getElem?_eq_getElem hlt, ?_⟩
  have := List.findIdx_getElem (w := hlt)
  simpa using this

/-- Non-vacuity of `getWavefunction_spec` and `symbolicRun_spec`: the example circuit. -/
example : exampleCircuit.Inv ∧ 0 < exampleCircuit.n ∧ (∀ op ∈ exampleCircuit.ops, op.Valid exampleCircuit.n) ∧ ∀ op ∈ exampleCircuit.ops, UnitaryOp (fun _ => 0) op :=
  ⟨(by intro h; cases h), (by decide), exampleCircuit_valid.2.1, exampleCircuit_valid.2.2⟩

/-- A batching backend with batch size 2 running 3 circuits executes 2 jobs. -/
example : (runSet (W := Unit) (M := ℕ) ⟨fun w _ _ => (.ok 0, w), fun w _ _ => (.ok [], w)⟩ (some 2) (List.replicate 3 ⟨[], 1⟩) [1, 1, 1] ⟨0, 0, ()⟩).2.jobs = 2 ∧
    (batches 2 (List.replicate 3 ⟨[], 1⟩)).length = 2 := by
  refine ⟨?_, ?_⟩
  · show 0 + ⌈((List.replicate 3 (⟨[], 1⟩ : Circuit)).length : ℚ) / 2⌉₊ = 2
    have : ⌈((List.replicate 3 (⟨[], 1⟩ : Circuit)).length : ℚ) / 2⌉₊ = 2 := by
      rw [Nat.ceil_eq_iff (by norm_num)]
      norm_num
    rw [this]
  · have := (batches_spec (b := 2) (by omega) (List.replicate 3 (⟨[], 1⟩ : Circuit))).2.2
    norm_num at this
    exact_mod_cast this

end ZQ.Backend
