import Verif.Model.Backend
import Verif.Model.Estimation

/-!
# Sampling of the simulator: symbolic_simulator.py, measurement.py:182-206

The random bits are parameters: one stream of numbers in `[0, 1)` for each seed and one for each generator made without a seed.
-/

namespace ZQ.Backend

open ZQ ZQ.Circuits

/-- `numpy.cumsum` with the sum `a` of what went before. -/
def cumsum : ℝ → List ℝ → List ℝ
  | _, [] => []
  | a, p :: ps => (a + p) :: cumsum (a + p) ps

/-- `numpy.random.Generator.choice` with replacement and probabilities `ps`: `cdf = p.cumsum(); cdf /= cdf[-1]; cdf.searchsorted(u, side="right")`, the number of entries of `cdf` that
are at most the uniform number `u`. -/
noncomputable def pick (ps : List ℝ) (u : ℝ) : ℕ := (cumsum 0 ps).countP fun c => decide (c / (cumsum 0 ps).getLastD 1 ≤ u)

/-- measurement.py:204 `rng.choice(a=outcomes_str, size=n_samples, p=probabilities)`: each position uses the next number of the generator's stream. -/
noncomputable def fromStream (u : ℕ → ℝ) : Chooser := fun ps n => (List.range n).map fun j => pick ps (u j)

/-- The random numbers of a run of the program: `fresh k` is the stream of the `k`-th generator made without a seed, `seeded s` the stream of each generator made with seed `s`. -/
structure Randomness where
  fresh : ℕ → ℕ → ℝ
  seeded : ℕ → ℕ → ℝ

/-- measurement.py:199 `np.random.default_rng(seed)`, called for each sampling; `k` generators were made before. -/
def defaultRng (r : Randomness) (seed : Option ℕ) (k : ℕ) : ℕ → ℝ :=
  match seed with
  | none => r.fresh k
  | some s => r.seeded s

/-- symbolic_simulator.py:29-50 `SymbolicSimulator.run_circuit_and_measure` of a simulator made with `seed` (20-27), for circuits whose state has no free symbols; the world is the number of
runs so far. `n_samples=None` is a `TypeError` in measurement.py:197. -/
noncomputable def simRun (r : Randomness) (seed : Option ℕ) (ρ : String → ℂ) (c : Circuit) (n : Option ℤ) (st : St ℕ) : Except Err (List (List ℕ)) × St ℕ :=
  match n with
  | none => (.error .typeError, st)
  | some n =>
    let a := symbolicRun (fromStream (defaultRng r seed st.world)) (fun _ => false) ρ c n none st
    (a.1, { a.2 with world := st.world + 1 })

/-- interfaces/backend.py:83-92 `run_circuitset_and_measure`: the simulator does not support batching. -/
noncomputable def simLoop (r : Randomness) (seed : Option ℕ) (ρ : String → ℂ) : List (Circuit × Option ℤ) → St ℕ → Except Err (List (List (List ℕ))) × St ℕ
  | [], st => (.ok [], st)
  | (c, n) :: rest, st =>
    match simRun r seed ρ c n st with
    | (.error e, st) => (.error e, st)
    | (.ok m, st) =>
      match simLoop r seed ρ rest st with
      | (.error e, st) => (.error e, st)
      | (.ok ms, st) => (.ok (m :: ms), st)

/-- The simulator as the backend of an estimation (estimation/_estimation.py:318-325). -/
noncomputable def simRunner (r : Randomness) (seed : Option ℕ) (ρ : String → ℂ) (st : St ℕ) : Est.Runner := fun cs => (simLoop r seed ρ cs st).1

end ZQ.Backend
