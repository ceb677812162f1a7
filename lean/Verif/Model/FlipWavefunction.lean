import Verif.Model.Wavefunction

/-!
# Model of `flip_wavefunction`
-/

namespace ZQ.Wavefunction

open ZQ.Bits

variable {σ : Type}

/-- wavefunction.py:209-210 `flip_wavefunction`: a new wavefunction of the flipped amplitudes (65-69 `amplitudes`: for symbols these are an array of objects, which the constructor makes
a matrix again). -/
noncomputable def flipWavefunction (w : Wf σ) : Except Err (Wf σ) :=
  match flipAmplitudes w.amps with
  | none => .error .indexError
  | some amps => mk? amps

end ZQ.Wavefunction
