import Verif.Model.CSM
import Verif.Model.Spectrum

/-!
# Model of the estimation of transfer functions

`transfer_functions/transfer_functions.py: compute_transfer_function`.  Exact arithmetic; a quotient
with denominator zero is not a finite number (nan or inf with a warning) and is modelled by `none`.
-/

namespace Verif.TransferEstimate

open CSM Scaling

/-- `TransferFunctionType` (`enums.py`). -/
inductive Mode where
  | h1 | h2 | h3
deriving DecidableEq

/-- The parts of a signal that are used: sampling rate, samples per channel, channels. -/
structure Sig where
  fs : ℕ
  L : ℕ
  n : ℕ
  x : ℕ → List ℝ

/-- Quotient of arrays; `none` if it is not finite. -/
noncomputable def div (a b : ℂ) : Option ℂ := if b = 0 then none else some (a / b)

/-- An entry of `tf` (`transfer_functions.py`, lines 525-531) for an input `x` and an output `y`.
The autospectra are not negative, so that `** 0.5` is the square root also for real arrays. -/
noncomputable def entry (mode : Mode) (p : Params) (s : Scaling) (x y : List ℝ) (k : ℕ) : Option ℂ :=
  let gxx := welch p s x none k
  let gyy := welch p s y none k
  let gyx := welch p s y (some x) k
  let gxy := welch p s x (some y) k
  match mode with
  | .h1 => div gxy gxx
  | .h2 => div gyy gyx
  | .h3 =>
    match div gxy (‖gxy‖ : ℂ), div gyy gxx with
    | some u, some r => some (u * csqrt r)
    | _, _ => none

/-- An entry of `coherence` (line 534); the real part is stored in the real array. -/
noncomputable def coherence (p : Params) (s : Scaling) (x y : List ℝ) (k : ℕ) : Option ℝ :=
  let gxx := welch p s x none k
  let gyy := welch p s y none k
  let gxy := welch p s x (some y) k
  match div ((‖gxy‖ ^ 2 : ℝ) : ℂ) gxx with
  | some q => (div q gyy).map Complex.re
  | none => none

/-- What is returned: the spectrum with its coherence. -/
structure Result where
  freqs : List ℝ
  tf : Mat (Option ℂ)
  coh : Mat (Option ℝ)

/-- Channel of the input that belongs to channel `c` of the output (lines 493-497). -/
def inputChannel (input : Sig) (c : ℕ) : ℕ := if input.n = 1 then 0 else c

/-- `compute_transfer_function` (`transfer_functions.py`, lines 419-539).  `p` holds the window length
of the call and the remaining spectrum parameters of the input; its sampling rate is not used, the
one of the signals is.  The periodogram of every channel raises under the same conditions.  The setter of the spectral data
transposes arrays with more channels than bins, which then do not match the frequency
vector. -/
noncomputable def transferFunction (output input : Sig) (p : Params) (s : Scaling) (mode : Mode) :
    Except Err Result :=
  if input.fs ≠ output.fs then .error .assertionError
  else if input.L ≠ output.L then .error .assertionError
  else if input.n ≠ 1 ∧ input.n ≠ output.n then .error .assertionError
  else
    let p : Params := { p with fs := input.fs }
    match check p input.L with
    | some e => .error e
    | none =>
      let bins := p.W / 2 + 1
      let tf : Mat (Option ℂ) := ⟨bins, output.n, fun k c =>
        entry mode p s (input.x (inputChannel input c)) (output.x c) k⟩
      let coh : Mat (Option ℝ) := ⟨bins, output.n, fun k c =>
        coherence p s (input.x (inputChannel input c)) (output.x c) k⟩
      let freqs : List ℝ := (List.range bins).map fun (k : ℕ) => (k : ℝ) * input.fs / p.W
      match Spectrum.setSpectral ⟨freqs, tf⟩ tf with
      | (_, some e) => .error e
      | (sp, none) =>
        if coh.rows = sp.data.rows ∧ coh.cols = sp.data.cols then .ok ⟨sp.freqs, sp.data, coh⟩
        else .error .assertionError

end Verif.TransferEstimate
