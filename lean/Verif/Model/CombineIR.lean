import Verif.Model.Normalize
import Mathlib.Data.Sign.Basic

/-!
# Mixing of an impulse response with an impulse

`transfer_functions/transfer_functions.py: combine_ir_with_dirac` (lines 1086-1190).  Exact arithmetic.  The
impulses (`Model/AverageIR`), the fractional latencies and the two bands of the crossover with zero phase are
arguments; the check of the type of the response and a
rescaling of bands by constrained amplitudes are left out.
-/

namespace Verif.CombineIR

open SignalData Level

/-- The argument `normalization`: `None`, a text, a number of python (or `np.int_`), or a floating-point number of
numpy, whose type is not among those of line 1185 (`np.floating` is the base class only). -/
inductive Matching
  | off
  | text (s : String)
  | number (db : ℝ)
  | numpyFloat (db : ℝ)

/-- The check of lines 1134-1139. -/
def accepted : Matching → Bool
  | .text s => s.toLower = "energy" ∨ s.toLower = "peak"
  | _ => true

/-- `np.sqrt(np.mean(x**2))` (lines 1178-1179). -/
noncomputable def rms (n : ℕ) (x : ℕ → ℝ) : ℝ := Real.sqrt ((∑ r ∈ Finset.range n, x r ^ 2) / n)

/-- `np.max(np.abs(x))` (lines 1182-1183). -/
noncomputable def peak (n : ℕ) (x : ℕ → ℝ) : ℝ := (Finset.range n).fold max 0 fun r => |x r|

/-- The factor of the band of the impulse (lines 1177-1186); `none` if it is nan or infinite. -/
noncomputable def factor (m : Matching) (n : ℕ) (ir imp : ℕ → ℝ) : Option ℝ :=
  match m with
  | .text s =>
    if s.toLower = "energy" then (if rms n imp = 0 then none else some (rms n ir / rms n imp))
    else if s.toLower = "peak" then (if peak n imp = 0 then none else some (peak n ir / peak n imp))
    else some 1
  | .number db => some (fromDb db true)
  | .numpyFloat _ => some 1
  | .off => some 1

/-- `np.sign(ir.time_data[int(latencies_samples[ch] + 0.5), ch])` (line 1161). -/
noncomputable def polarity (ir : Mat ℝ) (lat : ℕ → ℝ) (c : ℕ) : ℝ :=
  (SignType.sign (ir.val ⌊lat c + 0.5⌋₊ c) : ℝ)

/-- The sum of the bands (lines 1168-1189) of the response `ir` (already normalised) and the impulses `imp`; `low`
and `high` filter one channel.  An undefined factor leaves no defined sample after the last normalisation. -/
noncomputable def mix (low high : (ℕ → ℝ) → ℕ → ℝ) (takeLower : Bool) (m : Matching) (lat : ℕ → ℝ) (ir imp : Mat ℝ) :
    Option (Mat ℝ) :=
  let a := fun c => (if takeLower then low else high) fun r => ir.val r c
  let b := fun c => (if takeLower then high else low) fun r => imp.val r c
  if ∀ c < ir.cols, (factor m ir.rows (a c) (b c)).isSome then
    some ⟨ir.rows, ir.cols, fun r c => a c r + b c r * (factor m ir.rows (a c) (b c)).getD 0 * polarity ir lat c⟩
  else none

/-- `combine_ir_with_dirac` (lines 1133-1190) for latencies `lat`, which depend on the normalised response, and
impulses `imp` that depend on these; `none` stands for an array of nan (a silent response or a silent sum). -/
noncomputable def combine (low high : (ℕ → ℝ) → ℕ → ℝ) (takeLower : Bool) (m : Matching)
    (latencies : Mat ℝ → ℕ → ℝ) (impulses : (ℕ → ℝ) → Mat ℝ) (data : Mat ℝ) : Except Err (Option (Mat ℝ)) :=
  if accepted m = false then .error .assertionError
  else if peakOn (cells data 0 false) data.val = 0 then .ok none
  else
    let ir := normalizeArray data 0 true false
    let lat := latencies ir
    match mix low high takeLower m lat ir (impulses lat) with
    | none => .ok none
    | some s =>
      if peakOn (cells s 0 false) s.val = 0 then .ok none
      else .ok (some (normalizeArray s 0 true false))

end Verif.CombineIR
