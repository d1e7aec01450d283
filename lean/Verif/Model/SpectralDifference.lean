import Verif.Model.Interp
import Verif.Model.Level

/-!
# The difference of spectra (`standard/other.py`: `spectral_difference`)

Exact real and complex arithmetic.  Signals are converted first by `Spectrum.from_signal` (see
`Model/SpectrumConversion`); there is no smoothing.  Spectra have at least two bins and not more channels than bins.
-/

namespace Verif.SpectralDifference

open Spectrum Complex

/-- A `Spectrum`: bin `k` of channel `c` is `x c k`; `isMagnitude` says whether the data is an array of
reals. -/
structure Spec where
  freqs : List ℝ
  channels : ℕ
  x : ℕ → ℕ → ℂ
  isMagnitude : Bool

open Classical in
/-- The larger of two numbers as NumPy compares them: complex numbers first by their real parts, then by
their imaginary parts. -/
noncomputable def lexMax (z w : ℂ) : ℂ :=
  if z.re < w.re ∨ z.re = w.re ∧ z.im ≤ w.im then w else z

/-- `np.max` of a column with `n` entries. -/
noncomputable def columnMax (n : ℕ) (d : ℕ → ℂ) : ℂ :=
  (List.range (n - 1)).foldl (fun (acc : ℂ) (k : ℕ) => lexMax acc (d (k + 1))) (d 0)

open Classical in
/-- Energy normalization (`other.py`, lines 461-463): the data is divided by the root of its energy;
`none` is a channel of `nan` (a silent one), which the setter of magnitudes refuses (`spectrum.py`,
lines 266-269). -/
noncomputable def normalized (norm : Bool) (s : Spec) : Except Err (ℕ → Option (ℕ → ℂ)) :=
  if norm then
    match (List.range s.channels).mapM
        (fun c => energy s.freqs (fun k c => ‖s.x c k‖ ^ 2) none none c) with
    | .error e => .error e
    | .ok es =>
      if s.isMagnitude = true ∧ ∃ c < s.channels, es.getD c 0 = 0 then .error .assertionError
      else .ok fun c => if es.getD c 0 = 0 then none
        else some fun k => s.x c k / ((Real.sqrt (es.getD c 0) : ℝ) : ℂ)
  else .ok fun c => some (s.x c)

/-- `mag2` of a channel (`other.py`, lines 469-479): the data of the second input at the frequencies of
the first one, with at least the smallest value of the dynamic range. -/
noncomputable def divisor (complex : Bool) (dr : Option ℝ) (f1 f2 : List ℝ) (x : ℕ → ℂ) (k : ℕ) : ℂ :=
  let m : ℕ → ℂ := fun k =>
    if complex then
      convert .magnitudePhase .complex (interpolated .magnitudePhase .zeroPad f2 x (f1.getD k 0))
    else convert .power .magnitude (interpolated .power .zeroPad f2 x (f1.getD k 0))
  match dr with
  | none => m k
  | some r => lexMax (m k) (columnMax f1.length m * ((Level.fromDb (-|r|) true : ℝ) : ℂ))

open Classical in
/-- `spectral_difference` (`other.py`, lines 408-482): the data of the result, `none` where a number is
divided by zero.  Zero divided by zero is `nan`, which the setter of magnitudes refuses. -/
noncomputable def spectralDifference (s1 s2 : Spec) (norm complex : Bool) (dr : Option ℝ) :
    Except Err (ℕ → ℕ → Option ℂ) :=
  if s1.channels ≠ s2.channels then .error .assertionError
  else if complex = true ∧ s1.isMagnitude = true then .error .assertionError
  else if complex = true ∧ s2.isMagnitude = true then .error .assertionError
  else
    match normalized norm s1 with
    | .error e => .error e
    | .ok n1 =>
      match normalized norm s2 with
      | .error e => .error e
      | .ok n2 =>
        let d : ℕ → ℕ → Option ℂ := fun c k =>
          (n2 c).map fun y => divisor complex dr s1.freqs s2.freqs y k
        if s1.isMagnitude = true ∧ ∃ c < s1.channels, ∃ k < s1.freqs.length,
            d c k = none ∨ (d c k = some 0 ∧ ∃ x, n1 c = some x ∧ x k = 0) then
          .error .assertionError
        else .ok fun c k =>
          match n1 c, d c k with
          | some x, some v => if v = 0 then none else some (x k / v)
          | _, _ => none

end Verif.SpectralDifference
