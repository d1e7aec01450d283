import Verif.Model.Interp
import Mathlib.Analysis.SpecialFunctions.Pow.Real

/-!
# Complex smoothing of a spectrum

`transfer_functions/transfer_functions.py: complex_smoothing`,
`transfer_functions/_transfer_functions.py: _complex_smoothing_backend` (both versions).  One
channel, exact arithmetic.  The spectrum has `N` bins with the frequencies `i * delta`.  The window
prototype with its interpolation, `np.interp(x, np.linspace(-1, 1, 3000), window(3000, True))`, is a
function `w` on `[-1, 1]`.
-/

namespace Verif.ComplexSmoothing

open Complex

/-- `SmoothingDomain` -/
inductive Domain
  | realImaginary | magnitudePhase | powerPhase | power | magnitude | equivalentComplex

/-- `factor` (`_transfer_functions.py`, line 520). -/
noncomputable def factor (fraction : ℝ) : ℝ := 2 ^ (1 / fraction / 2)

/-- `ind_low` before the bounds are applied (lines 523-526; `int` is applied to a
number that is not negative). -/
noncomputable def indLow (k delta : ℝ) (i : ℕ) : ℤ :=
  i - ⌊(i * delta - i * delta / k) / delta + 1 / 2⌋

/-- `ind_high` before the bounds are applied (lines 523-527; likewise). -/
noncomputable def indHigh (k delta : ℝ) (i : ℕ) : ℤ :=
  i + ⌊(i * delta * k - i * delta) / delta + 1 / 2⌋ + 1

/-- Entry `j` of `window` for a window of `L` points (lines 544-552): the points
`np.logspace(log10(3), log10(1), L) - 2`. -/
noncomputable def weight (w : ℝ → ℝ) (L j : ℕ) : ℝ := w ((3 : ℝ) ^ (1 - (j : ℝ) / ((L : ℝ) - 1)) - 2)

/-- One pass of the loop of `_complex_smoothing_backend` (`_transfer_functions.py`, lines 522-554);
`none` is nan (a window with the sum zero). -/
noncomputable def smoothAt (w : ℝ → ℝ) (fraction delta : ℝ) (N : ℕ) (s : ℕ → ℂ) (i : ℕ) : Option ℂ :=
  let k := factor fraction
  let L := (indHigh k delta i - indLow k delta i).toNat
  let lo := (max (indLow k delta i) 0).toNat
  let hi := (min (indHigh k delta i) N).toNat
  if hi ≤ lo + 2 then some (s i)
  else
    let total := ∑ j ∈ Finset.range (hi - lo), weight w L j
    if total = 0 then none
    else some (∑ j ∈ Finset.range (hi - lo), ((weight w L j / total : ℝ) : ℂ) * s (lo + j))

/-- `complex_smoothing` (`transfer_functions.py`, lines 1816-1876) at bin `i`. -/
noncomputable def complexSmoothing (w : ℝ → ℝ) (fraction delta : ℝ) (N : ℕ) (d : Domain) (s : ℕ → ℂ)
    (i : ℕ) : Except Err (Option ℂ) :=
  if ¬ 0 < fraction then .error .assertionError
  else if N < 2 then .error .indexError
  else
    let smooth (z : ℕ → ℂ) : Option ℂ := smoothAt w fraction delta N z i
    let phase : ℕ → ℝ := Spectrum.unwrap fun m => (s m).arg
    .ok (match d with
      | .realImaginary => smooth s
      | .magnitudePhase =>
        (smooth fun m => (‖s m‖ : ℂ) + I * (phase m : ℂ)).map fun v => (v.re : ℂ) * exp (I * v.im)
      | .powerPhase =>
        (smooth fun m => ((‖s m‖ ^ 2 : ℝ) : ℂ) + I * (phase m : ℂ)).map fun v =>
          (Real.sqrt v.re : ℂ) * exp (I * v.im)
      | .power =>
        (smooth fun m => ((‖s m‖ ^ 2 : ℝ) : ℂ)).map fun v =>
          (Real.sqrt v.re : ℂ) * exp (I * ((s i).arg : ℂ))
      | .magnitude =>
        (smooth fun m => (‖s m‖ : ℂ)).map fun v => (v.re : ℂ) * exp (I * ((s i).arg : ℂ))
      | .equivalentComplex =>
        match smooth s, smooth fun m => ((‖s m‖ ^ 2 : ℝ) : ℂ) with
        | some v, some p => some ((Real.sqrt p.re : ℂ) * exp (I * (v.arg : ℂ)))
        | _, _ => none)

end Verif.ComplexSmoothing
