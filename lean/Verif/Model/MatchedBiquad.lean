import Verif.Model.Biquad
import Verif.Spec.Realtime
import Mathlib.Analysis.SpecialFunctions.Trigonometric.DerivHyp

/-!
# Model of matched biquads

`dsptoolbox/filterbanks/_filterbank.py`, lines 1348-1506, and `filterbanks.py: matched_biquad`, lines
534-633.  Exact arithmetic over the real numbers; the result `none` stands for coefficients with `nan` or
`inf`, which `numpy` gives for roots of negative numbers and divisions by zero.
-/

namespace Verif.MatchedBiquad

open Verif.Biquad

/-- `x ** 0.5` of a `numpy` number. -/
noncomputable def root (x : ℝ) : Option ℝ := if 0 ≤ x then some (Real.sqrt x) else none

/-- `x / y` of `numpy` numbers. -/
noncomputable def quot (x y : ℝ) : Option ℝ := if y = 0 then none else some (x / y)

/-- The results of `__get_matched_eq_helpers`: the coefficients `a1` and `a2`, and `phi[1]`. -/
structure Helpers where
  a1 : ℝ
  a2 : ℝ
  p : ℝ

/-- `__get_matched_eq_helpers` (`_filterbank.py`, lines 1481-1506). -/
noncomputable def helpers (w0 Q : ℝ) : Helpers :=
  let q := 1 / (2 * Q)
  ⟨if q ≤ 1 then -2 * Real.exp (-q * w0) * Real.cos (Real.sqrt (1 - q ^ 2) * w0)
    else -2 * Real.exp (-q * w0) * Real.cosh (Real.sqrt (q ^ 2 - 1) * w0),
    Real.exp (-2 * q * w0), Real.sin (w0 / 2) ^ 2⟩

/-- `A[0]`, `A[1]` and `A[2]` (line 1500). -/
noncomputable def Helpers.A0 (h : Helpers) : ℝ := (1 + h.a1 + h.a2) ^ 2
@[inherit_doc Helpers.A0]
noncomputable def Helpers.A1 (h : Helpers) : ℝ := (1 - h.a1 + h.a2) ^ 2
@[inherit_doc Helpers.A0]
noncomputable def Helpers.A2 (h : Helpers) : ℝ := -4 * h.a2

/-- `A @ phi` (lines 1501-1503). -/
noncomputable def Helpers.dot (h : Helpers) : ℝ :=
  h.A0 * (1 - h.p) + h.A1 * h.p + h.A2 * (4 * (1 - h.p) * h.p)

/-- `-A[0] + A[1] + 4 * (phi[0] - phi[1]) * A[2]` -/
noncomputable def Helpers.slope (h : Helpers) : ℝ := -h.A0 + h.A1 + 4 * ((1 - h.p) - h.p) * h.A2

/-- The quality factor of the peaking filter (lines 1350-1358). -/
noncomputable def scaledQ (gain q : ℝ) (factor : Option ℝ) : Except Err ℝ :=
  let factor := factor.getD (max |0.0868 * gain + 1.264| 0.55)
  if factor ≤ 0 then .error .assertionError else .ok (q * factor)

/-- `_get_matched_peaking_eq` (lines 1360-1373). -/
noncomputable def peaking (w0 g Q : ℝ) : Option Coeffs :=
  let h := helpers w0 Q
  let R1 := g ^ 2 * h.dot
  let R2 := g ^ 2 * h.slope
  let B0 := h.A0
  let B2 := (R1 - R2 * h.p - B0) / (4 * h.p ^ 2)
  let B1 := R2 + B0 + 4 * (h.p - (1 - h.p)) * B2
  do
    let r0 ← root B0
    let r1 ← root B1
    let W := 0.5 * (r0 + r1)
    let s ← root (W ^ 2 + B2)
    let b0 := 0.5 * (W + s)
    let b2 ← quot (-B2) (4 * b0)
    return ⟨b0, 0.5 * (r0 - r1), b2, 1, h.a1, h.a2⟩

/-- `_get_matched_lowpass_eq` (lines 1376-1391). -/
noncomputable def lowpass (w0 g Q : ℝ) : Option Coeffs :=
  let h := helpers w0 Q
  let R1 := Q ^ 2 * h.dot
  let B1 := (R1 - h.A0 * (1 - h.p)) / h.p
  do
    let r ← root B1
    let b0 := 0.5 * ((1 + h.a1 + h.a2) + r)
    let b1 := (1 + h.a1 + h.a2) - b0
    return ⟨b0 * g, b1 * g, 0 * g, 1, h.a1, h.a2⟩

/-- `_get_matched_highpass_eq` (lines 1394-1403). -/
noncomputable def highpass (w0 g Q : ℝ) : Option Coeffs :=
  let h := helpers w0 Q
  do
    let r ← root h.dot
    let b0 := r / 4 / h.p * Q * g
    return ⟨b0, -2 * b0, b0, 1, h.a1, h.a2⟩

/-- `_get_matched_bandpass_eq` (lines 1406-1420). -/
noncomputable def bandpass (w0 g Q : ℝ) : Option Coeffs :=
  let h := helpers w0 Q
  let B2 := (h.dot - h.slope * h.p) / 4 / h.p ^ 2
  let B1 := h.slope + 4 * (h.p - (1 - h.p)) * B2
  do
    let r ← root B1
    let b1 := -0.5 * r
    let s ← root (B2 + b1 ^ 2)
    let b0 := 0.5 * (s - b1)
    let b2 := -b0 - b1
    return ⟨b0 * g, b1 * g, b2 * g, 1, h.a1, h.a2⟩

/-- `(fc**4 + f**4 * G) / (fc**4 + f**4 / G)` (lines 1444-1445). -/
noncomputable def shelfGain (G fc f : ℝ) : ℝ := (fc ^ 4 + f ^ 4 * G) / (fc ^ 4 + f ^ 4 / G)

/-- The coefficients of a polynomial from its values (lines 1469-1472 and 1474-1477). -/
noncomputable def factor (B1 B2 : ℝ) : Option (ℝ × ℝ × ℝ) := do
  let r ← root B1
  let W := 0.5 * (1 + r)
  let s ← root (W ^ 2 + B2)
  let b0 := 0.5 * (W + s)
  let b2 ← quot (-0.25 * B2) b0
  return (b0, 1 - W, b2)

/-- The variable `G` (lines 1430-1436). -/
noncomputable def shelfG (g : ℝ) (low : Bool) : ℝ :=
  let G := if low then 1 / g else g
  if |1 - G| < 1e-6 then 1 + 1e-6 else G

/-- The first matching frequency (line 1438), relative to half the sampling rate. -/
noncomputable def match1 (fc : ℝ) : ℝ := fc / Real.sqrt (0.16 + 1.543 * fc ^ 2)

/-- The second matching frequency (line 1439). -/
noncomputable def match2 (fc : ℝ) : ℝ := fc / Real.sqrt (0.947 + 3.806 * fc ^ 2)

/-- `_get_matched_shelving_eq` (lines 1423-1478) for the frequency `fc` relative to half the sampling
rate. -/
noncomputable def shelving (fc g : ℝ) (low : Bool) : Option Coeffs :=
  let G := shelfG g low
  let f1 := match1 fc
  let f2 := match2 fc
  let hny := (fc ^ 4 + G) / (fc ^ 4 + 1 / G)
  let p1 := Real.sin (Real.pi / 2 * f1) ^ 2
  let p2 := Real.sin (Real.pi / 2 * f2) ^ 2
  let h1 := shelfGain G fc f1
  let h2 := shelfGain G fc f2
  let d1 := (h1 - 1) * (1 - p1)
  let c11 := -p1 * d1
  let c12 := (hny - h1) * p1 ^ 2
  let d2 := (h2 - 1) * (1 - p2)
  let c21 := -p2 * d2
  let c22 := (hny - h2) * p2 ^ 2
  do
    let alpha1 ← quot (c22 * d1 - c12 * d2) (c11 * c22 - c12 * c21)
    let alpha2 ← quot (d1 - c11 * alpha1) c12
    let beta1 := alpha1
    let beta2 := hny * alpha2
    let a ← factor alpha2 (0.25 * (alpha1 - alpha2))
    let b ← factor beta2 (0.25 * (beta1 - beta2))
    let k := if low then G else 1
    return ⟨b.1 / k, b.2.1 / k, b.2.2 / k, a.1, a.2.1, a.2.2⟩

/-- `matched_biquad` (`filterbanks.py`, lines 605-633). -/
noncomputable def matched (t : EqType) (f gain q fs : ℝ) (factor : Option ℝ) :
    Except Err (Option Coeffs) :=
  if ¬ (0 < f ∧ f < fs / 2) then .error .assertionError
  else if ¬ 0 < q then .error .assertionError
  else
    let w0 := 2 * Real.pi * f / fs
    let g := (10 : ℝ) ^ (gain / 20)
    match t with
    | .peaking =>
      match scaledQ gain q factor with
      | .error e => .error e
      | .ok Q => .ok (peaking w0 g Q)
    | .lowpass => .ok (lowpass w0 g q)
    | .highpass => .ok (highpass w0 g q)
    | .bandpassPeak => .ok (bandpass w0 g q)
    | .bandpassSkirt => .ok (bandpass w0 g q)
    | .lowshelf => .ok (shelving (f / (fs / 2)) g true)
    | .highshelf => .ok (shelving (f / (fs / 2)) g false)
    | _ => .error .valueError

end Verif.MatchedBiquad
