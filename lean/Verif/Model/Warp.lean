import Verif.Model.FilterBank
import Mathlib.Analysis.SpecialFunctions.Trigonometric.Arctan
import Mathlib.Analysis.Real.Sqrt

/-!
# Model of frequency warping (`dsptoolbox/transforms/transforms.py`, lines 955-1196, and
`_transforms.py`, lines 386-463)

Exact arithmetic, one channel.
-/

namespace Verif.Warp

open Bank

/-- The loop of `_warp_time_series` (`_transforms.py`, lines 423-425). -/
noncomputable def warpLoop (b a : List ℝ) : List ℝ → List ℝ → List ℝ → List ℝ
  | _, acc, [] => acc
  | dirac, acc, x :: xs =>
    let d := lfilter b a dirac
    warpLoop b a d (List.zipWith (· + ·) acc (d.map (· * x))) xs

/-- `_warp_time_series` (`_transforms.py`, lines 386-428) without the messages on the console.
Signals are never empty. -/
noncomputable def warpSeries (lam : ℝ) : List ℝ → List ℝ
  | [] => []
  | x :: xs =>
    let dirac := 1 :: List.replicate xs.length 0
    warpLoop [-lam, 1] [1, -lam] dirac (dirac.map (· * x)) xs

/-- The samples that `warp` computes (`transforms.py`, lines 1120-1125), without the shift to the
start; `total` is the argument `total_length`. -/
noncomputable def warp (lam : ℝ) (total : Option ℕ) (td : List ℝ) : List ℝ :=
  warpSeries lam (match total with | none => td | some n => td.take n)

/-- The loop of `laguerre` (`transforms.py`, lines 1012-1014). -/
noncomputable def laguerreLoop (b a : List ℝ) : ℕ → List ℝ → List ℝ
  | 0, _ => []
  | n + 1, xx =>
    let y := lfilter b a xx
    y.getLastD 0 :: laguerreLoop b a n y

/-- The samples that `laguerre` computes (`transforms.py`, lines 998-1014). -/
noncomputable def laguerre (lam : ℝ) (x : List ℝ) : Except Err (List ℝ) :=
  if ¬ |lam| < 1 then .error .assertionError
  else
    let xx := lfilter [√(1 - lam ^ 2)] [1, lam] x.reverse
    .ok (xx.getLastD 0 :: laguerreLoop [lam, 1] [1, lam] (x.length - 1) xx)

/-- The argument `warping_factor` of `warp`. -/
inductive Factor
  | float (v : ℝ)
  | text (s : String)
  | other

/-- `_get_warping_factor` (`_transforms.py`, lines 431-463); an empty text has no last character.
`"bark" in s` is a search for a part of the text. -/
noncomputable def warpingFactor (w : Factor) (fs : ℝ) : Except Err ℝ :=
  match w with
  | .float v => if |v| < 1 then .ok v else .error .assertionError
  | .text s =>
    let t := s.toLower.toList
    match t.getLast? with
    | none => .error .indexError
    | some c =>
      let invert := ¬ (c = 'k' ∨ c = 'b')
      if "bark".toList <:+: t then
        let v := -1 * (1.0674 * √(2 / Real.pi * Real.arctan (0.06583 * fs)) - 0.1916)
        .ok (if invert then v * -1 else v)
      else if "erb".toList <:+: t then
        let v := -1 * (0.7446 * √(2 / Real.pi * Real.arctan (0.1418 * fs)) + 0.03237)
        .ok (if invert then v * -1 else v)
      else .error .valueError
  | .other => .error .typeError

/-- Zeros, poles and gain, as `get_coefficients(FilterCoefficientsType.Zpk)` returns them. -/
structure Zpk where
  z : List ℂ
  p : List ℂ
  k : ℂ

/-- The mapping of one root (`transforms.py`, lines 1188-1189). -/
noncomputable def warpRoot (lam : ℝ) (r : ℂ) : ℂ := (lam + r) / (1 + lam * r)

/-- `warp_filter` (`transforms.py`, lines 1186-1194) on zeros, poles and gain. A root at which the
division is by zero (numpy: an infinite root, from which no filter can be made) is `zeroDivision`. -/
noncomputable def warpFilter (lam : ℝ) (F : Zpk) : Except Err Zpk :=
  if ¬ |lam| < 1 then .error .assertionError
  else
    open Classical in
    if ∃ r ∈ F.p ++ F.z, 1 + (lam : ℂ) * r = 0 then .error .zeroDivision
    else
      let p := F.p.map (warpRoot lam)
      let z := F.z.map (warpRoot lam)
      if z.length < p.length then
        .ok ⟨z ++ List.replicate (p.length - z.length) (lam : ℂ), p, F.k⟩
      else if p.length < z.length then
        .ok ⟨z, p ++ List.replicate (z.length - p.length) (lam : ℂ), F.k⟩
      else .ok ⟨z, p, F.k⟩

end Verif.Warp
