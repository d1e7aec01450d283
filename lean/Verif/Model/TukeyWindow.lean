import Verif.Spec.Realtime
import Mathlib.Analysis.SpecialFunctions.Trigonometric.Basic

/-!
# Model of the windows with two flanks (`helpers/windows.py: calculate_tukey_like_window`)

`scipy.signal.windows.get_window(type, n, fftbins=True)` is external: a window type is the
function giving sample `i` of the periodic window of length `n`.
-/

namespace Verif.Tukey

/-- Sample `i` of a periodic window of length `n`. -/
abbrev WindowType := ℕ → ℕ → ℝ

/-- The periodic Hann window of scipy. -/
noncomputable def hann : WindowType := fun n i => 0.5 - 0.5 * Real.cos (2 * Real.pi * i / n)

/-- `low_flank` (`windows.py`, lines 50-57). -/
noncomputable def lowFlank (w : WindowType) (atStart : Bool) (l : ℕ) : List ℝ :=
  if atStart = true ∧ 0 < l then (List.range l).map (w (l * 2)) else List.replicate l 1

/-- `high_flank` (`windows.py`, lines 59-65). -/
noncomputable def highFlank (w : WindowType) (l : ℕ) : List ℝ :=
  if 1 < l then (List.range l).map fun i => w (l * 2) (l + i) else List.replicate l 1

/-- `calculate_tukey_like_window` (`windows.py`, lines 8-76) with the window types of the two
flanks.  `np.ones` and `np.zeros` raise ValueError for negative lengths. -/
noncomputable def window (points : List ℕ) (n : ℕ) (wl wr : WindowType) (atStart inverse : Bool) :
    Except Err (List ℝ) :=
  match points with
  | [a, b, c, d] =>
    if a ≤ b ∧ b ≤ c ∧ c ≤ d ∧ d ≤ n then
      let full := List.replicate a 0 ++ lowFlank wl atStart (b - a) ++ List.replicate (c - b) 1 ++
        highFlank wr (d - c) ++ List.replicate (n - d) 0
      .ok (if inverse then full.map (1 - ·) else full)
    else .error .valueError
  | _ => .error .assertionError

end Verif.Tukey
