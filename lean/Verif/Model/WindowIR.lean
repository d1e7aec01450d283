import Verif.Model.TukeyWindow
import Verif.Model.Latency
import Mathlib.Algebra.Order.Floor.Ring
import Mathlib.Data.Rat.Floor

/-!
# Model of the windows for impulse responses

`transfer_functions/transfer_functions.py: window_ir, window_ir_tukey`,
`transfer_functions/_transfer_functions.py: _window_this_ir_tukey`.  Exact arithmetic: percentages, ratios and
durations are rational numbers, `int(...)` of a product is truncation of the exact product.
-/

namespace Verif.WindowIR

open Tukey

/-- `np.argmax(np.abs(vec))` -/
noncomputable def peakIndex (vec : List ℝ) : Except Err ℕ := Latency.argmaxAbs vec

/-- `flank_length_total` (`_transfer_functions.py`, line 66). -/
def flankTotal (total : ℕ) (constant : ℚ) : ℕ := ⌊(1 - constant) * total⌋₊

/-- `left_flank_length` (line 67). -/
def leftFlank (total : ℕ) (constant ratio : ℚ) : ℕ := ⌊(flankTotal total constant : ℚ) * 0.5 * ratio⌋₊

/-- `right_flank_length` (line 68); subtraction of natural numbers is the maximum with zero. -/
def rightFlank (total : ℕ) (constant ratio : ℚ) : ℕ :=
  flankTotal total constant - leftFlank total constant ratio

/-- What is known before the window is made: the samples, the sample of the start, the zeros that
have been added in front and behind, the flanks and the length of the window. -/
structure Cut where
  vec : List ℝ
  start : ℕ
  padLeft : ℕ
  padRight : ℕ
  left : ℕ
  right : ℤ
  length : ℕ

/-- The branch `not adaptive_window` (lines 73-106). -/
def cutFixed (vec : List ℝ) (peak total left right offset : ℕ) : Cut :=
  let s1 : List ℝ × ℕ × ℕ × ℕ :=
    if peak < offset then
      (List.replicate (offset - peak) 0 ++ vec, peak + (offset - peak), offset - peak, offset - peak)
    else (vec, peak - offset, 0, 0)
  let ii := s1.2.1
  let s2 : List ℝ × ℕ × ℕ :=
    if ii < left then
      (List.replicate (left - ii) 0 ++ s1.1, s1.2.2.1 + (left - ii), s1.2.2.2 + (left - ii))
    else (s1.1.drop (ii - left), ii - left, s1.2.2.2)
  if s2.1.length < total then
    ⟨s2.1 ++ List.replicate (total - s2.1.length) 0, s2.2.1, s2.2.2, total - s2.1.length, left,
      right, total⟩
  else ⟨s2.1.take total, s2.2.1, s2.2.2, 0, left, right, total⟩

/-- The branch `adaptive_window` (lines 107-125); `padRight` is `padding_after_adaptation`. -/
def cutAdaptive (vec : List ℝ) (peak total left right offset : ℕ) : Cut :=
  let s1 : List ℝ × ℕ × ℕ :=
    if peak < offset + left then (vec, 0, peak - offset)
    else (vec.drop (peak - offset - left), peak - offset - left, left)
  let v := if total < s1.1.length then s1.1.take total else s1.1
  let length := if v.length < total then v.length else total
  let right' : ℤ :=
    if (s1.2.2 + offset : ℤ) > length - right then length - s1.2.2 - offset - 1 else right
  ⟨v, s1.2.1, 0, total - length, s1.2.2, right', length⟩

/-- `_window_this_ir_tukey` (`_transfer_functions.py`, lines 45-147): windowed samples, window and
start sample. -/
noncomputable def tukeyIR (vec : List ℝ) (total : ℕ) (wl wr : WindowType) (constant : ℚ)
    (atStart : Bool) (offset : ℕ) (ratio : ℚ) (adaptive : Bool) :
    Except Err (List ℝ × List ℝ × ℕ) :=
  match peakIndex vec with
  | .error e => .error e
  | .ok peak =>
    let left := leftFlank total constant ratio
    let right := rightFlank total constant ratio
    let cut := if adaptive then cutAdaptive vec peak total left right offset
      else cutFixed vec peak total left right offset
    if (cut.left : ℤ) ≤ cut.length - cut.right ∧ 0 ≤ cut.right then
      match Tukey.window [0, cut.left, cut.length - cut.right.toNat, cut.length] cut.length wl wr
          atStart false with
      | .error e => .error e
      | .ok w =>
        if adaptive then
          let v := cut.vec ++ List.replicate cut.padRight 0
          let w := w ++ List.replicate cut.padRight 0
          .ok (List.zipWith (· * ·) v w, w, cut.start)
        else
          let w := (List.range total).map fun i =>
            if i < cut.padLeft ∨ total - cut.padRight ≤ i then 0 else w.getD i 0
          .ok (List.zipWith (· * ·) cut.vec w, w, cut.start)
    else .error .assertionError

/-- The loop over the channels. -/
noncomputable def eachChannel (f : List ℝ → Except Err (List ℝ × List ℝ × ℕ)) :
    List (List ℝ) → Except Err (List (List ℝ × List ℝ × ℕ))
  | [] => .ok []
  | x :: l =>
    match f x with
    | .error e => .error e
    | .ok r =>
      match eachChannel f l with
      | .error e => .error e
      | .ok rs => .ok (r :: rs)

/-- `window_ir` (`transfer_functions.py`, lines 187-292) for an impulse response: windowed samples,
window and start of every channel.  Arrays with more channels than samples are transposed by the
setter of the time data, so that the window does not fit (`set_window`,
`impulse_response.py`, lines 148-150); the setter refuses a single sample.  Its normalization, which only
windows with values above one could cause, is not modelled. -/
noncomputable def windowIR (ir : List (List ℝ)) (total : ℕ) (adaptive : Bool) (constant : ℚ)
    (wl wr : WindowType) (atStart : Bool) (offset : ℤ) (ratio : ℚ) :
    Except Err (List (List ℝ × List ℝ × ℕ)) :=
  if ¬ (constant < 1 ∧ 0 ≤ constant) then .error .assertionError
  else if ¬ 0 ≤ offset then .error .assertionError
  else if ¬ (offset : ℚ) ≤ constant * total then .error .assertionError
  else if ¬ 0 ≤ ratio then .error .assertionError
  else
    match eachChannel (fun x => tukeyIR x total wl wr constant atStart offset.toNat ratio adaptive)
        ir with
    | .error e => .error e
    | .ok r =>
      if total < ir.length then .error .assertionError
      else if total = 1 ∧ ir.length = 1 then .error .indexError
      else .ok r

/-- `int(x)`: truncation. -/
def truncate (x : ℚ) : ℤ := if 0 ≤ x then ⌊x⌋ else ⌈x⌉

/-- Duration of a flank in samples (`transfer_functions.py`, lines 338-345). -/
def flankSamples (fs : ℕ) : Option ℚ → ℤ
  | none => 0
  | some t => truncate (t * fs + 0.5)

/-- `window` of `window_ir_tukey` (lines 350-361).  A flank that does not fit raises ValueError. -/
noncomputable def flankWindow (n : ℕ) (w : WindowType) (left right : ℤ) : Except Err (List ℝ) :=
  if (n : ℤ) < left ∨ (n : ℤ) < right then .error .valueError
  else
    .ok ((List.range n).map fun i =>
      if 0 < right ∧ n - right.toNat ≤ i then w (right.toNat * 2) (right.toNat + (i - (n - right.toNat)))
      else if 0 < left ∧ i < left.toNat then w (left.toNat * 2) i else 1)

/-- `window_ir_tukey` (`transfer_functions.py`, lines 295-365) for channels of `n` samples: the new
channels and the window. -/
noncomputable def windowTukey (ir : List (List ℝ)) (n fs : ℕ) (isTukey : Bool)
    (leftFlank rightFlank : Option ℚ) (w : WindowType) :
    Except Err (List (List ℝ) × List ℝ) :=
  if leftFlank = none ∧ rightFlank = none then .error .assertionError
  else if isTukey then .error .assertionError
  else
    let left := flankSamples fs leftFlank
    let right := flankSamples fs rightFlank
    if ¬ left + right ≤ n then .error .assertionError
    else
      match flankWindow n w left right with
      | .error e => .error e
      | .ok win => .ok (ir.map fun x => List.zipWith (· * ·) x win, win)

end Verif.WindowIR
