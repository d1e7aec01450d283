import Verif.Model.Framing
import Verif.Model.DFT
import Mathlib.Analysis.SpecialFunctions.Log.Base
import Mathlib.Analysis.SpecialFunctions.Pow.Real
import Mathlib.Algebra.Order.Monoid.Unbundled.WithTop
import Mathlib.Data.Option.NAry

/-!
# Model of the frequency-weighted segmental SNR

`distances/distances.py: fw_snr_seg` (lines 275-387),
`distances/_distances.py: _fw_snr_seg_per_channel` (lines 104-195).

Exact arithmetic; the number of window samples `int(75e-3 * fs)` is computed exactly.  The filter
bank (model: `Model/Gammatone`) is a parameter that splits a channel into bands of the same length.
-/

namespace Verif.SegmentalSNR

open Verif.SignalData (padTrim)
open Verif.Framing (numberFrames)

/-- A number, `inf` (`⊤`) or `nan` (`none`). -/
abbrev Val := Option (WithTop ℝ)

/-- `a + b`; `-inf` does not occur. -/
noncomputable def add (a b : Val) : Val := Option.map₂ (· + ·) a b

/-- `np.abs(np.fft.rfft(x * window))` (`_distances.py`, lines 166-167), bin `k`. -/
noncomputable def magnitude (w x : List ℝ) (k : ℕ) : ℝ :=
  ‖DFT.rfft w.length (fun n => x.getD n 0 * w.getD n 0) k‖

/-- `np.sum(X_jm)` (`_distances.py`, lines 173-174). -/
noncomputable def total (w x : List ℝ) : ℝ :=
  ((List.range (w.length / 2 + 1)).map fun (k : ℕ) => magnitude w x k).sum

/-- Summand of `snr_jm` of a band in bin `k` (`_distances.py`, lines 166-176).  For a bin of the
original that is zero it is `log10(0) * 0`. -/
noncomputable def term (γ : ℝ) (w x y : List ℝ) (k : ℕ) : Val :=
  if total w x = 0 ∨ total w y = 0 ∨ magnitude w x k = 0 then none
  else
    let a := magnitude w x k / total w x
    let d := a - magnitude w y k / total w y + 1e-30
    if d = 0 then some ⊤
    else some ((Real.logb 10 (a ^ 2 / d ^ 2) * magnitude w x k ^ γ : ℝ) : WithTop ℝ)

/-- `weights_jm` (`_distances.py`, lines 162, 169, 177). -/
noncomputable def weight (γ : ℝ) (w : List ℝ) (bands : List (List ℝ × List ℝ)) (k : ℕ) : ℝ :=
  (bands.map fun b => magnitude w b.1 k ^ γ).sum

/-- `10 * snr_jm / weights_jm` in bin `k` (`_distances.py`, lines 165-180).  The weights vanish only
where `snr_jm` is `nan`. -/
noncomputable def binSnr (γ : ℝ) (w : List ℝ) (bands : List (List ℝ × List ℝ)) (k : ℕ) : Val :=
  ((bands.map fun b => term γ w b.1 b.2 k).foldl add (some 0)).map
    (WithTop.map fun v => 10 * v / weight γ w bands k)

/-- `snr_frame` (`_distances.py`, lines 157-180). -/
noncomputable def frameSnr (γ : ℝ) (w : List ℝ) (bands : List (List ℝ × List ℝ)) : Val :=
  (((List.range (w.length / 2 + 1)).map fun (k : ℕ) => binSnr γ w bands k).foldl add (some 0)).map
    (WithTop.map fun v => v / (w.length / 2 + 1 : ℕ))

/-- The range (`_distances.py`, lines 183-186).  Comparisons with `nan` are false. -/
noncomputable def limit (lo hi : ℝ) : Val → Option ℝ
  | none => none
  | some v =>
    let v : WithTop ℝ := if v < lo then lo else v
    some (if (hi : WithTop ℝ) < v then hi else v.untopD 0)

/-- Frame `m` of the padded bands (`_distances.py`, lines 148-149, 159-160, 190). -/
noncomputable def frame (W step len m : ℕ) (x : List ℝ) : List ℝ :=
  ((padTrim x len true).drop (m * step)).take W

/-- `_fw_snr_seg_per_channel` (`_distances.py`, lines 141-195); `none` is `nan`. -/
noncomputable def channelSnr (lo hi γ : ℝ) (w : List ℝ) (step : ℕ) (bands : List (List ℝ × List ℝ))
    (L : ℕ) : Except Err (Option ℝ) :=
  match numberFrames w.length step L true with
  | .error e => .error e
  | .ok (n, pad) =>
    if n = 0 then .error .zeroDivision
    else
      .ok ((((List.range n.toNat).map fun (m : ℕ) => limit lo hi (frameSnr γ w (bands.map fun b =>
        (frame w.length step (L + pad).toNat m b.1,
          frame w.length step (L + pad).toNat m b.2)))).foldl
        (Option.map₂ (· + ·)) (some 0)).map fun v => v / n)

/-- `length_samp` (`distances.py`, lines 353-355). -/
def windowLength (fs : ℕ) : ℕ :=
  if 75 * fs / 1000 % 2 = 1 then 75 * fs / 1000 + 1 else 75 * fs / 1000

/-- `windows.hamming(length_samp, sym=False)` (`distances.py`, line 356). -/
noncomputable def hamming (N : ℕ) : List ℝ :=
  (List.range N).map fun (n : ℕ) => 0.54 - 0.46 * Real.cos (2 * Real.pi * n / N)

/-- A signal: sampling rate, number of samples, channels. -/
structure Sig where
  rate : ℕ
  length : ℕ
  channels : List (List ℝ)

/-- `fw_snr_seg` (`distances.py`, lines 326-387). -/
noncomputable def fwSnrSeg (bank : List ℝ → List (List ℝ)) (x y : Sig) (fRange : ℝ × ℝ)
    (snrRange : ℝ × ℝ) (γ : ℝ) : Except Err (List (Option ℝ)) :=
  if x.rate ≠ y.rate then .error .assertionError
  else if x.length ≠ y.length then .error .assertionError
  else if x.channels.length ≠ y.channels.length ∧ x.channels.length ≠ 1 then .error .assertionError
  else if ¬ (max fRange.1 fRange.2 < (x.rate / 2 : ℕ)) then .error .assertionError
  else if ¬ (0 < min fRange.1 fRange.2) then .error .assertionError
  else if ¬ (0.1 ≤ γ ∧ γ ≤ 2) then .error .assertionError
  else
    let w := hamming (windowLength x.rate)
    (List.range y.channels.length).mapM fun (n : ℕ) =>
      let o := if x.channels.length ≠ y.channels.length then 0 else n
      channelSnr (min snrRange.1 snrRange.2) (max snrRange.1 snrRange.2) γ w (w.length / 2)
        ((bank (x.channels.getD o [])).zip (bank (y.channels.getD n []))) x.length

end Verif.SegmentalSNR
