import Verif.Model.FractionalDelay
import Verif.Model.Latency

/-!
# Model of complementary FIR filters

`filterbanks/filterbanks.py: complementary_fir_filter` (lines 453-493), exact arithmetic.
-/

namespace Verif.Complementary

/-- `complementary_fir_filter` (lines 480-493): the taps of the complementary filter. `isIir` is the
property of the prototype; `-len(b) // 2` is the negative half of an even length. -/
noncomputable def complementary (isIir : Bool) (b : List ℝ) : Except Err (List ℝ) :=
  if isIir then .error .assertionError
  else if b.length % 2 = 1 then do
    let i ← Latency.argmaxAbs b
    .ok ((List.range b.length).map fun n => -1 * b.getD n 0 + if n = i then 1 else 0)
  else
    let h := (List.range b.length).map fun m : ℕ =>
      FractionalDelay.sinc ((((-(b.length : ℤ)) / 2 + 1 + m : ℤ) : ℝ) - 0.5)
    let w := FractionalDelay.kaiser (b.length - 1) 60 0.5
    .ok ((List.range b.length).map fun n => h.getD n 0 * w.getD n 0 - b.getD n 0)

end Verif.Complementary
