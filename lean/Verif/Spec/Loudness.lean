import Mathlib.Analysis.SpecialFunctions.Pow.Real
import Mathlib.Analysis.SpecialFunctions.Log.Base

/-!
# Integrated loudness (Rec. ITU-R BS.1770) in terms of the energies of the blocks
-/

namespace Verif.Loudness

/-- Weight of a channel: left, right and centre, then the surround channels. -/
noncomputable def weight (c : ℕ) : ℝ := if c < 3 then 1 else 1.41

/-- Mean of a list of energies. -/
noncomputable def meanOf (l : List ℝ) : ℝ := l.sum / l.length

/-- Energies of the blocks louder than the absolute gate of -70 LUFS. -/
noncomputable def passing (e : List ℝ) : List ℝ :=
  e.filter fun v => (10 : ℝ) ^ (((-70 : ℝ) + 0.691) / 10) < v

/-- Of these, the ones louder than the relative gate, 10 dB below the mean of the others. -/
noncomputable def kept (e : List ℝ) : List ℝ :=
  (passing e).filter fun v => meanOf (passing e) / 10 < v

/-- Loudness of an energy in LUFS. -/
noncomputable def lufs (e : ℝ) : ℝ := -0.691 + 10 * Real.logb 10 e

/-- The gated loudness of a programme whose blocks have the given energies; none if all of them
are below the absolute gate. -/
noncomputable def gated (e : List ℝ) : Option ℝ :=
  if passing e = [] then none else some (lufs (meanOf (kept e)))

end Verif.Loudness
