import Verif.Model.Interp
import Verif.Model.DFT
import Mathlib.Analysis.SpecialFunctions.Complex.Arg

/-!
# Model of group delays

`classes/filter_helpers.py: _group_delay_filter`, `standard/_standard_backend.py: _group_delay_direct`,
`transfer_functions/transfer_functions.py: group_delay`.  Exact arithmetic.
-/

namespace Verif.GroupDelay

open Complex

/-- `np.polyval` (external, documented): Horner's rule, the first coefficient has the highest power. -/
noncomputable def polyval (c : List ℝ) (z : ℂ) : ℂ := c.foldl (fun (acc : ℂ) (a : ℝ) => acc * z + (a : ℂ)) 0

/-- `np.convolve` -/
noncomputable def convolve (x y : List ℝ) : List ℝ :=
  (List.range (x.length + y.length - 1)).map fun n =>
    ∑ i ∈ Finset.range (n + 1), x.getD i 0 * y.getD (n - i) 0

/-- One value of `_group_delay_filter` (`filter_helpers.py`, lines 191-204) at the frequency `omega` in
radians per sample.  Values that are not finite are replaced by zero. -/
noncomputable def delayAt (b a : List ℝ) (fs : ℕ) (omega : ℝ) : ℝ :=
  let c := convolve b a.reverse
  let cr := c.zipIdx.map fun p => p.1 * (p.2 : ℝ)
  let num := polyval cr (exp (I * omega))
  let denum := polyval c (exp (I * omega))
  open Classical in
  (if denum = 0 then 0 else (num / denum).re - a.length + 1) / fs

/-- `np.linspace(0, np.pi, length)[k]` -/
noncomputable def omegaGrid (length k : ℕ) : ℝ := if length = 1 then 0 else Real.pi * k / (length - 1 : ℕ)

/-- `_group_delay_filter` (`filter_helpers.py`, lines 190-205): frequencies and group delays. -/
noncomputable def filterDelay (b a : List ℝ) (length fs : ℕ) : List (ℝ × ℝ) :=
  (List.range length).map fun k =>
    (omegaGrid length k / Real.pi * (fs / 2), delayAt b a fs (omegaGrid length k))

/-- `np.gradient(p, h)` for at least two values -/
noncomputable def gradient (M : ℕ) (p : ℕ → ℝ) (h : ℝ) (k : ℕ) : ℝ :=
  if k = 0 then (p 1 - p 0) / h
  else if k = M - 1 then (p (M - 1) - p (M - 2)) / h
  else (p (k + 1) - p (k - 1)) / (2 * h)

/-- `_group_delay_direct` (`_standard_backend.py`, lines 57-63) for `M` phases of a channel.  Fewer than two
values raise ValueError. -/
noncomputable def directPhase (M : ℕ) (phase : ℕ → ℝ) (delta : ℝ) : Except Err (ℕ → ℝ) :=
  if M < 2 then .error .valueError
  else if delta ≠ 1 then .ok fun k => -gradient M (Spectrum.unwrap phase) delta k / Real.pi / 2
  else .ok fun k => -gradient M (Spectrum.unwrap phase) 1 k

/-- `_group_delay_direct` for a complex spectrum (`_standard_backend.py`, lines 57-58). -/
noncomputable def direct (M : ℕ) (sp : ℕ → ℂ) (delta : ℝ) : Except Err (ℕ → ℝ) :=
  directPhase M (fun k => arg (sp k)) delta

/-- `np.fft.rfftfreq(N, 1 / fs)` -/
noncomputable def rfftfreq (N fs : ℕ) : List ℝ := (List.range (N / 2 + 1)).map fun k : ℕ => (k : ℝ) * fs / N

/-- `group_delay(signal, analytic_computation=True)` for a channel, without smoothing and without removal
of the latency (`transfer_functions.py`, lines 893-928). -/
noncomputable def groupDelayAnalytic (x : List ℝ) (fs : ℕ) : List ℝ × List ℝ :=
  let f := rfftfreq x.length fs
  (f, (filterDelay x [1] f.length fs).map Prod.snd)

/-- `group_delay(signal, analytic_computation=False)` for a channel, without smoothing and without removal
of the latency (`transfer_functions.py`, lines 893-928).  A single frequency raises IndexError. -/
noncomputable def groupDelayDirect (x : List ℝ) (fs : ℕ) : Except Err (List ℝ × (ℕ → ℝ)) :=
  let f := rfftfreq x.length fs
  if f.length < 2 then .error .indexError
  else (direct f.length (DFT.rfft x.length (fun n => x.getD n 0)) (f.getD 1 0 - f.getD 0 0)).map
    fun g => (f, g)

/-- Methods of a spectrum -/
inductive Method where
  | fft | welch
deriving DecidableEq

/-- A signal for its spectrum parameters: a reference to a dictionary. -/
structure Ref where
  params : ℕ

/-- What `group_delay` does to the spectrum parameters of the signal (`transfer_functions.py`, lines
902-906; `signal.py`, lines 663-664).  `store` are the dictionaries (only the method), which assignments
share. -/
def parametersAfter (store : ℕ → Method) (s : Ref) (analytic : Bool) : (ℕ → Method) × Ref :=
  if !analytic then
    let saved := s.params
    let store := fun r => if r = s.params then Method.fft else store r
    (store, { params := saved })
  else (store, s)

end Verif.GroupDelay
