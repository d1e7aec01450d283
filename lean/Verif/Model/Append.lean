import Verif.Model.SpectrumConversion
import Verif.Model.Bands

/-!
# Model of `append_spectra` and `append_filterbanks` (`dsptoolbox/standard/appending.py`,
lines 131-204)

Exact arithmetic.  The splines of scipy are an argument.
-/

namespace Verif.Append

open Spectrum SpecConv Bands Complex

/-- An interpolator of scipy: scheme, frequencies, values at them, requested frequency. -/
abbrev Spline := Scheme → List ℝ → (ℕ → ℝ) → ℝ → ℝ

/-- One value computed by a spline, with the values outside of the range
(`spectrum.py`, lines 600-626). -/
noncomputable def splined (sp : Spline) (s : CSpec) (x : ℕ → ℂ) (f : ℝ) : ℂ :=
  let n := s.freqs.length
  let ed := edgeValues s.edges n (interpData s.domain x)
  if s.freqs.getD (n - 1) 0 < f then ed.2
  else if f < s.freqs.getD 0 0 then ed.1
  else
    let out := sp s.scheme s.freqs (interpData s.domain x) f
    let im := sp s.scheme s.freqs (interpDataImag s.domain x) f
    match s.domain with
    | .power => out
    | .magnitude => out
    | .complex => out + I * im
    | .magnitudePhase => out * exp (I * im)

open Classical in
/-- `get_interpolated_spectrum` (`spectrum.py`, lines 544-684) for a vector of frequencies.  With the
linear scheme and `extend` or `error` the values outside are an array with one entry for each
channel, which `np.interp` accepts only for a single channel.  The splines need two frequencies; a
negative power computed by a spline (nan as a magnitude) is zero here. -/
noncomputable def interpolateAll (sp : Spline) (s : CSpec) (freqs : List ℝ) (o : Output) :
    Except Err (Mat ℂ) :=
  if o = .complex ∧ s.isMagnitude = true then .error .assertionError
  else if s.edges = .error ∧
      ∃ f ∈ freqs, f < s.freqs.getD 0 0 ∨ s.freqs.getD (s.freqs.length - 1) 0 < f then
    .error .assertionError
  else if s.scheme = .linear then
    if (s.edges = .extend ∨ s.edges = .error) ∧ s.data.cols ≠ 1 then .error .typeError
    else .ok ⟨freqs.length, s.data.cols, fun r c =>
      convert s.domain o
        (interpolated s.domain s.edges s.freqs (fun k => s.data.val k c) (freqs.getD r 0))⟩
  else if s.freqs.length < 2 then .error .valueError
  else .ok ⟨freqs.length, s.data.cols, fun r c =>
    convert s.domain o (splined sp s (fun k => s.data.val k c) (freqs.getD r 0))⟩

/-- Columns side by side. -/
def besides {α : Type} (A B : Mat α) : Mat α :=
  ⟨A.rows, A.cols + B.cols, fun r c => if c < A.cols then A.val r c else B.val r (c - A.cols)⟩

/-- The loop of `append_spectra` (`appending.py`, lines 196-202) over the spectra. -/
noncomputable def appendLoop (sp : Spline) (freqs : List ℝ) (o : Output) :
    List CSpec → Except Err (Mat ℂ)
  | [] => .ok ⟨freqs.length, 0, fun _ _ => 0⟩
  | s :: ss =>
    match interpolateAll sp s freqs o with
    | .error e => .error e
    | .ok A =>
      match appendLoop sp freqs o ss with
      | .error e => .error e
      | .ok B => .ok (besides A B)

/-- `append_spectra` (`appending.py`, lines 160-204). -/
noncomputable def appendSpectra (sp : Spline) (spectra : List CSpec) (complexIfAvailable : Bool) :
    Except Err CSpec :=
  match spectra with
  | [] => .error .assertionError
  | [_] => .error .assertionError
  | s0 :: s1 :: ss =>
    let complexAppend := complexIfAvailable && !s0.isMagnitude
    if complexAppend = true ∧ ¬ (s0 :: s1 :: ss).all (fun s => !s.isMagnitude) then
      .error .assertionError
    else
      match appendLoop sp s0.freqs (if complexAppend then .complex else .magnitude)
          (s0 :: s1 :: ss) with
      | .error e => .error e
      | .ok A => construct s0.freqs A (!complexAppend)

/-- The checks of `append_filterbanks` (`appending.py`, lines 146-152) for one bank.  A bank that
never had a filter has no sampling rate. -/
def checkBank (f0 f : FB) : Option Err :=
  if f.same ≠ f0.same then some .assertionError
  else
    match f.rate, f0.rate with
    | none, _ => some .attributeError
    | _, none => some .attributeError
    | some r, some r0 => if r = r0 then none else some .assertionError

/-- The loop `new_fb.filters += ...` (`appending.py`, lines 155-156). -/
def addBanks (st : FB) : List FB → Except Err FB
  | [] => .ok st
  | f :: fs =>
    match setFilters st (st.filters ++ f.filters) with
    | (_, some e) => .error e
    | (st', none) => addBanks st' fs

/-- `append_filterbanks` (`appending.py`, lines 131-157).  The copies of the filters are not
distinguished from the filters. -/
def appendFilterbanks (fbs : List FB) : Except Err FB :=
  match fbs with
  | [] => .error .assertionError
  | [_] => .error .assertionError
  | f0 :: f1 :: fs =>
    match (f0 :: f1 :: fs).findSome? (checkBank f0) with
    | some e => .error e
    | none => addBanks f0 (f1 :: fs)

end Verif.Append
