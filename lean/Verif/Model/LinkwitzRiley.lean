import Verif.Model.FilterBank
import Mathlib.Analysis.SpecialFunctions.Trigonometric.Basic
import Mathlib.Analysis.SpecialFunctions.Complex.Log

/-!
# Model of Linkwitz-Riley crossovers

`dsptoolbox/filterbanks/_filterbank.py: LRFilterBank, _get_2nd_order_linkwitz_riley`.  Exact
arithmetic; a filter is a list of second-order sections.
-/

namespace Verif.LinkwitzRiley

open Verif.SignalData Verif.LFilter Verif.Bank

abbrev Sos (K : Type) := List (List K × List K)

/-- An entry of `self.sos`: low and high band. -/
structure Cross (K : Type) where
  low : Sos K
  high : Sos K

/-! ### Design -/

/-- `_get_2nd_order_linkwitz_riley` (`_filterbank.py`, lines 1329-1345) for `T = tan(π f0 / fs)`:
`bilinear` replaces `s / ω₀` by `(1 - w) / (1 + w) / T`; `tf2sos` of a second-order filter is one
section. -/
def second {K : Type} [Field K] (T : K) : Cross K :=
  let a : List K := [1, 2 * (T - 1) / (1 + T), ((T - 1) / (1 + T)) ^ 2]
  ⟨[([T ^ 2 / (1 + T) ^ 2, 2 * T ^ 2 / (1 + T) ^ 2, T ^ 2 / (1 + T) ^ 2], a)],
    [([-1 / (1 + T) ^ 2, 2 / (1 + T) ^ 2, -1 / (1 + T) ^ 2], a)]⟩

/-- One crossover of `_create_filters_sos` (`_filterbank.py`, lines 148-181); `butter` gives the low- and
highpass of an order and `T = tan(π f / fs)`. -/
def design {K : Type} [Field K] (butter : ℕ → K → Sos K × Sos K) (order : ℕ) (T : K) :
    Except Err (Cross K) :=
  if order = 2 then .ok (second T)
  else if order % 2 = 0 then
    if order % 4 ≠ 0 then .error .assertionError
    else .ok ⟨(butter (order / 2) T).1 ++ (butter (order / 2) T).1,
      (butter (order / 2) T).2 ++ (butter (order / 2) T).2⟩
  else .ok ⟨(butter order T).1, (butter order T).2⟩

/-! ### Filtering without state -/

section
variable {K : Type} [Field K] [LinearOrder K]

/-- `_filt` (`_filterbank.py`, lines 355-368) with `split=False`, one channel. -/
def allpass (c : Cross K) (x : List K) : List K :=
  List.zipWith (· + ·) ((Filt.sos c.low).channel x) ((Filt.sos c.high).channel x)

/-- Standard filtering (`_filterbank.py`, lines 293-300), one channel: the bands. -/
def bands : List (Cross K) → List K → List (List K)
  | [], x => [x]
  | c :: cs, x => cs.foldl (fun b a => allpass a b) ((Filt.sos c.low).channel x) ::
      bands cs ((Filt.sos c.high).channel x)

/-- `filter_signal` (`_filterbank.py`, lines 293-311) in parallel mode, for a real signal. -/
def parallel (cs : List (Cross K)) (s : State K) : Except Err (List (State K)) :=
  (List.range (cs.length + 1)).mapM fun n =>
    copyWith s (ofCols s.re.rows s.re.cols fun c => (bands cs (colOf s.re c)).getD n [])

/-- `filter_signal` (`_filterbank.py`, lines 293-315) in summed mode, for a real signal. -/
def summed (cs : List (Cross K)) (s : State K) : Except Err (State K) := do
  let ss ← parallel cs s
  collapse ss

end

/-! ### Zero-phase filtering -/

/-- The gains of the bands with zero-phase filtering (`_filterbank.py`, lines 279-290) at the frequency
of `w`: `sosfiltfilt` applies the sections forwards and backwards (the edges of the signal are not
modelled).  The crossovers are given with their orders. -/
noncomputable def zeroPhase (w : ℂ) : List (ℕ × Cross ℝ) → ℝ → List ℝ
  | [], g => [g]
  | (order, c) :: cs, g =>
    let factor := if order % 2 = 1 ∨ order = 2 then 1 else 2
    let dim := c.low.length / factor
    (g * ‖Filt.tf (fun r : ℝ => (r : ℂ)) w (.sos (c.low.take dim))‖ ^ 2) ::
      zeroPhase w cs (g * ‖Filt.tf (fun r : ℝ => (r : ℂ)) w (.sos (c.high.take dim))‖ ^ 2)

/-! ### Filtering with state -/

section
variable {K : Type} [Field K]

/-- `sosfilt(sos, x, zi=zi)` of `scipy.signal`: each section is `lfilter` with its own state. -/
def sosRun : Sos K → List (List K) → List K → List K × List (List K)
  | [], _, x => (x, [])
  | s :: ss, z, x =>
    let r := lfilterIIR s.1 s.2 2 (z.headD []) x
    let r' := sosRun ss z.tail r.1
    (r'.1, r.2 :: r'.2)

/-- State of the two bands of a filter. -/
abbrev Zi (K : Type) := List (List K) × List (List K)

/-- An entry of `self.channels_zi`.  `initialize_zi` (`_filterbank.py`, lines 195-211) appends the
same list `al` in every pass of the inner loop, so that the first `number_of_cross` rows of
`allpass_zi` are one and the same object: the states of the allpasses are indexed by the allpass only. -/
structure ChannelZi (K : Type) where
  cross : ℕ → Zi K
  allpass : ℕ → Zi K

/-- `sosfilt_zi` of `scipy.signal`: the states for a constant input `g`. -/
def sosZi : Sos K → K → List (List K)
  | [], _ => []
  | s :: ss, g =>
    let y := g * s.1.sum / s.2.sum
    let z := s.1.getD 2 0 * g - s.2.getD 2 0 * y
    [s.1.getD 1 0 * g - s.2.getD 1 0 * y + z, z] :: sosZi ss y

/-- `initialize_zi` (`_filterbank.py`, lines 195-212) for one channel. -/
def initialZi (cs : List (Cross K)) : ChannelZi K :=
  let zi := fun i => match cs[i]? with
    | some c => (sosZi c.low 1, sosZi c.high 1)
    | none => ([], [])
  ⟨zi, zi⟩

/-- `_two_way_split_zi` (`_filterbank.py`, lines 339-353). -/
def splitZi (c : Cross K) (cn : ℕ) (st : ChannelZi K) (x : List K) : List K × List K × ChannelZi K :=
  let l := sosRun c.low (st.cross cn).1 x
  let h := sosRun c.high (st.cross cn).2 x
  (l.1, h.1, ⟨Function.update st.cross cn (l.2, h.2), st.allpass⟩)

/-- `_allpass_zi` (`_filterbank.py`, lines 323-337). -/
def allpassZi (c : Cross K) (ap : ℕ) (st : ChannelZi K) (x : List K) : List K × ChannelZi K :=
  let l := sosRun c.low (st.allpass ap).1 x
  let h := sosRun c.high (st.allpass ap).2 x
  (List.zipWith (· + ·) l.1 h.1, ⟨st.cross, Function.update st.allpass ap (l.2, h.2)⟩)

/-- The loop over the allpasses (`_filterbank.py`, lines 267-273), from the number `ap`. -/
def allpassesZi : List (Cross K) → ℕ → ChannelZi K → List K → List K × ChannelZi K
  | [], _, st, x => (x, st)
  | c :: cs, ap, st, x =>
    let r := allpassZi c ap st x
    allpassesZi cs (ap + 1) r.2 r.1

/-- The loop over the crossovers for one channel (`_filterbank.py`, lines 263-276), from the number
`cn`. -/
def bandsZi : List (Cross K) → ℕ → ChannelZi K → List K → List (List K) × ChannelZi K
  | [], _, st, x => ([x], st)
  | c :: cs, cn, st, x =>
    let r := splitZi c cn st x
    let b := allpassesZi cs (cn + 1) r.2.2 r.1
    let rest := bandsZi cs (cn + 1) b.2 r.2.1
    (b.1 :: rest.1, rest.2)

end

end Verif.LinkwitzRiley
