import Verif.Model.PadTrim
import Verif.Spec.Channels
import Verif.Model.DFT
import Mathlib.Data.Nat.Find

/-!
# Model of the block-processing FIR filters
(`dsptoolbox/classes/fir_filter_realtime.py`, lines 73-335)

Blocks are arrays of exactly `B` samples (`Fin B → ℝ`), as required by the
docstrings.  The object is considered with a fixed block size `B > 0`; `prepare(B, n)`
is the operation `setChannels n`, and the initial object is `prepare(B, 1)`.
`process_block(block, channel)` is the operation `sample`.
-/

namespace Verif.BlockFIR

open DFT

/-- Lengths for which the real transform is fast. -/
def Smooth (n : ℕ) : Prop := ∃ a b c, n = 2 ^ a * 3 ^ b * 5 ^ c

theorem exists_smooth (t : ℕ) : ∃ n, Smooth n ∧ t ≤ n :=
  ⟨2 ^ t, ⟨t, 0, 0, by simp⟩, Nat.lt_two_pow_self.le⟩

open Classical in
/-- `scipy.fft.next_fast_len(target, real=True)`: the smallest number without prime
factors above 5 that is at least `target` (documentation of scipy). -/
noncomputable def nextFastLen (t : ℕ) : ℕ := Nat.find (exists_smooth t)

/-- `total_length` of `FIRFilterOverlapSave.prepare` (`fir_filter_realtime.py`, line
117). -/
noncomputable def totalLength (fir : List ℝ) (B : ℕ) : ℕ := nextFastLen (fir.length + B)

/-- The buffer column after `self.buffer[-B:, channel] = block` (line 137). -/
noncomputable def loadBlock {B : ℕ} (N : ℕ) (buf : ℕ → ℝ) (block : Fin B → ℝ) : ℕ → ℝ :=
  fun j => if j < N - B then buf j
    else if h : j - (N - B) < B then block ⟨j - (N - B), h⟩ else 0

/-- `FIRFilterOverlapSave` on one channel (`fir_filter_realtime.py`, lines 105-144, reset
149-151).  `irfft` is called without `n`, so it returns `irfftLen (rfftBins N)`
samples.  The last `B` of them are returned. -/
noncomputable def overlapSaveColumn (fir : List ℝ) (B : ℕ) :
    Column (Fin B → ℝ) (Fin B → ℝ) where
  Col := ℕ → ℝ
  fresh := fun _ => 0
  step := fun buf block =>
    let N := totalLength fir B
    let full := loadBlock N buf block
    let n := irfftLen (rfftBins N)
    (fun i => irfft n
        (fun k => rfft N full k * rfft N (fun m => fir.getD m 0) k) (n - B + i),
      fun j => if j < N - B then full (j + B) else full j)

/-- `FIRFilterOverlapSave`. -/
noncomputable def overlapSave (fir : List ℝ) (B : ℕ) : RTFilter (Fin B → ℝ) (Fin B → ℝ) :=
  (overlapSaveColumn fir B).lift

/-! ### Uniform partitions -/

/-- `n_partitions` (`fir_filter_realtime.py`, line 192). -/
def nPartitions (fir : List ℝ) (B : ℕ) : ℕ := fir.length / B + 1

/-- Column `n` of `partitioned` (`fir_filter_realtime.py`, lines 195-198). -/
noncomputable def partition (fir : List ℝ) (B p : ℕ) : ℕ → ℝ :=
  fun m => if m < B then fir.getD (p * B + m) 0 else 0

/-- The part of `process_block` concerning one channel
(`fir_filter_realtime.py`, lines 214-240): `ind` is `buffer_ind`, `spec p` is
`buffer_spectra[:, p, channel]`, `inb` is `input_buffer[:, channel]`.
Returns the output block, the new `spec` and the new `inb`.  The index
`buffer_ind - p` is negative for `p > buffer_ind` and then counts from the end. -/
noncomputable def partStep (fir : List ℝ) {B : ℕ} (ind : ℕ) (spec : ℕ → ℕ → ℂ) (inb : ℕ → ℝ)
    (block : Fin B → ℝ) : (Fin B → ℝ) × (ℕ → ℕ → ℂ) × (ℕ → ℝ) :=
  let P := nPartitions fir B
  let N := 2 * B
  let inb' : ℕ → ℝ := fun j => if j < B then inb (j + B)
    else if h : j - B < B then block ⟨j - B, h⟩ else 0
  let spec' : ℕ → ℕ → ℂ := fun p => if p = ind then rfft N inb' else spec p
  let slot : ℕ → ℕ := fun p => if p ≤ ind then ind - p else ind + P - p
  (fun i => irfft (irfftLen (rfftBins N))
      (fun k => ∑ p ∈ Finset.range P, rfft N (partition fir B p) k * spec' (slot p) k)
      (irfftLen (rfftBins N) - B + i),
    spec', inb')

/-- State of `FIRUniformPartitioned`: number of channels, `buffer_ind` (shared by all
channels), and per channel the stored spectra and the input buffer. -/
structure PartState where
  n : ℕ
  ind : ℕ
  spec : ℕ → ℕ → ℕ → ℂ
  inb : ℕ → ℕ → ℝ

/-- `FIRUniformPartitioned` (`fir_filter_realtime.py`, lines 157-240).
`reset_state` (lines 187-189) does not touch `buffer_ind`. A channel that does not exist
raises IndexError at line 216 before anything changes. -/
noncomputable def uniformPartitioned (fir : List ℝ) (B : ℕ) :
    RTFilter (Fin B → ℝ) (Fin B → ℝ) where
  State := PartState
  init := ⟨1, 0, fun _ _ _ => 0, fun _ _ => 0⟩
  setChannels := fun _ n => ⟨n, 0, fun _ _ _ => 0, fun _ _ => 0⟩
  reset := fun s => ⟨s.n, s.ind, fun _ _ _ => 0, fun _ _ => 0⟩
  process := fun s block ch =>
    if ch < s.n then
      let r := partStep fir s.ind (s.spec ch) (s.inb ch) block
      (.ok r.1, ⟨s.n, (s.ind + 1) % nPartitions fir B,
        fun c => if c = ch then r.2.1 else s.spec c,
        fun c => if c = ch then r.2.2 else s.inb c⟩)
    else (.error .indexError, s)

/-- `FIRUniformPartitionedMultichannel` (`fir_filter_realtime.py`, lines 243-335): one
filter per channel (all of the same length), a block contains all channels.  As a
`Column` whose input is the block of all channels `c < firs.length`. -/
noncomputable def multichannelColumn (firs : ℕ → List ℝ) (B : ℕ) :
    Column (ℕ → Fin B → ℝ) (ℕ → Fin B → ℝ) where
  Col := PartState
  fresh := ⟨0, 0, fun _ _ _ => 0, fun _ _ => 0⟩
  step := fun s block =>
    let r := fun c => partStep (firs c) s.ind (s.spec c) (s.inb c) (block c)
    (fun c => (r c).1, ⟨s.n, (s.ind + 1) % nPartitions (firs 0) B,
      fun c => (r c).2.1, fun c => (r c).2.2⟩)

/-- The constructor of `FIRUniformPartitionedMultichannel` (`fir_filter_realtime.py`, lines 252-262):
the coefficients pass through `Signal.from_time_data`, which constrains the amplitude by default;
the columns of the data of that signal are the filters.  An imaginary part is dropped. -/
noncomputable def multichannelInit (x : SignalData.Input ℝ) : Except Err (ℕ → List ℝ) :=
  match SignalData.construct x true with
  | .error e => .error e
  | .ok s => .ok (SignalData.colOf s.re)

end Verif.BlockFIR
