import Verif.Model.SignalCache

/-!
# What the spectrum getters of a signal should return

The observable configuration of a signal is its data, sampling rate, window and
parameters.  A getter that never caches computes its result from the configuration.
-/

namespace Verif.Cache

variable {T W R Q S C G : Type}

/-- The observable configuration. -/
structure Config (T W R Q : Type) where
  data : T
  rate : ℕ
  window : Option W
  params : Params R
  sgParams : Q

/-- Configuration of an object. -/
def State.config (s : State T W R Q S C G) : Config T W R Q :=
  ⟨s.data, s.rate, s.window, s.params, s.sgParams⟩

/-- The spectrum of a configuration. -/
def freshSpectrum (ρ : Routines T W R Q S C G) (c : Config T W R Q) : S :=
  ρ.spectrum c.data c.rate c.window c.params

/-- The cross-spectral matrix of a configuration. -/
def freshCSM (ρ : Routines T W R Q S C G) (c : Config T W R Q) : C :=
  match c.params.method with
  | .welch => ρ.csmWelch c.data c.rate c.params
  | .fft => ρ.csmFFT (ρ.spectrum c.data c.rate c.window (c.params.withScaling .fftBackward))
      c.params.scaling c.window c.rate

/-- The spectrogram of a configuration. -/
def freshSpectrogram (ρ : Routines T W R Q S C G) (c : Config T W R Q) : G :=
  ρ.spectrogram c.data c.rate c.sgParams

/-- The configurations for which `get_csm` raises: less than two channels, or an FFT
matrix with physical units of a windowed signal. -/
def csmRaises (ρ : Routines T W R Q S C G) (c : Config T W R Q) : Prop :=
  ρ.channels c.data ≤ 1 ∨
    (c.params.method = .fft ∧ c.window.isSome ∧ c.params.scaling.physical)

/-- What a call is supposed to do to the configuration: new data replace the old ones and the
window that belonged to them, a setter changes its own entry, everything else only looks. -/
def Config.after (c : Config T W R Q) : Call T W R Q → Config T W R Q
  | .setData t => ⟨t, c.rate, none, c.params, c.sgParams⟩
  | .setRate fs => ⟨c.data, fs, c.window, c.params, c.sgParams⟩
  | .setWindow w => ⟨c.data, c.rate, some w, c.params, c.sgParams⟩
  | .setParams p => ⟨c.data, c.rate, c.window, p, c.sgParams⟩
  | .setScaling x => ⟨c.data, c.rate, c.window,
      ⟨c.params.method, c.params.smoothing, x, c.params.rest⟩, c.sgParams⟩
  | .setMethod x => ⟨c.data, c.rate, c.window,
      ⟨x, c.params.smoothing, c.params.scaling, c.params.rest⟩, c.sgParams⟩
  | .setSmoothing x => ⟨c.data, c.rate, c.window,
      ⟨c.params.method, if 0 ≤ x then x else c.params.smoothing, c.params.scaling,
        c.params.rest⟩, c.sgParams⟩
  | .setSgParams q => ⟨c.data, c.rate, c.window, c.params, q⟩
  | _ => c

end Verif.Cache
