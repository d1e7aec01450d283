import Verif.Props.C15

/-!
# C16: reading a spectrum does not change the signal's observable configuration
-/

namespace Verif.Cache

variable {T W R Q S C G : Type} (ρ : Routines T W R Q S C G)

/-- **C16**, `get_spectrum` and `get_spectrogram`: in every state the data, the sampling
rate, the window and all parameters are as before. -/
theorem C16_spectrum_config (s : State T W R Q S C G) (f : Bool) :
    (getSpectrum ρ s f).2.config = s.config ∧ (getSpectrogram ρ s f).2.config = s.config :=
  ⟨getSpectrum_config s f, getSpectrogram_config s f⟩

private theorem getCSM_config_any (s : State T W R Q S C G) (f : Bool)
    (h : ¬ (s.params.method = .fft ∧ s.window.isSome ∧ s.params.scaling.physical)) :
    (getCSM ρ s f).2.config = s.config := by
  have hstore := @storeCSM_config T W R Q S C G
  have key : (computeCSM ρ s).2.config = s.config := by
    cases hm : s.params.method with
    | welch => simp only [computeCSM, hm, hstore]
    | fft =>
      have hc := getSpectrum_config (ρ := ρ) (setScaling s .fftBackward) false
      have hw : (getSpectrum ρ (setScaling s .fftBackward) false).2.window = s.window :=
        congrArg Config.window hc
      have hp : (getSpectrum ρ (setScaling s .fftBackward) false).2.params =
        s.params.withScaling .fftBackward := congrArg Config.params hc
      have hn : ¬ (s.window.isSome ∧ s.params.scaling.physical) := fun h' => h ⟨hm, h'⟩
      simp only [computeCSM, hm, hw, hn, if_false]
      rw [hstore, config_setScaling, hc, hp]
      rfl
  unfold getCSM
  split
  · rfl
  · split
    · exact key
    · split
      · exact key
      · rfl

/-- **C16**, `get_csm` (partial): in every state, the configuration is as before although
the scaling is switched in between — unless the signal has a window, the method is the FFT
and the scaling has physical units (see `C16_csm_leaves_scaling_switched`). -/
theorem C16_csm_config_partial (s : State T W R Q S C G) (f : Bool)
    (h : ¬ (s.params.method = .fft ∧ s.window.isSome ∧ s.params.scaling.physical)) :
    (getCSM ρ s f).2.config = s.config := getCSM_config_any ρ s f h

/-- The plots leave the configuration as it was, too. -/
theorem C16_plot_config [DecidableEq R] (s : State T W R Q S C G) :
    (plotMagnitude ρ s).config = s.config ∧ (plotPhase ρ s).config = s.config ∧
      (plotGroupDelay ρ s).config = s.config := by
  have h1 : (plotMagnitude ρ s).config = s.config := by
    unfold plotMagnitude
    rcases getSpectrum_snd (ρ := ρ) (writeSmoothing s 0) false with h | ⟨-, h⟩ <;> rw [h] <;> rfl
  refine ⟨h1, ?_, ?_⟩
  · unfold plotPhase
    split
    · rfl
    · exact h1
  · unfold plotGroupDelay
    simp only
    rcases getSpectrum_snd (ρ := ρ) (setParams s ⟨.fft, 0, .fftBackward, ρ.defaultRest⟩) false
      with h | ⟨-, h⟩ <;> rw [h] <;> unfold setParams <;> split <;> rfl

/-- **C16**, repeated reads: in every state, a second identical call of `get_spectrum`
returns what the first one returned. -/
theorem C16_spectrum_idempotent (s : State T W R Q S C G) (f : Bool) :
    (getSpectrum ρ (getSpectrum ρ s f).2 f).1 = (getSpectrum ρ s f).1 := by
  unfold getSpectrum
  cases hc : s.cacheOn <;> cases hs : s.spectrum <;> cases hd : s.spectrumDirty <;> cases f <;>
    simp_all

/-- **C16**, repeated reads of the spectrogram, in every state in which the stored
spectrogram is not outdated with the cache off (otherwise see C15). -/
theorem C16_spectrogram_idempotent_partial (s : State T W R Q S C G) (f : Bool)
    (h : s.cacheOn = true ∨ s.spectrogram = none ∨
      s.spectrogramDirty = false ∨ f = true) :
    (getSpectrogram ρ (getSpectrogram ρ s f).2 f).1 = (getSpectrogram ρ s f).1 := by
  unfold getSpectrogram
  cases hc : s.cacheOn <;> cases hs : s.spectrogram <;> cases hd : s.spectrogramDirty <;>
    cases f <;> simp_all

/-- **C16**, repeated reads of the cross-spectral matrix: after every safe history (C15)
two calls in a row return the same, where the first does not raise. -/
theorem C16_csm_idempotent_partial [DecidableEq R] [DecidableEq Q] (data : T) (rate : ℕ)
    (p : Params R) (q : Q) (cache : Bool) (h : List (Call T W R Q)) (f g : Bool)
    (hs : SafeHistory ρ (new data rate p q cache) (h ++ [.getCSM f]))
    (hr : ¬ csmRaises ρ (run ρ (new data rate p q cache) h).config) :
    let s := run ρ (new data rate p q cache) h
    (getCSM ρ (getCSM ρ s f).2 g).1 = (getCSM ρ s f).1 := by
  have split : ∀ (h : List (Call T W R Q)) (s : State T W R Q S C G),
      SafeHistory ρ s (h ++ [.getCSM f]) → SafeHistory ρ s h := by
    intro h
    induction h with
    | nil => intro s _; trivial
    | cons c h ih => intro s hs; exact ⟨hs.1, ih _ hs.2⟩
  have h1 := (C15_fresh_partial ρ data rate p q cache h (split h _ hs) f).2.1 hr
  have h2 := C15_fresh_partial ρ data rate p q cache _ hs g
  have hrun : run ρ (new data rate p q cache) (h ++ [.getCSM f]) =
      (getCSM ρ (run ρ (new data rate p q cache) h) f).2 := by
    simp [run, exec]
  have hcfg : (getCSM ρ (run ρ (new data rate p q cache) h) f).2.config =
      (run ρ (new data rate p q cache) h).config := by
    apply C16_csm_config_partial
    intro hbad
    exact hr (Or.inr hbad)
  rw [hrun] at h2
  have h3 := h2.2.1
  rw [hcfg] at h3
  intro s
  show (getCSM ρ (getCSM ρ (run ρ (new data rate p q cache) h) f).2 g).1 = _
  rw [h3 hr, h1]

/-- The property fails: reading the cross-spectral matrix (FFT method, scaling with
physical units) of a windowed signal with several channels raises and leaves the scaling
switched to `FFTBackward`. -/
theorem C16_csm_leaves_scaling_switched [DecidableEq R] [DecidableEq Q] (data : T) (rate : ℕ)
    (r : R) (q : Q) (cache : Bool) (w : W) (hch : 2 ≤ ρ.channels data) :
    let s : State T W R Q S C G := run ρ
      (new data rate ⟨.fft, 0, .powerSpectrum, r⟩ q cache) [.setWindow w]
    s.params.scaling = .powerSpectrum ∧ (getCSM ρ s false).1 = .error .valueError ∧
      (getCSM ρ s false).2.params.scaling = .fftBackward := by
  have h : ¬ ρ.channels data ≤ 1 := by omega
  cases cache <;>
    simp [run, exec, setWindow, new, getCSM, computeCSM, getSpectrum, setScaling, h,
      Scaling.physical, Params.withScaling]

/-- States with stored results meet the hypotheses of the theorems above. -/
example [DecidableEq R] [DecidableEq Q] (data : T) (r : R) (q : Q) (hch : 2 ≤ ρ.channels data) :
    let s : State T W R Q S C G := run ρ
      (new data 48000 ⟨.fft, 0, .powerSpectrum, r⟩ q true) [.getSpectrum false, .getCSM false]
    s.config = ⟨data, 48000, none, ⟨.fft, 0, .powerSpectrum, r⟩, q⟩ ∧ s.csmDirty = false ∧
      ¬ csmRaises ρ s.config := by
  have h : ¬ ρ.channels data ≤ 1 := by omega
  simp [run, exec, new, getCSM, computeCSM, getSpectrum, setScaling, h, storeCSM,
    State.config, csmRaises, Params.withScaling]

end Verif.Cache
