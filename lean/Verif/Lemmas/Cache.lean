import Verif.Spec.Cache

/-! Lemmas about the cached spectra. -/

namespace Verif.Cache

variable {T W R Q S C G : Type} (ρ : Routines T W R Q S C G)

/-- Every valid cache entry is what the current configuration gives. -/
structure Inv (s : State T W R Q S C G) : Prop where
  sp : ∀ x, s.spectrum = some x → s.spectrumDirty = false → x = freshSpectrum ρ s.config
  csm : ∀ x, s.csm = some x → s.csmDirty = false →
    x = freshCSM ρ s.config ∧ ¬ (s.params.method = .fft ∧ s.window.isSome ∧ s.params.scaling.physical)
  sg : ∀ x, s.spectrogram = some x → s.spectrogramDirty = false →
    x = freshSpectrogram ρ s.config

variable {ρ}

theorem inv_new (data : T) (rate : ℕ) (p : Params R) (q : Q) (cache : Bool) :
    Inv ρ (new data rate p q cache : State T W R Q S C G) := by
  constructor <;> intro x h <;> simp [new] at h

theorem getSpectrum_fst {s : State T W R Q S C G} (hI : Inv ρ s) (f : Bool) :
    (getSpectrum ρ s f).1 = freshSpectrum ρ s.config := by
  unfold getSpectrum
  simp only
  split
  · rfl
  · rename_i x hx
    split
    · rfl
    · rename_i hd
      simp at hd
      exact hI.sp x hx hd.1

theorem getSpectrum_config (s : State T W R Q S C G) (f : Bool) :
    (getSpectrum ρ s f).2.config = s.config := by
  unfold getSpectrum
  simp only
  split
  · split <;> rfl
  · split
    · split <;> rfl
    · rfl

/-- What `get_spectrum` leaves behind. -/
theorem getSpectrum_snd (s : State T W R Q S C G) (f : Bool) :
    (getSpectrum ρ s f).2 = s ∨
      (s.cacheOn = true ∧ (getSpectrum ρ s f).2 =
        { s with spectrum := some (freshSpectrum ρ s.config), spectrumDirty := false }) := by
  unfold getSpectrum
  simp only
  cases hc : s.cacheOn
  · left
    split
    · rfl
    · split <;> rfl
  · split
    · right; exact ⟨rfl, rfl⟩
    · split
      · right; exact ⟨rfl, rfl⟩
      · left; rfl

theorem getSpectrum_inv {s : State T W R Q S C G} (hI : Inv ρ s) (f : Bool) :
    Inv ρ (getSpectrum ρ s f).2 := by
  rcases getSpectrum_snd (ρ := ρ) s f with h | ⟨-, h⟩
  · rw [h]; exact hI
  · rw [h]
    exact ⟨fun x hx _ => (Option.some.inj hx).symm, hI.csm, hI.sg⟩

theorem setScaling_inv {s : State T W R Q S C G} (hI : Inv ρ s) (x : Scaling) :
    Inv ρ (setScaling s x) :=
  ⟨fun _ _ h => by simp [setScaling] at h, fun _ _ h => by simp [setScaling] at h, hI.sg⟩

theorem config_setScaling (s : State T W R Q S C G) (x : Scaling) :
    (setScaling s x).config = { s.config with params := (s.params.withScaling x) } := rfl

/-- The computation inside `get_csm` for the FFT method. -/
theorem getCSM_fft (s : State T W R Q S C G) (hI : Inv ρ s) :
    ∃ r : State T W R Q S C G, getSpectrum ρ (setScaling s .fftBackward) false =
      (ρ.spectrum s.data s.rate s.window (s.params.withScaling .fftBackward), r) ∧
      Inv ρ r ∧ r.config = { s.config with params := (s.params.withScaling .fftBackward) } ∧
      r.cacheOn = s.cacheOn := by
  have hI' := setScaling_inv hI .fftBackward
  refine ⟨(getSpectrum ρ (setScaling s .fftBackward) false).2, ?_, getSpectrum_inv hI' _, ?_, ?_⟩
  · rw [Prod.ext_iff]
    exact ⟨getSpectrum_fst hI' false, rfl⟩
  · rw [getSpectrum_config, config_setScaling]
  · rcases getSpectrum_snd (ρ := ρ) (setScaling s .fftBackward) false with h | ⟨-, h⟩ <;>
      rw [h] <;> rfl

theorem storeCSM_config (s : State T W R Q S C G) (x : C) : (storeCSM s x).config = s.config := by
  unfold storeCSM; split <;> rfl

theorem storeCSM_inv {s : State T W R Q S C G} (hI : Inv ρ s) (x : C)
    (hx : x = freshCSM ρ s.config)
    (hp : ¬ (s.params.method = .fft ∧ s.window.isSome ∧ s.params.scaling.physical)) :
    Inv ρ (storeCSM s x) := by
  unfold storeCSM
  split
  · exact ⟨hI.sp, fun y hy _ => ⟨(Option.some.inj hy).symm.trans hx, hp⟩, hI.sg⟩
  · exact hI

theorem computeCSM_spec (s : State T W R Q S C G) (hI : Inv ρ s) :
    Inv ρ (computeCSM ρ s).2 ∧
      (¬ (s.params.method = .fft ∧ s.window.isSome ∧ s.params.scaling.physical) →
        (computeCSM ρ s).1 = .ok (freshCSM ρ s.config) ∧
        (computeCSM ρ s).2.config = s.config) ∧
      ((s.params.method = .fft ∧ s.window.isSome ∧ s.params.scaling.physical) →
        ∃ e, (computeCSM ρ s).1 = .error e) := by
  cases hm : s.params.method with
  | welch =>
    have hfresh : freshCSM ρ s.config = ρ.csmWelch s.data s.rate s.params := by
      simp [freshCSM, State.config, hm]
    simp only [computeCSM, hm]
    refine ⟨storeCSM_inv hI _ hfresh.symm (by simp [hm]),
      fun _ => ⟨by rw [hfresh], storeCSM_config s _⟩, fun h => absurd h.1 (by simp)⟩
  | fft =>
    obtain ⟨r, hr, hrI, hrc, hrcache⟩ := getCSM_fft s hI
    have hw : r.window = s.window := congrArg Config.window hrc
    have hrate : r.rate = s.rate := congrArg Config.rate hrc
    have hback : (setScaling r s.params.scaling).config = s.config := by
      rw [config_setScaling, hrc]
      have hp : r.params = (s.params.withScaling .fftBackward) := congrArg Config.params hrc
      rw [hp]
      rfl
    have hfresh : freshCSM ρ s.config = ρ.csmFFT
        (ρ.spectrum s.data s.rate s.window (s.params.withScaling .fftBackward))
        s.params.scaling s.window s.rate := by
      simp [freshCSM, State.config, hm]
    simp only [computeCSM, hm, hr, hw, hrate]
    by_cases hph : s.window.isSome ∧ s.params.scaling.physical
    · rw [if_pos hph]
      exact ⟨hrI, fun h => absurd ⟨trivial, hph⟩ h, fun _ => ⟨_, rfl⟩⟩
    · rw [if_neg hph]
      refine ⟨storeCSM_inv (setScaling_inv hrI _) _ (by rw [hback, hfresh]) fun h => hph ?_,
        fun _ => ⟨by rw [hfresh], by rw [storeCSM_config, hback]⟩, fun h => absurd h.2 hph⟩
      have h2 : r.window.isSome ∧ s.params.scaling.physical := h.2
      rwa [hw] at h2

/-- `get_csm`: answer, invariant, configuration. -/
theorem getCSM_spec (s : State T W R Q S C G) (hI : Inv ρ s) (f : Bool) :
    Inv ρ (getCSM ρ s f).2 ∧
    (¬ csmRaises ρ s.config → (getCSM ρ s f).1 = .ok (freshCSM ρ s.config) ∧
      (getCSM ρ s f).2.config = s.config) ∧
    (csmRaises ρ s.config → ∃ e, (getCSM ρ s f).1 = .error e) := by
  have key := computeCSM_spec s hI
  have hraise : csmRaises ρ s.config ↔ (ρ.channels s.data ≤ 1 ∨
    (s.params.method = .fft ∧ s.window.isSome ∧ s.params.scaling.physical)) := Iff.rfl
  rw [hraise]
  unfold getCSM
  by_cases hch : ρ.channels s.data ≤ 1
  · rw [if_pos hch]
    exact ⟨hI, fun h => absurd (Or.inl hch) h, fun _ => ⟨_, rfl⟩⟩
  · rw [if_neg hch]
    cases hcs : s.csm with
    | none =>
      exact ⟨key.1, fun h => key.2.1 fun h' => h (Or.inr h'),
        fun h => key.2.2 (h.resolve_left hch)⟩
    | some x =>
      simp only
      split
      · exact ⟨key.1, fun h => key.2.1 fun h' => h (Or.inr h'),
          fun h => key.2.2 (h.resolve_left hch)⟩
      · rename_i hd
        simp at hd
        obtain ⟨h1, h2⟩ := hI.csm x hcs hd.2
        exact ⟨hI, fun _ => ⟨by rw [h1], rfl⟩, fun h => absurd (h.resolve_left hch) h2⟩

theorem getSpectrogram_fst {s : State T W R Q S C G} (hI : Inv ρ s) (f : Bool) :
    (getSpectrogram ρ s f).1 = freshSpectrogram ρ s.config := by
  unfold getSpectrogram
  simp only
  split
  · rfl
  · rename_i x hx
    split
    · rfl
    · rename_i hd
      simp at hd
      exact hI.sg x hx hd.2

theorem getSpectrogram_config (s : State T W R Q S C G) (f : Bool) :
    (getSpectrogram ρ s f).2.config = s.config := by
  unfold getSpectrogram
  simp only
  split
  · split <;> rfl
  · split
    · split <;> rfl
    · rfl

end Verif.Cache
