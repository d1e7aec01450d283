import Verif.Lemmas.Cache
import Mathlib.Tactic.NormNum

/-!
# C15: cached spectra are never stale

The property is false of the code in four ways, each shown with a history below.  It holds
for every history when the cache is never switched on, and, with the cache, for every
history that avoids the calls that break it.
-/

namespace Verif.Cache

variable {T W R Q S C G : Type} [DecidableEq R] [DecidableEq Q] (ρ : Routines T W R Q S C G)

/-- The three getters answer what a computation from the current configuration gives
(`get_csm` only where it does not raise). -/
def AnswersFresh (s : State T W R Q S C G) : Prop :=
  ∀ force : Bool,
    (getSpectrum ρ s force).1 = freshSpectrum ρ s.config ∧
    (¬ csmRaises ρ s.config → (getCSM ρ s force).1 = .ok (freshCSM ρ s.config)) ∧
    (csmRaises ρ s.config → ∃ e, (getCSM ρ s force).1 = .error e) ∧
    (getSpectrogram ρ s force).1 = freshSpectrogram ρ s.config

/-- The calls that cannot leave a stale result behind: a smoothing or window change only
if nothing valid is stored, a plot of magnitude or phase that need not recompute a smoothed
spectrum into the cache, a group delay plot that does not touch the cache, and no
spectrogram request while a stored spectrogram is outdated and the cache is off. -/
def Safe (s : State T W R Q S C G) : Call T W R Q → Prop
  | .setWindow w => s.window = some w ∨
      ((s.spectrum = none ∨ s.spectrumDirty = true) ∧ (s.csm = none ∨ s.csmDirty = true))
  | .setSmoothing x => s.params.smoothing = x ∨
      ((s.spectrum = none ∨ s.spectrumDirty = true) ∧ (s.csm = none ∨ s.csmDirty = true))
  | .plotMagnitude | .plotPhase => s.cacheOn = false ∨ s.params.smoothing = 0 ∨
      (s.spectrum.isSome ∧ s.spectrumDirty = false)
  | .plotGroupDelay => s.cacheOn = false ∨ s.params = ⟨.fft, 0, .fftBackward, ρ.defaultRest⟩
  | .getSpectrogram _ => s.cacheOn = true ∨ s.spectrogram = none ∨ s.spectrogramDirty = false
  | _ => True

/-- Every call of the history is safe in the state in which it happens. -/
def SafeHistory (s : State T W R Q S C G) : List (Call T W R Q) → Prop
  | [] => True
  | c :: h => Safe ρ s c ∧ SafeHistory (exec ρ s c) h

variable {ρ}

omit [DecidableEq R] [DecidableEq Q] in
private theorem writeSmoothing_self (s : State T W R Q S C G) :
    writeSmoothing s s.params.smoothing = s := rfl

omit [DecidableEq R] [DecidableEq Q] in
private theorem plotMagnitude_inv {s : State T W R Q S C G} (hI : Inv ρ s)
    (hs : s.cacheOn = false ∨ s.params.smoothing = 0 ∨
      (s.spectrum.isSome ∧ s.spectrumDirty = false)) : Inv ρ (plotMagnitude ρ s) := by
  rcases hs with h | h | ⟨h, hd⟩
  · have : plotMagnitude ρ s = s := by
      unfold plotMagnitude
      rcases getSpectrum_snd (ρ := ρ) (writeSmoothing s 0) false with h' | ⟨h', -⟩
      · rw [h']; rfl
      · rw [show (writeSmoothing s 0).cacheOn = s.cacheOn from rfl, h] at h'
        exact absurd h' (by simp)
    rw [this]; exact hI
  · unfold plotMagnitude
    have hI' := getSpectrum_inv hI false
    have hc := getSpectrum_config (ρ := ρ) s false
    have h0 : writeSmoothing s 0 = s := by rw [← h]; rfl
    rw [h0]
    have hp : (getSpectrum ρ s false).2.params = s.params := congrArg Config.params hc
    have : writeSmoothing (getSpectrum ρ s false).2 s.params.smoothing =
        (getSpectrum ρ s false).2 := by
      rw [← hp]; rfl
    rw [this]; exact hI'
  · have : plotMagnitude ρ s = s := by
      obtain ⟨x, hx⟩ := Option.isSome_iff_exists.mp h
      have hg : getSpectrum ρ (writeSmoothing s 0) false = (x, writeSmoothing s 0) := by
        unfold getSpectrum
        simp [writeSmoothing, hx, hd]
      unfold plotMagnitude
      rw [hg]; rfl
    rw [this]; exact hI

private theorem exec_inv {s : State T W R Q S C G} (hI : Inv ρ s) (c : Call T W R Q)
    (hs : Safe ρ s c) : Inv ρ (exec ρ s c) := by
  cases c with
  | setData t => exact ⟨fun _ _ h => by simp [exec, setData, updateState] at h,
      fun _ _ h => by simp [exec, setData, updateState] at h,
      fun _ _ h => by simp [exec, setData, updateState] at h⟩
  | setRate t => exact ⟨fun _ _ h => by simp [exec, setRate, updateState] at h,
      fun _ _ h => by simp [exec, setRate, updateState] at h,
      fun _ _ h => by simp [exec, setRate, updateState] at h⟩
  | setWindow w =>
    rcases hs with h | ⟨h1, h2⟩
    · have : exec ρ s (.setWindow w) = s := by
        show ({ s with window := some w } : State T W R Q S C G) = s
        rw [← h]
      rw [this]; exact hI
    · refine ⟨fun x hx hd => ?_, fun x hx hd => ?_, hI.sg⟩
      · rcases h1 with h1 | h1
        · exact absurd (h1.symm.trans hx) (by simp)
        · exact absurd (h1.symm.trans hd) (by simp)
      · rcases h2 with h2 | h2
        · exact absurd (h2.symm.trans hx) (by simp)
        · exact absurd (h2.symm.trans hd) (by simp)
  | setParams p =>
    show Inv ρ (setParams s p)
    unfold setParams
    split
    · exact hI
    · exact ⟨fun _ _ h => by simp at h, fun _ _ h => by simp at h, hI.sg⟩
  | setScaling x => exact setScaling_inv hI x
  | setMethod x =>
    exact ⟨fun _ _ h => by simp [exec, setMethod] at h,
      fun _ _ h => by simp [exec, setMethod] at h, hI.sg⟩
  | setSmoothing x =>
    show Inv ρ (if 0 ≤ x then writeSmoothing s x else s)
    split
    · rcases hs with h | ⟨h1, h2⟩
      · rw [← h, writeSmoothing_self]; exact hI
      · refine ⟨fun x hx hd => ?_, fun x hx hd => ?_, hI.sg⟩
        · rcases h1 with h1 | h1
          · exact absurd (h1.symm.trans hx) (by simp)
          · exact absurd (h1.symm.trans hd) (by simp)
        · rcases h2 with h2 | h2
          · exact absurd (h2.symm.trans hx) (by simp)
          · exact absurd (h2.symm.trans hd) (by simp)
    · exact hI
  | setSgParams q =>
    show Inv ρ (setSgParams s q)
    unfold setSgParams
    split
    · exact hI
    · exact ⟨hI.sp, hI.csm, fun _ _ h => by simp at h⟩
  | setCache b => exact ⟨hI.sp, hI.csm, hI.sg⟩
  | getSpectrum f => exact getSpectrum_inv hI f
  | getCSM f => exact (getCSM_spec s hI f).1
  | getSpectrogram f =>
    show Inv ρ (getSpectrogram ρ s f).2
    have hcomp : Inv ρ (if s.cacheOn then ({ s with
          spectrogramDirty := false,
          spectrogram := some (ρ.spectrogram s.data s.rate s.sgParams) } : State T W R Q S C G)
        else { s with spectrogramDirty := false }) := by
      split
      · exact ⟨hI.sp, hI.csm, fun x hx _ => (Option.some.inj hx).symm⟩
      · rename_i hc
        rcases hs with h | h | h
        · exact absurd h hc
        · exact ⟨hI.sp, hI.csm, fun x hx _ => absurd (h.symm.trans hx) (by simp)⟩
        · exact ⟨hI.sp, hI.csm, fun x hx _ => hI.sg x hx h⟩
    unfold getSpectrogram
    simp only
    split
    · exact hcomp
    · split
      · exact hcomp
      · exact hI
  | plotMagnitude => exact plotMagnitude_inv hI hs
  | plotPhase =>
    show Inv ρ (plotPhase ρ s)
    unfold plotPhase
    split
    · exact hI
    · exact plotMagnitude_inv hI hs
  | plotGroupDelay =>
    show Inv ρ (plotGroupDelay ρ s)
    unfold plotGroupDelay
    simp only
    rcases hs with h | h
    · set p0 : Params R := ⟨.fft, 0, .fftBackward, ρ.defaultRest⟩
      have hcache : (setParams s p0).cacheOn = false := by
        unfold setParams; split <;> exact h
      rcases getSpectrum_snd (ρ := ρ) (setParams s p0) false with h' | ⟨h', -⟩
      · rw [h']
        unfold setParams
        split
        · exact hI
        · exact ⟨fun _ _ h => by simp at h, fun _ _ h => by simp at h, hI.sg⟩
      · rw [hcache] at h'
        exact absurd h' (by simp)
    · have hset : setParams s ⟨.fft, 0, .fftBackward, ρ.defaultRest⟩ = s := by
        unfold setParams; rw [if_pos h]
      rw [hset]
      have hI' := getSpectrum_inv hI false
      have hp : (getSpectrum ρ s false).2.params = s.params :=
        congrArg Config.params (getSpectrum_config (ρ := ρ) s false)
      rw [← hp]
      exact hI'

private theorem run_inv (h : List (Call T W R Q)) : ∀ s : State T W R Q S C G,
    Inv ρ s → SafeHistory ρ s h → Inv ρ (run ρ s h) := by
  induction h with
  | nil => intro s hI _; exact hI
  | cons c h ih => intro s hI hs; exact ih _ (exec_inv hI c hs.1) hs.2

omit [DecidableEq R] [DecidableEq Q] in
private theorem answersFresh_of_inv {s : State T W R Q S C G} (hI : Inv ρ s) :
    AnswersFresh ρ s := fun f =>
  ⟨getSpectrum_fst hI f, fun h => ((getCSM_spec s hI f).2.1 h).1, (getCSM_spec s hI f).2.2,
    getSpectrogram_fst hI f⟩

variable (ρ)

/-- **C15** (partial): after every safe history of calls on a new signal, with the cache on
or off, the getters return what a computation from the current data and the current
parameters returns.  Missing: the histories with another call, for which the theorems
below show that the property is false. -/
theorem C15_fresh_partial (data : T) (rate : ℕ) (p : Params R) (q : Q) (cache : Bool)
    (h : List (Call T W R Q)) (hs : SafeHistory ρ (new data rate p q cache) h) :
    AnswersFresh ρ (run ρ (new data rate p q cache) h) :=
  answersFresh_of_inv (run_inv h _ (inv_new data rate p q cache) hs)

/-- The calls other than smoothing and window changes, plots, and switching off the cache. -/
def Call.plain : Call T W R Q → Prop
  | .setWindow _ | .setSmoothing _ | .plotMagnitude | .plotPhase | .plotGroupDelay
  | .setCache false => False
  | _ => True

omit [DecidableEq R] [DecidableEq Q] in
private theorem cacheOn_getSpectrum (s : State T W R Q S C G) (f : Bool) :
    (getSpectrum ρ s f).2.cacheOn = s.cacheOn := by
  rcases getSpectrum_snd (ρ := ρ) s f with h | ⟨-, h⟩ <;> rw [h]

omit [DecidableEq R] [DecidableEq Q] in
private theorem cacheOn_computeCSM (s : State T W R Q S C G) :
    (computeCSM ρ s).2.cacheOn = s.cacheOn := by
  have hstore : ∀ (s : State T W R Q S C G) x, (storeCSM s x).cacheOn = s.cacheOn := by
    intro s x; unfold storeCSM; split <;> rfl
  unfold computeCSM
  split
  · exact hstore _ _
  · simp only
    split
    · exact cacheOn_getSpectrum ρ _ _
    · rw [hstore]; exact cacheOn_getSpectrum ρ (setScaling s .fftBackward) false

private theorem cacheOn_exec {s : State T W R Q S C G} (h : s.cacheOn = true)
    (c : Call T W R Q) (hc : c.plain) : (exec ρ s c).cacheOn = true := by
  cases c with
  | setCache b => cases b with
    | false => exact absurd hc (by simp [Call.plain])
    | true => rfl
  | setParams p => show (setParams s p).cacheOn = true; unfold setParams; split <;> exact h
  | setSgParams p => show (setSgParams s p).cacheOn = true; unfold setSgParams; split <;> exact h
  | getSpectrum f => exact (cacheOn_getSpectrum ρ s f).trans h
  | getCSM f =>
    show (getCSM ρ s f).2.cacheOn = true
    unfold getCSM
    split
    · exact h
    · split
      · exact (cacheOn_computeCSM ρ s).trans h
      · split
        · exact (cacheOn_computeCSM ρ s).trans h
        · exact h
  | getSpectrogram f =>
    show (getSpectrogram ρ s f).2.cacheOn = true
    unfold getSpectrogram
    simp only [h, if_true]
    split
    · rfl
    · split
      · rfl
      · exact h
  | setData t => exact h
  | setRate t => exact h
  | setScaling t => exact h
  | setMethod t => exact h
  | setWindow w => exact absurd hc (by simp [Call.plain])
  | setSmoothing w => exact absurd hc (by simp [Call.plain])
  | plotMagnitude => exact absurd hc (by simp [Call.plain])
  | plotPhase => exact absurd hc (by simp [Call.plain])
  | plotGroupDelay => exact absurd hc (by simp [Call.plain])

private theorem safe_of_plain (h : List (Call T W R Q)) : ∀ s : State T W R Q S C G,
    s.cacheOn = true → (∀ c ∈ h, c.plain) → SafeHistory ρ s h := by
  induction h with
  | nil => intro s _ _; trivial
  | cons c h ih =>
    intro s hc hp
    refine ⟨?_, ih _ (cacheOn_exec ρ hc c (hp c (by simp))) fun d hd => hp d (by simp [hd])⟩
    have := hp c (by simp)
    cases c <;> simp_all [Safe, Call.plain]

/-- **C15**, with the cache on (partial): every history made of data, sampling rate,
parameter, scaling and method changes and of any get calls gives current answers. -/
theorem C15_cache_on_partial (data : T) (rate : ℕ) (p : Params R) (q : Q)
    (h : List (Call T W R Q)) (hp : ∀ c ∈ h, c.plain) :
    AnswersFresh ρ (run ρ (new data rate p q true) h) :=
  C15_fresh_partial ρ data rate p q true h (safe_of_plain ρ h _ rfl hp)

/-- A history that changes data and parameters between cached reads is covered. -/
example (data data' : T) (p : Params R) (q : Q) :
    AnswersFresh ρ (run ρ (new data 48000 p q true)
      [.getSpectrum false, .getCSM false, .setScaling .fftForward, .getSpectrum false,
        .setData data', .getSpectrogram false, .setRate 44100, .getSpectrogram true]) :=
  C15_cache_on_partial ρ _ _ _ _ _ (by simp [Call.plain])

private def Empty (s : State T W R Q S C G) : Prop :=
  s.cacheOn = false ∧ s.spectrum = none ∧ s.csm = none ∧ s.spectrogram = none

omit [DecidableEq R] [DecidableEq Q] in
private theorem empty_getSpectrum {s : State T W R Q S C G} (h : Empty s) (f : Bool) :
    (getSpectrum ρ s f).2 = s := by
  rcases getSpectrum_snd (ρ := ρ) s f with h' | ⟨h', -⟩
  · exact h'
  · exact absurd (h.1.symm.trans h') (by simp)

private theorem empty_exec {s : State T W R Q S C G} (h : Empty s) (c : Call T W R Q)
    (hc : c ≠ .setCache true) : Empty (exec ρ s c) := by
  cases c with
  | setCache b => cases b with
    | false => exact ⟨rfl, h.2⟩
    | true => exact absurd rfl hc
  | setParams p => show Empty (setParams s p); unfold setParams; split <;> exact h
  | setSgParams p => show Empty (setSgParams s p); unfold setSgParams; split <;> exact h
  | setSmoothing x => show Empty (if 0 ≤ x then _ else _); split <;> exact h
  | getSpectrum f => show Empty (getSpectrum ρ s f).2; rw [empty_getSpectrum ρ h]; exact h
  | getCSM f =>
    show Empty (getCSM ρ s f).2
    unfold getCSM
    rw [h.2.2.1]
    split
    · exact h
    · simp only [computeCSM, empty_getSpectrum ρ (s := setScaling s .fftBackward) h]
      split
      · simp only [storeCSM, h.1]; exact h
      · split
        · exact h
        · have : (setScaling (setScaling s .fftBackward) s.params.scaling).cacheOn = false := h.1
          simp only [storeCSM, this]; exact h
  | getSpectrogram f =>
    show Empty (getSpectrogram ρ s f).2
    simp only [getSpectrogram, h.2.2.2, h.1]
    exact ⟨rfl, h.2.1, h.2.2.1, rfl⟩
  | setData t => exact h
  | setRate t => exact h
  | setScaling t => exact h
  | setMethod t => exact h
  | setWindow w => exact h
  | plotMagnitude =>
    show Empty (plotMagnitude ρ s)
    unfold plotMagnitude
    rw [empty_getSpectrum ρ (s := writeSmoothing s 0) h]; exact h
  | plotPhase =>
    show Empty (plotPhase ρ s)
    unfold plotPhase plotMagnitude
    split
    · exact h
    · rw [empty_getSpectrum ρ (s := writeSmoothing s 0) h]; exact h
  | plotGroupDelay =>
    show Empty (plotGroupDelay ρ s)
    have : Empty (setParams s (⟨.fft, 0, .fftBackward, ρ.defaultRest⟩ : Params R)) := by
      unfold setParams; split <;> exact h
    simp only [plotGroupDelay, empty_getSpectrum ρ this]
    exact this

/-- **C15**, cache off: as long as the cache is never switched on, the getters return
current results after **every** history of calls. -/
theorem C15_cache_off (data : T) (rate : ℕ) (p : Params R) (q : Q) (h : List (Call T W R Q))
    (hc : Call.setCache true ∉ h) : AnswersFresh ρ (run ρ (new data rate p q false) h) := by
  have key : ∀ (h : List (Call T W R Q)) (s : State T W R Q S C G), Empty s →
      Call.setCache true ∉ h → Empty (run ρ s h) := by
    intro h
    induction h with
    | nil => intro s hs _; exact hs
    | cons c h ih =>
      intro s hs hn
      simp only [List.mem_cons, not_or] at hn
      exact ih _ (empty_exec ρ hs c (Ne.symm hn.1)) hn.2
  have hE := key h (new data rate p q false) ⟨rfl, rfl, rfl, rfl⟩ hc
  refine answersFresh_of_inv ⟨fun x hx => ?_, fun x hx => ?_, fun x hx => ?_⟩
  · exact absurd (hE.2.1.symm.trans hx) (by simp)
  · exact absurd (hE.2.2.1.symm.trans hx) (by simp)
  · exact absurd (hE.2.2.2.symm.trans hx) (by simp)

/-- A history with smoothing changes and plots is covered when the cache is off. -/
example (data : T) (p : Params R) (q : Q) (w : W) :
    AnswersFresh ρ (run ρ (new data 48000 p q false)
      [.getSpectrum false, .setSmoothing 3, .plotMagnitude, .setWindow w, .plotGroupDelay]) :=
  C15_cache_off ρ _ _ _ _ _ (by simp)

omit [DecidableEq R] [DecidableEq Q] in
private theorem computeCSM_config (s : State T W R Q S C G) :
    (¬ (s.params.method = .fft ∧ s.window.isSome ∧ s.params.scaling.physical) →
      (computeCSM ρ s).2.config = s.config) := by
  intro h
  unfold computeCSM
  cases hm : s.params.method with
  | welch => exact storeCSM_config s _
  | fft =>
    have hc := getSpectrum_config (ρ := ρ) (setScaling s .fftBackward) false
    rw [config_setScaling] at hc
    have hw : (getSpectrum ρ (setScaling s .fftBackward) false).2.window = s.window :=
      congrArg Config.window hc
    dsimp only
    rw [hw, if_neg fun h' => h ⟨hm, h'⟩]
    dsimp only
    rw [storeCSM_config, config_setScaling, hc]
    have hp : (getSpectrum ρ (setScaling s .fftBackward) false).2.params =
      (s.params.withScaling .fftBackward) := congrArg Config.params hc
    rw [hp]
    rfl

/-- **C15**, what the calls do to the configuration (partial): every call changes data,
sampling rate, window and parameters as specified — in particular getters and plots leave them
alone and new data delete the window.  Missing: a `get_csm` that raises, see
`C15_scaling_lost`. -/
theorem C15_configuration_partial (s : State T W R Q S C G) (c : Call T W R Q)
    (hc : ∀ f, c = .getCSM f → ¬ csmRaises ρ s.config) :
    (exec ρ s c).config = s.config.after c := by
  have hplot : (plotMagnitude ρ s).config = s.config := by
    unfold plotMagnitude
    have h := getSpectrum_config (ρ := ρ) (writeSmoothing s 0) false
    have hp : (getSpectrum ρ (writeSmoothing s 0) false).2.params = s.params.withSmoothing 0 :=
      congrArg Config.params h
    show Config.mk _ _ _ _ _ = _
    unfold writeSmoothing at hp ⊢
    dsimp only
    rw [hp]
    have h1 : (getSpectrum ρ (writeSmoothing s 0) false).2.data = s.data :=
      congrArg Config.data h
    have h2 : (getSpectrum ρ (writeSmoothing s 0) false).2.rate = s.rate :=
      congrArg Config.rate h
    have h3 : (getSpectrum ρ (writeSmoothing s 0) false).2.window = s.window :=
      congrArg Config.window h
    have h4 : (getSpectrum ρ (writeSmoothing s 0) false).2.sgParams = s.sgParams :=
      congrArg Config.sgParams h
    unfold writeSmoothing at h1 h2 h3 h4
    rw [h1, h2, h3, h4]
    rfl
  cases c with
  | setData t => rfl
  | setRate fs => rfl
  | setWindow w => rfl
  | setParams p =>
    simp only [exec, setParams]
    split_ifs with h
    · subst h; rfl
    · rfl
  | setScaling x => rfl
  | setMethod x => rfl
  | setSmoothing x =>
    simp only [exec, Config.after]
    split_ifs <;> rfl
  | setSgParams q =>
    simp only [exec, setSgParams]
    split_ifs with h
    · subst h; rfl
    · rfl
  | setCache b => rfl
  | getSpectrum f => exact getSpectrum_config s f
  | getCSM f =>
    have h := hc f rfl
    simp only [csmRaises, not_or, not_le] at h
    show (getCSM ρ s f).2.config = s.config
    unfold getCSM
    rw [if_neg (by exact Nat.not_le.mpr h.1)]
    cases s.csm with
    | none => exact computeCSM_config ρ s h.2
    | some x =>
      dsimp only
      split_ifs
      · exact computeCSM_config ρ s h.2
      · rfl
  | getSpectrogram f => exact getSpectrogram_config s f
  | plotMagnitude => exact hplot
  | plotPhase =>
    show (plotPhase ρ s).config = s.config
    unfold plotPhase
    cases s.params.method with
    | welch => rfl
    | fft => exact hplot
  | plotGroupDelay =>
    have h := getSpectrum_config (ρ := ρ)
      (setParams s ⟨.fft, 0, .fftBackward, ρ.defaultRest⟩) false
    have hk : (setParams s ⟨.fft, 0, .fftBackward, ρ.defaultRest⟩).data = s.data ∧
        (setParams s ⟨.fft, 0, .fftBackward, ρ.defaultRest⟩).rate = s.rate ∧
        (setParams s ⟨.fft, 0, .fftBackward, ρ.defaultRest⟩).window = s.window ∧
        (setParams s ⟨.fft, 0, .fftBackward, ρ.defaultRest⟩).sgParams = s.sgParams := by
      unfold setParams
      split_ifs <;> exact ⟨rfl, rfl, rfl, rfl⟩
    show Config.mk _ _ _ _ _ = Config.mk _ _ _ _ _
    exact congr (congr (congr (congr (congrArg Config.mk ((congrArg Config.data h).trans hk.1))
      ((congrArg Config.rate h).trans hk.2.1)) ((congrArg Config.window h).trans hk.2.2.1)) rfl)
      ((congrArg Config.sgParams h).trans hk.2.2.2)

/-- The configuration after a history without cross-spectral matrices is the one specified. -/
theorem C15_configuration_history (h : List (Call T W R Q)) (hc : ∀ f, Call.getCSM f ∉ h)
    (s : State T W R Q S C G) : (run ρ s h).config = h.foldl Config.after s.config := by
  induction h generalizing s with
  | nil => rfl
  | cons c h ih =>
    have h1 := C15_configuration_partial ρ s c
      (fun f hf => absurd (hf ▸ List.mem_cons_self) (hc f))
    show (run ρ (exec ρ s c) h).config = h.foldl Config.after (s.config.after c)
    rw [ih (fun f hf => hc f (List.mem_cons_of_mem _ hf)), h1]

/-- The specification is not met by a cross-spectral matrix that raises because of a window and
a scaling with physical units: the scaling chosen by the user is gone afterwards. -/
theorem C15_scaling_lost (s : State T W R Q S C G) (hn : s.csm = none)
    (hch : 1 < ρ.channels s.data) (hm : s.params.method = .fft) (hw : s.window.isSome)
    (hp : s.params.scaling.physical) (f : Bool) :
    (getCSM ρ s f).1 = .error .valueError ∧
      (getCSM ρ s f).2.params.scaling = .fftBackward ∧
      (exec ρ s (.getCSM f)).config ≠ s.config.after (.getCSM f) := by
  have hc := getSpectrum_config (ρ := ρ) (setScaling s .fftBackward) false
  rw [config_setScaling] at hc
  have hw' : (getSpectrum ρ (setScaling s .fftBackward) false).2.window = s.window :=
    congrArg Config.window hc
  have hs : (getSpectrum ρ (setScaling s .fftBackward) false).2.params.scaling = .fftBackward :=
    congrArg (fun c => c.params.scaling) hc
  have hg : getCSM ρ s f =
      (.error .valueError, (getSpectrum ρ (setScaling s .fftBackward) false).2) := by
    unfold getCSM
    rw [if_neg (by omega), hn]
    dsimp only
    unfold computeCSM
    rw [hm]
    dsimp only
    rw [hw', if_pos ⟨hw, hp⟩]
  refine ⟨by rw [hg], by rw [hg]; exact hs, fun he => ?_⟩
  have h1 : (getCSM ρ s f).2.params.scaling = s.params.scaling :=
    congrArg (fun c => c.params.scaling) he
  rw [hg] at h1
  rw [← h1, hs] at hp
  exact absurd hp (by decide)

/-- The property fails: after a change of smoothing the cached spectrum of the **old**
smoothing is returned. -/
theorem C15_stale_after_smoothing (data : T) (rate : ℕ) (p : Params R) (q : Q) (x : ℚ)
    (hx : 0 ≤ x) :
    let s : State T W R Q S C G := run ρ (new data rate p q true)
      [.getSpectrum false, .setSmoothing x]
    s.params = p.withSmoothing x ∧
      (getSpectrum ρ s false).1 = ρ.spectrum data rate none p := by
  simp [run, exec, hx, getSpectrum, new, writeSmoothing]

/-- The property fails: after a magnitude plot of a signal with smoothing, the cached
spectrum without smoothing is returned, although the smoothing parameter is as before. -/
theorem C15_stale_after_plot (data : T) (rate : ℕ) (p : Params R) (q : Q) :
    let s : State T W R Q S C G := run ρ (new data rate p q true) [.plotMagnitude]
    s.params = p ∧
      (getSpectrum ρ s false).1 = ρ.spectrum data rate none (p.withSmoothing 0) := by
  simp [run, exec, plotMagnitude, getSpectrum, new, writeSmoothing, Params.withSmoothing]

/-- The property fails: after a group delay plot the FFT spectrum is returned whatever the
parameters are (for example Welch's method). -/
theorem C15_stale_after_group_delay (data : T) (rate : ℕ) (p : Params R) (q : Q) :
    let s : State T W R Q S C G := run ρ (new data rate p q true) [.plotGroupDelay]
    s.params = p ∧
      (getSpectrum ρ s false).1 =
        ρ.spectrum data rate none ⟨.fft, 0, .fftBackward, ρ.defaultRest⟩ := by
  simp only [run, exec, plotGroupDelay, List.foldl_cons, List.foldl_nil]
  refine ⟨rfl, ?_⟩
  by_cases h : p = ⟨.fft, 0, .fftBackward, ρ.defaultRest⟩
  · subst h
    simp [getSpectrum, new, setParams]
  · simp [getSpectrum, new, setParams, h]

/-- The property fails: after setting a window the spectrum without window is returned. -/
theorem C15_stale_after_window (data : T) (rate : ℕ) (p : Params R) (q : Q) (w : W) :
    let s : State T W R Q S C G := run ρ (new data rate p q true)
      [.getSpectrum false, .setWindow w]
    s.window = some w ∧ (getSpectrum ρ s false).1 = ρ.spectrum data rate none p := by
  simp [run, exec, getSpectrum, new, setWindow]

/-- The property fails: a stored spectrogram is returned for new data once the cache has
been switched off and the spectrogram has been requested in between. -/
theorem C15_stale_spectrogram (data data' : T) (rate : ℕ) (p : Params R) (q : Q) :
    let s : State T W R Q S C G := run ρ (new data rate p q true)
      [.getSpectrogram false, .setCache false, .setData data', .getSpectrogram false]
    s.data = data' ∧ (getSpectrogram ρ s false).1 = ρ.spectrogram data rate q := by
  simp [run, exec, getSpectrogram, new, setData, updateState]

/-- The property as stated is false: a signal and routines for which a getter answers a
stale result. -/
theorem C15_not_always_fresh : ∃ (ρ : Routines Unit Unit Unit Unit ℚ Unit Unit)
    (h : List (Call Unit Unit Unit Unit)),
    ¬ AnswersFresh ρ (run ρ (new () 1 ⟨.fft, 0, .fftBackward, ()⟩ () true) h) := by
  let ρ : Routines Unit Unit Unit Unit ℚ Unit Unit :=
    ⟨fun _ => 1, fun _ _ _ p => p.smoothing, fun _ _ _ => (), fun _ _ _ _ => (),
      fun _ _ _ => (), ()⟩
  refine ⟨ρ, [.getSpectrum false, .setSmoothing 3], fun hf => ?_⟩
  obtain ⟨h1, h2⟩ := C15_stale_after_smoothing ρ () 1 ⟨.fft, 0, .fftBackward, ()⟩ () 3 (by norm_num)
  have h3 := (hf false).1
  rw [h2] at h3
  have h4 : freshSpectrum ρ (run ρ (new () 1 ⟨.fft, 0, .fftBackward, ()⟩ () true)
    [.getSpectrum false, .setSmoothing 3]).config = 3 := by
    show (run ρ (new () 1 ⟨.fft, 0, .fftBackward, ()⟩ () true)
      [.getSpectrum false, .setSmoothing 3]).params.smoothing = 3
    rw [h1]; rfl
  rw [h4] at h3
  exact absurd h3 (by show ¬ ((0 : ℚ) = 3); norm_num)

end Verif.Cache
