import Verif.Model.Calibration
import Verif.Props.C31

/-!
# C33: calibrating the calibration recording yields the reference level
-/

namespace Verif.Calibration

open Verif.SignalData Verif.Level

/-- Sound pressure in Pa of a level in dB(SPL). -/
noncomputable def pressure (spl : ℝ) : ℝ := 20e-6 * 10 ^ (spl / 20)

/-- RMS value of channel `c`. -/
noncomputable def channelRms (s : State ℝ) (c : ℕ) : ℝ :=
  Real.sqrt ((∑ r ∈ Finset.range s.re.rows, s.sample r c ^ 2) / s.re.rows)

/-- Mean of channel `c`. -/
noncomputable def channelMean (s : State ℝ) (c : ℕ) : ℝ :=
  (∑ r ∈ Finset.range s.re.rows, s.sample r c) / s.re.rows

/-- Standard deviation of channel `c`. -/
noncomputable def channelStd (s : State ℝ) (c : ℕ) : ℝ :=
  Real.sqrt ((∑ r ∈ Finset.range s.re.rows, (s.sample r c - channelMean s c) ^ 2) / s.re.rows)

theorem cells_sum (A : Mat ℝ) (c : ℕ) (f : ℕ → ℕ → ℝ) :
    ∑ p ∈ cells A c true, f p.1 p.2 = ∑ r ∈ Finset.range A.rows, f r c := by
  unfold cells
  rw [Finset.sum_product]
  simp

theorem cells_card (A : Mat ℝ) (c : ℕ) : (cells A c true).card = A.rows := by
  simp [cells]

theorem stdOn_channel (s : State ℝ) (c : ℕ) (hc : c < s.re.cols) :
    stdOn (cells s.re c true) s.re.val = channelStd s c := by
  have hm : meanOn (cells s.re c true) s.re.val = channelMean s c := by
    unfold meanOn channelMean
    rw [cells_sum, cells_card]
    congr 1
    refine Finset.sum_congr rfl fun r hr => ?_
    simp [State.sample, Finset.mem_range.mp hr, hc]
  unfold stdOn channelStd
  rw [hm, cells_card, cells_sum s.re c fun r c' => (s.re.val r c' - channelMean s c) ^ 2]
  congr 2
  refine Finset.sum_congr rfl fun r hr => ?_
  simp [State.sample, Finset.mem_range.mp hr, hc]

theorem rmsOn_channel (s : State ℝ) (c : ℕ) (hc : c < s.re.cols) :
    rmsOn (cells s.re c true) s.re.val = channelRms s c := by
  unfold rmsOn channelRms
  rw [cells_card, cells_sum s.re c fun r c' => (s.re.val r c') ^ 2]
  congr 2
  refine Finset.sum_congr rfl fun r hr => ?_
  simp [State.sample, Finset.mem_range.mp hr, hc]

theorem meanOn_channel (s : State ℝ) (c : ℕ) (hc : c < s.re.cols) :
    meanOn (cells s.re c true) s.re.val = channelMean s c := by
  unfold meanOn channelMean
  rw [cells_sum, cells_card]
  congr 1
  refine Finset.sum_congr rfl fun r hr => ?_
  simp [State.sample, Finset.mem_range.mp hr, hc]

theorem factorsOf_getD (A : Mat ℝ) (spl : ℝ) (c : ℕ) (hc : c < A.cols) :
    (factorsOf A spl).getD c 0 = pressure spl / stdOn (cells A c true) A.val := by
  unfold factorsOf rmsChannels pressure
  rw [List.getD_eq_getElem _ _ (by simpa using hc)]
  simp only [List.getElem_map, List.getElem_range]
  ring

theorem factorsOf_length (A : Mat ℝ) (spl : ℝ) : (factorsOf A spl).length = A.cols := by
  simp [factorsOf, rmsChannels]

/-- A signal of proper shape is multiplied channel by channel. -/
theorem scaleSignal_ok (s : State ℝ) (f : List ℝ) (h2 : s.re.cols ≤ s.re.rows)
    (h3 : s.re.rows ≠ 1) :
    ∃ t, scaleSignal s f = .ok t ∧ t.HasShape s.re.rows s.re.cols ∧ t.constrain = false ∧
      t.scale = 1 ∧ t.im = none ∧ ∀ r c, t.sample r c = s.sample r c * f.getD c 0 := by
  have h := setData_ok (setConstrain s false).2
    ⟨s.re.rows, s.re.cols, fun r c => s.re.val r c * f.getD c 0, none⟩ h2
    (fun h => h3 h.1) (by intro h; simp [setConstrain] at h)
  refine ⟨_, h, ⟨rfl, rfl⟩, by simp [setConstrain], rfl, rfl, fun r c => ?_⟩
  unfold State.sample
  by_cases hrc : r < s.re.rows ∧ c < s.re.cols
  · rw [if_pos hrc]
    exact if_pos hrc
  · rw [if_neg hrc, zero_mul]
    exact if_neg hrc

/-- What is required of the state kept between calls: if no update is pending, the stored
factors are those of the present recording. -/
def UpToDate (k : Cal) : Prop := k.update = false → k.factors = factorsOf k.signal.re k.spl

theorem compute_upToDate (k k' : Cal) (hk : UpToDate k) (h : compute k = .ok k') :
    k'.signal = k.signal ∧ k'.spl = k.spl ∧ k'.rate = k.rate ∧ k'.update = false ∧
      k'.highSnr = k.highSnr ∧
      k'.factors = factorsOf k.signal.re k.spl := by
  unfold compute at h
  cases hu : k.update with
  | true =>
    rw [hu] at h
    cases hh : k.highSnr with
    | true =>
      rw [hh] at h
      have h' := (Except.ok.inj h).symm
      subst h'
      exact ⟨rfl, rfl, rfl, rfl, rfl, rfl⟩
    | false =>
      rw [hh] at h
      exact absurd h (by simp)
  | false =>
    rw [hu] at h
    have h' := (Except.ok.inj h).symm
    subst h'
    exact ⟨rfl, rfl, rfl, hu, rfl, hk hu⟩

theorem forced_upToDate (k : Cal) (force : Bool) (hk : UpToDate k) :
    UpToDate (if force then (⟨k.signal, k.rate, k.spl, k.highSnr, true, k.factors⟩ : Cal) else k) := by
  cases force
  · exact hk
  · intro h
    exact absurd h (by simp)

/-- Invariant: after any history of calls the stored factors are never out of date. -/
theorem C33_factors_never_stale (s : State ℝ) (rate : ℕ) (spl : ℝ) (snr : Bool) (h : List Call) :
    UpToDate (run (construct s rate spl snr) h) := by
  suffices H : ∀ k, UpToDate k → UpToDate (run k h) from
    H _ (fun hu => absurd hu (by simp [construct]))
  induction h with
  | nil => exact fun k hk => hk
  | cons c h ih =>
    intro k hk
    refine ih (exec k c) ?_
    cases c with
    | calibrate t force =>
      simp only [exec, calibrate]
      have hf := forced_upToDate k force hk
      cases hc : compute (if force then (⟨k.signal, k.rate, k.spl, k.highSnr, true, k.factors⟩ : Cal)
          else k) with
      | error e => exact hf
      | ok k2 =>
        have h2 := compute_upToDate _ k2 hf hc
        simp only
        cases spread k2.factors t.re.cols <;>
          exact fun _ => by rw [h2.2.2.2.2.2, h2.1, h2.2.1]
    | calibrateBands b n force =>
      simp only [exec, calibrateBands]
      have hf := forced_upToDate k force hk
      cases hc : compute (if force then (⟨k.signal, k.rate, k.spl, k.highSnr, true, k.factors⟩ : Cal)
          else k) with
      | error e => exact hf
      | ok k2 =>
        have h2 := compute_upToDate _ k2 hf hc
        simp only
        cases spread k2.factors n <;>
          exact fun _ => by rw [h2.2.2.2.2.2, h2.1, h2.2.1]
    | addChannel t r allow =>
      simp only [exec, addChannel]
      cases appendSignals [(k.signal, k.rate), (t, r)] allow true with
      | error e => exact hk
      | ok p => exact fun hu => absurd hu (by simp)

/-- Calibration multiplies every channel by its own factor, or by the only factor there is:
the reference pressure divided by the measured level of the recording. -/
theorem C33_calibrates (k : Cal) (hk : UpToDate k) (hsnr : k.highSnr = true) (s : State ℝ)
    (force : Bool) (h2 : s.re.cols ≤ s.re.rows) (h3 : s.re.rows ≠ 1)
    (h1 : 1 ≤ k.signal.re.cols)
    (hcols : k.signal.re.cols = 1 ∨ k.signal.re.cols = s.re.cols) :
    ∃ t, (calibrate k s force).1 = .ok t ∧ t.HasShape s.re.rows s.re.cols ∧
      t.constrain = false ∧ t.scale = 1 ∧
      ∀ r, ∀ c < s.re.cols, t.sample r c = s.sample r c *
        (pressure k.spl / channelStd k.signal (if k.signal.re.cols = 1 then 0 else c)) := by
  set k1 : Cal := if force then ⟨k.signal, k.rate, k.spl, k.highSnr, true, k.factors⟩ else k with hk1
  have hk1u : UpToDate k1 := forced_upToDate k force hk
  have hk1s : k1.signal = k.signal ∧ k1.spl = k.spl ∧ k1.highSnr = true := by
    rw [hk1]
    cases force
    · exact ⟨rfl, rfl, hsnr⟩
    · exact ⟨rfl, rfl, hsnr⟩
  obtain ⟨k2, hk2⟩ : ∃ k2, compute k1 = .ok k2 := by
    unfold compute
    rw [hk1s.2.2]
    cases k1.update
    · exact ⟨_, rfl⟩
    · exact ⟨_, rfl⟩
  have hf := (compute_upToDate k1 k2 hk1u hk2).2.2.2.2.2
  rw [hk1s.1, hk1s.2.1] at hf
  have hsp : ∃ f, spread k2.factors s.re.cols = .ok f ∧ ∀ c < s.re.cols, f.getD c 0 =
      pressure k.spl / channelStd k.signal (if k.signal.re.cols = 1 then 0 else c) := by
    unfold spread
    rw [hf, factorsOf_length]
    by_cases hone : k.signal.re.cols = 1
    · rw [if_neg (by omega)]
      refine ⟨_, rfl, fun c hc => ?_⟩
      rw [List.getD_eq_getElem _ _ (by simpa using hc)]
      simp only [List.getElem_map]
      rw [factorsOf_getD _ _ _ (by omega), stdOn_channel _ _ (by omega), if_pos hone]
    · have heq : k.signal.re.cols = s.re.cols := by omega
      rw [if_pos (by omega), if_pos heq.symm]
      refine ⟨_, rfl, fun c hc => ?_⟩
      rw [factorsOf_getD _ _ _ (by omega), stdOn_channel _ _ (by omega), if_neg hone]
  obtain ⟨f, hf1, hf2⟩ := hsp
  obtain ⟨t, ht, hshape, hcon, hscale, -, hval⟩ := scaleSignal_ok s f h2 h3
  refine ⟨t, ?_, hshape, hcon, hscale, fun r c hc => ?_⟩
  · unfold calibrate
    simp only [← hk1, hk2, hf1]
    exact ht
  · rw [hval, hf2 c hc]

/-- The calibrated level: every channel of the calibrated recording has the reference
pressure as its standard deviation. -/
theorem C33_reference_std (k : Cal) (hk : UpToDate k) (hsnr : k.highSnr = true)
    (force : Bool) (h1 : 1 ≤ k.signal.re.cols) (h2 : k.signal.re.cols ≤ k.signal.re.rows)
    (h3 : k.signal.re.rows ≠ 1) :
    ∃ t, (calibrate k k.signal force).1 = .ok t ∧
      t.HasShape k.signal.re.rows k.signal.re.cols ∧
      ∀ c < k.signal.re.cols, channelStd k.signal c ≠ 0 → channelStd t c = pressure k.spl := by
  obtain ⟨t, ht, hshape, -, -, hval⟩ := C33_calibrates k hk hsnr k.signal force h2 h3 h1 (Or.inr rfl)
  refine ⟨t, ht, hshape, fun c hc hne => ?_⟩
  have hpos : 0 < channelStd k.signal c := lt_of_le_of_ne (Real.sqrt_nonneg _) (Ne.symm hne)
  have hp : 0 < pressure k.spl := by unfold pressure; positivity
  have hidx : (if k.signal.re.cols = 1 then 0 else c) = c := by
    split_ifs <;> omega
  rw [← stdOn_channel t c (by rw [hshape.2]; exact hc)]
  have hcells : cells t.re c true = cells k.signal.re c true := by
    unfold cells
    rw [hshape.1]
    rfl
  have := levelOn_scale false (cells k.signal.re c true) k.signal.re.val t.re.val
    (pressure k.spl / channelStd k.signal c) (div_pos hp hpos).le ?_
  · simp only [levelOn, Bool.false_eq_true, if_false] at this
    rw [hcells, this, stdOn_channel _ _ hc, mul_div_cancel₀ _ hne]
  · intro p hp'
    unfold cells at hp'
    simp only [if_true, Finset.mem_product, Finset.mem_range, Finset.mem_singleton] at hp'
    have := hval p.1 p.2 (by omega)
    rw [show (if k.signal.re.cols = 1 then 0 else p.2) = c by split_ifs <;> omega] at this
    simp only [State.sample] at this
    rw [if_pos ⟨by rw [hshape.1]; exact hp'.1, by rw [hshape.2]; omega⟩,
      if_pos ⟨hp'.1, by omega⟩] at this
    exact this

theorem rms_sq_channel (s : State ℝ) (c : ℕ) (hc : c < s.re.cols) (hr : 0 < s.re.rows) :
    channelRms s c ^ 2 = channelStd s c ^ 2 + channelMean s c ^ 2 := by
  rw [← rmsOn_channel s c hc, ← stdOn_channel s c hc, ← meanOn_channel s c hc]
  exact rms_sq _ ⟨(0, c), by simp [cells, hr]⟩ _

theorem mean_scaled (k : Cal) (hk : UpToDate k) (hsnr : k.highSnr = true)
    (force : Bool) (h1 : 1 ≤ k.signal.re.cols) (h2 : k.signal.re.cols ≤ k.signal.re.rows)
    (h3 : k.signal.re.rows ≠ 1) (t : State ℝ) (ht : (calibrate k k.signal force).1 = .ok t)
    (c : ℕ) (hc : c < k.signal.re.cols) :
    channelMean t c = channelMean k.signal c * (pressure k.spl / channelStd k.signal c) := by
  obtain ⟨t', ht', hshape, -, -, hval⟩ :=
    C33_calibrates k hk hsnr k.signal force h2 h3 h1 (Or.inr rfl)
  rw [ht] at ht'
  have h' := (Except.ok.inj ht').symm
  subst h'
  unfold channelMean
  rw [hshape.1, div_mul_eq_mul_div, Finset.sum_mul]
  congr 1
  refine Finset.sum_congr rfl fun r _ => ?_
  rw [hval r c hc]
  congr 3
  split_ifs <;> omega

/-- Every channel without constant offset has the reference pressure as its RMS value after
calibration.  For channels with an offset see `C33_offset_exceeds_reference`; for
`high_snr=False` see `C33_low_snr_always_fails`. -/
theorem C33_reference_rms_partial (k : Cal) (hk : UpToDate k) (hsnr : k.highSnr = true)
    (force : Bool) (h1 : 1 ≤ k.signal.re.cols) (h2 : k.signal.re.cols ≤ k.signal.re.rows)
    (h3 : k.signal.re.rows ≠ 1) :
    ∃ t, (calibrate k k.signal force).1 = .ok t ∧
      ∀ c < k.signal.re.cols, channelRms k.signal c ≠ 0 → channelMean k.signal c = 0 →
        channelRms t c = pressure k.spl := by
  obtain ⟨t, ht, hshape, hstd⟩ := C33_reference_std k hk hsnr force h1 h2 h3
  refine ⟨t, ht, fun c hc hne hmean => ?_⟩
  have hrows : 0 < k.signal.re.rows := by omega
  have e1 := rms_sq_channel k.signal c hc hrows
  rw [hmean] at e1
  have hs : channelStd k.signal c ≠ 0 := by
    intro h
    rw [h] at e1
    exact hne (pow_eq_zero_iff (n := 2) (by norm_num) |>.mp (by rw [e1]; ring))
  have e2 := rms_sq_channel t c (by rw [hshape.2]; exact hc) (by rw [hshape.1]; exact hrows)
  rw [hstd c hc hs, mean_scaled k hk hsnr force h1 h2 h3 t ht c hc, hmean, zero_mul] at e2
  have hp : 0 < pressure k.spl := by unfold pressure; positivity
  have hr0 : 0 ≤ channelRms t c := Real.sqrt_nonneg _
  exact (sq_eq_sq₀ hr0 hp.le).mp (by rw [e2]; ring)

/-- A channel with a constant offset is above the reference level after calibration. -/
theorem C33_offset_exceeds_reference (k : Cal) (hk : UpToDate k) (hsnr : k.highSnr = true)
    (force : Bool) (h1 : 1 ≤ k.signal.re.cols) (h2 : k.signal.re.cols ≤ k.signal.re.rows)
    (h3 : k.signal.re.rows ≠ 1) :
    ∃ t, (calibrate k k.signal force).1 = .ok t ∧
      ∀ c < k.signal.re.cols, channelStd k.signal c ≠ 0 → channelMean k.signal c ≠ 0 →
        pressure k.spl < channelRms t c := by
  obtain ⟨t, ht, hshape, hstd⟩ := C33_reference_std k hk hsnr force h1 h2 h3
  refine ⟨t, ht, fun c hc hne hmean => ?_⟩
  have hrows : 0 < k.signal.re.rows := by omega
  have hp : 0 < pressure k.spl := by unfold pressure; positivity
  have e2 := rms_sq_channel t c (by rw [hshape.2]; exact hc) (by rw [hshape.1]; exact hrows)
  have hm : channelMean t c ≠ 0 := by
    rw [mean_scaled k hk hsnr force h1 h2 h3 t ht c hc]
    exact mul_ne_zero hmean (div_ne_zero hp.ne' hne)
  rw [hstd c hc hne] at e2
  refine lt_of_pow_lt_pow_left₀ 2 (Real.sqrt_nonneg _) ?_
  rw [e2]
  have : 0 < channelMean t c ^ 2 := by positivity
  linarith

/-- Without the assumption of a high signal-to-noise ratio nothing can be calibrated: every
call raises AttributeError, whatever happened before. -/
theorem C33_low_snr_always_fails (s : State ℝ) (rate : ℕ) (spl : ℝ) (h : List Call) (t : State ℝ)
    (force : Bool) :
    (calibrate (run (construct s rate spl false) h) t force).1 = .error .attributeError := by
  suffices H : ∀ k : Cal, k.highSnr = false ∧ k.update = true →
      (run k h).highSnr = false ∧ (run k h).update = true by
    have h2 := H (construct s rate spl false) ⟨rfl, rfl⟩
    unfold calibrate
    cases force <;> simp [compute, h2.1, h2.2]
  induction h with
  | nil => exact fun k hk => hk
  | cons c h ih =>
    intro k hk
    refine ih (exec k c) ?_
    obtain ⟨ha, hb⟩ := hk
    cases c with
    | calibrate t force => cases force <;> simp [exec, calibrate, compute, ha, hb]
    | calibrateBands b n force => cases force <;> simp [exec, calibrateBands, compute, ha, hb]
    | addChannel t r allow =>
      simp only [exec, addChannel]
      cases appendSignals [(k.signal, k.rate), (t, r)] allow true with
      | error e => exact ⟨ha, hb⟩
      | ok p => exact ⟨ha, rfl⟩

/-- A recording with several channels only calibrates signals with as many channels. -/
theorem C33_mismatch_rejected (k : Cal) (hk : UpToDate k) (hsnr : k.highSnr = true) (s : State ℝ)
    (force : Bool) (h1 : 2 ≤ k.signal.re.cols) (hne : s.re.cols ≠ k.signal.re.cols) :
    (calibrate k s force).1 = .error .assertionError := by
  set k1 : Cal := if force then ⟨k.signal, k.rate, k.spl, k.highSnr, true, k.factors⟩ else k with hk1
  have hk1u : UpToDate k1 := forced_upToDate k force hk
  have hk1s : k1.signal = k.signal ∧ k1.spl = k.spl ∧ k1.highSnr = true := by
    rw [hk1]
    cases force
    · exact ⟨rfl, rfl, hsnr⟩
    · exact ⟨rfl, rfl, hsnr⟩
  obtain ⟨k2, hk2⟩ : ∃ k2, compute k1 = .ok k2 := by
    unfold compute
    rw [hk1s.2.2]
    cases k1.update
    · exact ⟨_, rfl⟩
    · exact ⟨_, rfl⟩
  have hf := (compute_upToDate k1 k2 hk1u hk2).2.2.2.2.2
  rw [hk1s.1, hk1s.2.1] at hf
  have hlen : k2.factors.length = k.signal.re.cols := by rw [hf, factorsOf_length]
  have hsp : spread k2.factors s.re.cols = .error .assertionError := by
    unfold spread
    rw [hlen, if_pos (by omega), if_neg hne]
  unfold calibrate
  simp only [← hk1, hk2, hsp]

/-- After the level is changed by assignment, the old factors are used unless an update is
forced. -/
theorem C33_assigned_level_is_ignored (k : Cal) (spl' : ℝ) (s : State ℝ)
    (hu : k.update = false) :
    (calibrate ⟨k.signal, k.rate, spl', k.highSnr, k.update, k.factors⟩ s false).1 =
      (calibrate k s false).1 := by
  simp only [calibrate, compute, hu, Bool.false_eq_true, if_false]
  cases spread k.factors s.re.cols <;> rfl

/-- The bands of a multiband signal are calibrated one by one like signals. -/
theorem C33_bands (k : Cal) (b : State ℝ) (bands : List (State ℝ)) (cols : ℕ) (force : Bool)
    (hb : ∀ b ∈ bands, b.re.cols = cols) (hmem : b ∈ bands) (ts : List (State ℝ))
    (h : (calibrateBands k bands cols force).1 = .ok ts) :
    ∃ t ∈ ts, (calibrate k b force).1 = .ok t := by
  unfold calibrateBands at h
  unfold calibrate
  simp only at h ⊢
  cases hc : compute (if force then (⟨k.signal, k.rate, k.spl, k.highSnr, true, k.factors⟩ : Cal)
      else k) with
  | error e => rw [hc] at h; exact absurd h (by simp)
  | ok k2 =>
    rw [hc] at h
    simp only at h ⊢
    rw [hb b hmem]
    cases hs : spread k2.factors cols with
    | error e => rw [hs] at h; exact absurd h (by simp)
    | ok f =>
      rw [hs] at h
      simp only at h ⊢
      clear hb hs hc
      induction bands generalizing ts with
      | nil => exact absurd hmem (by simp)
      | cons a l ih =>
        rw [List.mapM_cons] at h
        cases ha : scaleSignal a f with
        | error e => rw [ha] at h; exact absurd h (by simp [bind, Except.bind])
        | ok t =>
          rw [ha] at h
          cases hl : l.mapM (fun b => scaleSignal b f) with
          | error e => rw [hl] at h; exact absurd h (by simp [bind, Except.bind])
          | ok ts' =>
            rw [hl] at h
            have h' : ts = t :: ts' := (Except.ok.inj h).symm
            rw [h']
            rcases List.mem_cons.mp hmem with rfl | hm
            · exact ⟨t, by simp, ha⟩
            · obtain ⟨t', ht', hv⟩ := ih hm ts' hl
              exact ⟨t', by simp [ht'], hv⟩

/-- Concrete case: the recording 1, -1 has mean 0 and RMS value 1. -/
example : channelMean ⟨⟨2, 1, fun r _ => 1 - 2 * (r : ℝ)⟩, none, true, 1⟩ 0 = 0 ∧
    channelRms ⟨⟨2, 1, fun r _ => 1 - 2 * (r : ℝ)⟩, none, true, 1⟩ 0 = 1 := by
  constructor
  · norm_num [channelMean, Finset.sum_range_succ, State.sample]
  · norm_num [channelRms, Finset.sum_range_succ, State.sample]

/-- Concrete case: the recording 0, 2 has mean 1 and standard deviation 1. -/
example : channelMean ⟨⟨2, 1, fun r _ => 2 * (r : ℝ)⟩, none, false, 1⟩ 0 = 1 ∧
    channelStd ⟨⟨2, 1, fun r _ => 2 * (r : ℝ)⟩, none, false, 1⟩ 0 = 1 := by
  have hm : channelMean ⟨⟨2, 1, fun r _ => 2 * (r : ℝ)⟩, none, false, 1⟩ 0 = 1 := by
    norm_num [channelMean, Finset.sum_range_succ, State.sample]
  refine ⟨hm, ?_⟩
  unfold channelStd
  rw [hm]
  norm_num [Finset.sum_range_succ, State.sample]

end Verif.Calibration
