import Verif.Model.SpectrumConversion
import Verif.Spec.Deconvolution
import Verif.Spec.SignalChannels
import Verif.Lemmas.Deconvolution
import Verif.Lemmas.SignalData
import Verif.Lemmas.BlockFIR
import Verif.Props.C42

/-!
# C117: signals turned into spectra and back
-/

namespace Verif.SpecConv

open Complex Spectrum SignalData Deconv Scaling DeconvSpec DFT

/-! ### Specification -/

/-- The signal `t` is real and has `n` samples in each of `ch` channels, which are those of `x`
(`x c r` is sample `r` of channel `c`), all multiplied with one factor that is 1 unless some sample
of `x` exceeds the range from -1 to 1. -/
def Is (t : State ℝ) (n ch : ℕ) (x : ℕ → ℕ → ℝ) : Prop :=
  t.HasShape n ch ∧ t.im = none ∧ ∃ g : ℝ, 0 < g ∧ g ≤ 1 ∧
    ((∀ r < n, ∀ c < ch, |x c r| ≤ 1) → g = 1) ∧
    ∀ r < n, ∀ c < ch, t.sample r c = g * x c r

/-- Number of samples of a signal made from an inverse transform of length `N`. -/
noncomputable def outLength (N fs : ℕ) : Option ℝ → ℕ
  | none => N
  | some l => ⌊l * fs + 1 / 2⌋₊

/-- The number of samples and channels is one that a `Signal` keeps as it is. -/
def ShapeOk (n ch : ℕ) : Prop := 1 ≤ ch ∧ ch ≤ n ∧ 2 ≤ n

/-- What a spectrum says about channel `c` at the frequency `g`: the stored value at a stored
frequency, zero outside the range. -/
def Says (sp : CSpec) (c : ℕ) (g : ℝ) (v : ℂ) : Prop :=
  (∃ j < sp.freqs.length, sp.freqs.getD j 0 = g ∧ v = sp.data.val j c) ∨
    ((g < sp.freqs.getD 0 0 ∨ sp.freqs.getD (sp.freqs.length - 1) 0 < g) ∧ v = 0)

/-- The interpolator goes through the given points. -/
def Interpolates (pchip : List ℝ → (ℕ → ℝ) → ℝ → ℝ) : Prop :=
  ∀ f : List ℝ, f.Pairwise (· < ·) → ∀ d j, j < f.length → pchip f d (f.getD j 0) = d j

/-- The object with the parameters of the interpolator replaced. -/
def withPchip (sp : CSpec) : CSpec :=
  { sp with domain := .magnitudePhase, scheme := .pchip, edges := .zeroPad }

/-! ### Lemmas -/

theorem construct_is (n ch : ℕ) (h : ShapeOk n ch) (col : ℕ → List ℝ) :
    ∃ t, SignalData.construct (ofCols n ch col) true = .ok t ∧
      Is t n ch fun c r => (col c).getD r 0 := by
  obtain ⟨h1, h2, h3⟩ := h
  obtain ⟨t, ht, _, hs, hsc, hv, _, him⟩ := setData_scaled
    (⟨⟨0, 0, fun _ _ => 0⟩, none, true, 1⟩ : State ℝ) (ofCols n ch col) h2
    (by show ¬ (n = 1 ∧ ch = 1); omega) h1
  refine ⟨t, ht, hs, ?_, t.scale, ?_, ?_, ?_, hv⟩
  · cases h : t.im with
    | none => rfl
    | some B => rw [h] at him; exact absurd him (by simp [ofCols])
  · rw [hsc]
    split_ifs with h4
    · have := h4.2
      positivity
    · exact one_pos
  · rw [hsc]
    split_ifs with h4
    · have := h4.2
      rw [div_le_one (by positivity)]
      exact this.le
    · exact le_rfl
  · intro hb
    rw [hsc, if_neg]
    rintro ⟨-, h4⟩
    refine absurd h4 (not_lt.2 (peak_le_one _ hb ?_))
    intro f hf
    exact absurd hf (by simp [ofCols])

theorem tdFromSpec_is (M ch : ℕ) (Y : ℕ → ℕ → ℂ) (len : Option ℝ) (fs : ℕ) (hM : 2 ≤ M)
    (hs : ShapeOk (outLength (2 * (M - 1)) fs len) ch) :
    ∃ t, tdFromSpec M ch Y len fs = .ok t ∧ Is t (outLength (2 * (M - 1)) fs len) ch fun c r =>
      if r < 2 * (M - 1) then irfft (2 * (M - 1)) M (fun k => Y k c) r else 0 := by
  unfold tdFromSpec
  rw [if_neg (by omega)]
  have key : ∀ c r, ((List.range (2 * (M - 1))).map fun (j : ℕ) =>
      irfft (2 * (M - 1)) M (fun k => Y k c) j).getD r 0 =
      if r < 2 * (M - 1) then irfft (2 * (M - 1)) M (fun k => Y k c) r else 0 := by
    intro c r
    split_ifs with h
    · simp [List.getD_eq_getElem?_getD, h]
    · exact List.getD_eq_default _ _ (by simpa using h)
  cases len with
  | none =>
    obtain ⟨t, ht, h⟩ := construct_is _ ch hs fun c => (List.range (2 * (M - 1))).map fun (j : ℕ) =>
      irfft (2 * (M - 1)) M (fun k => Y k c) j
    refine ⟨t, ht, ?_⟩
    simp only [key] at h
    exact h
  | some l =>
    obtain ⟨t, ht, h⟩ := construct_is _ ch hs fun c => padTrim ((List.range (2 * (M - 1))).map
      fun (j : ℕ) => irfft (2 * (M - 1)) M (fun k => Y k c) j) (lengthSamples l fs) true
    refine ⟨t, ht, ?_⟩
    obtain ⟨h1, h2, g, h3, h4, h5, h6⟩ := h
    refine ⟨h1, h2, g, h3, h4, fun hb => h5 fun r hr c hc => ?_, fun r hr c hc => ?_⟩
    · have hr' : r < lengthSamples l fs := hr
      beta_reduce
      rw [padTrim_end _ _ _ hr', key]
      exact hb r hr c hc
    · have hr' : r < lengthSamples l fs := hr
      rw [h6 r hr c hc]
      beta_reduce
      rw [padTrim_end _ _ _ hr', key]

/-! ### The spacing of a frequency vector -/

theorem isClose_self (a : ℝ) : isClose a a := by
  unfold isClose
  simp only [sub_self, abs_zero]
  positivity

/-- Vectors with equal steps are linear, those with equal ratios are logarithmic unless they pass
for linear; one frequency alone is neither.  Any three frequencies pass for logarithmic or
linear. -/
theorem C117_spacing (f : List ℝ) :
    (∀ d, 2 ≤ f.length → (∀ i, i + 1 < f.length → f.getD (i + 1) 0 = f.getD i 0 + d) →
      spacing f = .linear) ∧
    (∀ q, 2 ≤ f.length → (∀ x ∈ f, 0 < x) →
      (∀ i, i + 1 < f.length → f.getD (i + 1) 0 = q * f.getD i 0) → spacing f ≠ .other) ∧
    (f.length ≤ 1 → spacing f = .other) ∧
    (f.length = 2 → spacing f = .linear) ∧
    (f.length = 3 → spacing f ≠ .other) := by
  have lin : ∀ d, 2 ≤ f.length → (∀ i, i + 1 < f.length → f.getD (i + 1) 0 = f.getD i 0 + d) →
      spacing f = .linear := by
    intro d h2 hd
    unfold spacing
    rw [if_neg (by omega), if_pos]
    intro i hi
    have h1 := hd i (by omega)
    have h3 := hd (f.length - 2) (by omega)
    rw [show f.length - 2 + 1 = f.length - 1 by omega] at h3
    rw [h1, h3, add_sub_cancel_left, add_sub_cancel_left]
    exact isClose_self d
  refine ⟨lin, ?_, ?_, ?_, ?_⟩
  · intro q h2 hp hq
    unfold spacing
    rw [if_neg (by omega)]
    split_ifs with h3 h4
    · simp
    · simp
    · exfalso
      apply h4
      intro i hi
      have hne : ∀ j < f.length, f.getD j 0 ≠ 0 := by
        intro j hj
        rw [List.getD_eq_getElem _ _ hj]
        exact (hp _ (List.getElem_mem hj)).ne'
      have h5 := hq (i + 1) (by omega)
      have h6 := hq (f.length - 2) (by omega)
      rw [show f.length - 2 + 1 = f.length - 1 by omega] at h6
      rw [show i + 2 = i + 1 + 1 by rfl, h5, h6, mul_div_cancel_right₀ _ (hne _ (by omega)),
        mul_div_cancel_right₀ _ (hne _ (by omega))]
      exact isClose_self q
  · intro h
    unfold spacing
    rw [if_pos (by omega)]
  · intro h
    refine lin (f.getD 1 0 - f.getD 0 0) (by omega) fun i hi => ?_
    rw [show i = 0 by omega]
    ring
  · intro h
    unfold spacing
    rw [if_neg (by omega)]
    split_ifs with h3 h4
    · simp
    · simp
    · exfalso
      apply h4
      intro i hi
      rw [h] at hi ⊢
      rw [show i = 0 by omega]
      exact isClose_self _

/-- Three frequencies without any regularity are called logarithmic. -/
theorem C117_spacing_wrong : spacing [1, 2, 100] = .logarithmic := by
  unfold spacing
  rw [if_neg (by simp), if_neg, if_pos]
  · intro i hi
    have : i = 0 := by simp at hi; omega
    subst this
    simpa using isClose_self _
  · intro h
    have := h 0 (by simp)
    norm_num [isClose] at this

/-! ### The round trip -/

theorem freqs_linear (F fs : ℕ) (hF : 2 ≤ F) : spacing (Deconv.freqs F fs) = .linear := by
  refine (C117_spacing _).1 ((fs : ℝ) / F) ?_ ?_
  · rw [freqs_length]; unfold rfftBins; omega
  · intro i hi
    rw [freqs_length] at hi
    rw [freqs_getD _ _ _ hi, freqs_getD _ _ _ (by omega)]
    push_cast
    ring

theorem fftLength_le (fast : Bool) (n : ℕ) : n ≤ fftLength fast n := by
  unfold fftLength
  split_ifs
  · exact BlockFIR.nextFastLen_le n
  · exact le_rfl

theorem construct_ok (F fs ch : ℕ) (hF : 2 ≤ F) (hfs : 0 < fs) (hch : ch ≤ F / 2 + 1)
    (X : ℕ → ℕ → ℂ) :
    construct (Deconv.freqs F fs) ⟨rfftBins F, ch, X⟩ false =
      .ok ⟨Deconv.freqs F fs, ⟨rfftBins F, ch, X⟩, false, .power, .linear, .zeroPad⟩ := by
  have hF' : (0 : ℝ) < F := by exact_mod_cast (by omega : 0 < F)
  have hfs' : (0 : ℝ) < fs := by exact_mod_cast hfs
  have hup : upright (⟨rfftBins F, ch, X⟩ : Mat ℂ) = ⟨rfftBins F, ch, X⟩ := by
    unfold upright
    rw [if_neg]
    show ¬ rfftBins F < ch
    unfold rfftBins
    omega
  unfold construct
  rw [hup, if_neg, if_neg, if_neg]
  · simp
  · simp [freqs_length]
  · rw [not_not]
    constructor
    · intro x hx
      unfold Deconv.freqs at hx
      obtain ⟨k, -, rfl⟩ := List.mem_map.1 hx
      positivity
    · intro i hi
      rw [freqs_length] at hi
      rw [freqs_getD _ _ _ (by omega), freqs_getD _ _ _ (by omega)]
      push_cast
      gcongr
      linarith

/-- The spectrum made from a signal with an amplitude scaling. -/
theorem fromSignal_eq (s : Sig) (ha : s.scaling.isAmplitude = true)
    (hF : 2 ≤ fftLength s.fast s.data.rows) (hfs : 0 < s.fs)
    (hch : s.data.cols ≤ fftLength s.fast s.data.rows / 2 + 1) :
    fromSignal s none true = .ok ⟨Deconv.freqs (fftLength s.fast s.data.rows) s.fs,
      ⟨rfftBins (fftLength s.fast s.data.rows), s.data.cols, fun k c =>
        gain s.scaling (fftLength s.fast s.data.rows) s.fs s.window k *
          rfft (fftLength s.fast s.data.rows) (chan s.data c) k⟩, false, .power, .linear, .zeroPad⟩ := by
  unfold fromSignal
  simp only [outputsComplex, Option.isSome_none, Bool.false_eq_true, if_false, ha,
    fftSpectrum_amp s ha, if_true]
  simp only [Bool.true_eq_false, and_false, if_false]
  exact construct_ok _ _ _ hF hfs hch _

/-- The spectrum of a signal is not interpolated on the way back. -/
theorem toSignal_direct (pchip : List ℝ → (ℕ → ℝ) → ℝ → ℝ) (F fs fs' : ℕ) (hF : 2 ≤ F)
    (hd : |(fs' : ℝ) / 2 - ((F / 2 : ℕ) : ℝ) * fs / F| ≤ (fs : ℝ) / F) (A : Mat ℂ)
    (dom : Domain) (sch : Scheme) (ed : Edges) (len : Option ℝ) :
    toSignal pchip ⟨Deconv.freqs F fs, A, false, dom, sch, ed⟩ fs' len =
      (tdFromSpec A.rows A.cols A.val len fs', ⟨Deconv.freqs F fs, A, false, dom, sch, ed⟩) := by
  have hb : rfftBins F = F / 2 + 1 := rfl
  have h0 : (Deconv.freqs F fs).getD 0 0 = 0 := by
    rw [freqs_getD _ _ _ (by omega)]; simp
  have h1 : (Deconv.freqs F fs).getD 1 0 = (fs : ℝ) / F := by
    rw [freqs_getD _ _ _ (by omega)]; simp
  have h2 : (Deconv.freqs F fs).getD ((Deconv.freqs F fs).length - 1) 0 =
      ((F / 2 : ℕ) : ℝ) * fs / F := by
    rw [freqs_length, freqs_getD _ _ _ (by omega), hb]; simp
  unfold toSignal
  simp only [Bool.false_eq_true, if_false]
  rw [if_pos (freqs_linear F fs hF), if_pos]
  rw [h0, h1, h2]
  push Not
  exact ⟨by simpa using hd, isClose_self 0⟩

theorem direct_same (F fs : ℕ) (hF : 2 ≤ F) :
    |(fs : ℝ) / 2 - ((F / 2 : ℕ) : ℝ) * fs / F| ≤ (fs : ℝ) / F := by
  have hF' : (0 : ℝ) < F := by exact_mod_cast (by omega : 0 < F)
  have h1 : (fs : ℝ) / 2 - ((F / 2 : ℕ) : ℝ) * fs / F = (F - 2 * (F / 2 : ℕ)) / 2 * (fs / F) := by
    field_simp
  have h2 : (0 : ℝ) ≤ F - 2 * (F / 2 : ℕ) := by
    have : 2 * (F / 2) ≤ F := by omega
    have : (2 : ℝ) * (F / 2 : ℕ) ≤ F := by exact_mod_cast this
    linarith
  have h3 : (F : ℝ) - 2 * (F / 2 : ℕ) ≤ 1 := by
    have : F ≤ 2 * (F / 2) + 1 := by omega
    have : (F : ℝ) ≤ 2 * (F / 2 : ℕ) + 1 := by exact_mod_cast this
    linarith
  rw [h1, abs_of_nonneg (by positivity)]
  have : (0 : ℝ) ≤ fs / F := by positivity
  nlinarith

/-- A signal whose transform has an even length comes back from its complex spectrum with the
default scaling, unless samples exceed the range from -1 to 1, up to zeros at the end; with the
argument `length_seconds` it has the requested length.  Nothing is changed in the spectrum. -/
theorem C117_round_trip_partial (pchip : List ℝ → (ℕ → ℝ) → ℝ → ℝ) (s : Sig)
    (hsc : s.scaling = .fftBackward) (hfs : 0 < s.fs)
    (hev : Even (fftLength s.fast s.data.rows)) (hF : 2 ≤ fftLength s.fast s.data.rows)
    (hch : s.data.cols ≤ fftLength s.fast s.data.rows / 2 + 1) (len : Option ℝ)
    (hok : ShapeOk (outLength (fftLength s.fast s.data.rows) s.fs len) s.data.cols) :
    ∃ sp t, fromSignal s none true = .ok sp ∧ toSignal pchip sp s.fs len = (.ok t, sp) ∧
      Is t (outLength (fftLength s.fast s.data.rows) s.fs len) s.data.cols
        fun c r => sample s.data c r := by
  have hle := fftLength_le s.fast s.data.rows
  obtain ⟨sp, e, hsp⟩ : ∃ sp, fromSignal s none true = .ok sp ∧ sp = _ :=
    ⟨_, fromSignal_eq s (by rw [hsc]; rfl) hF hfs hch, rfl⟩
  set F := fftLength s.fast s.data.rows with hFd
  obtain ⟨m, hm⟩ := hev
  have hN : 2 * (rfftBins F - 1) = F := by unfold rfftBins; omega
  have := tdFromSpec_is (rfftBins F) s.data.cols (fun k c =>
        gain s.scaling F s.fs s.window k * rfft F (chan s.data c) k) len s.fs
        (by unfold rfftBins; omega) (by rw [hN]; exact hok)
  rw [hN] at this
  obtain ⟨t, ht, h⟩ := this
  refine ⟨sp, t, e, ?_, ?_⟩
  · rw [hsp, toSignal_direct pchip F s.fs s.fs hF (direct_same F s.fs hF)]
    simp only [ht]
  · have hx : (fun c r => if r < F then irfft F (rfftBins F) (fun k =>
        gain s.scaling F s.fs s.window k * rfft F (chan s.data c) k) r else 0) =
        fun c r => sample s.data c r := by
      funext c r
      split_ifs with hr
      · rw [irfft_of_rfft F (rfftBins F) (by unfold rfftBins; omega) (chan s.data c) _ _ r hr]
        · rfl
        · intro k _
          rw [hsc]
          simp [gain, CSM.fftNorm, CSM.physical]
      · unfold sample
        rw [if_neg (by omega)]
    rw [hx] at h
    exact h

/-- If the transform has an odd length, the signal that comes back lacks the last sample of the
transform; with `length_seconds` this sample is zero.  So no signal of odd length whose last sample
is not zero comes back. -/
theorem C117_odd_wrong (pchip : List ℝ → (ℕ → ℝ) → ℝ → ℝ) (s : Sig)
    (ha : s.scaling.isAmplitude = true) (hfs : 0 < s.fs)
    (hodd : Odd (fftLength s.fast s.data.rows)) (hF : 3 ≤ fftLength s.fast s.data.rows)
    (hch : s.data.cols ≤ fftLength s.fast s.data.rows / 2 + 1) (hc1 : 1 ≤ s.data.cols) :
    ∃ sp, fromSignal s none true = .ok sp ∧
      (∃ t, toSignal pchip sp s.fs none = (.ok t, sp) ∧
        t.HasShape (fftLength s.fast s.data.rows - 1) s.data.cols) ∧
      (∃ t, toSignal pchip sp s.fs (some (fftLength s.fast s.data.rows / s.fs)) = (.ok t, sp) ∧
        t.HasShape (fftLength s.fast s.data.rows) s.data.cols ∧
        ∀ c, t.sample (fftLength s.fast s.data.rows - 1) c = 0) := by
  obtain ⟨sp, e, hsp⟩ : ∃ sp, fromSignal s none true = .ok sp ∧ sp = _ :=
    ⟨_, fromSignal_eq s ha (by omega) hfs hch, rfl⟩
  set F := fftLength s.fast s.data.rows with hFd
  obtain ⟨m, hm⟩ := hodd
  have hN : 2 * (rfftBins F - 1) = F - 1 := by unfold rfftBins; omega
  have hfs' : (0 : ℝ) < s.fs := by exact_mod_cast hfs
  have hl : ⌊(F : ℝ) / s.fs * s.fs + 1 / 2⌋₊ = F := by
    rw [div_mul_cancel₀ _ hfs'.ne', Nat.floor_eq_iff (by positivity)]
    constructor <;> norm_num
  have hb : 2 ≤ rfftBins F := by unfold rfftBins; omega
  refine ⟨sp, e, ?_, ?_⟩
  · obtain ⟨t, ht, h⟩ := tdFromSpec_is (rfftBins F) s.data.cols (fun k c =>
        gain s.scaling F s.fs s.window k * rfft F (chan s.data c) k) none s.fs hb
        (by rw [hN]; refine ⟨hc1, ?_, ?_⟩ <;> simp only [outLength] <;> omega)
    rw [hN] at h
    refine ⟨t, ?_, h.1⟩
    rw [hsp, toSignal_direct pchip F s.fs s.fs (by omega) (direct_same F s.fs (by omega))]
    simp only [ht]
  · have hol : outLength (2 * (rfftBins F - 1)) s.fs (some ((F : ℝ) / s.fs)) = F := hl
    obtain ⟨t, ht, h⟩ := tdFromSpec_is (rfftBins F) s.data.cols (fun k c =>
        gain s.scaling F s.fs s.window k * rfft F (chan s.data c) k) (some ((F : ℝ) / s.fs)) s.fs hb
        (by rw [hol]; refine ⟨hc1, ?_, ?_⟩ <;> omega)
    rw [hol, hN] at h
    refine ⟨t, ?_, h.1, fun c => ?_⟩
    · rw [hsp, toSignal_direct pchip F s.fs s.fs (by omega) (direct_same F s.fs (by omega))]
      simp only [ht]
    · by_cases hc : c < s.data.cols
      · obtain ⟨-, -, g, -, -, -, hv⟩ := h
        rw [hv (F - 1) (by omega) c hc]
        beta_reduce
        rw [if_neg (by omega), mul_zero]
      · unfold State.sample
        rw [if_neg]
        rintro ⟨-, h2⟩
        rw [h.1.2] at h2
        exact hc h2

theorem gain_real (s : Scaling) (F fs : ℕ) (w : Option (List ℝ)) (k : ℕ) (hF : 2 ≤ F)
    (hev : F % 2 = 0) (ha : s.isAmplitude = true) :
    gain s F fs w k = (((if CSM.physical s = true ∧ (k = 0 ∨ 2 * k = F) then 1 / Real.sqrt 2 else 1) *
      factor s F fs w : ℝ) : ℂ) := by
  have h2 : (2 : ℝ) ^ (0.5 : ℝ) = Real.sqrt 2 := by
    rw [Real.sqrt_eq_rpow]; norm_num
  have hr : rfftBins F - 1 = F / 2 := rfl
  unfold gain
  rw [h2, hr]
  by_cases hp : CSM.physical s = true
  · have hn : CSM.fftNorm s F = 1 := by
      cases s <;> simp_all [CSM.fftNorm, CSM.physical]
    rw [hn, if_pos hp]
    by_cases h0 : k = 0
    · subst h0
      rw [if_pos rfl, if_neg (by omega), if_pos ⟨hp, Or.inl rfl⟩]
      push_cast; ring
    · rw [if_neg h0]
      by_cases h1 : k = F / 2
      · rw [if_pos ⟨hev, h1⟩, if_pos ⟨hp, Or.inr (by omega)⟩]
        push_cast; ring
      · rw [if_neg (by tauto), if_neg (by rintro ⟨-, h | h⟩ <;> omega)]
        push_cast; ring
  · rw [if_neg hp, if_neg (by tauto)]
    have : CSM.fftNorm s F = factor s F fs w := by
      cases s <;> simp_all [CSM.fftNorm, CSM.physical, factor]
      rw [Real.sqrt_eq_rpow, ← Real.inv_rpow (by positivity)]
      norm_num
    rw [this]
    push_cast; ring

theorem sample_bin (t : State ℝ) (n ch : ℕ) (x : ℕ → ℕ → ℝ) (g : ℝ) (c : ℕ) (hc : c < ch)
    (hv : ∀ r < n, ∀ c < ch, t.sample r c = g * x c r) (k : ℕ) :
    bin n (fun r => t.sample r c) k = g * bin n (x c) k := by
  unfold bin
  rw [Finset.mul_sum]
  refine Finset.sum_congr rfl fun j hj => ?_
  beta_reduce
  rw [hv j (Finset.mem_range.1 hj) c hc]
  push_cast
  ring

/-- For every scaling that gives complex values, the bins of the signal that comes back are the
bins stored in the spectrum: the FFT bins times the gain of the scaling. -/
theorem C117_scaled (pchip : List ℝ → (ℕ → ℝ) → ℝ → ℝ) (s : Sig)
    (ha : s.scaling.isAmplitude = true) (hfs : 0 < s.fs)
    (hev : Even (fftLength s.fast s.data.rows)) (hF : 2 ≤ fftLength s.fast s.data.rows)
    (hch : s.data.cols ≤ fftLength s.fast s.data.rows / 2 + 1) (hc1 : 1 ≤ s.data.cols) :
    ∃ sp t, fromSignal s none true = .ok sp ∧ toSignal pchip sp s.fs none = (.ok t, sp) ∧
      t.HasShape (fftLength s.fast s.data.rows) s.data.cols ∧
      ∃ g : ℝ, 0 < g ∧ g ≤ 1 ∧ ∀ c < s.data.cols, ∀ k ≤ fftLength s.fast s.data.rows / 2,
        bin (fftLength s.fast s.data.rows) (fun r => t.sample r c) k = g *
          (((if CSM.physical s.scaling = true ∧ (k = 0 ∨ 2 * k = fftLength s.fast s.data.rows)
              then 1 / Real.sqrt 2 else 1) *
            factor s.scaling (fftLength s.fast s.data.rows) s.fs s.window : ℝ) *
          bin (fftLength s.fast s.data.rows) (sample s.data c) k) := by
  obtain ⟨sp, e, hsp⟩ : ∃ sp, fromSignal s none true = .ok sp ∧ sp = _ :=
    ⟨_, fromSignal_eq s ha hF hfs hch, rfl⟩
  set F := fftLength s.fast s.data.rows with hFd
  have hm : F % 2 = 0 := Nat.even_iff.1 hev
  have hN : 2 * (rfftBins F - 1) = F := by unfold rfftBins; omega
  have hb : 2 ≤ rfftBins F := by unfold rfftBins; omega
  have := tdFromSpec_is (rfftBins F) s.data.cols (fun k c =>
        gain s.scaling F s.fs s.window k * rfft F (chan s.data c) k) none s.fs hb
        (by rw [hN]; refine ⟨hc1, ?_, ?_⟩ <;> simp only [outLength] <;> omega)
  rw [hN] at this
  obtain ⟨t, ht, h⟩ := this
  obtain ⟨hs, -, g, hg0, hg1, -, hv⟩ := h
  refine ⟨sp, t, e, ?_, hs, g, hg0, hg1, fun c hc k hk => ?_⟩
  · rw [hsp, toSignal_direct pchip F s.fs s.fs hF (direct_same F s.fs hF)]
    simp only [ht]
  · rw [sample_bin t F s.data.cols _ g c hc hv]
    congr 1
    rw [bin_congr F _ (irfft F (rfftBins F) (fun k =>
        gain s.scaling F s.fs s.window k * rfft F (chan s.data c) k)) (fun j hj => if_pos hj), bin_eq,
      rfft_irfft F _ _ k (by omega)]
    have hch' : bin F (sample s.data c) k = rfft F (chan s.data c) k := bin_eq F _ k
    rw [hch', ← gain_real s.scaling F s.fs s.window k hF hm ha]
    have hhalf : ∀ k, (k = 0 ∨ 2 * k = F) → (((rfft F (chan s.data c) k).re : ℝ) : ℂ) =
        rfft F (chan s.data c) k := by
      intro k hk
      refine Complex.conj_eq_iff_re.1 ?_
      rcases hk with rfl | hk
      · exact rfft_zero_conj F _
      · rw [← rfft_mirror F (by omega) _ k (by omega)]
        congr 1
        omega
    have hreal : ∀ k, (k = 0 ∨ 2 * k = F) → ((gain s.scaling F s.fs s.window k *
        rfft F (chan s.data c) k).re : ℂ) = gain s.scaling F s.fs s.window k *
          rfft F (chan s.data c) k := by
      intro k hk
      rw [gain_real s.scaling F s.fs s.window k hF hm ha, Complex.re_ofReal_mul]
      push_cast
      rw [hhalf k hk]
    have hkb : k < rfftBins F := by unfold rfftBins; omega
    unfold Deconv.herm
    beta_reduce
    by_cases h0 : k = 0
    · rw [if_pos h0, if_pos (by omega), h0]
      exact hreal 0 (Or.inl rfl)
    · rw [if_neg h0]
      by_cases h1 : 2 * k < F
      · rw [if_pos h1, if_pos hkb]
      · rw [if_neg h1, if_pos (by omega), if_pos hkb]
        exact hreal k (Or.inr (by omega))

/-- So a signal with a physical scaling does not come back: its constant part is lowered by 3 dB
more than the other parts. -/
theorem C117_scaled_wrong (pchip : List ℝ → (ℕ → ℝ) → ℝ → ℝ) (s : Sig)
    (ha : s.scaling.isAmplitude = true) (hp : CSM.physical s.scaling = true) (hfs : 0 < s.fs)
    (hev : Even (fftLength s.fast s.data.rows)) (hF : 4 ≤ fftLength s.fast s.data.rows)
    (hch : s.data.cols ≤ fftLength s.fast s.data.rows / 2 + 1) (c : ℕ) (hc : c < s.data.cols)
    (hw : ∀ l ∈ s.window, 0 < l.sum ∧ 0 < (l.map (· ^ 2)).sum)
    (h0 : bin (fftLength s.fast s.data.rows) (sample s.data c) 0 ≠ 0)
    (h1 : bin (fftLength s.fast s.data.rows) (sample s.data c) 1 ≠ 0) :
    ∃ sp t, fromSignal s none true = .ok sp ∧ toSignal pchip sp s.fs none = (.ok t, sp) ∧
      ¬ ∃ a : ℝ, ∀ r < fftLength s.fast s.data.rows, t.sample r c = a * sample s.data c r := by
  obtain ⟨sp, t, h2, h3, h4, g, hg, -, hv⟩ := C117_scaled pchip s ha hfs hev (by omega) hch (by omega)
  refine ⟨sp, t, h2, h3, ?_⟩
  rintro ⟨a, ha'⟩
  set F := fftLength s.fast s.data.rows with hFd
  have hb : ∀ k, bin F (fun r => t.sample r c) k = a * bin F (sample s.data c) k := by
    intro k
    unfold bin
    rw [Finset.mul_sum]
    refine Finset.sum_congr rfl fun j hj => ?_
    beta_reduce
    rw [ha' j (Finset.mem_range.1 hj)]
    push_cast
    ring
  have e0 := hv c hc 0 (by omega)
  have e1 := hv c hc 1 (by omega)
  rw [hb] at e0 e1
  rw [if_pos ⟨hp, Or.inl rfl⟩, ← mul_assoc] at e0
  rw [if_neg (by rintro ⟨-, h | h⟩ <;> omega), ← mul_assoc] at e1
  have e0' := mul_right_cancel₀ h0 e0
  have e1' := mul_right_cancel₀ h1 e1
  have hfac : factor s.scaling F s.fs s.window ≠ 0 := by
    intro hz
    have := gain_ne_zero s.scaling F s.fs s.window (by omega) hfs hw 0
    apply this
    rw [gain_real s.scaling F s.fs s.window 0 (by omega) (Nat.even_iff.1 hev) ha, hz]
    simp
  norm_cast at e0' e1'
  rw [e1'] at e0'
  have h5 := mul_left_cancel₀ hg.ne' e0'
  have h6 := mul_right_cancel₀ hfac h5
  have h7 : Real.sqrt 2 ≠ 0 := by positivity
  rw [eq_div_iff h7, one_mul] at h6
  have h8 := Real.sq_sqrt (show (0 : ℝ) ≤ 2 by norm_num)
  rw [h6] at h8
  norm_num at h8

/-- The requested sampling rate changes nothing in the samples while it is near the one of the
spectrum: the signal is not resampled. -/
theorem C117_rate_wrong (pchip : List ℝ → (ℕ → ℝ) → ℝ → ℝ) (s : Sig)
    (ha : s.scaling.isAmplitude = true) (hfs : 0 < s.fs)
    (hev : Even (fftLength s.fast s.data.rows)) (hF : 2 ≤ fftLength s.fast s.data.rows)
    (hch : s.data.cols ≤ fftLength s.fast s.data.rows / 2 + 1)
    (fs' : ℕ) (hn : |(fs' : ℝ) - s.fs| ≤ 2 * s.fs / fftLength s.fast s.data.rows) :
    ∃ sp, fromSignal s none true = .ok sp ∧
      toSignal pchip sp fs' none = toSignal pchip sp s.fs none := by
  refine ⟨_, fromSignal_eq s ha hF hfs hch, ?_⟩
  set F := fftLength s.fast s.data.rows with hFd
  have hF' : (0 : ℝ) < F := by exact_mod_cast (by omega : 0 < F)
  rw [toSignal_direct pchip F s.fs s.fs hF (direct_same F s.fs hF),
    toSignal_direct pchip F s.fs fs' hF]
  · rfl
  · obtain ⟨m, hm⟩ := hev
    have h1 : F / 2 = m := by omega
    have h2 : (m : ℝ) * s.fs / F = s.fs / 2 := by
      rw [hm]
      push_cast
      have : (m : ℝ) ≠ 0 := by
        intro h
        have : m = 0 := by exact_mod_cast h
        omega
      field_simp
      ring
    rw [h1, h2, ← sub_div, abs_div]
    rw [abs_of_pos (show (0 : ℝ) < 2 by norm_num)]
    rw [mul_div_assoc] at hn
    linarith

/-! ### Interpolated spectra -/

theorem interpolatedPchip_says (pchip : List ℝ → (ℕ → ℝ) → ℝ → ℝ) (hp : Interpolates pchip)
    (sp : CSpec) (hasc : sp.freqs.Pairwise (· < ·)) (c : ℕ) (g : ℝ) (v : ℂ) (h : Says sp c g v) :
    interpolatedPchip pchip sp.freqs (fun r => sp.data.val r c) g = v := by
  unfold interpolatedPchip
  rcases h with ⟨j, hj, rfl, rfl⟩ | ⟨h, rfl⟩
  · have hmono : ∀ a b, a ≤ b → b < sp.freqs.length → sp.freqs.getD a 0 ≤ sp.freqs.getD b 0 := by
      intro a b hab hb
      rw [List.getD_eq_getElem _ _ hb, List.getD_eq_getElem _ _ (by omega)]
      rcases hab.lt_or_eq with h | rfl
      · exact (List.pairwise_iff_getElem.1 hasc a b (by omega) hb h).le
      · exact le_rfl
    rw [if_neg (not_lt.2 (hmono 0 j (by omega) hj)),
      if_neg (not_lt.2 (hmono j _ (by omega) (by omega))), hp _ hasc _ _ hj, hp _ hasc _ _ hj]
    obtain ⟨m, hm⟩ := unwrap_turns (fun i => (sp.data.val i c).arg) j
    rw [hm]
    have h1 : exp (I * (((sp.data.val j c).arg + m * (2 * Real.pi) : ℝ) : ℂ)) =
        exp ((sp.data.val j c).arg * I) := by
      rw [Complex.exp_eq_exp_iff_exists_int]
      refine ⟨m, ?_⟩
      push_cast
      ring
    rw [h1]
    exact Complex.norm_mul_exp_arg_mul_I _
  · rcases h with h | h
    · rw [if_pos h]
    · split_ifs <;> rfl

/-- The bins of a signal made from given bins. -/
theorem td_bins (M ch : ℕ) (Y : ℕ → ℕ → ℂ) (len : Option ℝ) (fs : ℕ) (hM : 2 ≤ M)
    (hs : ShapeOk (outLength (2 * (M - 1)) fs len) ch)
    (hn : 2 * (M - 1) ≤ outLength (2 * (M - 1)) fs len) :
    ∃ t, tdFromSpec M ch Y len fs = .ok t ∧ t.HasShape (outLength (2 * (M - 1)) fs len) ch ∧
      (∀ r c, 2 * (M - 1) ≤ r → t.sample r c = 0) ∧
      ∃ g : ℝ, 0 < g ∧ g ≤ 1 ∧ ∀ c < ch, ∀ k < M,
        bin (2 * (M - 1)) (fun r => t.sample r c) k =
          g * if k = 0 ∨ k = M - 1 then ((Y k c).re : ℂ) else Y k c := by
  obtain ⟨t, ht, hsh, -, g, hg0, hg1, -, hv⟩ := tdFromSpec_is M ch Y len fs hM hs
  refine ⟨t, ht, hsh, ?_, g, hg0, hg1, fun c hc k hk => ?_⟩
  · intro r c hr
    by_cases hrc : r < outLength (2 * (M - 1)) fs len ∧ c < ch
    · rw [hv r hrc.1 c hrc.2]
      beta_reduce
      rw [if_neg (by omega), mul_zero]
    · unfold State.sample
      rw [if_neg]
      rw [hsh.1, hsh.2]
      exact hrc
  · rw [sample_bin t (2 * (M - 1)) ch _ g c hc (fun r hr c hc => hv r (by omega) c hc)]
    congr 1
    rw [bin_congr _ _ (irfft (2 * (M - 1)) M fun k => Y k c) (fun j hj => if_pos hj), bin_eq,
      rfft_irfft _ _ _ k (by omega)]
    unfold Deconv.herm
    beta_reduce
    by_cases h0 : k = 0
    · rw [if_pos h0, if_pos (Or.inl h0), if_pos (by omega), h0]
    · rw [if_neg h0]
      by_cases h1 : 2 * k < 2 * (M - 1)
      · rw [if_pos h1, if_pos hk, if_neg (by omega)]
      · rw [if_neg h1, if_pos (by omega), if_pos hk, if_pos (by omega)]

/-- A linear spectrum that does not fit the sampling rate is interpolated: its range is filled with
zeros, the length is the inverse of the frequency step, and at the stored frequencies the signal has
the stored values.  The parameters of the interpolator are overwritten. -/
theorem C117_interpolated_linear (pchip : List ℝ → (ℕ → ℝ) → ℝ → ℝ) (hp : Interpolates pchip)
    (sp : CSpec) (hasc : sp.freqs.Pairwise (· < ·)) (hc : sp.isMagnitude = false)
    (hl : spacing sp.freqs = .linear) (h2 : 2 ≤ sp.freqs.length) (fs m : ℕ) (delta : ℝ)
    (hd : delta = sp.freqs.getD 1 0 - sp.freqs.getD 0 0) (hm : 1 ≤ m)
    (hfs : (fs : ℝ) = 2 * m * delta)
    (hneed : delta < |(fs : ℝ) / 2 - sp.freqs.getD (sp.freqs.length - 1) 0| ∨
      1 / 10 ^ 8 < |sp.freqs.getD 0 0|)
    (hch : 1 ≤ sp.data.cols) (hch' : sp.data.cols ≤ 2 * m) :
    ∃ t, toSignal pchip sp fs none = (.ok t, withPchip sp) ∧ t.HasShape (2 * m) sp.data.cols ∧
      ∃ g : ℝ, 0 < g ∧ g ≤ 1 ∧ ∀ c < sp.data.cols, ∀ k ≤ m, ∀ v, Says sp c (k * delta) v →
        bin (2 * m) (fun r => t.sample r c) k = g * if k = 0 ∨ k = m then (v.re : ℂ) else v := by
  have hdp : 0 < delta := by
    rw [hd, List.getD_eq_getElem _ _ (by omega), List.getD_eq_getElem _ _ (by omega), sub_pos]
    exact List.pairwise_iff_getElem.1 hasc 0 1 (by omega) (by omega) (by omega)
  have hcount : ⌈((fs : ℝ) / 2 + delta / 2) / delta⌉₊ = m + 1 := by
    have : ((fs : ℝ) / 2 + delta / 2) / delta = m + 1 / 2 := by
      rw [hfs]; field_simp
    rw [this, Nat.ceil_eq_iff (by omega)]
    push_cast
    constructor
    · simp
    · linarith
  have hgl : (arangeFreqs fs delta).length = m + 1 := by
    unfold arangeFreqs
    rw [List.length_map, List.length_range, hcount]
  have hgk : ∀ k ≤ m, (arangeFreqs fs delta).getD k 0 = k * delta := by
    intro k hk
    rw [List.getD_eq_getElem _ _ (by rw [hgl]; omega)]
    simp [arangeFreqs]
  obtain ⟨t, ht, hs, -, g, hg0, hg1, hv⟩ := td_bins (m + 1) sp.data.cols (fun k c => interpolatedPchip
    pchip sp.freqs (fun r => sp.data.val r c) ((arangeFreqs fs delta).getD k 0)) none fs (by omega)
    (by refine ⟨hch, ?_, ?_⟩ <;> simp only [outLength] <;> omega) (by simp only [outLength]; omega)
  rw [show 2 * (m + 1 - 1) = 2 * m by omega] at hs hv
  refine ⟨t, ?_, hs, g, hg0, hg1, fun c hcc k hk v hsay => ?_⟩
  · unfold toSignal
    simp only [hc, Bool.false_eq_true, if_false, ← hd]
    rw [if_pos hl, if_neg, if_neg (by omega), hgl, ht]
    · unfold withPchip
      rw [hc]
    · rw [not_not]
      rcases hneed with h | h
      · exact Or.inl (hd ▸ h)
      · right
        unfold isClose
        simp only [sub_zero, abs_zero, mul_zero, add_zero, not_le]
        exact h
  · rw [hv c hcc k (by omega)]
    rw [hgk k hk, interpolatedPchip_says pchip hp sp hasc c _ v hsay]
    simp

/-- A spectrum that is not linear is interpolated too; with an even number of samples, the signal has
the values of the spectrum at its own frequencies. -/
theorem C117_interpolated_other (pchip : List ℝ → (ℕ → ℝ) → ℝ → ℝ) (hp : Interpolates pchip)
    (sp : CSpec) (hasc : sp.freqs.Pairwise (· < ·)) (hc : sp.isMagnitude = false)
    (hl : spacing sp.freqs ≠ .linear) (h2 : 2 ≤ sp.freqs.length) (fs n : ℕ) (l : ℝ)
    (hn : ⌊l * fs + 1 / 2⌋₊ = n) (hev : Even n) (hn2 : 2 ≤ n)
    (hch : 1 ≤ sp.data.cols) (hch' : sp.data.cols ≤ n) :
    ∃ t, toSignal pchip sp fs (some l) = (.ok t, withPchip sp) ∧ t.HasShape n sp.data.cols ∧
      ∃ g : ℝ, 0 < g ∧ g ≤ 1 ∧ ∀ c < sp.data.cols, ∀ k ≤ n / 2, ∀ v, Says sp c (k * fs / n) v →
        bin n (fun r => t.sample r c) k = g * if k = 0 ∨ 2 * k = n then (v.re : ℂ) else v := by
  have hm : n % 2 = 0 := Nat.even_iff.1 hev
  have hb : rfftBins n = n / 2 + 1 := rfl
  have hN : 2 * (rfftBins n - 1) = n := by omega
  have := td_bins (rfftBins n) sp.data.cols (fun k c => interpolatedPchip
    pchip sp.freqs (fun r => sp.data.val r c) ((Deconv.freqs n fs).getD k 0)) (some l) fs (by omega)
    (by refine ⟨hch, ?_, ?_⟩ <;> simp only [outLength, hn] <;> omega)
    (by simp only [outLength, hn]; omega)
  rw [hN] at this
  obtain ⟨t, ht, hs, -, g, hg0, hg1, hv⟩ := this
  refine ⟨t, ?_, ?_, g, hg0, hg1, fun c hcc k hk v hsay => ?_⟩
  · unfold toSignal
    have hls : lengthSamples l fs = n := hn
    simp only [hc, Bool.false_eq_true, if_false]
    rw [if_neg hl]
    simp only [hls]
    rw [if_neg (by omega), if_neg (by omega), freqs_length, ht]
    unfold withPchip
    rw [hc]
  · simpa only [outLength, hn] using hs
  · rw [hv c hcc k (by omega)]
    rw [freqs_getD _ _ _ (by omega), interpolatedPchip_says pchip hp sp hasc c _ v hsay]
    congr 1
    by_cases h : k = 0 ∨ k = rfftBins n - 1
    · rw [if_pos h, if_pos (by omega)]
    · rw [if_neg h, if_neg (by omega)]

/-- With an odd number `n` of samples the signal is one of `n - 1` samples and a zero, and what the
spectrum says about the frequency `k fs / n` appears at `k fs / (n - 1)`. -/
theorem C117_interpolated_odd_wrong (pchip : List ℝ → (ℕ → ℝ) → ℝ → ℝ) (hp : Interpolates pchip)
    (sp : CSpec) (hasc : sp.freqs.Pairwise (· < ·)) (hc : sp.isMagnitude = false)
    (hl : spacing sp.freqs ≠ .linear) (h2 : 2 ≤ sp.freqs.length) (fs n : ℕ) (l : ℝ)
    (hn : ⌊l * fs + 1 / 2⌋₊ = n) (hodd : Odd n) (hn2 : 3 ≤ n)
    (hch : 1 ≤ sp.data.cols) (hch' : sp.data.cols ≤ n) :
    ∃ t, toSignal pchip sp fs (some l) = (.ok t, withPchip sp) ∧ t.HasShape n sp.data.cols ∧
      (∀ c, t.sample (n - 1) c = 0) ∧
      ∃ g : ℝ, 0 < g ∧ g ≤ 1 ∧ ∀ c < sp.data.cols, ∀ k ≤ n / 2, ∀ v, Says sp c (k * fs / n) v →
        bin (n - 1) (fun r => t.sample r c) k =
          g * if k = 0 ∨ 2 * k = n - 1 then (v.re : ℂ) else v := by
  have hm : n % 2 = 1 := Nat.odd_iff.1 hodd
  have hb : rfftBins n = n / 2 + 1 := rfl
  have hN : 2 * (rfftBins n - 1) = n - 1 := by omega
  have := td_bins (rfftBins n) sp.data.cols (fun k c => interpolatedPchip
    pchip sp.freqs (fun r => sp.data.val r c) ((Deconv.freqs n fs).getD k 0)) (some l) fs (by omega)
    (by refine ⟨hch, ?_, ?_⟩ <;> simp only [outLength, hn] <;> omega)
    (by simp only [outLength, hn]; omega)
  rw [hN] at this
  obtain ⟨t, ht, hs, hz, g, hg0, hg1, hv⟩ := this
  refine ⟨t, ?_, ?_, fun c => hz _ c le_rfl, g, hg0, hg1, fun c hcc k hk v hsay => ?_⟩
  · unfold toSignal
    have hls : lengthSamples l fs = n := hn
    simp only [hc, Bool.false_eq_true, if_false]
    rw [if_neg hl]
    simp only [hls]
    rw [if_neg (by omega), if_neg (by omega), freqs_length, ht]
    unfold withPchip
    rw [hc]
  · simpa only [outLength, hn] using hs
  · rw [hv c hcc k (by omega)]
    rw [freqs_getD _ _ _ (by omega), interpolatedPchip_says pchip hp sp hasc c _ v hsay]
    congr 1
    by_cases h : k = 0 ∨ k = rfftBins n - 1
    · rw [if_pos h, if_pos (by omega)]
    · rw [if_neg h, if_neg (by omega)]

/-! ### Refusals and magnitudes -/

/-- What is refused: complex spectra of power scalings or of Welch's method, signals from magnitudes,
and signals from spectra that are not linear without a length.  The object is left as it was. -/
theorem C117_rejects (pchip : List ℝ → (ℕ → ℝ) → ℝ → ℝ) :
    (∀ s welch, s.scaling.isAmplitude = false ∨ welch.isSome = true →
      fromSignal s welch true = .error .assertionError) ∧
    (∀ sp fs len, sp.isMagnitude = true → toSignal pchip sp fs len = (.error .assertionError, sp)) ∧
    (∀ sp fs, spacing sp.freqs ≠ .linear → toSignal pchip sp fs none =
      (.error .assertionError, sp)) := by
  refine ⟨fun s welch h => ?_, fun sp fs len h => ?_, fun sp fs h => ?_⟩
  · unfold fromSignal
    rw [if_pos]
    refine ⟨rfl, ?_⟩
    unfold outputsComplex
    rcases h with h | h <;> simp [h]
  · unfold toSignal
    rw [if_pos h]
  · unfold toSignal
    simp only [h, if_false, ite_self]

/-- The frequencies and the data of a spectrum are not touched by `to_signal`, whatever happens; the
parameters of the interpolator stay or are replaced. -/
theorem C117_object (pchip : List ℝ → (ℕ → ℝ) → ℝ → ℝ) (sp : CSpec) (fs : ℕ) (len : Option ℝ) :
    (toSignal pchip sp fs len).2 = sp ∨ (toSignal pchip sp fs len).2 = withPchip sp := by
  unfold toSignal
  dsimp only
  cases len <;> dsimp only <;> split_ifs <;> first | exact Or.inl rfl | exact Or.inr rfl

theorem fftSpectrum_physical (s : Sig) (sc : Scaling) (hp : CSM.physical sc = true) :
    fftSpectrum { s with scaling := sc } = .ok fun c k =>
      (if sc.isAmplitude then edgeFix (rfftBins (fftLength s.fast s.data.rows))
          (rfft (fftLength s.fast s.data.rows) (chan s.data c)) (fftLength s.fast s.data.rows) k
        else ((‖edgeFix (rfftBins (fftLength s.fast s.data.rows))
          (rfft (fftLength s.fast s.data.rows) (chan s.data c)) (fftLength s.fast s.data.rows) k‖ ^ 2
            : ℝ) : ℂ)) * (factor sc (fftLength s.fast s.data.rows) s.fs s.window : ℝ) := by
  have hn : ∀ F, CSM.fftNorm sc F = 1 := by
    intro F
    cases sc <;> simp_all [CSM.fftNorm, CSM.physical]
  have hc : ∀ c, (fun j => if j < s.data.rows then s.data.val j c else 0) = chan s.data c :=
    fun c => rfl
  unfold fftSpectrum
  dsimp only
  rw [if_pos hp]
  simp only [scale_ok, hn, ofReal_one, one_mul, hc]

/-- The magnitude spectrum of a power scaling is the one of the amplitude scaling. -/
theorem C117_magnitude (s : Sig) :
    fromSignal { s with scaling := .powSpectrum } none false =
      fromSignal { s with scaling := .ampSpectrum } none false ∧
    fromSignal { s with scaling := .powDensity } none false =
      fromSignal { s with scaling := .ampDensity } none false := by
  have key : ∀ (a : ℝ) (z : ℂ) (f : ℝ), f ^ (2 : ℝ) = a →
      Real.sqrt ‖((‖z‖ ^ 2 : ℝ) : ℂ) * (a : ℂ)‖ = ‖z * (f : ℂ)‖ := by
    intro a z f h
    rw [Real.rpow_two] at h
    rw [← h, norm_mul, norm_mul, Complex.norm_real, Complex.norm_real, Complex.norm_real,
      Real.norm_of_nonneg (by positivity), Real.norm_of_nonneg (by positivity),
      Real.sqrt_mul (by positivity), Real.sqrt_sq (by positivity), Real.sqrt_sq_eq_abs]
    rfl
  constructor
  · unfold fromSignal
    simp only [Bool.false_eq_true, false_and, if_false, fftSpectrum_physical s .powSpectrum rfl,
      fftSpectrum_physical s .ampSpectrum rfl]
    congr 1
    unfold Mat.map
    simp only [Scaling.isAmplitude, Bool.false_eq_true, if_false, if_true]
    congr 1
    funext r c
    rw [key _ _ (factor .ampSpectrum (fftLength s.fast s.data.rows) s.fs s.window)]
    simp [factor, Scaling.isAmplitude, Scaling.isDensity]
  · unfold fromSignal
    simp only [Bool.false_eq_true, false_and, if_false, fftSpectrum_physical s .powDensity rfl,
      fftSpectrum_physical s .ampDensity rfl]
    congr 1
    unfold Mat.map
    simp only [Scaling.isAmplitude, Bool.false_eq_true, if_false, if_true]
    congr 1
    funext r c
    rw [key _ _ (factor .ampDensity (fftLength s.fast s.data.rows) s.fs s.window)]
    simp [factor, Scaling.isAmplitude, Scaling.isDensity]

/-! ### The hypotheses can be met -/

/-- Four samples of one channel at 8 Hz with the default scaling. -/
def four (sc : Scaling) : Sig := ⟨⟨4, 1, fun r _ => if r = 0 then 1 else 0⟩, 8, sc, false, none⟩

example : (four .fftBackward).scaling = .fftBackward ∧ 0 < (four .fftBackward).fs ∧
    Even (fftLength (four .fftBackward).fast (four .fftBackward).data.rows) ∧
    2 ≤ fftLength (four .fftBackward).fast (four .fftBackward).data.rows ∧
    (four .fftBackward).data.cols ≤
      fftLength (four .fftBackward).fast (four .fftBackward).data.rows / 2 + 1 ∧
    ShapeOk (outLength (fftLength (four .fftBackward).fast (four .fftBackward).data.rows)
      (four .fftBackward).fs none) (four .fftBackward).data.cols ∧
    ShapeOk (outLength (fftLength (four .fftBackward).fast (four .fftBackward).data.rows)
      (four .fftBackward).fs (some 1)) (four .fftBackward).data.cols := by
  have h : ⌊(1 : ℝ) * (8 : ℕ) + 1 / 2⌋₊ = 8 := by
    rw [Nat.floor_eq_iff (by norm_num)]; norm_num
  refine ⟨rfl, by decide, ⟨2, rfl⟩, by decide, by decide, by unfold ShapeOk; decide, ?_⟩
  show ShapeOk ⌊(1 : ℝ) * (8 : ℕ) + 1 / 2⌋₊ 1
  rw [h]
  unfold ShapeOk
  decide

/-- A pulse has no bin that is zero. -/
example (k : ℕ) : bin 4 (sample (four .ampSpectrum).data 0) k = 1 := by
  unfold bin
  rw [Finset.sum_eq_single 0]
  · simp [sample, four]
  · intro j hj h0
    simp [sample, four, h0]
  · simp

open Classical in
/-- There are interpolators that go through the given points. -/
example : ∃ pchip, Interpolates pchip := by
  refine ⟨fun f d g => if h : ∃ j, j < f.length ∧ f.getD j 0 = g then d (Classical.choose h) else 0,
    fun f hf d j hj => ?_⟩
  have h : ∃ i, i < f.length ∧ f.getD i 0 = f.getD j 0 := ⟨j, hj, rfl⟩
  dsimp only
  rw [dif_pos h]
  obtain ⟨h1, h2⟩ := Classical.choose_spec h
  congr 1
  generalize Classical.choose h = i at h1 h2
  rw [List.getD_eq_getElem _ _ h1, List.getD_eq_getElem _ _ hj] at h2
  have hlt := List.pairwise_iff_getElem.1 hf
  rcases lt_trichotomy i j with h3 | h3 | h3
  · exact absurd h2 (hlt _ _ h1 hj h3).ne
  · exact h3
  · exact absurd h2 (hlt _ _ hj h1 h3).ne'

/-- A linear spectrum from 10 Hz to 30 Hz, for signals at 100 Hz. -/
noncomputable def ramp : CSpec :=
  ⟨[10, 20, 30], ⟨3, 1, fun r _ => r + 1⟩, false, .power, .linear, .zeroPad⟩

example : ramp.freqs.Pairwise (· < ·) ∧ spacing ramp.freqs = .linear ∧ 2 ≤ ramp.freqs.length ∧
    (10 : ℝ) = ramp.freqs.getD 1 0 - ramp.freqs.getD 0 0 ∧ ((100 : ℕ) : ℝ) = 2 * (5 : ℕ) * 10 ∧
    (10 : ℝ) < |((100 : ℕ) : ℝ) / 2 - ramp.freqs.getD (ramp.freqs.length - 1) 0| ∧
    Says ramp 0 ((1 : ℕ) * 10) 1 ∧ Says ramp 0 ((4 : ℕ) * 10) 0 := by
  refine ⟨?_, ?_, by decide, ?_, by norm_num, ?_, Or.inl ⟨0, by decide, ?_, ?_⟩,
    Or.inr ⟨Or.inr ?_, rfl⟩⟩
  · norm_num [ramp]
  · refine (C117_spacing _).1 10 (by decide) fun i hi => ?_
    have hi' : i + 1 < 3 := hi
    have hi2 : i < 2 := by omega
    interval_cases i <;> norm_num [ramp]
  · norm_num [ramp]
  · norm_num [ramp, abs_of_pos]
  · norm_num [ramp]
  · norm_num [ramp]
  · norm_num [ramp]

/-- A spectrum that is not linear cannot be turned into a signal of one sample. -/
theorem C117_one_sample (pchip : List ℝ → (ℕ → ℝ) → ℝ → ℝ) (sp : CSpec) (fs : ℕ) (l : ℝ)
    (hm : sp.isMagnitude = false) (hs : spacing sp.freqs ≠ .linear) (hl : ⌊l * fs + 1 / 2⌋₊ = 1) :
    (toSignal pchip sp fs (some l)).1 = .error .valueError := by
  have hl' : lengthSamples l fs = 1 := hl
  unfold toSignal
  rw [if_neg (by simp [hm])]
  simp only
  rw [if_neg hs, hl', if_neg one_ne_zero]
  split_ifs
  · rfl
  · simp [tdFromSpec, freqs_length, rfftBins]

example : spacing [1, 2, 100] ≠ .linear ∧ ⌊(0.01 : ℝ) * (100 : ℕ) + 1 / 2⌋₊ = 1 := by
  refine ⟨by rw [C117_spacing_wrong]; simp, ?_⟩
  rw [Nat.floor_eq_iff (by norm_num)]
  norm_num

end Verif.SpecConv
