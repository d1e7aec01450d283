import Verif.Model.Welch
import Verif.Props.C29
import Verif.Props.C43

/-!
# C65: spectra by the method of Welch
-/

namespace Verif.CSM

open Complex Scaling Finset DFT

/-! ### Specification -/

/-- Parameters that the documentation allows. -/
def Valid (p : Params) : Prop := (∃ e, 3 ≤ e ∧ e ≤ 18 ∧ p.W = 2 ^ e) ∧ p.overlap < 100

/-- Number of frames: every multiple of the step below the length starts one. -/
def frameCount (p : Params) (L : ℕ) : ℕ := (L + p.step - 1) / p.step

/-- Sample `i` of the windowed segment `j`; zero beyond the end of the signal. -/
noncomputable def segment (p : Params) (x : List ℝ) (j i : ℕ) : ℝ :=
  x.getD (j * p.step + i) 0 * p.window.getD i 0

/-- Mean of the windowed segment. -/
noncomputable def segmentMean (p : Params) (x : List ℝ) (j : ℕ) : ℝ :=
  (∑ i ∈ range p.W, segment p x j i) / p.W

/-- The windowed segment, less its mean if asked for. -/
noncomputable def detrended (p : Params) (x : List ℝ) (j i : ℕ) : ℝ :=
  if p.detrend then segment p x j i - segmentMean p x j else segment p x j i

/-- Mean over the segments of their energies. -/
noncomputable def meanEnergy (p : Params) (x : List ℝ) : ℝ :=
  (∑ j ∈ range (frameCount p x.length), ∑ i ∈ range p.W, detrended p x j i ^ 2) /
    frameCount p x.length

/-- Sum of the squares of the window. -/
noncomputable def windowEnergy (p : Params) : ℝ := (p.window.map (· ^ 2)).sum

/-! ### Lemmas -/

theorem Valid.pos {p : Params} (h : Valid p) : 0 < p.W := by
  obtain ⟨⟨e, -, -, he⟩, -⟩ := h
  rw [he]
  positivity

theorem Valid.even {p : Params} (h : Valid p) : p.W % 2 = 0 := by
  obtain ⟨⟨e, h3, -, he⟩, -⟩ := h
  obtain ⟨d, rfl⟩ : ∃ d, e = d + 1 := ⟨e - 1, by omega⟩
  rw [he, pow_succ]
  omega

theorem Valid.step_pos {p : Params} (h : Valid p) : 0 < p.step := by
  have hpos := h.pos
  unfold Params.step
  have : p.overlap * p.W / 100 < p.W := by
    rw [Nat.div_lt_iff_lt_mul (by norm_num), mul_comm p.W]
    exact Nat.mul_lt_mul_of_pos_right h.2 hpos
  omega

theorem Valid.mem {p : Params} (h : Valid p) : ∃ e ∈ List.range 19, 3 ≤ e ∧ p.W = 2 ^ e := by
  obtain ⟨⟨e, h3, h18, he⟩, -⟩ := h
  exact ⟨e, List.mem_range.mpr (by omega), h3, he⟩

theorem count_unique {n L step : ℕ} (hs : 0 < step) (h1 : ∀ k < n, k * step < L)
    (h2 : L ≤ n * step) : n = (L + step - 1) / step := by
  refine le_antisymm ?_ ?_
  · rw [Nat.le_div_iff_mul_le hs]
    rcases Nat.eq_zero_or_pos n with h0 | h0
    · subst h0; omega
    · have := h1 (n - 1) (by omega)
      obtain ⟨m, rfl⟩ : ∃ m, n = m + 1 := ⟨n - 1, by omega⟩
      simp only [Nat.add_sub_cancel] at this
      rw [Nat.succ_mul]
      omega
  · rw [← Nat.lt_succ_iff, Nat.div_lt_iff_lt_mul hs, Nat.succ_mul]
    omega

theorem frames_eq {p : Params} (h : Valid p) (x : List ℝ) :
    (frames p x).length = frameCount p x.length ∧
      ∀ j < frameCount p x.length, ∀ i < p.W,
        ((frames p x).getD j []).getD i 0 = x.getD (j * p.step + i) 0 := by
  obtain ⟨l, hl, hf, -, h1, h2⟩ := Framing.C21_keep x p.W p.step h.step_pos
  have hfr : frames p x = l := by unfold frames; rw [hl]
  rw [hfr]
  have hn : l.length = frameCount p x.length := count_unique h.step_pos h1 h2
  refine ⟨hn, fun j hj i hi => ?_⟩
  exact (hf j (by rw [hn]; exact hj)).2 i hi

theorem prepared_eq {p : Params} (h : Valid p) (x : List ℝ) (j : ℕ)
    (hj : j < frameCount p x.length) (i : ℕ) (hi : i < p.W) :
    prepared p ((frames p x).getD j []) i = detrended p x j i := by
  have hf := (frames_eq h x).2 j hj
  unfold prepared detrended segmentMean segment
  dsimp only
  rw [hf i hi, Finset.sum_congr rfl fun k hk => by rw [hf k (mem_range.mp hk)]]

theorem rfft_congr (N : ℕ) (x y : ℕ → ℝ) (h : ∀ n < N, x n = y n) (k : ℕ) :
    rfft N x k = rfft N y k := by
  unfold rfft dft
  refine Finset.sum_congr rfl fun n hn => ?_
  dsimp only
  rw [h n (mem_range.mp hn)]

/-- Bin of a frame in terms of the specification. -/
theorem frameBin_eq {p : Params} (h : Valid p) (s : Scaling) (x : List ℝ) (j : ℕ)
    (hj : j < frameCount p x.length) (k : ℕ) :
    frameBin p s ((frames p x).getD j []) k =
      (fftNorm s p.W : ℝ) * rfft p.W (detrended p x j) k := by
  unfold frameBin
  rw [rfft_congr p.W _ _ (prepared_eq h x j hj) k]

theorem products_eq {p : Params} (h : Valid p) (s : Scaling) (x : List ℝ) (k : ℕ) :
    products p s x none k = (List.range (frameCount p x.length)).map fun j =>
      ((fftNorm s p.W ^ 2 * ‖rfft p.W (detrended p x j) k‖ ^ 2 : ℝ) : ℂ) := by
  unfold products
  dsimp only
  refine List.ext_getElem (by simp [(frames_eq h x).1]) fun j h1 h2 => ?_
  rw [List.length_map, (frames_eq h x).1] at h1
  rw [List.getElem_map, List.getElem_map, List.getElem_range]
  have e : (frames p x)[j]'(by rw [(frames_eq h x).1]; exact h1) = (frames p x).getD j [] := by
    rw [List.getD_eq_getElem]
  rw [e, frameBin_eq h s x j h1, norm_mul, mul_pow, Complex.norm_real, Real.norm_eq_abs, sq_abs]

/-- Mean over the frames. -/
theorem averaged_eq {p : Params} (h : Valid p) (ha : p.average = .mean) (s : Scaling) (x : List ℝ)
    (k : ℕ) : averaged p.average (products p s x none k) =
      ((fftNorm s p.W ^ 2 * ((∑ j ∈ range (frameCount p x.length),
        ‖rfft p.W (detrended p x j) k‖ ^ 2) / frameCount p x.length) : ℝ) : ℂ) := by
  rw [ha, products_eq h]
  unfold averaged
  dsimp only
  rw [List.length_map, List.length_range, mul_div_assoc', Finset.mul_sum]
  push_cast
  rw [← List.sum_toFinset _ (List.nodup_range), List.toFinset_range]

theorem fftNorm_physical {s : Scaling} (hs : physical s = true) (N : ℕ) : fftNorm s N = 1 := by
  cases s <;> simp [physical] at hs <;> rfl

theorem weight_even {W : ℕ} (hW : W % 2 = 0) (k : ℕ) :
    weight W k = if k = 0 ∨ k = W / 2 then 1 / 2 else 1 := by
  unfold weight
  simp only [hW, true_and]

/-- The value for physical power scalings and the mean. -/
theorem welch_power {p : Params} (h : Valid p) (ha : p.average = .mean) {s : Scaling}
    (hp : physical s = true) (hs : s.isAmplitude = false) (x : List ℝ) (k : ℕ) :
    welch p s x none k = ((weight p.W k * ((∑ j ∈ range (frameCount p x.length),
        ‖rfft p.W (detrended p x j) k‖ ^ 2) / frameCount p x.length) *
          factor s p.W p.fs (some p.window) : ℝ) : ℂ) := by
  unfold welch
  rw [averaged_eq h ha, fftNorm_physical hp]
  unfold welchScale
  dsimp only
  rw [if_pos hp, hs, if_neg (by simp), weight_even h.even]
  by_cases hk : k = 0 ∨ k = p.W / 2
  · rw [if_pos ⟨hp, hk⟩, if_pos hk]
    push_cast
    ring
  · rw [if_neg (fun hh => hk hh.2), if_neg hk]
    push_cast
    ring

theorem density_factor (p : Params) (hw : 0 ≤ windowEnergy p) :
    factor .powDensity p.W p.fs (some p.window) = 2 / windowEnergy p / p.fs := by
  unfold factor
  simp only [Scaling.isDensity, Scaling.isAmplitude, if_true, Bool.false_eq_true, if_false]
  rw [Real.rpow_two, rpow_half_sq]
  · rfl
  · have : 0 ≤ (p.window.map (· ^ 2)).sum := hw
    positivity

theorem spectrum_factor (p : Params) :
    factor .powSpectrum p.W p.fs (some p.window) = 2 / p.window.sum ^ 2 := by
  unfold factor
  simp only [Scaling.isDensity, Scaling.isAmplitude, Bool.false_eq_true, if_false]
  rw [Real.rpow_two, div_pow, two_rpow_half_sq]

theorem energy_sum {p : Params} (h : Valid p) (x : List ℝ) :
    ∑ k ∈ range (p.W / 2 + 1), weight p.W k * ((∑ j ∈ range (frameCount p x.length),
        ‖rfft p.W (detrended p x j) k‖ ^ 2) / frameCount p x.length) =
      p.W / 2 * meanEnergy p x := by
  have h1 : ∀ k ∈ range (p.W / 2 + 1), weight p.W k * ((∑ j ∈ range (frameCount p x.length),
        ‖rfft p.W (detrended p x j) k‖ ^ 2) / frameCount p x.length) =
      (∑ j ∈ range (frameCount p x.length), weight p.W k * ‖rfft p.W (detrended p x j) k‖ ^ 2) /
        frameCount p x.length := by
    intro k _
    rw [mul_div_assoc', Finset.mul_sum]
  rw [Finset.sum_congr rfl h1, ← Finset.sum_div, Finset.sum_comm]
  have h2 : ∀ j ∈ range (frameCount p x.length),
      ∑ k ∈ range (p.W / 2 + 1), weight p.W k * ‖rfft p.W (detrended p x j) k‖ ^ 2 =
        p.W / 2 * ∑ i ∈ range p.W, detrended p x j i ^ 2 := fun j _ =>
    weighted_parseval p.W h.pos.ne' (detrended p x j)
  rw [Finset.sum_congr rfl h2, ← Finset.mul_sum, meanEnergy, mul_div_assoc]

/-! ### Which calls succeed -/

/-- **C65**, acceptance: with valid parameters every signal with several channels has a spectrum,
and a single channel if it is longer than the step. -/
theorem C65_accepts (p : Params) (h : Valid p) (s : Scaling) (n L : ℕ)
    (hL : n ≠ 1 ∨ p.step < L) (x : ℕ → List ℝ) :
    welchSpectrum p s n L x = .ok fun k c => welch p s (x c) none k := by
  have hc : welchCheck p n L = none := by
    obtain ⟨l, hl, -, -, h1, h2⟩ :=
      Framing.C21_keep (List.replicate L (0 : ℚ)) p.W p.step h.step_pos
    unfold welchCheck
    by_cases hn : n = 1
    · rw [if_pos hn, check, if_pos h.mem, if_pos h.2, hl]
      dsimp only
      rw [if_neg]
      intro h3
      rw [h3, List.length_replicate] at h2
      rcases hL with hL | hL
      · exact hL hn
      · omega
    · rw [if_neg hn, if_pos h.mem, if_pos h.2, hl]
  unfold welchSpectrum
  rw [hc]

/-- **C65**, rejection: invalid parameters raise AssertionError for every signal. -/
theorem C65_rejects (p : Params) (h : ¬ Valid p) (s : Scaling) (n L : ℕ) (x : ℕ → List ℝ) :
    welchSpectrum p s n L x = .error .assertionError := by
  have hc : welchCheck p n L = some .assertionError := by
    unfold welchCheck check
    by_cases hm : ∃ e ∈ List.range 19, 3 ≤ e ∧ p.W = 2 ^ e
    · have ho : ¬ p.overlap < 100 := by
        intro ho
        obtain ⟨e, he, h3, hW⟩ := hm
        exact h ⟨⟨e, h3, by have := List.mem_range.mp he; omega, hW⟩, ho⟩
      simp only [if_pos hm, if_neg ho, ite_self]
    · simp only [if_neg hm, ite_self]
  unfold welchSpectrum
  rw [hc]

/-- **C65**, negation: a single channel that fits into one step raises, although the same samples
in two channels give a spectrum. -/
theorem C65_single_frame_raises (p : Params) (h : Valid p) (s : Scaling) (L : ℕ) (hL : 0 < L)
    (hs : L ≤ p.step) (x : ℕ → List ℝ) :
    welchSpectrum p s 1 L x = .error .valueError ∧ ∃ S, welchSpectrum p s 2 L x = .ok S := by
  refine ⟨?_, _, C65_accepts p h s 2 L (Or.inl (by norm_num)) x⟩
  have hc : welchCheck p 1 L = some .valueError := by
    obtain ⟨l, hl, -, -, h1, h2⟩ :=
      Framing.C21_keep (List.replicate L (0 : ℚ)) p.W p.step h.step_pos
    rw [List.length_replicate] at h1 h2
    unfold welchCheck check
    rw [if_pos rfl, if_pos h.mem, if_pos h.2, hl]
    dsimp only
    rw [if_pos]
    have h3 : l.length ≠ 0 := by
      intro h0
      rw [h0] at h2
      omega
    by_contra h4
    have := h1 1 (by omega)
    omega
  unfold welchSpectrum
  rw [hc]

/-! ### Power -/

/-- **C65**, density: summed over the bins and multiplied with the bin width, the power spectral
density is the mean energy of the windowed (and detrended) segments divided by the energy of the
window. The values are real and not negative. -/
theorem C65_psd_power (p : Params) (h : Valid p) (ha : p.average = .mean) (hfs : p.fs ≠ 0)
    (hw : 0 < windowEnergy p) (n L : ℕ) (hL : n ≠ 1 ∨ p.step < L) (x : ℕ → List ℝ) :
    ∃ S, welchSpectrum p .powDensity n L x = .ok S ∧ ∀ c,
      (∀ k, (S k c).im = 0 ∧ 0 ≤ (S k c).re) ∧
      ∑ k ∈ range (p.W / 2 + 1), (S k c).re * ((p.fs : ℝ) / p.W) =
        meanEnergy p (x c) / windowEnergy p := by
  refine ⟨_, C65_accepts p h _ n L hL x, fun c => ⟨fun k => ?_, ?_⟩⟩
  · rw [welch_power h ha rfl rfl]
    refine ⟨ofReal_im _, ?_⟩
    rw [ofReal_re]
    have h1 : 0 ≤ weight p.W k := by unfold weight; split_ifs <;> norm_num
    have h2 := factor_nonneg .powDensity rfl p.W p.fs (some p.window)
    positivity
  · have h1 : ∀ k ∈ range (p.W / 2 + 1),
        (welch p .powDensity (x c) none k).re * ((p.fs : ℝ) / p.W) =
          (2 / windowEnergy p / p.W) * (weight p.W k * ((∑ j ∈ range (frameCount p (x c).length),
            ‖rfft p.W (detrended p (x c) j) k‖ ^ 2) / frameCount p (x c).length)) := by
      intro k _
      rw [welch_power h ha rfl rfl, ofReal_re, density_factor p hw.le]
      have : (p.fs : ℝ) ≠ 0 := by exact_mod_cast hfs
      have : (p.W : ℝ) ≠ 0 := by exact_mod_cast h.pos.ne'
      field_simp
    rw [Finset.sum_congr rfl h1, ← Finset.mul_sum, energy_sum h]
    have : (p.W : ℝ) ≠ 0 := by exact_mod_cast h.pos.ne'
    field_simp

theorem windowEnergy_rect (p : Params) (hw : p.window = List.replicate p.W 1) :
    windowEnergy p = p.W := by
  unfold windowEnergy
  rw [hw]
  simp

theorem step_no_overlap (p : Params) (ho : p.overlap = 0) : p.step = p.W := by
  simp [Params.step, ho]

theorem count_no_overlap {p : Params} (h : Valid p) (ho : p.overlap = 0) (q : ℕ) :
    frameCount p (q * p.W) = q := by
  have hW := h.pos
  unfold frameCount
  rw [step_no_overlap p ho]
  symm
  refine count_unique hW (fun k hk => Nat.mul_lt_mul_of_pos_right hk hW) le_rfl

theorem segment_rect {p : Params} (hw : p.window = List.replicate p.W 1) (ho : p.overlap = 0)
    (x : List ℝ) (j i : ℕ) (hi : i < p.W) : segment p x j i = x.getD (j * p.W + i) 0 := by
  unfold segment
  have h1 : (List.replicate p.W (1 : ℝ)).getD i 0 = 1 := by
    rw [List.getD_eq_getElem _ _ (by simpa using hi)]
    simp
  rw [step_no_overlap p ho, hw, h1, mul_one]

/-- **C65**, rectangular window without overlap: for a whole number of segments the density
integrates to the mean square of the signal. -/
theorem C65_mean_square (p : Params) (h : Valid p) (ha : p.average = .mean) (hfs : p.fs ≠ 0)
    (hw : p.window = List.replicate p.W 1) (ho : p.overlap = 0) (hd : p.detrend = false)
    (n q : ℕ) (hL : n ≠ 1 ∨ 1 < q) (x : ℕ → List ℝ) (c : ℕ)
    (hx : (x c).length = q * p.W) :
    ∃ S, welchSpectrum p .powDensity n (q * p.W) x = .ok S ∧
      ∑ k ∈ range (p.W / 2 + 1), (S k c).re * ((p.fs : ℝ) / p.W) =
        (∑ i ∈ range (q * p.W), (x c).getD i 0 ^ 2) / (q * p.W : ℕ) := by
  have hW := h.pos
  have hL' : n ≠ 1 ∨ p.step < q * p.W := by
    rcases hL with hL | hL
    · exact Or.inl hL
    · right
      rw [step_no_overlap p ho]
      nlinarith
  obtain ⟨S, hS, hv⟩ := C65_psd_power p h ha hfs (by rw [windowEnergy_rect p hw]; exact_mod_cast hW)
    n (q * p.W) hL' x
  refine ⟨S, hS, ?_⟩
  rw [(hv c).2, windowEnergy_rect p hw, meanEnergy, hx, count_no_overlap h ho]
  have h1 : ∑ j ∈ range q, ∑ i ∈ range p.W, detrended p (x c) j i ^ 2 =
      ∑ i ∈ range (q * p.W), (x c).getD i 0 ^ 2 := by
    clear hS hv hL hL' hx
    induction q with
    | zero => simp
    | succ q ih =>
      rw [Finset.sum_range_succ, ih, Nat.succ_mul, Finset.sum_range_add]
      congr 1
      refine Finset.sum_congr rfl fun i hi => ?_
      unfold detrended
      rw [hd, if_neg (by simp), segment_rect hw ho _ _ _ (mem_range.mp hi)]
  rw [h1]
  push_cast
  rw [div_div]

/-- **C65**, power spectrum of a tone on a bin: half the squared amplitude, for every amplitude
and phase. -/
theorem C65_tone_power (p : Params) (h : Valid p) (ha : p.average = .mean)
    (hw : p.window = List.replicate p.W 1) (ho : p.overlap = 0) (hd : p.detrend = false)
    (q : ℕ) (hq : 0 < q) (m : ℕ) (hm : 0 < m) (hm2 : 2 * m < p.W) (A φ : ℝ) (x : List ℝ)
    (hx : x = (List.range (q * p.W)).map fun i : ℕ =>
      A * Real.cos (2 * Real.pi * m * i / p.W + φ)) :
    (welch p .powSpectrum x none m).re = A ^ 2 / 2 := by
  have hW : (p.W : ℝ) ≠ 0 := by exact_mod_cast h.pos.ne'
  have hW0 := h.pos
  have hlen : x.length = q * p.W := by rw [hx]; simp
  rw [welch_power h ha rfl rfl, ofReal_re, spectrum_factor, hlen, count_no_overlap h ho,
    weight_even h.even, if_neg (by have := h.even; omega)]
  have hs : p.window.sum = p.W := by rw [hw]; simp
  have hb : ∀ j ∈ range q, ‖rfft p.W (detrended p x j) m‖ ^ 2 = (A / 2 * p.W) ^ 2 := by
    intro j hj
    have hj' := mem_range.mp hj
    have he : ∀ i < p.W, detrended p x j i =
        A * Real.cos (2 * Real.pi * m * i / p.W + φ) := by
      intro i hi
      unfold detrended
      rw [hd, if_neg (by simp), segment_rect hw ho _ _ _ hi, hx, LFilter.getD_map_range,
        if_pos (by
          have : (j + 1) * p.W ≤ q * p.W := Nat.mul_le_mul_right _ hj'
          rw [Nat.succ_mul] at this
          omega)]
      congr 1
      rw [← Real.cos_add_nat_mul_two_pi (2 * Real.pi * m * i / p.W + φ) (m * j)]
      congr 1
      push_cast
      field_simp
      ring
    rw [rfft_congr p.W _ _ he, rfft_cosine p.W m hm hm2, norm_mul, norm_mul, norm_div,
      Complex.norm_exp]
    simp only [mul_pow, div_pow, norm_real, Real.norm_eq_abs, Complex.norm_natCast, Complex.norm_ofNat,
      sq_abs]
    simp
  rw [Finset.sum_congr rfl hb, hs]
  have hq' : (q : ℝ) ≠ 0 := by exact_mod_cast hq.ne'
  simp only [Finset.sum_const, card_range, nsmul_eq_mul]
  field_simp

/-! ### Normalisations of the transform -/

/-- **C65**, scalings without physical unit: the squares of the two-sided bins sum up to the mean
energy of the segments times the length (backward), once (orthogonal), or divided by the length
(forward). -/
theorem C65_norms (p : Params) (h : Valid p) (ha : p.average = .mean) (s : Scaling)
    (hs : physical s = false) (x : List ℝ) :
    2 * ∑ k ∈ range (p.W / 2 + 1), weight p.W k * ‖welch p s x none k‖ ^ 2 = meanEnergy p x *
      (match s with | .fftForward => 1 / (p.W : ℝ) | .fftOrthogonal => 1 | _ => (p.W : ℝ)) := by
  have hW : (p.W : ℝ) ≠ 0 := by exact_mod_cast h.pos.ne'
  have hamp : s.isAmplitude = true := by cases s <;> simp [physical] at hs <;> rfl
  have hv : ∀ k, ‖welch p s x none k‖ ^ 2 = fftNorm s p.W ^ 2 *
      ((∑ j ∈ range (frameCount p x.length),
        ‖rfft p.W (detrended p x j) k‖ ^ 2) / frameCount p x.length) := by
    intro k
    unfold welch
    rw [averaged_eq h ha]
    unfold welchScale
    dsimp only
    simp only [hs, hamp, Bool.false_eq_true, false_and, if_false, if_true]
    rw [← norm_pow, csqrt_sq,
      Complex.norm_real, Real.norm_eq_abs, abs_of_nonneg (by positivity)]
  simp_rw [hv]
  have h1 : ∀ k ∈ range (p.W / 2 + 1), weight p.W k * (fftNorm s p.W ^ 2 *
      ((∑ j ∈ range (frameCount p x.length),
        ‖rfft p.W (detrended p x j) k‖ ^ 2) / frameCount p x.length)) =
      fftNorm s p.W ^ 2 * (weight p.W k * ((∑ j ∈ range (frameCount p x.length),
        ‖rfft p.W (detrended p x j) k‖ ^ 2) / frameCount p x.length)) := fun k _ => by ring
  rw [Finset.sum_congr rfl h1, ← Finset.mul_sum, energy_sum h]
  cases s <;> simp [physical] at hs
  · simp only [fftNorm]; ring
  · simp only [fftNorm]; field_simp
  · simp only [fftNorm]
    rw [div_pow, Real.sq_sqrt (by positivity)]
    field_simp

/-! ### Detrending -/

theorem rfft_sub_const (N : ℕ) (x : ℕ → ℝ) (c : ℝ) (k : ℕ) (hk : 0 < k) (hkN : k < N) :
    rfft N (fun n => x n - c) k = rfft N x k := by
  unfold rfft dft
  have h1 : ∀ n ∈ range N, ((x n - c : ℝ) : ℂ) * e N (-(k * n)) =
      (x n : ℂ) * e N (-(k * n)) - (c : ℂ) * e N (n * (-(k : ℤ))) := by
    intro n _
    rw [show (-((k : ℤ) * n)) = (n : ℤ) * (-(k : ℤ)) by ring]
    push_cast
    ring
  rw [Finset.sum_congr rfl h1, Finset.sum_sub_distrib, ← Finset.mul_sum, sum_e N (by omega)]
  rw [if_neg, mul_zero, sub_zero]
  intro hd
  rw [dvd_neg] at hd
  have := Nat.le_of_dvd hk (by exact_mod_cast hd)
  omega

/-- **C65**, detrending removes the constant part and nothing else: bin 0 is zero, all other bins
are the same as without detrending. -/
theorem C65_detrend (p : Params) (h : Valid p) (ha : p.average = .mean) (s : Scaling)
    (hs : s.isAmplitude = false) (x : List ℝ) (hd : p.detrend = true) :
    welch p s x none 0 = 0 ∧ ∀ k, 0 < k → k < p.W →
      welch p s x none k = welch { p with detrend := false } s x none k := by
  have hW : (p.W : ℝ) ≠ 0 := by exact_mod_cast h.pos.ne'
  have h' : Valid { p with detrend := false } := h
  have hp : physical s = true := by cases s <;> simp [Scaling.isAmplitude] at hs <;> rfl
  constructor
  · rw [welch_power h ha hp hs]
    have h0 : ∀ j, rfft p.W (detrended p x j) 0 = 0 := by
      intro j
      have h1 : rfft p.W (detrended p x j) 0 = ((∑ i ∈ range p.W, detrended p x j i : ℝ) : ℂ) := by
        unfold rfft dft
        simp [e]
      rw [h1]
      have h2 : ∑ i ∈ range p.W, detrended p x j i = 0 := by
        unfold detrended
        simp only [hd, if_true]
        rw [Finset.sum_sub_distrib, Finset.sum_const, card_range, nsmul_eq_mul, segmentMean]
        field_simp
        ring
      rw [h2]
      simp
    simp [h0]
  · intro k hk hkW
    rw [welch_power h ha hp hs, welch_power (p := { p with detrend := false }) h' ha hp hs]
    have h0 : ∀ j, rfft p.W (detrended p x j) k =
        rfft p.W (detrended { p with detrend := false } x j) k := by
      intro j
      have h1 : detrended p x j = fun i =>
          detrended { p with detrend := false } x j i - segmentMean p x j := by
        funext i
        simp [detrended, hd, segment, Params.step]
      rw [h1, rfft_sub_const _ _ _ _ hk hkW]
    simp only [h0]
    rfl

/-! ### What is wrong -/

/-- **C65**, negation: the power scalings of C65 are not the squares of the amplitude scalings;
the amplitude factor enters under the root. -/
theorem C65_amplitude_factor (p : Params) (h : Valid p) (ha : p.average = .mean) (x : List ℝ)
    (k : ℕ) :
    ‖welch p .ampSpectrum x none k‖ ^ 2 * |factor .ampSpectrum p.W p.fs (some p.window)| =
      (welch p .powSpectrum x none k).re := by
  rw [welch_power (s := .powSpectrum) h ha rfl rfl, ofReal_re]
  unfold welch
  rw [averaged_eq h ha]
  unfold welchScale
  dsimp only
  rw [if_pos (show physical .ampSpectrum = true from rfl), if_pos (show Scaling.isAmplitude .ampSpectrum = true from rfl),
    ← norm_pow, csqrt_sq, fftNorm_physical rfl]
  have hf : factor .powSpectrum p.W p.fs (some p.window) =
      factor .ampSpectrum p.W p.fs (some p.window) ^ 2 := by
    unfold factor
    simp only [Scaling.isDensity, Scaling.isAmplitude, Bool.false_eq_true, if_false, if_true]
    rw [Real.rpow_two]
  rw [hf, weight_even h.even]
  generalize factor .ampSpectrum p.W p.fs (some p.window) = f
  have hnn : 0 ≤ (∑ j ∈ range (frameCount p x.length),
        ‖rfft p.W (detrended p x j) k‖ ^ 2) / (frameCount p x.length : ℝ) := by positivity
  generalize (∑ j ∈ range (frameCount p x.length),
        ‖rfft p.W (detrended p x j) k‖ ^ 2) / (frameCount p x.length : ℝ) = E at hnn ⊢
  by_cases hk : k = 0 ∨ k = p.W / 2
  · rw [if_pos ⟨rfl, hk⟩, if_pos hk, ← ofReal_mul, norm_div, Complex.norm_real, Complex.norm_ofNat,
      Real.norm_eq_abs, abs_mul, abs_of_nonneg (by positivity : (0 : ℝ) ≤ 1 ^ 2 * E), ← sq_abs f]
    ring
  · rw [if_neg (fun hh => hk hh.2), if_neg hk, ← ofReal_mul, Complex.norm_real,
      Real.norm_eq_abs, abs_mul, abs_of_nonneg (by positivity : (0 : ℝ) ≤ 1 ^ 2 * E), ← sq_abs f]
    ring

/-- **C65**, negation: the amplitude spectrum of a tone on a bin is not its RMS value, and grows
with the length of the window. -/
theorem C65_amplitude_wrong (p : Params) (h : Valid p) (ha : p.average = .mean)
    (hw : p.window = List.replicate p.W 1) (ho : p.overlap = 0) (hd : p.detrend = false)
    (q : ℕ) (hq : 0 < q) (m : ℕ) (hm : 0 < m) (hm2 : 2 * m < p.W) (A φ : ℝ) (hA : A ≠ 0)
    (x : List ℝ) (hx : x = (List.range (q * p.W)).map fun i : ℕ =>
      A * Real.cos (2 * Real.pi * m * i / p.W + φ)) :
    ‖welch p .ampSpectrum x none m‖ ^ 2 = (A ^ 2 / 2) * (p.W / Real.sqrt 2) ∧
      ‖welch p .ampSpectrum x none m‖ ≠ |A| / Real.sqrt 2 := by
  have h1 := C65_amplitude_factor p h ha x m
  rw [C65_tone_power p h ha hw ho hd q hq m hm hm2 A φ x hx] at h1
  have hW : (0 : ℝ) < p.W := by exact_mod_cast h.pos
  have hs : p.window.sum = p.W := by rw [hw]; simp
  have hf : factor .ampSpectrum p.W p.fs (some p.window) = Real.sqrt 2 / p.W := by
    unfold factor
    simp only [Scaling.isDensity, Scaling.isAmplitude, Bool.false_eq_true, if_false, if_true]
    rw [hs, Real.sqrt_eq_rpow]
    norm_num
  rw [hf, abs_of_pos (by positivity)] at h1
  have h2 : (0 : ℝ) < Real.sqrt 2 := by positivity
  have h3 : ‖welch p .ampSpectrum x none m‖ ^ 2 = (A ^ 2 / 2) * (p.W / Real.sqrt 2) := by
    rw [← h1]
    field_simp
  refine ⟨h3, fun h4 => ?_⟩
  rw [h4, div_pow, sq_abs, Real.sq_sqrt (by norm_num)] at h3
  have hA2 : 0 < A ^ 2 := by positivity
  have h5 : (p.W : ℝ) / Real.sqrt 2 = 1 := by
    have : (A ^ 2 / 2) * ((p.W : ℝ) / Real.sqrt 2 - 1) = 0 := by linarith
    rcases mul_eq_zero.mp this with h6 | h6
    · linarith
    · linarith
  rw [div_eq_one_iff_eq h2.ne'] at h5
  have h6 : (p.W : ℝ) ^ 2 = 2 := by rw [h5, Real.sq_sqrt (by norm_num)]
  obtain ⟨⟨e, h3e, -, he⟩, -⟩ := h
  have h8 : 2 ^ 3 ≤ p.W := by rw [he]; exact Nat.pow_le_pow_right (by norm_num) h3e
  have : (8 : ℝ) ≤ p.W := by exact_mod_cast h8
  nlinarith

theorem getD_replicate (n : ℕ) (a : ℝ) (i : ℕ) :
    (List.replicate n a).getD i 0 = if i < n then a else 0 := by
  rw [List.getD_eq_getElem?_getD, List.getElem?_replicate]
  split_ifs <;> rfl

/-- Parameters with half overlap. -/
noncomputable def halfOverlap : Params := ⟨8, List.replicate 8 1, 50, false, .mean, 1⟩

theorem halfOverlap_valid : Valid halfOverlap := ⟨⟨3, le_rfl, by norm_num, rfl⟩, by decide⟩

/-- **C65**, negation: the last frame is padded with zeros and counts like the others, so that
with overlap the density of a constant signal integrates to 7/8 of its power. -/
theorem C65_padding_loses_power :
    ∃ S, welchSpectrum halfOverlap .powDensity 1 16 (fun _ => List.replicate 16 1) = .ok S ∧
      ∑ k ∈ range (8 / 2 + 1), (S k 0).re * (((1 : ℕ) : ℝ) / (8 : ℕ)) = 7 / 8 := by
  have he : windowEnergy halfOverlap = 8 := by
    rw [windowEnergy_rect _ rfl]
    simp [halfOverlap]
  obtain ⟨S, hS, hv⟩ := C65_psd_power halfOverlap halfOverlap_valid rfl (by decide)
    (by rw [he]; norm_num) 1 16 (Or.inr (by decide)) (fun _ => List.replicate 16 1)
  refine ⟨S, hS, ?_⟩
  have h1 := (hv 0).2
  rw [he] at h1
  have hc : frameCount halfOverlap (List.replicate 16 (1 : ℝ)).length = 4 := by
    rw [List.length_replicate]
    decide
  rw [show meanEnergy halfOverlap (List.replicate 16 1) = 7 by
    unfold meanEnergy
    rw [hc]
    have hst : halfOverlap.step = 4 := by decide
    have hd : ∀ j i, detrended halfOverlap (List.replicate 16 1) j i =
        (if j * 4 + i < 16 then 1 else 0) * (if i < 8 then 1 else 0) := by
      intro j i
      unfold detrended segment
      rw [hst, show halfOverlap.detrend = false from rfl, if_neg (by simp),
        show halfOverlap.window = List.replicate 8 1 from rfl]
      rw [getD_replicate, getD_replicate]
    simp only [hd, show halfOverlap.W = 8 from rfl]
    norm_num [Finset.sum_range_succ]] at h1
  rw [show (7 : ℝ) / 8 = 7 / 8 from rfl] at h1
  exact h1

theorem insertionSort_replicate (n : ℕ) (a : ℝ) :
    (List.replicate n a).insertionSort (· ≤ ·) = List.replicate n a := by
  refine List.Pairwise.insertionSort_eq ?_
  rw [List.pairwise_replicate]
  exact Or.inr le_rfl

theorem median_replicate (n : ℕ) (hn : 0 < n) (a : ℝ) : median (List.replicate n a) = a := by
  unfold median
  dsimp only
  rw [insertionSort_replicate, List.length_replicate]
  have h : ∀ k < n, (List.replicate n a).getD k 0 = a := by
    intro k hk
    rw [List.getD_eq_getElem _ _ (by simpa using hk)]
    simp
  split_ifs with h1
  · exact h _ (by omega)
  · rw [h _ (by omega), h _ (by omega)]
    ring

/-- **C65**, negation: the correction of the median sums over a single number, so that for a
signal whose (odd number of) segments are all the same the median spectrum is the number of
segments times the mean spectrum. -/
theorem C65_median_wrong (p : Params) (h : Valid p) (hm : p.average = .median) (s : Scaling)
    (hs : s.isAmplitude = false) (x : List ℝ) (k : ℕ)
    (hodd : frameCount p x.length % 2 = 1)
    (hsame : ∀ j < frameCount p x.length, ∀ i < p.W, detrended p x j i = detrended p x 0 i) :
    welch p s x none k =
      frameCount p x.length * welch { p with average := .mean } s x none k := by
  set n := frameCount p x.length with hn
  have hn0 : 0 < n := by omega
  set v : ℝ := fftNorm s p.W ^ 2 * ‖rfft p.W (detrended p x 0) k‖ ^ 2 with hv
  have hprod : products p s x none k = List.replicate n ((v : ℝ) : ℂ) := by
    rw [products_eq h]
    refine List.eq_replicate_iff.mpr ⟨by simp [hn], fun c hc => ?_⟩
    obtain ⟨j, hj, rfl⟩ := List.mem_map.mp hc
    rw [hv, rfft_congr p.W _ _ (hsame j (List.mem_range.mp hj))]
  have hprod' : products { p with average := .mean } s x none k =
      List.replicate n ((v : ℝ) : ℂ) := hprod
  have hsc : ∀ c, welchScale { p with average := .mean } s k c = welchScale p s k c :=
    fun c => rfl
  obtain ⟨a, -, hlin⟩ := welchScale_power p s hs k
  unfold welch
  rw [hsc, hlin, hlin, hprod, hprod', hm]
  have hnc : (n : ℂ) ≠ 0 := by exact_mod_cast hn0.ne'
  have h1 : averaged .median (List.replicate n ((v : ℝ) : ℂ)) = n * v := by
    unfold averaged
    dsimp only
    rw [List.map_replicate, List.map_replicate, ofReal_re, ofReal_im, median_replicate n hn0,
      median_replicate n hn0, List.length_replicate, bias]
    rw [if_pos hodd, Even.neg_one_pow (by
      rw [Nat.even_iff]
      omega)]
    push_cast
    field_simp
    ring
  have h2 : averaged .mean (List.replicate n ((v : ℝ) : ℂ)) = v := by
    unfold averaged
    dsimp only
    rw [List.sum_replicate, List.length_replicate, nsmul_eq_mul]
    field_simp
  rw [h1, h2]
  ring

/-- Concrete case: valid parameters without overlap. -/
example : Valid ⟨8, List.replicate 8 1, 0, false, .mean, 48000⟩ :=
  ⟨⟨3, le_rfl, by norm_num, rfl⟩, by decide⟩

end Verif.CSM
