import Verif.Lemmas.Deconvolution
import Mathlib.Tactic.NormNum

/-!
# C81: spectral deconvolution recovers the impulse response
-/

namespace Verif.Deconv

open Complex Finset DFT Scaling DeconvSpec

/-- Equal spectrum parameters, none of them squaring the spectrum, and a window (if any) that the
scaling can be computed with. -/
structure SameParameters (out inp : Sig) : Prop where
  scaling : out.scaling = inp.scaling
  fast : out.fast = inp.fast
  window : out.window = inp.window
  amplitude : inp.scaling.isAmplitude = true
  rate : 0 < inp.fs
  positive : ∀ l ∈ inp.window, 0 < l.sum ∧ 0 < (l.map (· ^ 2)).sum

/-- Length of the transform. -/
def transformLength (out : Sig) (padding : Bool) : ℕ :=
  if padding then out.data.rows * 2 else out.data.rows

/-- Input channel that belongs to an output channel. -/
def inputChannel (inp : Sig) (c : ℕ) : ℕ := if inp.data.cols = 1 then 0 else c

theorem spectra (out inp : Sig) (padding : Bool) (hrows : out.data.rows = inp.data.rows)
    (h : SameParameters out inp) (hfs : out.fs = inp.fs) (n : ℕ)
    (hn : n = transformLength out padding) (hs : inp.fast = true → BlockFIR.Smooth n) :
    fftSpectrum (prepared inp padding) = .ok (fun c k => gain inp.scaling n inp.fs inp.window k *
      rfft n (sample inp.data c) k) ∧
    fftSpectrum (prepared out padding) = .ok (fun c k => gain inp.scaling n inp.fs inp.window k *
      rfft n (sample out.data c) k) ∧
    fftLength out.fast (prepared out padding).data.rows = n ∧
    fftLength inp.fast (prepared out padding).data.rows = n := by
  have r1 : (prepared inp padding).data.rows = n := by
    rw [prepared_rows, hn, transformLength, hrows]
  have r2 : (prepared out padding).data.rows = n := by
    rw [prepared_rows, hn, transformLength]
  have i1 : (prepared inp padding).scaling = inp.scaling := by cases padding <;> rfl
  have i2 : (prepared inp padding).fast = inp.fast := by cases padding <;> rfl
  have i3 : (prepared inp padding).fs = inp.fs := by cases padding <;> rfl
  have i4 : (prepared inp padding).window = inp.window := by cases padding <;> rfl
  have o1 : (prepared out padding).scaling = inp.scaling := by rw [← h.scaling]; cases padding <;> rfl
  have o2 : (prepared out padding).fast = inp.fast := by rw [← h.fast]; cases padding <;> rfl
  have o3 : (prepared out padding).fs = inp.fs := by rw [← hfs]; cases padding <;> rfl
  have o4 : (prepared out padding).window = inp.window := by rw [← h.window]; cases padding <;> rfl
  have hl := fftLength_eq inp.fast n hs
  refine ⟨?_, ?_, by rw [r2, h.fast, hl], by rw [r2, hl]⟩
  · rw [fftSpectrum_amp _ (by rw [i1]; exact h.amplitude), i1, i2, i3, i4, r1, hl]
    simp only [chan_prepared]
  · rw [fftSpectrum_amp _ (by rw [o1]; exact h.amplitude), o1, o2, o3, o4, r2, hl]
    simp only [chan_prepared]

/-- Standard mode: if each output channel is the circular convolution of its input channel with an
impulse response `h`, and the spectrum of the input has no zero, then exactly `h` is returned. -/
theorem C81_exact_partial (out inp : Sig) (padding keep : Bool) (thr : ℝ) (n : ℕ) (h : ℕ → ℕ → ℝ)
    (hn : n = transformLength out padding) (hpos : 0 < out.data.rows)
    (hrows : out.data.rows = inp.data.rows)
    (hcols : inp.data.cols = 1 ∨ out.data.cols = inp.data.cols) (hfs : out.fs = inp.fs)
    (hp : SameParameters out inp) (hs : inp.fast = true → BlockFIR.Smooth n)
    (hx : ∀ c < out.data.cols, ∀ k ≤ n / 2, bin n (sample inp.data (inputChannel inp c)) k ≠ 0)
    (hy : ∀ c < out.data.cols,
      Circular n (sample inp.data (inputChannel inp c)) (h c) (sample out.data c)) :
    ∃ R, deconvolve out inp false none thr padding keep = .ok R ∧
      R.rows = (if padding = true ∧ keep = false then 2 * out.data.rows else out.data.rows) ∧
      R.cols = out.data.cols ∧ ∀ c < out.data.cols, ∀ j < R.rows, R.val j c = some (h c j) := by
  have hn0 : 0 < n := by rw [hn]; unfold transformLength; split <;> omega
  obtain ⟨hX, hY, l1, l2⟩ := spectra out inp padding hrows hp hfs n hn hs
  have hg := gain_ne_zero inp.scaling n inp.fs inp.window hn0 hp.rate hp.positive
  obtain ⟨R, h1, h2, h3, h4⟩ := deconvolve_of out inp false none thr padding keep
    ⟨hrows, hcols, hfs, Or.inr rfl⟩ _ _ hX hY _ (by
      rw [l1, l2]
      exact loop_standard _ _ _ _ _ (freqs_length n out.fs) _ _ _ _ _)
  refine ⟨R, h1, h2, h3, fun c hc j hj => ?_⟩
  rw [h4 c hc j hj]
  have hrn : (prepared out padding).data.rows = n := by rw [prepared_rows, hn, transformLength]
  have hch : (if (decide (inp.data.cols = 1)) = true then 0 else 0 + c) = inputChannel inp c := by
    unfold inputChannel
    by_cases h1 : inp.data.cols = 1 <;> simp [h1]
  rw [hch, hrn, Nat.zero_add]
  unfold backBins
  have hx' : ∀ k, 2 * k ≤ n → rfft n (sample inp.data (inputChannel inp c)) k ≠ 0 := by
    intro k hk
    rw [← bin_eq]
    exact hx c hc k (by omega)
  rw [if_pos (fun k _ hk => mul_ne_zero (hg k) (hx' k hk)), Option.map_some]
  congr 1
  have hjn : j < n := by
    rw [h2] at hj
    rw [hn]
    unfold transformLength
    cases padding <;> cases keep <;> simp at hj ⊢ <;> omega
  refine irfft_of_rfft n _ (by unfold rfftBins; omega) (h c) _ (fun k hk => ?_) j hjn
  dsimp only
  rw [rfft_conv n _ (h c) _ (hy c hc) k (by omega), mul_div_mul_left _ _ (hg k),
    mul_div_cancel_left₀ _ (hx' k hk)]

/-- A convolution that fits into the signal is also a circular one. -/
theorem circular_of_linear (n M L : ℕ) (x h y : ℕ → ℝ) (hx : ∀ j, M ≤ j → x j = 0)
    (hh : ∀ m, L ≤ m → h m = 0) (hML : M + L ≤ n + 1) (hy : Linear n x h y) : Circular n x h y := by
  intro j hj
  rw [hy j hj]
  have h1 : ∑ m ∈ range n, h m * x ((j + n - m) % n) =
      ∑ m ∈ range (j + 1), h m * x ((j + n - m) % n) := by
    symm
    refine sum_subset (fun m hm => ?_) (fun m hm hm' => ?_)
    · simp only [mem_range] at hm ⊢
      omega
    · simp only [mem_range] at hm hm'
      by_cases hL : L ≤ m
      · rw [hh m hL, zero_mul]
      · rw [Nat.mod_eq_of_lt (by omega), hx _ (by omega), mul_zero]
  rw [h1]
  refine sum_congr rfl fun m hm => ?_
  have : m ≤ j := by simpa [Nat.lt_succ_iff] using hm
  congr 2
  rw [show j + n - m = (j - m) + n by omega, Nat.add_mod_right, Nat.mod_eq_of_lt (by omega)]

/-- Recording of a system: an input that is over early enough for the response to end within the
recording.  Both with and without padding the response of the system is returned. -/
theorem C81_recording_partial (out inp : Sig) (padding keep : Bool) (thr : ℝ) (M L : ℕ)
    (h : ℕ → ℕ → ℝ) (hpos : 0 < out.data.rows)
    (hrows : out.data.rows = inp.data.rows)
    (hcols : inp.data.cols = 1 ∨ out.data.cols = inp.data.cols) (hfs : out.fs = inp.fs)
    (hp : SameParameters out inp)
    (hs : inp.fast = true → BlockFIR.Smooth (transformLength out padding))
    (hx : ∀ c < out.data.cols, ∀ k ≤ transformLength out padding / 2,
      bin (transformLength out padding) (sample inp.data (inputChannel inp c)) k ≠ 0)
    (hM : ∀ c j, M ≤ j → sample inp.data c j = 0) (hL : ∀ c m, L ≤ m → h c m = 0)
    (hML : M + L ≤ out.data.rows + 1)
    (hy : ∀ c < out.data.cols,
      Linear out.data.rows (sample inp.data (inputChannel inp c)) (h c) (sample out.data c)) :
    ∃ R, deconvolve out inp false none thr padding keep = .ok R ∧
      R.rows = (if padding = true ∧ keep = false then 2 * out.data.rows else out.data.rows) ∧
      R.cols = out.data.cols ∧ ∀ c < out.data.cols, ∀ j < R.rows, R.val j c = some (h c j) := by
  refine C81_exact_partial out inp padding keep thr _ h rfl hpos hrows hcols hfs hp hs hx ?_
  intro c hc
  have hN : out.data.rows ≤ transformLength out padding := by
    unfold transformLength; split <;> omega
  refine circular_of_linear _ M L _ _ _ (hM _) (hL c) (by omega) ?_
  intro j hj
  by_cases hj' : j < out.data.rows
  · exact hy c hc j hj'
  · have h0 : sample out.data c j = 0 := by
      unfold sample
      rw [if_neg hj']
    rw [h0, sum_eq_zero]
    intro m hm
    by_cases hm' : L ≤ m
    · rw [hL c m hm', zero_mul]
    · rw [hM _ _ (by omega), mul_zero]

/-- Transforms of real signals are real at the bins 0 and `n / 2`. -/
theorem rfft_real (n : ℕ) (hn : n ≠ 0) (x : ℕ → ℝ) (k : ℕ) (h : k = 0 ∨ 2 * k = n) :
    (starRingEnd ℂ) (rfft n x k) = rfft n x k := by
  rcases h with h | h
  · subst h
    exact rfft_zero_conj n x
  · rw [← rfft_mirror n hn x k (by omega)]
    congr 1
    omega

theorem gain_real (s : Scaling) (F fs : ℕ) (w : Option (List ℝ)) (k : ℕ) :
    (starRingEnd ℂ) (gain s F fs w k) = gain s F fs w k := by
  unfold gain
  split_ifs <;> simp [conj_ofReal]

/-- Bin `k` of the regularized result. -/
theorem regBins_bin (n : ℕ) (hn : 0 < n) (g : ℕ → ℂ) (hg : ∀ k, (starRingEnd ℂ) (g k) = g k)
    (x y : ℕ → ℝ) (eps : List ℝ)
    (hne : ∀ k ≤ n / 2, ‖g k * rfft n x k‖ ^ 2 + eps.getD k 0 ≠ 0) :
    ∃ r, regBins (rfftBins n) n (fun k => g k * rfft n y k) (fun k => g k * rfft n x k) eps = some r ∧
      ∀ k ≤ n / 2, bin n r k = (g k * rfft n y k) * (starRingEnd ℂ) (g k * rfft n x k) /
        ((‖g k * rfft n x k‖ ^ 2 + eps.getD k 0 : ℝ) : ℂ) := by
  unfold regBins backBins
  rw [if_pos]
  swap
  · intro k _ hk
    dsimp only
    exact_mod_cast hne k (by omega)
  refine ⟨_, rfl, fun k hk => ?_⟩
  have hkM : k < rfftBins n := by unfold rfftBins; omega
  rw [bin_eq]
  by_cases hk0 : n = k
  · have : n = 0 := by omega
    omega
  rw [rfft_irfft n _ _ k (by omega)]
  have hre : ∀ k, k = 0 ∨ 2 * k = n →
      ((((g k * rfft n y k) * (starRingEnd ℂ) (g k * rfft n x k) /
        ((‖g k * rfft n x k‖ ^ 2 + eps.getD k 0 : ℝ) : ℂ)).re : ℝ) : ℂ) =
      (g k * rfft n y k) * (starRingEnd ℂ) (g k * rfft n x k) /
        ((‖g k * rfft n x k‖ ^ 2 + eps.getD k 0 : ℝ) : ℂ) := by
    intro k h
    refine Complex.conj_eq_iff_re.1 ?_
    rw [map_div₀, conj_ofReal]
    simp only [map_mul, hg, rfft_real n hn.ne' _ k h]
  unfold herm
  split
  · rename_i h
    subst h
    dsimp only
    rw [if_pos hkM]
    exact hre 0 (Or.inl rfl)
  · split
    · dsimp only
      rw [if_pos hkM]
    · rw [if_pos (by omega)]
      dsimp only
      rw [if_pos hkM]
      exact hre k (Or.inr (by omega))

/-- Regularized mode with the range `[p, q, r, s]`: the result is a number as soon as the input has
no spectral zero in the inner range (and half a bin around it).  Inside the inner range the spectrum
of the result is the quotient of the spectra; everywhere it is at most as large; and outside the
outer range it is bounded by the output alone, however small the input is. -/
theorem C81_regularised_partial (out inp : Sig) (padding keep : Bool) (thr : ℝ) (n : ℕ) (p q r s : ℝ)
    (hn : n = transformLength out padding) (hpos : 0 < out.data.rows)
    (hrows : out.data.rows = inp.data.rows)
    (hcols : inp.data.cols = 1 ∨ out.data.cols = inp.data.cols) (hfs : out.fs = inp.fs)
    (hp : SameParameters out inp) (hs : inp.fast = true → BlockFIR.Smooth n)
    (h0 : 0 ≤ p) (hpq : p ≤ q) (hqr : q ≤ r) (hrs : r ≤ s) (hr : r ≤ (out.fs : ℝ) / 2)
    (hx : ∀ c < out.data.cols, ∀ k ≤ n / 2, q - out.fs / n / 2 ≤ (k : ℝ) * out.fs / n →
      (k : ℝ) * out.fs / n ≤ r + out.fs / n / 2 →
      bin n (sample inp.data (inputChannel inp c)) k ≠ 0) :
    ∃ R, deconvolve out inp true (some [p, q, r, s]) thr padding keep = .ok R ∧
      R.rows = (if padding = true ∧ keep = false then 2 * out.data.rows else out.data.rows) ∧
      R.cols = out.data.cols ∧ ∀ c < out.data.cols, ∃ g : ℕ → ℝ,
        (∀ j < R.rows, R.val j c = some (g j)) ∧
        ∀ k ≤ n / 2,
          (q ≤ (k : ℝ) * out.fs / n → (k : ℝ) * out.fs / n + out.fs / n / 2 < r →
            bin n g k =
              bin n (sample out.data c) k / bin n (sample inp.data (inputChannel inp c)) k) ∧
          ‖bin n g k * bin n (sample inp.data (inputChannel inp c)) k‖ ≤
            ‖bin n (sample out.data c) k‖ ∧
          (inp.scaling = .fftBackward →
            (k : ℝ) * out.fs / n < p - out.fs / n / 2 ∨ s + out.fs / n / 2 < (k : ℝ) * out.fs / n →
            ‖bin n g k‖ ≤ ‖bin n (sample out.data c) k‖ / (2 * Real.sqrt (10 ^ (30 / 20 : ℝ)))) := by
  have hn0 : 0 < n := by rw [hn]; unfold transformLength; split <;> omega
  have hof : 0 < out.fs := by rw [hfs]; exact hp.rate
  obtain ⟨hX, hY, l1, l2⟩ := spectra out inp padding hrows hp hfs n hn hs
  have hg := gain_ne_zero inp.scaling n inp.fs inp.window hn0 hp.rate hp.positive
  obtain ⟨eps, he, hspec⟩ := epsilon_spec n out.fs hn0 hof p q r s hpq hqr hrs h0 hr
  obtain ⟨R, h1, h2, h3, h4⟩ := deconvolve_of out inp true (some [p, q, r, s]) thr padding keep
    ⟨hrows, hcols, hfs, Or.inl rfl⟩ _ _ hX hY _ (by
      rw [l1, l2]
      exact loop_regularized _ _ _ _ _ (freqs_length n out.fs) _ _ _ _ _ _ p q r s rfl eps he)
  refine ⟨R, h1, h2, h3, fun c hc => ?_⟩
  have hrn : (prepared out padding).data.rows = n := by rw [prepared_rows, hn, transformLength]
  have hch : (if (decide (inp.data.cols = 1)) = true then 0 else 0 + c) = inputChannel inp c := by
    unfold inputChannel
    by_cases h1 : inp.data.cols = 1 <;> simp [h1]
  set x := sample inp.data (inputChannel inp c) with hxdef
  set y := sample out.data c with hydef
  set γ := gain inp.scaling n inp.fs inp.window with hγ
  have hkM : ∀ k ≤ n / 2, k < rfftBins n := fun k hk => by unfold rfftBins; omega
  have hne : ∀ k ≤ n / 2, 0 < ‖γ k * rfft n x k‖ ^ 2 + eps.getD k 0 := by
    intro k hk
    obtain ⟨e0, -, -, e3, -⟩ := hspec k (hkM k hk)
    rcases e0.eq_or_lt with he0 | he0
    · have := e3 he0.symm
      have hxk := hx c hc k hk this.1 this.2
      rw [bin_eq] at hxk
      have := norm_pos_iff.2 (mul_ne_zero (hg k) hxk)
      rw [← he0]
      positivity
    · positivity
  obtain ⟨g, hg1, hg2⟩ := regBins_bin n hn0 γ (gain_real _ _ _ _) x y eps
    (fun k hk => (hne k hk).ne')
  refine ⟨g, fun j hj => ?_, fun k hk => ?_⟩
  · rw [h4 c hc j hj, hch, hrn, Nat.zero_add]
    simp only [← hxdef, ← hydef, hg1, Option.map_some]
  · obtain ⟨e0, e1, e2, e3, e4⟩ := hspec k (hkM k hk)
    rw [hg2 k hk, bin_eq, bin_eq]
    have hnorm : ‖γ k * rfft n y k * (starRingEnd ℂ) (γ k * rfft n x k) /
        ((‖γ k * rfft n x k‖ ^ 2 + eps.getD k 0 : ℝ) : ℂ)‖ =
        ‖γ k‖ * ‖rfft n y k‖ * (‖γ k‖ * ‖rfft n x k‖) /
          ((‖γ k‖ * ‖rfft n x k‖) ^ 2 + eps.getD k 0) := by
      rw [norm_div, norm_mul, norm_real, Real.norm_of_nonneg (hne k hk).le, RCLike.norm_conj,
        norm_mul, norm_mul]
    have hd := hne k hk
    rw [norm_mul] at hd
    refine ⟨fun hq hr' => ?_, ?_, fun hsc hout => ?_⟩
    · have hz := e2 hq hr'
      rw [hz, add_zero]
      have hs2 : (0 : ℝ) ≤ out.fs / n / 2 := by positivity
      have hxk := hx c hc k hk (by linarith) (by linarith)
      rw [bin_eq] at hxk
      have hw := mul_ne_zero (hg k) hxk
      rw [← Complex.normSq_eq_norm_sq, ← Complex.mul_conj,
        mul_div_mul_right _ _ (by simpa using hw), mul_div_mul_left _ _ (hg k)]
    · rw [norm_mul, hnorm, div_mul_eq_mul_div, div_le_iff₀ hd]
      have a1 := norm_nonneg (γ k)
      have a2 := norm_nonneg (rfft n y k)
      have a3 := norm_nonneg (rfft n x k)
      have : 0 ≤ ‖rfft n y k‖ * eps.getD k 0 := by positivity
      nlinarith
    · have hγ1 : ‖γ k‖ = 1 := by
        rw [hγ, hsc]
        simp [gain, CSM.fftNorm, CSM.physical]
      have hmax := e4 hout
      have hsq : Real.sqrt epsMax ^ 2 = epsMax := Real.sq_sqrt epsMax_pos.le
      have hsp : 0 < Real.sqrt epsMax := Real.sqrt_pos.2 epsMax_pos
      change _ ≤ _ / (2 * Real.sqrt epsMax)
      rw [hnorm, hγ1, one_mul, one_mul, hmax, div_le_div_iff₀ (by
        have := epsMax_pos; positivity) (by positivity)]
      have key : ‖rfft n x k‖ * (2 * Real.sqrt epsMax) ≤ ‖rfft n x k‖ ^ 2 + epsMax := by
        nlinarith [sq_nonneg (‖rfft n x k‖ - Real.sqrt epsMax)]
      rw [mul_assoc]
      exact mul_le_mul_of_nonneg_left key (norm_nonneg _)

/-- What does not fit together is refused. -/
theorem C81_refused (out inp : Sig) (reg : Bool) (v : Option (List ℝ)) (thr : ℝ)
    (padding keep : Bool)
    (h : out.data.rows ≠ inp.data.rows ∨ (inp.data.cols ≠ 1 ∧ out.data.cols ≠ inp.data.cols) ∨
      out.fs ≠ inp.fs ∨ (reg = false ∧ v.isSome = true)) :
    deconvolve out inp reg v thr padding keep = .error .assertionError := by
  unfold deconvolve
  by_cases h1 : out.data.rows ≠ inp.data.rows
  · rw [if_pos h1]
  rw [if_neg h1]
  by_cases h2 : inp.data.cols ≠ 1 ∧ out.data.cols ≠ inp.data.cols
  · rw [if_pos h2]
  rw [if_neg h2]
  by_cases h3 : out.fs ≠ inp.fs
  · rw [if_pos h3]
  rw [if_neg h3]
  by_cases h4 : reg = false ∧ v.isSome = true
  · rw [if_pos h4]
  exfalso
  rcases h with h | h | h | h
  · exact h1 h
  · exact h2 h
  · exact h3 h
  · exact h4 h

/-- Two frequencies are completed by flanks of half an octave, the upper one up to half the sampling rate; four
frequencies are taken as they are, other numbers are refused. -/
theorem C81_range (l : List ℝ) (X : ℕ → ℂ) (f : List ℝ) (fs : ℕ) (thr : ℝ) :
    (∀ a b, l = [a, b] → ∃ p s, nextRange (some l) X f fs thr = .ok [p, a, b, s] ∧ p * Real.sqrt 2 = a ∧
      s ≤ fs / 2 ∧ (b * Real.sqrt 2 ≤ fs / 2 → s = b * Real.sqrt 2) ∧ (fs / 2 ≤ b * Real.sqrt 2 → s = fs / 2)) ∧
    (l.length = 4 → nextRange (some l) X f fs thr = .ok l) ∧
    (l.length ≠ 2 → l.length ≠ 4 → nextRange (some l) X f fs thr = .error .valueError) := by
  refine ⟨?_, ?_, ?_⟩
  · rintro a b rfl
    refine ⟨a / Real.sqrt 2, min (b * Real.sqrt 2) (fs / 2), rfl, div_mul_cancel₀ _ (by positivity),
      min_le_right _ _, fun h => min_eq_left h, fun h => min_eq_right h⟩
  · intro h
    obtain ⟨a, b, c, d, rfl⟩ := List.length_eq_four.1 h
    rfl
  · intro h2 h4
    unfold nextRange
    match l, h2, h4 with
    | [], _, _ => rfl
    | [a], _, _ => rfl
    | [a, b], h, _ => exact absurd rfl h
    | [a, b, c], _, _ => rfl
    | [a, b, c, d], _, h => exact absurd rfl h
    | a :: b :: c :: d :: e :: l, _, _ => rfl

end Verif.Deconv
