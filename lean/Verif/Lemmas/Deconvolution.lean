import Verif.Model.Deconvolution
import Verif.Lemmas.IDFT
import Verif.Lemmas.TukeyWindow
import Verif.Props.C45
import Verif.Spec.Deconvolution
import Mathlib.Data.List.GetD
import Mathlib.Tactic.FieldSimp
import Mathlib.Tactic.LinearCombination
import Mathlib.Tactic.Positivity

/-! Lemmas about deconvolution. -/

namespace Verif.Deconv

open Complex Finset DFT Scaling

/-! ### The inverse transform of real signals of any length -/

theorem herm_of_mirror (n : ℕ) (Y : ℕ → ℂ) (hY0 : (starRingEnd ℂ) (Y 0) = Y 0)
    (hY : ∀ k ≤ n, Y (n - k) = (starRingEnd ℂ) (Y k)) (k : ℕ) (hk : k < n) :
    herm n Y k = Y k := by
  unfold herm
  split
  · rename_i h
    subst h
    exact Complex.conj_eq_iff_re.1 hY0
  · split
    · rfl
    · split
      · rename_i h1 h2 h3
        refine Complex.conj_eq_iff_re.1 ?_
        rw [← hY k hk.le]
        congr 1
        omega
      · have := hY (n - k) (by omega)
        rw [← this]
        congr 1
        omega

/-- Only the bins up to `n / 2` matter. -/
theorem herm_congr (n : ℕ) (X Y : ℕ → ℂ) (h : ∀ k, 2 * k ≤ n → X k = Y k) (k : ℕ) (hk : k < n) :
    herm n X k = herm n Y k := by
  unfold herm
  split
  · rw [h 0 (by omega)]
  · split
    · exact h k (by omega)
    · split
      · rw [h k (by omega)]
      · rw [h (n - k) (by omega)]

/-- Bins that are the transform of a real signal give this signal. -/
theorem irfft_of_rfft (n M : ℕ) (hM : n / 2 < M) (h : ℕ → ℝ) (X : ℕ → ℂ)
    (hX : ∀ k, 2 * k ≤ n → X k = rfft n h k) (j : ℕ) (hj : j < n) : irfft n M X j = h j := by
  have hn : n ≠ 0 := by omega
  unfold irfft
  have : ∀ k ∈ range n, herm n (fun k => if k < M then X k else 0) k * e n (k * j)
      = rfft n h k * e n (k * j) := by
    intro k hk
    rw [herm_congr n _ (rfft n h) _ k (mem_range.1 hk),
      herm_of_mirror n _ (rfft_zero_conj n h) (fun k hk => rfft_mirror n hn h k hk) k
        (mem_range.1 hk)]
    intro k hk
    rw [if_pos (by omega), hX k hk]
  rw [sum_congr rfl this]
  have h2 := Transforms.ifft_dft n (fun m => (h m : ℂ)) j hj
  unfold Transforms.ifft at h2
  unfold rfft
  rw [h2, ofReal_re]

/-- The full spectrum of bins that are real where the transform of a real signal has to be. -/
theorem herm_mirror (n : ℕ) (X : ℕ → ℂ) (k : ℕ) (hk : k < n) :
    herm n X (Transforms.mirror n k) = (starRingEnd ℂ) (herm n X k) := by
  unfold Transforms.mirror
  by_cases h0 : k = 0
  · subst h0
    simp [herm]
  rw [if_neg h0]
  unfold herm
  rw [if_neg (by omega), if_neg h0]
  by_cases h1 : 2 * k < n
  · rw [if_neg (by omega), if_neg (by omega), if_pos h1]
    congr 2
    omega
  · by_cases h2 : 2 * k = n
    · rw [if_neg (by omega), if_pos (by omega), if_neg h1, if_pos h2, conj_ofReal]
      congr 3
      omega
    · rw [if_pos (by omega), if_neg h1, if_neg h2, conj_conj]

/-- Transform of the signal returned by the inverse transform. -/
theorem rfft_irfft (n M : ℕ) (X : ℕ → ℂ) (k : ℕ) (hk : k < n) :
    rfft n (irfft n M X) k = herm n (fun k => if k < M then X k else 0) k := by
  have hr : ∀ j, ((irfft n M X j : ℝ) : ℂ) =
      Transforms.ifft n (herm n (fun k => if k < M then X k else 0)) j := by
    intro j
    refine (Complex.conj_eq_iff_re.1 ?_)
    change (starRingEnd ℂ) (Transforms.ifft n (herm n (fun k => if k < M then X k else 0)) j) =
      Transforms.ifft n (herm n (fun k => if k < M then X k else 0)) j
    rw [Transforms.conj_ifft]
    refine Transforms.ifft_congr n _ _ (fun k hk => ?_) j
    rw [herm_mirror n _ k hk, conj_conj]
  unfold rfft
  simp_rw [hr]
  exact Transforms.dft_ifft n _ k hk

/-- Transform of a circular convolution. -/
theorem rfft_conv (N : ℕ) (x h y : ℕ → ℝ)
    (hy : ∀ n < N, y n = ∑ m ∈ range N, h m * x ((n + N - m) % N)) (k : ℕ) (hk : k < N) :
    rfft N y k = rfft N x k * rfft N h k := by
  have hN : N ≠ 0 := by omega
  have h1 : ∀ n ∈ range N, (y n : ℂ) =
      Transforms.ifft N (fun k => rfft N x k * rfft N h k) n := by
    intro n hn
    unfold Transforms.ifft rfft
    rw [idft_mul N hN _ _ n, hy n (mem_range.1 hn)]
    push_cast
    rfl
  rw [← Transforms.dft_ifft N (fun k => rfft N x k * rfft N h k) k hk]
  unfold rfft dft
  refine sum_congr rfl fun n hn => ?_
  dsimp only
  rw [h1 n hn]
  rfl

/-! ### The spectrum of a signal -/

/-- What a scaling that keeps complex values multiplies bin `k` with. -/
noncomputable def gain (s : Scaling) (F fs : ℕ) (w : Option (List ℝ)) (k : ℕ) : ℂ :=
  (CSM.fftNorm s F : ℝ) * (if CSM.physical s then
    (if k = 0 then 1 / (((2 : ℝ) ^ (0.5 : ℝ) : ℝ) : ℂ) else 1) *
    (if F % 2 = 0 ∧ k = rfftBins F - 1 then 1 / (((2 : ℝ) ^ (0.5 : ℝ) : ℝ) : ℂ) else 1) *
    (factor s F fs w : ℝ) else 1)

/-- Channel `c`, as it enters the transform. -/
def chan (A : Mat ℝ) (c j : ℕ) : ℝ := if j < A.rows then A.val j c else 0

theorem bins_ok (F : ℕ) : F = (rfftBins F - 1) * 2 ∨ F = rfftBins F * 2 - 1 := by
  unfold rfftBins
  omega

theorem scale_ok (F : ℕ) (X : ℕ → ℂ) (s : Scaling) (fs : ℕ) (w : Option (List ℝ)) :
    scaleSpectrum (rfftBins F) X s F fs w = .ok fun k =>
      (if s.isAmplitude then edgeFix (rfftBins F) X F k
        else ((‖edgeFix (rfftBins F) X F k‖ ^ 2 : ℝ) : ℂ)) * (factor s F fs w : ℝ) := by
  unfold scaleSpectrum
  rw [if_pos (bins_ok F)]

/-- Without squaring, the spectrum is the transform times a gain that only depends on the
parameters. -/
theorem fftSpectrum_amp (s : Sig) (ha : s.scaling.isAmplitude = true) :
    fftSpectrum s = .ok fun c k => gain s.scaling (fftLength s.fast s.data.rows) s.fs s.window k *
      rfft (fftLength s.fast s.data.rows) (chan s.data c) k := by
  unfold fftSpectrum
  dsimp only
  by_cases hp : CSM.physical s.scaling = true
  · rw [if_pos hp]
    simp only [scale_ok, ha, if_true]
    congr 1
    funext c k
    unfold gain edgeFix
    rw [if_pos hp]
    dsimp only
    have hc : (fun j => if j < s.data.rows then s.data.val j c else 0) = chan s.data c := rfl
    rw [hc]
    split_ifs <;> ring
  · rw [if_neg hp]
    congr 1
    funext c k
    unfold gain
    rw [if_neg hp, mul_one]
    rfl

/-- Squared: the squared magnitude of the transform times a non-negative gain. -/
theorem fftSpectrum_pow (s : Sig) (ha : s.scaling.isAmplitude = false) :
    ∃ g : ℕ → ℝ, (∀ k, g k = (if k = 0 then 1 / 2 else 1) *
      (if fftLength s.fast s.data.rows % 2 = 0 ∧
        k = rfftBins (fftLength s.fast s.data.rows) - 1 then 1 / 2 else 1) *
      factor s.scaling (fftLength s.fast s.data.rows) s.fs s.window) ∧
    fftSpectrum s = .ok fun c k =>
      ((g k * ‖rfft (fftLength s.fast s.data.rows) (chan s.data c) k‖ ^ 2 : ℝ) : ℂ) := by
  refine ⟨_, fun k => rfl, ?_⟩
  have hp : CSM.physical s.scaling = true := by
    cases h : s.scaling <;> simp_all [Scaling.isAmplitude, CSM.physical]
  have hn : CSM.fftNorm s.scaling (fftLength s.fast s.data.rows) = 1 := by
    cases h : s.scaling <;> simp_all [Scaling.isAmplitude, CSM.fftNorm]
  have h2 : ‖(((2 : ℝ) ^ (0.5 : ℝ) : ℝ) : ℂ)‖ ^ 2 = 2 := by
    rw [Complex.norm_real, Real.norm_of_nonneg (by positivity), ← Real.rpow_natCast,
      ← Real.rpow_mul (by norm_num)]
    norm_num
  unfold fftSpectrum
  dsimp only
  rw [if_pos hp]
  simp only [scale_ok, ha]
  congr 1
  funext c k
  have hc : (fun j => if j < s.data.rows then s.data.val j c else 0) = chan s.data c := rfl
  rw [hc, hn]
  unfold edgeFix
  dsimp only
  simp only [Bool.false_eq_true, if_false, ofReal_one, one_mul]
  rw [← ofReal_mul]
  congr 1
  split_ifs <;> (try simp only [norm_div, div_pow, h2]) <;> ring

end Verif.Deconv

namespace Verif.Deconv

open Complex Finset DFT Scaling DeconvSpec

theorem bin_eq (n : ℕ) (x : ℕ → ℝ) (k : ℕ) : bin n x k = rfft n x k := by
  unfold bin rfft dft e
  refine sum_congr rfl fun j _ => ?_
  congr 2
  push_cast
  ring

theorem bin_congr (n : ℕ) (x y : ℕ → ℝ) (h : ∀ j < n, x j = y j) (k : ℕ) : bin n x k = bin n y k := by
  unfold bin
  exact sum_congr rfl fun j hj => by rw [h j (mem_range.1 hj)]

theorem gain_ne_zero (s : Scaling) (F fs : ℕ) (w : Option (List ℝ)) (hF : 0 < F) (hfs : 0 < fs)
    (hw : ∀ l ∈ w, 0 < l.sum ∧ 0 < (l.map (· ^ 2)).sum) (k : ℕ) : gain s F fs w k ≠ 0 := by
  have hF' : (0 : ℝ) < F := by exact_mod_cast hF
  have hfs' : (0 : ℝ) < fs := by exact_mod_cast hfs
  have h2 : ((((2 : ℝ) ^ (0.5 : ℝ) : ℝ)) : ℂ) ≠ 0 := by
    rw [Ne, ofReal_eq_zero]
    positivity
  have hn : CSM.fftNorm s F ≠ 0 := by
    unfold CSM.fftNorm
    split
    · positivity
    · have := Real.sqrt_pos.2 hF'
      positivity
    · norm_num
  have hf : CSM.physical s = true → factor s F fs w ≠ 0 := by
    intro hp
    cases w with
    | none =>
      cases s <;> simp [CSM.physical] at hp <;> simp only [factor, Scaling.isDensity,
        Scaling.isAmplitude, if_true, if_false, Bool.false_eq_true] <;> positivity
    | some l =>
      obtain ⟨h1, h3⟩ := hw l rfl
      cases s <;> simp [CSM.physical] at hp <;> simp only [factor, Scaling.isDensity,
        Scaling.isAmplitude, if_true, if_false, Bool.false_eq_true] <;> positivity
  unfold gain
  refine mul_ne_zero (by exact_mod_cast hn) ?_
  split_ifs with hp h0 hl hl
  · exact mul_ne_zero (mul_ne_zero (by simpa using h2) (by simpa using h2)) (by exact_mod_cast hf hp)
  · exact mul_ne_zero (mul_ne_zero (by simpa using h2) one_ne_zero) (by exact_mod_cast hf hp)
  · exact mul_ne_zero (mul_ne_zero one_ne_zero (by simpa using h2)) (by exact_mod_cast hf hp)
  · exact mul_ne_zero (mul_ne_zero one_ne_zero one_ne_zero) (by exact_mod_cast hf hp)
  · exact one_ne_zero

theorem fftLength_eq (fast : Bool) (n : ℕ) (h : fast = true → BlockFIR.Smooth n) :
    fftLength fast n = n := by
  unfold fftLength
  split
  · rename_i hf
    classical
    unfold BlockFIR.nextFastLen
    exact (Nat.find_eq_iff _).2 ⟨⟨h hf, le_rfl⟩, fun m hm hc => absurd hc.2 (by omega)⟩
  · rfl

theorem freqs_length (F fs : ℕ) : (freqs F fs).length = rfftBins F := by simp [freqs]

theorem loop_standard (M : ℕ) (Y X : ℕ → ℕ → ℂ) (single : Bool) (f : List ℝ) (hf : f.length = M)
    (fs len : ℕ) (thr : ℝ) (todo n : ℕ) :
    loop M M Y X single false f fs len thr todo n none = .ok ((List.range todo).map fun c =>
      backBins M len (Y (n + c)) (X (if single then 0 else n + c))) := by
  induction todo generalizing n with
  | zero => rfl
  | succ t ih =>
    unfold loop
    simp only [Bool.false_eq_true, if_false]
    unfold backend
    rw [if_neg (by simp [hf])]
    simp only [ih (n + 1)]
    rw [List.range_succ_eq_map, List.map_cons, List.map_map]
    congr 2
    refine List.map_congr_left fun c _ => ?_
    simp only [Function.comp, Nat.add_assoc, Nat.add_comm 1 c]

/-- What the regularized mode makes of the bins of one channel. -/
noncomputable def regBins (M n : ℕ) (Y X : ℕ → ℂ) (eps : List ℝ) : Option (ℕ → ℝ) :=
  backBins M n (fun k => Y k * (starRingEnd ℂ) (X k)) fun k => ((‖X k‖ ^ 2 + eps.getD k 0 : ℝ) : ℂ)

theorem loop_regularized (M : ℕ) (Y X : ℕ → ℕ → ℂ) (single : Bool) (f : List ℝ)
    (hf : f.length = M) (fs len : ℕ) (thr : ℝ) (todo n : ℕ) (v : Option (List ℝ)) (p q r s : ℝ)
    (hv : nextRange v (X (if single then 0 else n)) f fs thr = .ok [p, q, r, s])
    (eps : List ℝ) (he : epsilon [p, q, r, s] f = .ok eps) :
    loop M M Y X single true f fs len thr todo n v = .ok ((List.range todo).map fun c =>
      regBins M len (Y (n + c)) (X (if single then 0 else n + c)) eps) := by
  induction todo generalizing n v with
  | zero => rfl
  | succ t ih =>
    unfold loop
    dsimp only
    rw [hv]
    simp only [if_true, Except.map]
    unfold backend
    rw [if_neg (by simp [hf])]
    simp only [he]
    rw [ih (n + 1) (some [p, q, r, s]) rfl]
    dsimp only
    rw [List.range_succ_eq_map, List.map_cons, List.map_map]
    congr 2
    refine List.map_congr_left fun c _ => ?_
    simp only [Function.comp, Nat.add_assoc, Nat.add_comm 1 c]

/-- The signal that is transformed. -/
def prepared (s : Sig) (padding : Bool) : Sig :=
  if padding then { s with data := padded s.data 0 (s.data.rows * 2) } else s

theorem chan_prepared (s : Sig) (padding : Bool) (c : ℕ) :
    chan (prepared s padding).data c = sample s.data c := by
  funext j
  unfold chan prepared sample padded
  cases padding
  · rfl
  · simp only [if_true]
    by_cases h : j < s.data.rows
    · rw [if_pos h, if_pos (by omega)]
    · simp [h]

theorem prepared_rows (s : Sig) (padding : Bool) :
    (prepared s padding).data.rows = if padding then s.data.rows * 2 else s.data.rows := by
  cases padding <;> rfl

/-- What `spectral_deconvolve` needs: equal lengths and sampling rates, one input channel or as many
as output channels, and no range in the standard mode. -/
structure Accepted (out inp : Sig) (reg : Bool) (v : Option (List ℝ)) : Prop where
  rows : out.data.rows = inp.data.rows
  cols : inp.data.cols = 1 ∨ out.data.cols = inp.data.cols
  fs : out.fs = inp.fs
  mode : reg = true ∨ v = none

/-- The result, once the loop over the channels is known. -/
theorem deconvolve_of (out inp : Sig) (reg : Bool) (v : Option (List ℝ)) (thr : ℝ)
    (padding keep : Bool) (h : Accepted out inp reg v) (X Y : ℕ → ℕ → ℂ)
    (hX : fftSpectrum (prepared inp padding) = .ok X)
    (hY : fftSpectrum (prepared out padding) = .ok Y)
    (cols : ℕ → Option (ℕ → ℝ))
    (hl : loop (rfftBins (fftLength out.fast (prepared out padding).data.rows))
      (rfftBins (fftLength inp.fast (prepared out padding).data.rows)) Y X (inp.data.cols = 1) reg
      (freqs (fftLength out.fast (prepared out padding).data.rows) out.fs) out.fs
      (prepared out padding).data.rows thr out.data.cols 0 v =
        .ok ((List.range out.data.cols).map cols)) :
    ∃ R, deconvolve out inp reg v thr padding keep = .ok R ∧
      R.rows = (if padding = true ∧ keep = false then 2 * out.data.rows else out.data.rows) ∧
      R.cols = out.data.cols ∧
      ∀ c < out.data.cols, ∀ j < R.rows, R.val j c = (cols c).map fun g => g j := by
  unfold deconvolve
  rw [if_neg (by simp [h.rows]), if_neg (by
    rcases h.cols with hc | hc
    · simp [hc]
    · simp [hc]), if_neg (by simp [h.fs]), if_neg (by
    rcases h.mode with hc | hc
    · simp [hc]
    · simp [hc])]
  dsimp only
  have e1 : (if padding = true then { inp with data := padded inp.data 0 (if padding = true then
      out.data.rows * 2 else out.data.rows) } else inp) = prepared inp padding := by
    cases padding
    · rfl
    · simp [prepared, h.rows]
  have e2 : (if padding = true then { out with data := padded out.data 0 (if padding = true then
      out.data.rows * 2 else out.data.rows) } else out) = prepared out padding := by
    cases padding
    · rfl
    · simp [prepared]
  have e3 : (if padding = true then out.data.rows * 2 else out.data.rows) =
      (prepared out padding).data.rows := (prepared_rows out padding).symm
  have e4 : (prepared out padding).fast = out.fast := by cases padding <;> rfl
  have e5 : (prepared inp padding).fast = inp.fast := by cases padding <;> rfl
  rw [e1, e2, e3, hX, hY]
  dsimp only
  rw [e4, e5, hl]
  dsimp only
  have hv : ∀ c < out.data.cols, ((List.range out.data.cols).map cols).getD c none = cols c := by
    intro c hc
    rw [List.getD_eq_getElem _ _ (by simpa using hc)]
    simp
  refine ⟨_, rfl, ?_, ?_, ?_⟩
  · cases padding <;> cases keep <;> (simp [padded, prepared]; try omega)
  · cases padding <;> cases keep <;> simp [padded]
  · intro c hc j hj
    cases padding <;> cases keep <;> simp only [padded, and_true, and_false,
      Bool.false_eq_true, if_false, if_true, hv c hc] at hj ⊢
    · rw [if_pos (by simp [prepared, padded]; omega)]

end Verif.Deconv

namespace Verif.Deconv

open Complex Finset DFT Scaling DeconvSpec

/-! ### The regularization -/

/-- Largest value of the regularization. -/
noncomputable def epsMax : ℝ := (10 : ℝ) ^ (30 / 20 : ℝ)

theorem epsMax_pos : 0 < epsMax := by unfold epsMax; positivity

theorem freqs_getD (F fs k : ℕ) (h : k < rfftBins F) : (freqs F fs).getD k 0 = (k : ℝ) * fs / F := by
  unfold freqs
  exact Tukey.getD_range_map _ _ _ _ h

/-- Distance of two neighbouring frequencies. -/
theorem nearest_mono (F fs : ℕ) (p q : ℝ) (hpq : p ≤ q) (i j : ℕ) (hi : i < rfftBins F)
    (h1 : ∀ l < i, |p - (i : ℝ) * fs / F| < |p - (l : ℝ) * fs / F|)
    (h2 : ∀ l < rfftBins F, |q - (j : ℝ) * fs / F| ≤ |q - (l : ℝ) * fs / F|) : i ≤ j := by
  by_contra h
  push Not at h
  have h3 := h1 j h
  have h4 := h2 i hi
  have h5 : (j : ℝ) * fs / F ≤ (i : ℝ) * fs / F := by
    have : (j : ℝ) ≤ i := by exact_mod_cast h.le
    gcongr
  generalize (j : ℝ) * fs / F = a at *
  generalize (i : ℝ) * fs / F = b at *
  have h6 := sq_lt_sq.2 h3
  have h7 := sq_le_sq.2 h4
  nlinarith

/-- The index found for a frequency up to half the sampling rate is at most half a step below it. -/
theorem nearest_lower (F fs : ℕ) (hF : 0 < F) (hfs : 0 < fs) (p : ℝ) (hp : p ≤ (fs : ℝ) / 2) (i : ℕ)
    (hi : i < rfftBins F)
    (h2 : ∀ l < rfftBins F, |p - (i : ℝ) * fs / F| ≤ |p - (l : ℝ) * fs / F|) :
    p - fs / F / 2 ≤ (i : ℝ) * fs / F := by
  have hF' : (0 : ℝ) < F := by exact_mod_cast hF
  have hfs' : (0 : ℝ) < fs := by exact_mod_cast hfs
  have hs : (0 : ℝ) < (fs : ℝ) / F := by positivity
  by_cases h : i + 1 < rfftBins F
  · have h3 := sq_le_sq.2 (h2 (i + 1) h)
    have e1 : ((i + 1 : ℕ) : ℝ) * fs / F = (i : ℝ) * fs / F + fs / F := by push_cast; ring
    rw [e1] at h3
    generalize (i : ℝ) * fs / F = a at *
    nlinarith
  · have h4 : (F : ℝ) ≤ 2 * i + 1 := by
      have : F ≤ 2 * i + 1 := by unfold rfftBins at *; omega
      exact_mod_cast this
    have : (fs : ℝ) / 2 - fs / F / 2 ≤ (i : ℝ) * fs / F := by
      rw [div_sub_div _ _ two_ne_zero two_ne_zero, div_le_div_iff₀ (by norm_num) hF']
      have e2 : ((fs : ℝ) * 2 - 2 * (fs / F)) * F = 2 * fs * (F - 1) := by
        field_simp
      rw [e2]
      nlinarith [mul_nonneg (Nat.cast_nonneg (α := ℝ) fs) (sub_nonneg.2 h4)]
    linarith

/-- The index found for a non-negative frequency is at most half a step above it. -/
theorem nearest_upper (F fs : ℕ) (hF : 0 < F) (hfs : 0 < fs) (p : ℝ) (hp : 0 ≤ p) (i : ℕ)
    (hi : i < rfftBins F)
    (h2 : ∀ l < rfftBins F, |p - (i : ℝ) * fs / F| ≤ |p - (l : ℝ) * fs / F|) :
    (i : ℝ) * fs / F ≤ p + fs / F / 2 := by
  have hF' : (0 : ℝ) < F := by exact_mod_cast hF
  have hfs' : (0 : ℝ) < fs := by exact_mod_cast hfs
  have hs : (0 : ℝ) < (fs : ℝ) / F := by positivity
  cases i with
  | zero =>
    simp only [Nat.cast_zero, zero_mul, zero_div]
    positivity
  | succ i =>
    have h3 := sq_le_sq.2 (h2 i (by omega))
    have e1 : ((i + 1 : ℕ) : ℝ) * fs / F = (i : ℝ) * fs / F + fs / F := by push_cast; ring
    rw [e1] at h3 ⊢
    have : (0 : ℝ) ≤ (i : ℝ) * fs / F := by positivity
    generalize (i : ℝ) * fs / F = a at *
    nlinarith

/-- A frequency clearly below `r` lies strictly below the index found for `r`. -/
theorem nearest_inside (F fs : ℕ) (hfs : 0 < fs) (hF : 0 < F) (r : ℝ) (hr : r ≤ (fs : ℝ) / 2)
    (i k : ℕ) (hi : i < rfftBins F)
    (h2 : ∀ l < rfftBins F, |r - (i : ℝ) * fs / F| ≤ |r - (l : ℝ) * fs / F|)
    (hk : (k : ℝ) * fs / F + fs / F / 2 < r) : k < i := by
  have := nearest_lower F fs hF hfs r hr i hi h2
  have hs : (0 : ℝ) < (fs : ℝ) / F := by
    have : (0 : ℝ) < F := by exact_mod_cast hF
    have : (0 : ℝ) < fs := by exact_mod_cast hfs
    positivity
  have h3 : (k : ℝ) * (fs / F) < i * (fs / F) := by
    have e1 : ∀ a : ℝ, a * fs / F = a * (fs / F) := fun a => by ring
    rw [e1] at this hk
    linarith
  have := lt_of_mul_lt_mul_right h3 hs.le
  exact_mod_cast this

theorem nearest_above (F fs : ℕ) (q : ℝ) (i k : ℕ) (hfs : 0 < fs) (hF : 0 < F)
    (hk : k < rfftBins F)
    (h2 : ∀ l < rfftBins F, |q - (i : ℝ) * fs / F| ≤ |q - (l : ℝ) * fs / F|)
    (hq : q ≤ (k : ℝ) * fs / F) : i ≤ k := by
  by_contra h
  push Not at h
  have h5 : (k : ℝ) * fs / F < (i : ℝ) * fs / F := by
    have : (k : ℝ) < i := by exact_mod_cast h
    have : (0 : ℝ) < F := by exact_mod_cast hF
    have : (0 : ℝ) < fs := by exact_mod_cast hfs
    gcongr
  have h3 := h2 k hk
  rw [abs_sub_comm, abs_sub_comm q, abs_of_nonneg (by linarith), abs_of_nonneg (by linarith)] at h3
  linarith

/-- The regularization for four ascending frequencies: between 0 and `10^(3/2)`, zero between the
inner ones, maximal outside the outer ones. -/
theorem epsilon_spec (F fs : ℕ) (hF : 0 < F) (hfs : 0 < fs) (p q r s : ℝ) (hpq : p ≤ q) (hqr : q ≤ r)
    (hrs : r ≤ s) (h0 : 0 ≤ p) (hr : r ≤ (fs : ℝ) / 2) :
    ∃ eps, epsilon [p, q, r, s] (freqs F fs) = .ok eps ∧ ∀ k < rfftBins F,
      0 ≤ eps.getD k 0 ∧ eps.getD k 0 ≤ epsMax ∧
      (q ≤ (k : ℝ) * fs / F → (k : ℝ) * fs / F + fs / F / 2 < r → eps.getD k 0 = 0) ∧
      (eps.getD k 0 = 0 → q - fs / F / 2 ≤ (k : ℝ) * fs / F ∧ (k : ℝ) * fs / F ≤ r + fs / F / 2) ∧
      ((k : ℝ) * fs / F < p - fs / F / 2 ∨ s + fs / F / 2 < (k : ℝ) * fs / F →
        eps.getD k 0 = epsMax) := by
  have hF' : (0 : ℝ) < F := by exact_mod_cast hF
  have hfs' : (0 : ℝ) < fs := by exact_mod_cast hfs
  have hne : freqs F fs ≠ [] := by
    intro h
    have := freqs_length F fs
    rw [h] at this
    simp [rfftBins] at this
  obtain ⟨idx, hidx, hlen, hall⟩ := Helpers.C45_nearest [p, q, r, s] (freqs F fs) hne
  match idx, hlen with
  | [a, b, c, d], _ =>
    have g : ∀ (pt : ℝ) (i : ℕ),
        (i < (freqs F fs).length ∧
        (∀ j < (freqs F fs).length,
          |pt - (freqs F fs).getD i 0| ≤ |pt - (freqs F fs).getD j 0|) ∧
        ∀ j < i, |pt - (freqs F fs).getD i 0| < |pt - (freqs F fs).getD j 0|) →
        i < rfftBins F ∧
        (∀ l < rfftBins F, |pt - (i : ℝ) * fs / F| ≤ |pt - (l : ℝ) * fs / F|) ∧
        ∀ l < i, |pt - (i : ℝ) * fs / F| < |pt - (l : ℝ) * fs / F| := by
      rintro pt i ⟨g1, g2, g3⟩
      rw [freqs_length] at g1
      refine ⟨g1, fun l hl => ?_, fun l hl => ?_⟩
      · have := g2 l (by rwa [freqs_length])
        rwa [freqs_getD _ _ _ g1, freqs_getD _ _ _ hl] at this
      · have := g3 l hl
        rwa [freqs_getD _ _ _ g1, freqs_getD _ _ _ (by omega)] at this
    obtain ⟨a1, a2, a3⟩ := g p a (by simpa using hall 0 (by simp))
    obtain ⟨b1, b2, b3⟩ := g q b (by simpa using hall 1 (by simp))
    obtain ⟨c1, c2, c3⟩ := g r c (by simpa using hall 2 (by simp))
    obtain ⟨d1, d2, d3⟩ := g s d (by simpa using hall 3 (by simp))
    have hab := nearest_mono F fs p q hpq a b a1 a3 b2
    have hbc := nearest_mono F fs q r hqr b c b1 b3 c2
    have hcd := nearest_mono F fs r s hrs c d c1 c3 d2
    obtain ⟨w, hw, wl, wv⟩ := Tukey.window_ok a b c d (freqs F fs).length
      ⟨hab, hbc, hcd, by rw [freqs_length]; omega⟩ Tukey.hann Tukey.hann true true
    refine ⟨w.map (· * epsMax), ?_, fun k hk => ?_⟩
    · unfold epsilon
      rw [hidx]
      dsimp only
      rw [hw]
      rfl
    · have hk' : k < w.length := by rw [wl, freqs_length]; exact hk
      have hv := wv k (by rw [freqs_length]; exact hk)
      rw [if_pos rfl] at hv
      have hg : (w.map (· * epsMax)).getD k 0 =
          (1 - Tukey.at' a b c d Tukey.hann Tukey.hann true k) * epsMax := by
        rw [← hv, List.getD_eq_getElem _ _ (by simpa using hk'), List.getD_eq_getElem _ _ hk',
          List.getElem_map]
      rw [hg]
      obtain ⟨t0, t1⟩ := Tukey.at'_bounds a b c d Tukey.hann Tukey.hann true
        (fun n i => ⟨Tukey.hann_nonneg n i, Tukey.hann_le_one n i⟩)
        (fun n i => ⟨Tukey.hann_nonneg n i, Tukey.hann_le_one n i⟩) k
      have hpos := epsMax_pos
      refine ⟨by have := sub_nonneg.2 t1; positivity, ?_, ?_, ?_, ?_⟩
      · nlinarith
      · intro hq hr'
        have hbk := nearest_above F fs q b k hfs hF hk b2 hq
        have hkc := nearest_inside F fs hfs hF r hr c k c1 c2 hr'
        unfold Tukey.at'
        rw [if_neg (by omega), if_neg (by omega), if_pos hkc]
        simp
      · intro he
        have h1 : Tukey.at' a b c d Tukey.hann Tukey.hann true k = 1 := by
          rcases mul_eq_zero.1 he with h | h
          · linarith
          · exact absurd h hpos.ne'
        obtain ⟨h2, h3⟩ := Tukey.at'_eq_one a b c d k h1
        have u1 := nearest_lower F fs hF hfs q (by linarith) b b1 b2
        have u2 := nearest_upper F fs hF hfs r (by linarith) c c1 c2
        have h4 : (b : ℝ) * fs / F ≤ (k : ℝ) * fs / F := by
          have : (b : ℝ) ≤ k := by exact_mod_cast h2
          gcongr
        have h5 : (k : ℝ) * fs / F ≤ (c : ℝ) * fs / F := by
          have : (k : ℝ) ≤ c := by exact_mod_cast h3
          gcongr
        exact ⟨by linarith, by linarith⟩
      · intro h
        have h1 : Tukey.at' a b c d Tukey.hann Tukey.hann true k = 0 := by
          unfold Tukey.at'
          rcases h with h | h
          · have hp2 := nearest_lower F fs hF hfs p (by linarith) a a1 a2
            have : k < a := by
              have h3 : (k : ℝ) * (fs / F) < a * (fs / F) := by
                have e1 : ∀ a : ℝ, a * fs / F = a * (fs / F) := fun a => by ring
                rw [e1] at hp2 h
                linarith
              have := lt_of_mul_lt_mul_right h3 (by positivity)
              exact_mod_cast this
            rw [if_pos this]
          · have hp2 := nearest_upper F fs hF hfs s (by linarith) d d1 d2
            have : d < k := by
              have h3 : (d : ℝ) * (fs / F) < k * (fs / F) := by
                have e1 : ∀ a : ℝ, a * fs / F = a * (fs / F) := fun a => by ring
                rw [e1] at hp2 h
                linarith
              have := lt_of_mul_lt_mul_right h3 (by positivity)
              exact_mod_cast this
            rw [if_neg (by omega), if_neg (by omega), if_neg (by omega), if_neg (by omega)]
        rw [h1]
        ring

end Verif.Deconv
