import Verif.Model.TransferEstimate
import Verif.Props.C65

/-!
# C82: estimates of transfer functions
-/

namespace Verif.TransferEstimate

open CSM Scaling Finset DFT

/-! ### Specification -/

/-- Spectrum of the windowed (and detrended) segment `j` of a signal. -/
noncomputable def segBin (p : Params) (x : List ℝ) (k j : ℕ) : ℂ := rfft p.W (detrended p x j) k

/-- Sum over the segments of the products of the spectra of two signals. -/
noncomputable def cross (p : Params) (x y : List ℝ) (k : ℕ) : ℂ :=
  ∑ j ∈ range (frameCount p x.length), (starRingEnd ℂ) (segBin p x k j) * segBin p y k j

/-- Sum over the segments of the squared magnitudes of the spectrum. -/
noncomputable def auto (p : Params) (x : List ℝ) (k : ℕ) : ℝ :=
  ∑ j ∈ range (frameCount p x.length), ‖segBin p x k j‖ ^ 2

/-! ### Lemmas -/

theorem cross_self (p : Params) (x : List ℝ) (k : ℕ) : cross p x x k = (auto p x k : ℂ) := by
  unfold cross auto
  push_cast
  refine Finset.sum_congr rfl fun j _ => ?_
  rw [← Complex.ofReal_pow, ← Complex.normSq_eq_norm_sq, Complex.normSq_eq_conj_mul_self]

theorem auto_nonneg (p : Params) (x : List ℝ) (k : ℕ) : 0 ≤ auto p x k :=
  Finset.sum_nonneg fun _ _ => by positivity

theorem cross_symm (p : Params) (x y : List ℝ) (hl : x.length = y.length) (k : ℕ) :
    cross p y x k = (starRingEnd ℂ) (cross p x y k) := by
  unfold cross
  rw [map_sum, hl]
  refine Finset.sum_congr rfl fun j _ => ?_
  rw [map_mul, Complex.conj_conj, mul_comm]

/-- The inequality of Cauchy and Schwarz. -/
theorem cross_le (p : Params) (x y : List ℝ) (hl : x.length = y.length) (k : ℕ) :
    ‖cross p x y k‖ ^ 2 ≤ auto p x k * auto p y k := by
  unfold cross auto
  rw [← hl]
  calc ‖∑ j ∈ range (frameCount p x.length), (starRingEnd ℂ) (segBin p x k j) * segBin p y k j‖ ^ 2
      ≤ (∑ j ∈ range (frameCount p x.length), ‖segBin p x k j‖ * ‖segBin p y k j‖) ^ 2 := by
        refine pow_le_pow_left₀ (norm_nonneg _) ((norm_sum_le _ _).trans_eq ?_) 2
        refine Finset.sum_congr rfl fun j _ => ?_
        rw [norm_mul, RCLike.norm_conj]
    _ ≤ _ := Finset.sum_mul_sq_le_sq_mul_sq _ _ _

theorem products_cross {p : Params} (h : Valid p) (s : Scaling) (x y : List ℝ)
    (hl : x.length = y.length) (k : ℕ) :
    products p s x (some y) k = (List.range (frameCount p x.length)).map fun j =>
      ((fftNorm s p.W ^ 2 : ℝ) : ℂ) * ((starRingEnd ℂ) (segBin p x k j) * segBin p y k j) := by
  unfold products
  dsimp only
  rw [zipWith_eq_range _ _ _ (by rw [(frames_eq h x).1, (frames_eq h y).1, hl]), (frames_eq h x).1]
  refine List.map_congr_left fun j hj => ?_
  have hj := List.mem_range.mp hj
  rw [frameBin_eq h s x j hj, frameBin_eq h s y j (hl ▸ hj)]
  unfold segBin
  rw [map_mul, Complex.conj_ofReal]
  push_cast
  ring

theorem products_auto {p : Params} (h : Valid p) (s : Scaling) (x : List ℝ) (k : ℕ) :
    products p s x none k = products p s x (some x) k := by
  rw [products_eq h, products_cross h s x x rfl]
  refine List.map_congr_left fun j _ => ?_
  unfold segBin
  rw [← Complex.normSq_eq_conj_mul_self, Complex.normSq_eq_norm_sq]
  push_cast
  ring

theorem mean_cross {p : Params} (h : Valid p) (ha : p.average = .mean) (s : Scaling) (x y : List ℝ)
    (hl : x.length = y.length) (k : ℕ) :
    averaged p.average (products p s x (some y) k) =
      ((fftNorm s p.W ^ 2 / frameCount p x.length : ℝ) : ℂ) * cross p x y k := by
  rw [ha, products_cross h s x y hl]
  unfold averaged cross
  dsimp only
  rw [List.length_map, List.length_range, ← List.sum_toFinset _ (List.nodup_range),
    List.toFinset_range, ← Finset.mul_sum]
  push_cast
  ring

/-- The scaling before the square root. -/
noncomputable def scaleFactor (p : Params) (s : Scaling) (k : ℕ) : ℝ :=
  (if physical s = true then factor s p.W p.fs (some p.window) else 1) *
    (if physical s = true ∧ (k = 0 ∨ k = p.W / 2) then 1 / 2 else 1)

theorem welchScale_eq (p : Params) (s : Scaling) (k : ℕ) (c : ℂ) :
    welchScale p s k c = if s.isAmplitude then csqrt (c * (scaleFactor p s k : ℝ))
      else c * (scaleFactor p s k : ℝ) := by
  have hc : (if physical s = true ∧ (k = 0 ∨ k = p.W / 2) then
      (if physical s then c * (factor s p.W p.fs (some p.window) : ℝ) else c) / 2 else
      (if physical s then c * (factor s p.W p.fs (some p.window) : ℝ) else c)) =
      c * (scaleFactor p s k : ℝ) := by
    unfold scaleFactor
    by_cases hp : physical s = true
    · by_cases hk : k = 0 ∨ k = p.W / 2
      · rw [if_pos ⟨hp, hk⟩, if_pos hp, if_pos hp, if_pos ⟨hp, hk⟩]
        push_cast
        ring
      · rw [if_neg (fun h => hk h.2), if_pos hp, if_pos hp, if_neg (fun h => hk h.2), mul_one]
    · rw [if_neg (fun h => hp h.1), if_neg hp, if_neg hp, if_neg (fun h => hp h.1), mul_one]
      simp
  unfold welchScale
  dsimp only
  rw [hc]

/-- Factor between the sums over the segments and the periodogram before a square root. -/
noncomputable def total (p : Params) (s : Scaling) (L k : ℕ) : ℝ :=
  fftNorm s p.W ^ 2 / frameCount p L * scaleFactor p s k

theorem welch_cross {p : Params} (h : Valid p) (ha : p.average = .mean) (s : Scaling) (x y : List ℝ)
    (hl : x.length = y.length) (k : ℕ) :
    welch p s x (some y) k = if s.isAmplitude then csqrt (total p s x.length k * cross p x y k)
      else total p s x.length k * cross p x y k := by
  unfold welch
  rw [welchScale_eq, mean_cross h ha s x y hl]
  have e : ((fftNorm s p.W ^ 2 / frameCount p x.length : ℝ) : ℂ) * cross p x y k *
      (scaleFactor p s k : ℝ) = total p s x.length k * cross p x y k := by
    unfold total
    push_cast
    ring
  rw [e]

theorem welch_auto {p : Params} (h : Valid p) (ha : p.average = .mean) (s : Scaling) (x : List ℝ)
    (k : ℕ) : welch p s x none k = if s.isAmplitude then
      csqrt ((total p s x.length k * auto p x k : ℝ) : ℂ)
      else ((total p s x.length k * auto p x k : ℝ) : ℂ) := by
  have e : welch p s x none k = welch p s x (some x) k := by
    unfold welch
    rw [products_auto h]
  rw [e, welch_cross h ha s x x rfl, cross_self]
  push_cast
  rfl

theorem frameCount_pos {p : Params} (h : Valid p) {L : ℕ} (hL : 0 < L) : 0 < frameCount p L := by
  have := h.step_pos
  unfold frameCount
  rw [Nat.div_pos_iff]
  omega

/-- Windows and rates for which the physical scalings are defined. -/
def Scalable (p : Params) (fs : ℕ) : Prop := p.window.sum ≠ 0 ∧ 0 < fs

theorem energy_pos (l : List ℝ) (h : l.sum ≠ 0) : 0 < (l.map (· ^ 2)).sum := by
  induction l with
  | nil => simp at h
  | cons a l ih =>
    rw [List.map_cons, List.sum_cons]
    have h0 : 0 ≤ (l.map (· ^ 2)).sum := List.sum_nonneg (by
      intro b hb
      obtain ⟨c, -, rfl⟩ := List.mem_map.mp hb
      positivity)
    by_cases ha : a = 0
    · subst ha
      rw [List.sum_cons, zero_add] at h
      have := ih h
      positivity
    · have : 0 < a ^ 2 := by positivity
      linarith

theorem total_pos_power {p : Params} (h : Valid p) {s : Scaling} (hs : s.isAmplitude = false)
    (hw : Scalable p p.fs) {L : ℕ} (hL : 0 < L) (k : ℕ) : 0 < total p s L k := by
  have hc := frameCount_pos h hL
  have hf : 0 < factor s p.W p.fs (some p.window) := by
    have he := energy_pos _ hw.1
    have hfs : (0 : ℝ) < p.fs := by exact_mod_cast hw.2
    cases s <;> simp [Scaling.isAmplitude] at hs
    · rw [spectrum_factor]
      have := hw.1
      positivity
    · rw [density_factor p he.le]
      have : 0 < windowEnergy p := he
      positivity
  have hp : physical s = true := by cases s <;> simp [Scaling.isAmplitude] at hs <;> rfl
  have hn := fftNorm_physical hp p.W
  unfold total scaleFactor
  rw [hn, if_pos hp]
  have : (0 : ℝ) < frameCount p L := by exact_mod_cast hc
  split_ifs <;> positivity

theorem total_pos_fft {p : Params} (h : Valid p) {s : Scaling} (hs : physical s = false)
    {L : ℕ} (hL : 0 < L) (k : ℕ) : 0 < total p s L k := by
  have hc : (0 : ℝ) < frameCount p L := by exact_mod_cast frameCount_pos h hL
  have hW : (0 : ℝ) < p.W := by exact_mod_cast h.pos
  have hn : 0 < fftNorm s p.W := by
    unfold fftNorm
    split <;> positivity
  unfold total scaleFactor
  simp only [hs, Bool.false_eq_true, if_false, false_and]
  positivity

theorem check_none {p : Params} {L : ℕ} (h : check p L = none) : Valid p := by
  unfold check at h
  split_ifs at h with h1 h2
  obtain ⟨e, he, h3, hW⟩ := h1
  exact ⟨⟨e, h3, by have := List.mem_range.mp he; omega, hW⟩, h2⟩

open Classical in
theorem check_eq {p : Params} {L : ℕ} (hL : 0 < L) :
    check p L = if Valid p then (if p.step < L then none else some .valueError)
      else some .assertionError := by
  by_cases hv : Valid p
  · rw [if_pos hv]
    obtain ⟨l, hl, -, -, h1, h2⟩ :=
      Framing.C21_keep (List.replicate L (0 : ℚ)) p.W p.step hv.step_pos
    rw [List.length_replicate] at h1 h2
    unfold check
    rw [if_pos hv.mem, if_pos hv.2, hl]
    dsimp only
    by_cases hs : p.step < L
    · rw [if_pos hs, if_neg]
      intro h3
      rw [h3] at h2
      omega
    · rw [if_neg hs, if_pos]
      have h3 : l.length ≠ 0 := by
        intro h0
        rw [h0] at h2
        omega
      by_contra h4
      have := h1 1 (by omega)
      omega
  · rw [if_neg hv]
    unfold check
    by_cases hm : ∃ e ∈ List.range 19, 3 ≤ e ∧ p.W = 2 ^ e
    · have ho : ¬ p.overlap < 100 := by
        intro ho
        obtain ⟨e, he, h3, hW⟩ := hm
        exact hv ⟨⟨e, h3, by have := List.mem_range.mp he; omega, hW⟩, ho⟩
      rw [if_pos hm, if_neg ho]
    · rw [if_neg hm]

theorem csqrt_nonneg (a : ℝ) (ha : 0 ≤ a) : csqrt (a : ℂ) = ((√a : ℝ) : ℂ) := by
  unfold csqrt
  rw [Real.sqrt_eq_rpow, Complex.ofReal_cpow ha]
  norm_num

/-- Signals have at least one sample and channels of equal length. -/
def Sig.WF (a : Sig) : Prop := 0 < a.L ∧ ∀ c < a.n, (a.x c).length = a.L

/-- Pairs of signals and parameters for which an estimate exists. -/
structure Accepted (output input : Sig) (p : Params) : Prop where
  rate : input.fs = output.fs
  length : input.L = output.L
  channels : input.n = 1 ∨ input.n = output.n
  valid : Valid p
  frames : p.step < input.L
  bins : output.n ≤ p.W / 2 + 1

theorem setSpectral_ok {F D : Type} (fr : List F) (A B : Mat D) (hr : A.rows = fr.length)
    (hc : A.cols ≤ A.rows) : Spectrum.setSpectral ⟨fr, B⟩ A = (⟨fr, A⟩, none) := by
  unfold Spectrum.setSpectral Spectrum.upright
  have h : ¬ A.rows < A.cols := by omega
  rw [if_neg h, if_pos hr]

theorem setSpectral_wide {F D : Type} (fr : List F) (A B : Mat D) (hr : A.rows = fr.length)
    (hc : A.rows < A.cols) :
    Spectrum.setSpectral ⟨fr, B⟩ A = (⟨fr, B⟩, some .assertionError) := by
  unfold Spectrum.setSpectral
  have e : Spectrum.upright A = A.T := by rw [Spectrum.upright, if_pos hc]
  have h : ¬ A.cols = fr.length := by omega
  rw [e]
  exact if_neg h

/-- The result of an accepted call. -/
theorem result {output input : Sig} {p : Params} (h : Accepted output input p) (hi : input.WF)
    (s : Scaling) (mode : Mode) : transferFunction output input p s mode =
      .ok ⟨(List.range (p.W / 2 + 1)).map fun (k : ℕ) => (k : ℝ) * input.fs / p.W,
        ⟨p.W / 2 + 1, output.n, fun k c => entry mode { p with fs := input.fs } s
          (input.x (inputChannel input c)) (output.x c) k⟩,
        ⟨p.W / 2 + 1, output.n, fun k c => coherence { p with fs := input.fs } s
          (input.x (inputChannel input c)) (output.x c) k⟩⟩ := by
  have hch : ¬ (input.n ≠ 1 ∧ input.n ≠ output.n) := by
    rintro ⟨h1, h2⟩
    rcases h.channels with h3 | h3
    · exact h1 h3
    · exact h2 h3
  have hc : check { p with fs := input.fs } input.L = none := by
    have hv : Valid { p with fs := input.fs } := h.valid
    have hf : Params.step { p with fs := input.fs } < input.L := h.frames
    rw [check_eq hi.1, if_pos hv, if_pos hf]
  unfold transferFunction
  rw [if_neg (not_not.mpr h.rate), if_neg (not_not.mpr h.length), if_neg hch]
  dsimp only
  rw [hc]
  dsimp only
  rw [setSpectral_ok _ _ _ (by simp) h.bins]
  dsimp only
  rw [if_pos ⟨rfl, rfl⟩]

/-! ### Which calls succeed -/

/-- **C82**, acceptance and refusal: a call succeeds exactly if the rates, the lengths and the
channels match (or the input has one channel), the parameters of the periodogram are valid, the
signals are longer than the step between segments and there are no more channels than bins. -/
theorem C82_accepted_iff (output input : Sig) (p : Params) (hi : input.WF) (s : Scaling)
    (mode : Mode) :
    (∃ r, transferFunction output input p s mode = .ok r) ↔ Accepted output input p := by
  constructor
  · rintro ⟨r, hr⟩
    unfold transferFunction at hr
    by_cases h1 : input.fs = output.fs
    swap; · rw [if_pos h1] at hr; cases hr
    rw [if_neg (not_not.mpr h1)] at hr
    by_cases h2 : input.L = output.L
    swap; · rw [if_pos h2] at hr; cases hr
    rw [if_neg (not_not.mpr h2)] at hr
    by_cases h3 : input.n ≠ 1 ∧ input.n ≠ output.n
    · rw [if_pos h3] at hr; cases hr
    rw [if_neg h3] at hr
    dsimp only at hr
    rw [check_eq hi.1] at hr
    by_cases h4 : Valid { p with fs := input.fs }
    swap; · rw [if_neg h4] at hr; cases hr
    rw [if_pos h4] at hr
    by_cases h5 : Params.step { p with fs := input.fs } < input.L
    swap; · rw [if_neg h5] at hr; cases hr
    rw [if_pos h5] at hr
    refine ⟨h1, h2, by tauto, h4, h5, ?_⟩
    by_contra h6
    dsimp only at hr
    rw [setSpectral_wide _ _ _ (by simp) (by dsimp only; omega)] at hr
    cases hr
  · intro h
    exact ⟨_, result h hi s mode⟩

/-- **C82**: a single input channel belongs to all outputs, otherwise channels are paired; every
column of the result is what the pair alone would give. -/
theorem C82_columns (output input : Sig) (p : Params) (hi : input.WF) (s : Scaling)
    (mode : Mode) (r : Result) (hr : transferFunction output input p s mode = .ok r) :
    r.tf.rows = p.W / 2 + 1 ∧ r.tf.cols = output.n ∧ r.coh.rows = p.W / 2 + 1 ∧
    r.coh.cols = output.n ∧
    (∀ k < p.W / 2 + 1, r.freqs.getD k 0 = k * input.fs / p.W) ∧ r.freqs.length = p.W / 2 + 1 ∧
    ∀ c < output.n, ∃ r',
      transferFunction ⟨output.fs, output.L, 1, fun _ => output.x c⟩
        ⟨input.fs, input.L, 1, fun _ => input.x (if input.n = 1 then 0 else c)⟩ p s mode = .ok r' ∧
      ∀ k < p.W / 2 + 1, r.tf.val k c = r'.tf.val k 0 ∧ r.coh.val k c = r'.coh.val k 0 := by
  have h := (C82_accepted_iff output input p hi s mode).mp ⟨r, hr⟩
  rw [result h hi] at hr
  cases hr
  refine ⟨rfl, rfl, rfl, rfl, fun k hk => ?_, by simp, fun c hc => ?_⟩
  · rw [List.getD_eq_getElem _ _ (by simpa using hk), List.getElem_map, List.getElem_range]
  · have hin : (if input.n = 1 then 0 else c) < input.n := by
      rcases h.channels with h1 | h1
      · rw [if_pos h1]; omega
      · by_cases h2 : input.n = 1
        · rw [if_pos h2]; omega
        · rw [if_neg h2]; omega
    refine ⟨_, result (output := ⟨output.fs, output.L, 1, fun _ => output.x c⟩) (input := ⟨input.fs, input.L, 1, fun _ => input.x (if input.n = 1 then 0 else c)⟩)
      ⟨h.rate, h.length, Or.inl rfl, h.valid, h.frames, by simp⟩ ⟨hi.1, fun _ _ => hi.2 _ hin⟩
      s mode, fun k hk => ⟨rfl, rfl⟩⟩

/-! ### The estimates -/

theorem entry_power {p : Params} (h : Valid p) (ha : p.average = .mean) {s : Scaling}
    (hs : s.isAmplitude = false) (hw : Scalable p p.fs) (x y : List ℝ) (hl : x.length = y.length)
    (hL : 0 < x.length) (k : ℕ) (hx : auto p x k ≠ 0) :
    entry .h1 p s x y k = some (cross p x y k / auto p x k) ∧
    (cross p x y k ≠ 0 → entry .h2 p s x y k =
      some (auto p y k / (starRingEnd ℂ) (cross p x y k))) ∧
    (cross p x y k ≠ 0 → entry .h3 p s x y k =
      some (cross p x y k / ‖cross p x y k‖ * (√(auto p y k / auto p x k) : ℝ))) ∧
    (auto p y k ≠ 0 → coherence p s x y k =
      some (‖cross p x y k‖ ^ 2 / (auto p x k * auto p y k))) := by
  have ht := total_pos_power h hs hw hL k
  set t := total p s x.length k with htt
  have hty : total p s y.length k = t := by rw [htt, hl]
  have htc : (t : ℂ) ≠ 0 := by exact_mod_cast ht.ne'
  have exx : welch p s x none k = ((t * auto p x k : ℝ) : ℂ) := by
    rw [welch_auto h ha, hs, if_neg (by simp)]
  have eyy : welch p s y none k = ((t * auto p y k : ℝ) : ℂ) := by
    rw [welch_auto h ha, hs, if_neg (by simp), hty]
  have exy : welch p s x (some y) k = t * cross p x y k := by
    rw [welch_cross h ha s x y hl, hs, if_neg (by simp)]
  have eyx : welch p s y (some x) k = t * (starRingEnd ℂ) (cross p x y k) := by
    rw [welch_cross h ha s y x hl.symm, hs, if_neg (by simp), hty, cross_symm p x y hl]
  have hxc : (auto p x k : ℂ) ≠ 0 := by exact_mod_cast hx
  have hxx : ((t * auto p x k : ℝ) : ℂ) ≠ 0 := by
    push_cast
    exact mul_ne_zero htc hxc
  have hA := auto_nonneg p x k
  have hB := auto_nonneg p y k
  unfold entry coherence
  dsimp only
  rw [exx, eyy, exy, eyx]
  refine ⟨?_, fun hc => ?_, fun hc => ?_, fun hy => ?_⟩
  · rw [div, if_neg hxx]
    push_cast
    rw [mul_div_mul_left _ _ htc]
  · have hcc : (starRingEnd ℂ) (cross p x y k) ≠ 0 := by simpa using hc
    rw [div, if_neg (mul_ne_zero htc hcc)]
    push_cast
    rw [mul_div_mul_left _ _ htc]
  · have hn : ((‖(t : ℂ) * cross p x y k‖ : ℝ) : ℂ) ≠ 0 := by
      exact_mod_cast (norm_ne_zero_iff.mpr (mul_ne_zero htc hc))
    rw [div, if_neg hn, div, if_neg hxx]
    dsimp only
    have e1 : (t : ℂ) * cross p x y k / ((‖(t : ℂ) * cross p x y k‖ : ℝ) : ℂ) =
        cross p x y k / ‖cross p x y k‖ := by
      rw [norm_mul, Complex.norm_real, Real.norm_eq_abs, abs_of_pos ht]
      push_cast
      rw [mul_div_mul_left _ _ htc]
    have e2 : ((t * auto p y k : ℝ) : ℂ) / ((t * auto p x k : ℝ) : ℂ) =
        ((auto p y k / auto p x k : ℝ) : ℂ) := by
      rw [← Complex.ofReal_div, mul_div_mul_left _ _ ht.ne']
    rw [e1, e2, csqrt_nonneg _ (by positivity)]
  · have hyy : ((t * auto p y k : ℝ) : ℂ) ≠ 0 := by
      exact_mod_cast mul_ne_zero ht.ne' hy
    rw [div, if_neg hxx]
    dsimp only
    rw [div, if_neg hyy, Option.map_some, ← Complex.ofReal_div, ← Complex.ofReal_div,
      Complex.ofReal_re, norm_mul, Complex.norm_real, Real.norm_eq_abs, abs_of_pos ht]
    congr 1
    field_simp

/-- Input and output of column `c`. -/
def inputOf (input : Sig) (c : ℕ) : List ℝ := input.x (if input.n = 1 then 0 else c)

theorem inputOf_length {output input : Sig} {p : Params} (h : Accepted output input p)
    (hi : input.WF) {c : ℕ} (hc : c < output.n) : (inputOf input c).length = input.L := by
  refine hi.2 _ ?_
  rcases h.channels with h1 | h1
  · rw [if_pos h1]; omega
  · by_cases h2 : input.n = 1
    · rw [if_pos h2]; omega
    · rw [if_neg h2]; omega

/-- **C82**, the estimates: with a power scaling and the mean over the segments, the entries are
`H1 = S_xy / S_xx`, `H2 = S_yy / S_yx`, `H3 = S_xy / |S_xy| · √(S_yy / S_xx)` and the coherence
`|S_xy|² / (S_xx S_yy)` of the sums over the segments; scaling, rate and number of segments do
not matter. -/
theorem C82_estimates_partial (output input : Sig) (p : Params) (hi : input.WF) (ho : output.WF)
    (s : Scaling) (hs : s.isAmplitude = false) (ha : p.average = .mean) (hw : Scalable p input.fs)
    (mode : Mode) (r : Result) (hr : transferFunction output input p s mode = .ok r)
    (c : ℕ) (hc : c < output.n) (k : ℕ) (hx : auto p (inputOf input c) k ≠ 0) :
    (mode = .h1 → r.tf.val k c =
      some (cross p (inputOf input c) (output.x c) k / auto p (inputOf input c) k)) ∧
    (mode = .h2 → cross p (inputOf input c) (output.x c) k ≠ 0 → r.tf.val k c =
      some (auto p (output.x c) k / cross p (output.x c) (inputOf input c) k)) ∧
    (mode = .h3 → cross p (inputOf input c) (output.x c) k ≠ 0 → r.tf.val k c =
      some (cross p (inputOf input c) (output.x c) k / ‖cross p (inputOf input c) (output.x c) k‖ *
        (√(auto p (output.x c) k / auto p (inputOf input c) k) : ℝ))) ∧
    (auto p (output.x c) k ≠ 0 → r.coh.val k c =
      some (‖cross p (inputOf input c) (output.x c) k‖ ^ 2 /
        (auto p (inputOf input c) k * auto p (output.x c) k))) := by
  have h := (C82_accepted_iff output input p hi s mode).mp ⟨r, hr⟩
  rw [result h hi] at hr
  cases hr
  have h1 := inputOf_length h hi hc
  have h2 : (inputOf input c).length = (output.x c).length := by
    rw [h1, ho.2 c hc, h.length]
  have key := entry_power (p := { p with fs := input.fs }) h.valid ha hs hw (inputOf input c)
    (output.x c) h2 (by rw [h1]; exact hi.1) k hx
  refine ⟨fun hm => ?_, fun hm hne => ?_, fun hm hne => ?_, fun hy => key.2.2.2 hy⟩
  · subst hm
    exact key.1
  · subst hm
    rw [cross_symm p _ _ h2]
    exact key.2.1 hne
  · subst hm
    exact key.2.2.1 hne

/-- **C82**: the coherence is a number from zero to one. -/
theorem C82_coherence_partial (output input : Sig) (p : Params) (hi : input.WF) (ho : output.WF)
    (s : Scaling) (hs : s.isAmplitude = false) (ha : p.average = .mean) (hw : Scalable p input.fs)
    (mode : Mode) (r : Result) (hr : transferFunction output input p s mode = .ok r)
    (c : ℕ) (hc : c < output.n) (k : ℕ) (hx : auto p (inputOf input c) k ≠ 0)
    (hy : auto p (output.x c) k ≠ 0) : ∃ γ, r.coh.val k c = some γ ∧ 0 ≤ γ ∧ γ ≤ 1 := by
  have h := (C82_accepted_iff output input p hi s mode).mp ⟨r, hr⟩
  refine ⟨_, (C82_estimates_partial output input p hi ho s hs ha hw mode r hr c hc k hx).2.2.2 hy,
    ?_, ?_⟩
  · have h1 := auto_nonneg p (inputOf input c) k
    have h2 := auto_nonneg p (output.x c) k
    positivity
  · have h1 : 0 < auto p (inputOf input c) k := (auto_nonneg _ _ _).lt_of_ne' hx
    have h2 : 0 < auto p (output.x c) k := (auto_nonneg _ _ _).lt_of_ne' hy
    rw [div_le_one (by positivity)]
    exact cross_le p _ _ (by rw [inputOf_length h hi hc, ho.2 c hc, h.length]) k

theorem order_aux (S : ℂ) (A B : ℝ) (hA : 0 < A) (hB : 0 < B) (hS : S ≠ 0)
    (hle : ‖S‖ ^ 2 ≤ A * B) :
    ‖S / A‖ ≤ ‖S / ‖S‖ * (√(B / A) : ℝ)‖ ∧
    ‖S / ‖S‖ * (√(B / A) : ℝ)‖ ≤ ‖B / (starRingEnd ℂ) S‖ ∧
    S / A = ((‖S‖ ^ 2 / (A * B) : ℝ) : ℂ) * (B / (starRingEnd ℂ) S) ∧
    (S / ‖S‖ * (√(B / A) : ℝ)) ^ 2 = S / A * (B / (starRingEnd ℂ) S) := by
  have hn : 0 < ‖S‖ := norm_pos_iff.mpr hS
  have hnc : ((‖S‖ : ℝ) : ℂ) ≠ 0 := by exact_mod_cast hn.ne'
  have hAc : (A : ℂ) ≠ 0 := by exact_mod_cast hA.ne'
  have hBc : (B : ℂ) ≠ 0 := by exact_mod_cast hB.ne'
  have hSc : (starRingEnd ℂ) S ≠ 0 := by simpa using hS
  have hSS : S * (starRingEnd ℂ) S = ((‖S‖ : ℝ) : ℂ) ^ 2 := by
    rw [Complex.mul_conj, Complex.normSq_eq_norm_sq]
    push_cast
    rfl
  have e1 : ‖S / A‖ = ‖S‖ / A := by
    rw [norm_div, Complex.norm_real, Real.norm_eq_abs, abs_of_pos hA]
  have e2 : ‖S / ‖S‖ * (√(B / A) : ℝ)‖ = √(B / A) := by
    rw [norm_mul, norm_div, Complex.norm_real, Complex.norm_real, norm_norm, div_self hn.ne',
      one_mul, Real.norm_eq_abs, abs_of_nonneg (Real.sqrt_nonneg _)]
  have e3 : ‖B / (starRingEnd ℂ) S‖ = B / ‖S‖ := by
    rw [norm_div, RCLike.norm_conj, Complex.norm_real, Real.norm_eq_abs, abs_of_pos hB]
  refine ⟨?_, ?_, ?_, ?_⟩
  · rw [e1, e2]
    refine Real.le_sqrt_of_sq_le ?_
    rw [div_pow, div_le_div_iff₀ (by positivity) hA]
    nlinarith
  · rw [e2, e3, Real.sqrt_le_left (by positivity), div_pow, div_le_div_iff₀ hA (by positivity)]
    nlinarith
  · push_cast
    rw [← hSS]
    field_simp
  · have hq : ((√(B / A) : ℝ) : ℂ) ^ 2 = B / A := by
      rw [← Complex.ofReal_pow, Real.sq_sqrt (by positivity)]
      push_cast
      rfl
    rw [mul_pow, div_pow, hq, ← hSS]
    field_simp

/-- **C82**: the three estimates of the same signals have the same phase and are ordered,
`|H1| ≤ |H3| ≤ |H2|`; the coherence is their ratio `H1 = γ H2` and `H3² = H1 H2`. -/
theorem C82_order_partial (output input : Sig) (p : Params) (hi : input.WF) (ho : output.WF)
    (s : Scaling) (hs : s.isAmplitude = false) (ha : p.average = .mean) (hw : Scalable p input.fs)
    (r1 r2 r3 : Result) (h1 : transferFunction output input p s .h1 = .ok r1)
    (h2 : transferFunction output input p s .h2 = .ok r2)
    (h3 : transferFunction output input p s .h3 = .ok r3)
    (c : ℕ) (hc : c < output.n) (k : ℕ)
    (hxy : cross p (inputOf input c) (output.x c) k ≠ 0) :
    ∃ (a b d : ℂ) (γ : ℝ), r1.tf.val k c = some a ∧ r2.tf.val k c = some b ∧
      r3.tf.val k c = some d ∧ r1.coh.val k c = some γ ∧ r2.coh.val k c = some γ ∧
      r3.coh.val k c = some γ ∧
      ‖a‖ ≤ ‖d‖ ∧ ‖d‖ ≤ ‖b‖ ∧ a = γ * b ∧ d ^ 2 = a * b := by
  have h := (C82_accepted_iff output input p hi s .h1).mp ⟨r1, h1⟩
  have hl : (inputOf input c).length = (output.x c).length := by
    rw [inputOf_length h hi hc, ho.2 c hc, h.length]
  have hle := cross_le p _ _ hl k
  have hpos : 0 < ‖cross p (inputOf input c) (output.x c) k‖ ^ 2 := by
    have := norm_pos_iff.mpr hxy
    positivity
  have hA := auto_nonneg p (inputOf input c) k
  have hB := auto_nonneg p (output.x c) k
  have hA' : auto p (inputOf input c) k ≠ 0 := by
    intro h0
    rw [h0, zero_mul] at hle
    linarith
  have hB' : auto p (output.x c) k ≠ 0 := by
    intro h0
    rw [h0, mul_zero] at hle
    linarith
  have k1 := C82_estimates_partial output input p hi ho s hs ha hw .h1 r1 h1 c hc k hA'
  have k2 := C82_estimates_partial output input p hi ho s hs ha hw .h2 r2 h2 c hc k hA'
  have k3 := C82_estimates_partial output input p hi ho s hs ha hw .h3 r3 h3 c hc k hA'
  refine ⟨_, _, _, _, k1.1 rfl, k2.2.1 rfl hxy, k3.2.2.1 rfl hxy, k1.2.2.2 hB', k2.2.2.2 hB',
    k3.2.2.2 hB', ?_⟩
  rw [cross_symm p _ _ hl]
  exact order_aux _ _ _ (hA.lt_of_ne' hA') (hB.lt_of_ne' hB') hxy hle

/-! ### Signals with a known transfer function -/

/-- Sample by sample `y = g x + v`. -/
def Mixed (g : ℝ) (x v y : List ℝ) : Prop :=
  ∀ i, y.getD i 0 = g * x.getD i 0 + v.getD i 0

theorem segBin_mixed (p : Params) (g : ℝ) (x v y : List ℝ) (h : Mixed g x v y) (k j : ℕ) :
    segBin p y k j = g * segBin p x k j + segBin p v k j := by
  have hs : ∀ i, segment p y j i = g * segment p x j i + segment p v j i := fun i => by
    unfold segment
    rw [h]
    ring
  have hd : ∀ i, detrended p y j i = g * detrended p x j i + detrended p v j i := fun i => by
    unfold detrended segmentMean
    simp only [hs, Finset.sum_add_distrib, ← Finset.mul_sum]
    split_ifs <;> ring
  unfold segBin rfft dft
  rw [Finset.mul_sum, ← Finset.sum_add_distrib]
  refine Finset.sum_congr rfl fun n _ => ?_
  dsimp only
  rw [hd]
  push_cast
  ring

theorem cross_mixed (p : Params) (g : ℝ) (z x v y : List ℝ) (h : Mixed g x v y) (k : ℕ) :
    cross p z y k = g * cross p z x k + cross p z v k := by
  unfold cross
  rw [Finset.mul_sum, ← Finset.sum_add_distrib]
  refine Finset.sum_congr rfl fun j _ => ?_
  rw [segBin_mixed p g x v y h]
  ring

/-- **C82**, noise at the output: if the output is the input times `g` plus a disturbance whose
cross-spectrum with the input vanishes, then `H1` is `g`. -/
theorem C82_output_noise_partial (output input : Sig) (p : Params) (hi : input.WF) (ho : output.WF)
    (s : Scaling) (hs : s.isAmplitude = false) (ha : p.average = .mean) (hw : Scalable p input.fs)
    (r : Result) (hr : transferFunction output input p s .h1 = .ok r)
    (c : ℕ) (hc : c < output.n) (k : ℕ) (hx : auto p (inputOf input c) k ≠ 0)
    (g : ℝ) (v : List ℝ) (hm : Mixed g (inputOf input c) v (output.x c))
    (hv : cross p (inputOf input c) v k = 0) : r.tf.val k c = some (g : ℂ) := by
  have hxc : (auto p (inputOf input c) k : ℂ) ≠ 0 := by exact_mod_cast hx
  rw [(C82_estimates_partial output input p hi ho s hs ha hw .h1 r hr c hc k hx).1 rfl,
    cross_mixed p g _ _ _ _ hm, hv, add_zero, cross_self, mul_div_cancel_right₀ _ hxc]

/-- **C82**, noise at the input: if the output is `g` times a signal `u` and the input is `u` plus
a disturbance whose cross-spectrum with `u` vanishes, then `H2` is `g`. -/
theorem C82_input_noise_partial (output input : Sig) (p : Params) (hi : input.WF) (ho : output.WF)
    (s : Scaling) (hs : s.isAmplitude = false) (ha : p.average = .mean) (hw : Scalable p input.fs)
    (r : Result) (hr : transferFunction output input p s .h2 = .ok r)
    (c : ℕ) (hc : c < output.n) (k : ℕ) (g : ℝ) (hg : g ≠ 0) (u v : List ℝ)
    (hlen : u.length = input.L) (hu : auto p u k ≠ 0)
    (hy : Mixed g u [] (output.x c)) (hx : Mixed 1 u v (inputOf input c))
    (hv : cross p u v k = 0) : r.tf.val k c = some (g : ℂ) := by
  have h := (C82_accepted_iff output input p hi s .h2).mp ⟨r, hr⟩
  have hlx := inputOf_length h hi hc
  have hly := ho.2 c hc
  have hnil : ∀ z, cross p z [] k = 0 := fun z => by
    unfold cross segBin rfft dft detrended segmentMean segment
    simp
  have huc : (auto p u k : ℂ) ≠ 0 := by exact_mod_cast hu
  have hgc : (g : ℂ) ≠ 0 := by exact_mod_cast hg
  -- cross-spectra with `u` first
  have e1 : cross p u (output.x c) k = g * auto p u k := by
    rw [cross_mixed p g _ _ _ _ hy, hnil, add_zero, cross_self]
  have e2 : cross p u (inputOf input c) k = auto p u k := by
    rw [cross_mixed p 1 _ _ _ _ hx, hv, add_zero, cross_self, Complex.ofReal_one, one_mul]
  have l1 : u.length = (output.x c).length := by rw [hlen, hly, h.length]
  have l2 : u.length = (inputOf input c).length := by rw [hlen, hlx]
  have e3 : cross p (inputOf input c) (output.x c) k = g * auto p u k := by
    rw [cross_mixed p g _ _ _ _ hy, hnil, add_zero, cross_symm p _ _ l2, e2, Complex.conj_ofReal]
  have e4 : (auto p (output.x c) k : ℂ) = g ^ 2 * auto p u k := by
    rw [← cross_self, cross_mixed p g _ _ _ _ hy, hnil, add_zero, cross_symm p _ _ l1, e1,
      map_mul, Complex.conj_ofReal, Complex.conj_ofReal]
    ring
  have hxy : cross p (inputOf input c) (output.x c) k ≠ 0 := by
    rw [e3]
    exact mul_ne_zero hgc huc
  have hxx : auto p (inputOf input c) k ≠ 0 := by
    intro h0
    have := cross_le p (inputOf input c) (output.x c) (l2.symm.trans l1) k
    rw [h0, zero_mul] at this
    have h2 := norm_pos_iff.mpr hxy
    have : 0 < ‖cross p (inputOf input c) (output.x c) k‖ ^ 2 := by positivity
    linarith
  rw [(C82_estimates_partial output input p hi ho s hs ha hw .h2 r hr c hc k hxx).2.1 rfl hxy,
    cross_symm p _ _ (l2.symm.trans l1), e3, e4, map_mul, Complex.conj_ofReal, Complex.conj_ofReal]
  congr 1
  field_simp

/-- **C82**: for an output that is the input times a factor, all three estimates give the factor
and the coherence is one. -/
theorem C82_gain_partial (output input : Sig) (p : Params) (hi : input.WF) (ho : output.WF)
    (s : Scaling) (hs : s.isAmplitude = false) (ha : p.average = .mean) (hw : Scalable p input.fs)
    (mode : Mode) (r : Result) (hr : transferFunction output input p s mode = .ok r)
    (c : ℕ) (hc : c < output.n) (k : ℕ) (hx : auto p (inputOf input c) k ≠ 0)
    (g : ℝ) (hg : g ≠ 0) (hm : Mixed g (inputOf input c) [] (output.x c)) :
    r.tf.val k c = some (g : ℂ) ∧ r.coh.val k c = some 1 := by
  have h := (C82_accepted_iff output input p hi s mode).mp ⟨r, hr⟩
  have hl : (inputOf input c).length = (output.x c).length := by
    rw [inputOf_length h hi hc, ho.2 c hc, h.length]
  have hnil : ∀ z, cross p z [] k = 0 := fun z => by
    unfold cross segBin rfft dft detrended segmentMean segment
    simp
  have hgc : (g : ℂ) ≠ 0 := by exact_mod_cast hg
  have hxc : (auto p (inputOf input c) k : ℂ) ≠ 0 := by exact_mod_cast hx
  have hA : 0 < auto p (inputOf input c) k := (auto_nonneg _ _ _).lt_of_ne' hx
  have e1 : cross p (inputOf input c) (output.x c) k = g * auto p (inputOf input c) k := by
    rw [cross_mixed p g _ _ _ _ hm, hnil, add_zero, cross_self]
  have e2 : auto p (output.x c) k = g ^ 2 * auto p (inputOf input c) k := by
    have : (auto p (output.x c) k : ℂ) = g ^ 2 * auto p (inputOf input c) k := by
      rw [← cross_self, cross_mixed p g _ _ _ _ hm, hnil, add_zero, cross_symm p _ _ hl, e1,
        map_mul, Complex.conj_ofReal, Complex.conj_ofReal]
      ring
    exact_mod_cast this
  have hxy : cross p (inputOf input c) (output.x c) k ≠ 0 := by
    rw [e1]
    exact mul_ne_zero hgc hxc
  have hyy : auto p (output.x c) k ≠ 0 := by
    rw [e2]
    positivity
  have key := C82_estimates_partial output input p hi ho s hs ha hw mode r hr c hc k hx
  have hn : ‖cross p (inputOf input c) (output.x c) k‖ = |g| * auto p (inputOf input c) k := by
    rw [e1, norm_mul, Complex.norm_real, Complex.norm_real, Real.norm_eq_abs, Real.norm_eq_abs,
      abs_of_pos hA]
  constructor
  · cases mode
    · rw [key.1 rfl, e1, mul_div_cancel_right₀ _ hxc]
    · rw [key.2.1 rfl hxy, cross_symm p _ _ hl, e1, e2, map_mul, Complex.conj_ofReal,
        Complex.conj_ofReal]
      push_cast
      congr 1
      field_simp
    · have hag : ((|g| : ℝ) : ℂ) ≠ 0 := by exact_mod_cast (abs_pos.mpr hg).ne'
      rw [key.2.2.1 rfl hxy, hn, e2, mul_div_cancel_right₀ _ hx, Real.sqrt_sq_eq_abs, e1]
      push_cast
      congr 1
      field_simp
  · rw [key.2.2.2 hyy, hn, e2, mul_pow, sq_abs]
    congr 1
    field_simp

end Verif.TransferEstimate
