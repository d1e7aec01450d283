import Verif.Model.WaveletCenter
import Verif.Lemmas.DFT
import Verif.Props.C143

/-!
# C143: the centre frequency of wavelets and the longest wavelet
-/

namespace Verif.Wavelet

open Finset

/-- The points at which a wavelet is sampled. -/
noncomputable def grid (N : ℕ) (x0 step : ℝ) : List ℝ := (List.range N).map fun n : ℕ => x0 + n * step

/-- A complex tone with `k` periods within `N` samples. -/
noncomputable def periods (N : ℕ) (c : ℂ) (k : ℕ) : List ℂ :=
  (List.range N).map fun n : ℕ => c * Complex.exp (2 * Real.pi * Complex.I * (k * n / N))

theorem peakBin_spec (func : List ℂ) (h : func ≠ []) : ∃ g, peakBin func = .ok g ∧ g < func.length ∧
    (∀ j < func.length, ‖DFT.dft func.length (fun n => func.getD n 0) j‖ ≤
      ‖DFT.dft func.length (fun n => func.getD n 0) g‖) ∧
    ∀ j < g, ‖DFT.dft func.length (fun n => func.getD n 0) j‖ <
      ‖DFT.dft func.length (fun n => func.getD n 0) g‖ := by
  have hp : 0 < func.length := List.length_pos_iff.2 h
  obtain ⟨g, hg, h1, h2, h3⟩ := Helpers.argmin_spec
    ((List.range func.length).map fun k => -‖DFT.dft func.length (fun n => func.getD n 0) k‖)
    (by simp [h])
  have hv : ∀ j < func.length, ((List.range func.length).map fun k =>
      -‖DFT.dft func.length (fun n => func.getD n 0) k‖).getD j 0 =
      -‖DFT.dft func.length (fun n => func.getD n 0) j‖ := by
    intro j hj
    rw [List.getD_eq_getElem _ _ (by simpa using hj), List.getElem_map, List.getElem_range]
  simp only [List.length_map, List.length_range] at h1 h2
  refine ⟨g, ?_, h1, fun j hj => ?_, fun j hj => ?_⟩
  · rw [peakBin, if_neg h, hg]
  · have := h2 j hj
    rw [hv g h1, hv j hj] at this
    linarith
  · have := h3 j hj
    rw [hv g h1, hv j (by omega)] at this
    linarith

theorem periods_dft (N : ℕ) (hN : N ≠ 0) (c : ℂ) (k : ℕ) (hk : k < N) (j : ℕ) (hj : j < N) :
    DFT.dft N (fun n => (periods N c k).getD n 0) j = if j = k then c * N else 0 := by
  unfold DFT.dft
  have h1 : ∑ n ∈ range N, (periods N c k).getD n 0 * DFT.e N (-(j * n)) =
      c * ∑ n ∈ range N, DFT.e N (n * ((k : ℤ) - j)) := by
    rw [mul_sum]
    refine sum_congr rfl fun n hn => ?_
    have hn := mem_range.1 hn
    rw [periods, List.getD_eq_getElem _ _ (by simpa using hn), List.getElem_map, List.getElem_range, mul_assoc]
    congr 1
    have : ((n : ℤ) * ((k : ℤ) - j)) = (k * n : ℤ) + -(j * n) := by ring
    rw [this, DFT.e_add]
    congr 1
    unfold DFT.e
    push_cast
    rfl
  rw [h1, DFT.sum_e N hN]
  by_cases h : j = k
  · subst h
    simp
  · rw [if_neg h, if_neg, mul_zero]
    rintro ⟨m, hm⟩
    have : m = 0 := by
      by_contra h0
      rcases lt_or_gt_of_ne h0 with h' | h'
      · nlinarith
      · nlinarith
    subst this
    omega

theorem grid_ends (N : ℕ) (hN : 2 ≤ N) (x0 step : ℝ) : grid N x0 step ≠ [] ∧
    (grid N x0 step).getD ((grid N x0 step).length - 1) 0 - (grid N x0 step).getD 0 0 = ((N : ℝ) - 1) * step := by
  have hl : (grid N x0 step).length = N := by simp [grid]
  refine ⟨fun h => by rw [h] at hl; simp at hl; omega, ?_⟩
  rw [hl, List.getD_eq_getElem _ _ (by omega), List.getD_eq_getElem _ _ (by omega)]
  simp only [grid, List.getElem_map, List.getElem_range]
  rw [Nat.cast_sub (by omega)]
  push_cast
  ring

/-- **C143** (disagreement).  A wavelet that inherits `get_center_frequency` and is a pure tone with `k` periods in its `N`
samples, so that its frequency is `k / (N step)`, gets `k / ((N - 1) step)`: the frequency times `N / (N - 1)`. -/
theorem C143_center_wrong (N : ℕ) (hN : 2 ≤ N) (x0 step : ℝ) (hs : 0 < step) (c : ℂ) (hc : c ≠ 0) (k : ℕ) (hk : k < N) :
    ∃ f, centerFrequency (grid N x0 step) (periods N c k) = .ok (some f) ∧
      f = (k / (N * step)) * (N / (N - 1)) ∧ (0 < k → k / (N * step) < f) := by
  have hl : (periods N c k).length = N := by simp [periods]
  have hne : periods N c k ≠ [] := fun h => by rw [h] at hl; simp at hl; omega
  obtain ⟨g, hg, h1, h2, -⟩ := peakBin_spec _ hne
  rw [hl] at h1 h2
  have hgk : g = k := by
    by_contra h
    have := h2 k hk
    rw [periods_dft N (by omega) c k hk k hk, periods_dft N (by omega) c k hk g h1, if_pos rfl, if_neg h, norm_zero] at this
    have h0 : 0 < ‖c * N‖ := norm_pos_iff.2 (mul_ne_zero hc (by exact_mod_cast (by omega : N ≠ 0)))
    linarith
  subst hgk
  obtain ⟨e1, e2⟩ := grid_ends N hN x0 step
  have hN' : (0 : ℝ) < N - 1 := by
    have : (2 : ℝ) ≤ N := by exact_mod_cast hN
    linarith
  have hN0 : (0 : ℝ) < N := by linarith
  have hd : ((N : ℝ) - 1) * step ≠ 0 := by positivity
  refine ⟨g / ((N - 1) * step), ?_, ?_, fun h => ?_⟩
  · unfold centerFrequency
    simp only [hg, bind, Except.bind, pure, Except.pure, if_neg e1, e2, if_neg hd]
  · field_simp
  · have hg0 : (0 : ℝ) < g := by exact_mod_cast h
    apply div_lt_div_of_pos_left hg0 (by positivity)
    nlinarith

/-- **C143.**  The centre frequency that a real wavelet inherits is not negative and not above the Nyquist frequency of the
mother wavelet, `N / 2` periods in its domain: of the two mirrored peaks of the
spectrum the lower one is taken. -/
theorem C143_center_real (x : List ℝ) (func : List ℝ) (hf : func ≠ []) (hx : x ≠ [])
    (hd : x.getD 0 0 < x.getD (x.length - 1) 0) :
    ∃ k : ℕ, centerFrequency x (func.map fun v : ℝ => (v : ℂ)) = .ok (some (k / (x.getD (x.length - 1) 0 - x.getD 0 0))) ∧
      2 * k ≤ func.length ∧ ∀ j < func.length, ‖DFT.rfft func.length (fun n => func.getD n 0) j‖ ≤
        ‖DFT.rfft func.length (fun n => func.getD n 0) k‖ := by
  obtain ⟨g, hg, h1, h2, h3⟩ := peakBin_spec (func.map fun v : ℝ => (v : ℂ)) (by simpa using hf)
  rw [List.length_map] at h1 h2 h3
  have hr : ∀ j, DFT.dft func.length (fun n => (func.map fun v : ℝ => (v : ℂ)).getD n 0) j =
      DFT.rfft func.length (fun n => func.getD n 0) j := by
    intro j
    unfold DFT.rfft DFT.dft
    refine sum_congr rfl fun n hn => ?_
    have hn := mem_range.1 hn
    beta_reduce
    rw [List.getD_eq_getElem _ _ (by simpa using hn), List.getElem_map, List.getD_eq_getElem _ _ hn]
  refine ⟨g, ?_, ?_, fun j hj => by rw [← hr, ← hr]; exact h2 j hj⟩
  · unfold centerFrequency
    have : x.getD (x.length - 1) 0 - x.getD 0 0 ≠ 0 := by linarith
    simp only [hg, bind, Except.bind, pure, Except.pure, if_neg hx, if_neg this]
  · by_contra hlt
    have := h3 (func.length - g) (by omega)
    rw [hr, hr, DFT.rfft_mirror _ (by omega) _ _ h1.le, RCLike.norm_conj] at this
    exact lt_irrefl _ this

/-- A case of the hypotheses: a tone with one period in four samples. -/
example : (2 : ℕ) ≤ 4 ∧ (0 : ℝ) < 1 / 4 ∧ (1 : ℂ) ≠ 0 ∧ 1 < 4 := by norm_num

/-- A case of the hypotheses: the sampled difference of two points. -/
example : ([1, -1] : List ℝ) ≠ [] ∧ ([0, 1] : List ℝ).getD 0 0 < ([0, 1] : List ℝ).getD (([0, 1] : List ℝ).length - 1) 0 := by
  simp

/-! ### The longest wavelet -/

theorem wavelet_length (m : Morlet) (f fs : ℝ) (w : List ℂ) (h : m.wavelet fs f = .ok w) : w.length = (m.kept (m.scaleOf f fs)).length := by
  unfold Morlet.wavelet at h
  split at h
  · unfold Morlet.interpolated at h
    dsimp only at h
    split at h
    · simp at h
    · split at h
      · simp at h
      · simp only [Except.ok.injEq] at h
        subst h
        simp
  · simp only [Except.ok.injEq] at h
    subst h
    simp

theorem wavelet_ok (m : Morlet) (hm : m.Proper) (f fs : ℝ) (hf : 0 < f) (hfs : 0 < fs) (hc : 0 < m.scale) :
    ∃ w, m.wavelet fs f = .ok w := by
  cases hi : m.interpolation with
  | true =>
    obtain ⟨w, hw, -⟩ := C143_wavelet m hm hi f fs hf hfs hc
    exact ⟨w, hw⟩
  | false =>
    obtain ⟨w, hw, -⟩ := C143_wavelet_plain m hm hi f fs hf hfs hc
    exact ⟨w, hw⟩

theorem kept_mono (m : Morlet) (hm : m.Proper) (s t : ℝ) (hs : 0 < s) (hst : s ≤ t) :
    (m.kept s).length ≤ (m.kept t).length := by
  have h1 := hm.1
  have hD := domain_nonneg m hm
  unfold Morlet.kept
  refine le_trans (List.Sublist.length_le (List.Sublist.filter _ (List.range_sublist.2
    (Nat.ceil_mono (add_le_add_left (mul_le_mul_of_nonneg_right hst hD) 1))))) ?_
  refine List.Sublist.length_le (List.monotone_filter_right _ fun n hn => ?_)
  rw [decide_eq_true_eq] at hn ⊢
  refine lt_of_le_of_lt (Nat.floor_mono ?_) hn
  unfold Morlet.ind
  gcongr

/-- **C143.**  For positive frequencies, `_get_length_longest_wavelet` is the largest of the lengths of the wavelets of all
frequencies. -/
theorem C143_longest (m : Morlet) (hm : m.Proper) (f : List ℝ) (hne : f ≠ []) (hf : ∀ v ∈ f, 0 < v) (fs : ℝ) (hfs : 0 < fs)
    (hc : 0 < m.scale) : ∃ L, longestWavelet m f fs = .ok L ∧
      (∃ v ∈ f, ∃ w, m.wavelet fs v = .ok w ∧ w.length = L) ∧
      ∀ v ∈ f, ∀ w, m.wavelet fs v = .ok w → w.length ≤ L := by
  cases f with
  | nil => simp at hne
  | cons f0 rest =>
    have hmin : ∀ (l : List ℝ) (a : ℝ), (l.foldl min a ∈ a :: l) ∧ ∀ v ∈ a :: l, l.foldl min a ≤ v := by
      intro l
      induction l with
      | nil => intro a; simp
      | cons b l ih =>
        intro a
        obtain ⟨i1, i2⟩ := ih (min a b)
        rw [List.foldl_cons]
        constructor
        · rcases List.mem_cons.1 i1 with h | h
          · rw [h]
            rcases min_choice a b with h' | h' <;> simp [h']
          · simp [h]
        · intro v hv
          have h0 := i2 (min a b) (by simp)
          rcases List.mem_cons.1 hv with h | hv
          · rw [h]
            exact h0.trans (min_le_left _ _)
          · rcases List.mem_cons.1 hv with h | hv
            · rw [h]
              exact h0.trans (min_le_right _ _)
            · exact i2 v (List.mem_cons_of_mem _ hv)
    obtain ⟨g1, g2⟩ := hmin rest f0
    have hp := hf _ g1
    obtain ⟨w0, hw0⟩ := wavelet_ok m hm _ fs hp hfs hc
    refine ⟨w0.length, by unfold longestWavelet; simp only [hw0], ⟨_, g1, w0, hw0, rfl⟩, fun v hv w hw => ?_⟩
    have hv0 := hf v hv
    rw [wavelet_length m v fs w hw, wavelet_length m _ fs w0 hw0]
    apply kept_mono m hm
    · unfold Morlet.scaleOf
      positivity
    · have := g2 v hv
      unfold Morlet.scaleOf
      gcongr

/-- Frequencies that meet the hypotheses. -/
example : ([100, 50] : List ℝ) ≠ [] ∧ ∀ v ∈ ([100, 50] : List ℝ), 0 < v := by simp

end Verif.Wavelet
