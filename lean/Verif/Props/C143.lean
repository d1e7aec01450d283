import Verif.Model.Wavelet
import Verif.Props.C45
import Verif.Lemmas.LFilter
import Mathlib.Analysis.Real.Pi.Bounds

/-!
# C143: the continuous wavelet transform
-/

namespace Verif.Wavelet

open Finset

/-! ### The wavelet -/

/-- The complex Morlet wavelet with bandwidth `b` and period `c`. -/
noncomputable def morlet (b c x : ℝ) : ℂ :=
  ((Real.exp (-x ^ 2 / b) / √(Real.pi * b) : ℝ) : ℂ) * Complex.exp ((2 * Real.pi * x / c : ℝ) * Complex.I)

theorem base_eq (m : Morlet) (i : ℕ) : m.base i = morlet m.b m.scale (m.x i) := by
  unfold Morlet.base morlet
  rw [← Complex.ofReal_exp]
  have : 2 * (Real.pi : ℂ) * Complex.I / m.scale * m.x i = ((2 * Real.pi * m.x i / m.scale : ℝ) : ℂ) * Complex.I := by
    push_cast
    ring
  rw [this]
  push_cast
  ring

theorem filter_range (p : ℕ → Bool) (h : ∀ n, p (n + 1) = true → p n = true) (M : ℕ) :
    ∃ K ≤ M, (List.range M).filter p = List.range K ∧ (∀ n < K, p n = true) ∧ ∀ n, K ≤ n → n < M → p n = false := by
  induction M with
  | zero => exact ⟨0, le_refl _, rfl, fun n hn => absurd hn (by omega), fun n _ hn => absurd hn (by omega)⟩
  | succ M ih =>
    obtain ⟨K, hK, hf, h1, h2⟩ := ih
    rw [List.range_succ, List.filter_append, hf]
    cases hp : p M with
    | true =>
      have hKM : K = M := by
        by_contra hne
        have : ∀ d, d ≤ M → p (M - d) = true := by
          intro d
          induction d with
          | zero => intro _; exact hp
          | succ d ihd =>
            intro hd
            have := ihd (by omega)
            have e : M - d = M - (d + 1) + 1 := by omega
            rw [e] at this
            exact h _ this
        have h3 := this (M - K) (by omega)
        have h4 := h2 K (le_refl _) (by omega)
        rw [show M - (M - K) = K by omega, h4] at h3
        cases h3
      subst hKM
      refine ⟨K + 1, le_refl _, by simp [hp, List.range_succ], fun n hn => ?_, fun n hn hn' => absurd hn (by omega)⟩
      rcases Nat.lt_succ_iff_lt_or_eq.1 hn with h | h
      · exact h1 n h
      · rw [h, hp]
    | false =>
      refine ⟨K, by omega, by simp [hp], h1, fun n hn hn' => ?_⟩
      rcases Nat.lt_succ_iff_lt_or_eq.1 hn' with h | h
      · exact h2 n hn h
      · rw [h, hp]

/-- A mother wavelet with a positive step; the bounds may coincide. -/
def Morlet.Proper (m : Morlet) : Prop := 0 < m.step ∧ 0 ≤ m.bound

theorem size_pos (m : Morlet) (hm : m.Proper) : 1 ≤ m.size := by
  obtain ⟨hs, hb⟩ := hm
  unfold Morlet.size
  rw [Nat.one_le_ceil_iff]
  refine div_pos ?_ hs
  linarith

theorem domain_eq (m : Morlet) (_ : m.Proper) : m.domain = ((m.size - 1 : ℕ) : ℝ) * m.step := by
  unfold Morlet.domain Morlet.x
  simp

theorem domain_nonneg (m : Morlet) (hm : m.Proper) : 0 ≤ m.domain := by
  rw [domain_eq m hm]
  exact mul_nonneg (Nat.cast_nonneg _) hm.1.le

/-- Which positions are kept. -/
theorem kept_eq (m : Morlet) (hm : m.Proper) (s : ℝ) (hs : 0 < s) :
    ∃ K, 0 < K ∧ K ≤ ⌈s * m.domain + 1⌉₊ ∧ m.kept s = List.range K ∧ (∀ n < K, ⌊m.ind s n⌋₊ < m.size) ∧
      (∀ n, n + 1 < K → ⌊m.ind s n⌋₊ + 1 < m.size) ∧
      (1 ≤ s * m.step → K = ⌈s * m.domain + 1⌉₊) := by
  have hst : 0 < s * m.step := mul_pos hs hm.1
  obtain ⟨K, hK, hf, h1, h2⟩ := filter_range (fun n => decide (⌊m.ind s n⌋₊ < m.size)) (by
    intro n hn
    rw [decide_eq_true_eq] at hn ⊢
    refine lt_of_le_of_lt (Nat.floor_mono ?_) hn
    unfold Morlet.ind
    gcongr
    simp) ⌈s * m.domain + 1⌉₊
  have hsz := size_pos m hm
  have hD := domain_nonneg m hm
  have hsize : (((m.size - 1 : ℕ) : ℝ)) = (m.size : ℝ) - 1 := by
    rw [Nat.cast_sub hsz]
    simp
  have hpos : ∀ n : ℕ, n < ⌈s * m.domain + 1⌉₊ → (n : ℝ) < s * m.domain + 1 := fun n hn => Nat.lt_ceil.1 hn
  refine ⟨K, ?_, hK, hf, fun n hn => by simpa using h1 n hn, fun n hn => ?_, fun h => ?_⟩
  · by_contra h0
    have hM : 0 < ⌈s * m.domain + 1⌉₊ := Nat.ceil_pos.2 (by positivity)
    have := h2 0 (by omega) hM
    rw [decide_eq_false_iff_not] at this
    apply this
    unfold Morlet.ind
    simp
    omega
  · have hn' := hpos (n + 1) (by omega)
    push_cast at hn'
    have : ⌊m.ind s n⌋₊ < m.size - 1 := by
      rw [Nat.floor_lt' (by
        intro h0
        rw [domain_eq m hm, h0] at hn'
        simp at hn'
        have : (0 : ℝ) ≤ n := Nat.cast_nonneg n
        linarith)]
      unfold Morlet.ind
      rw [div_lt_iff₀ hst]
      rw [domain_eq m hm] at hn'
      nlinarith
    omega
  · by_contra hne
    have h3 := h2 K (le_refl _) (by omega)
    rw [decide_eq_false_iff_not] at h3
    apply h3
    rw [Nat.floor_lt' (by omega)]
    unfold Morlet.ind
    rw [div_lt_iff₀ hst]
    have := hpos K (by omega)
    rw [domain_eq m hm, hsize] at this
    nlinarith

/-- The position in the mother wavelet of sample `i` of the wavelet for frequency `f`. -/
noncomputable def position (m : Morlet) (f fs : ℝ) (i : ℕ) : ℝ := -m.bound + i * (f * m.scale / fs)

theorem position_eq (m : Morlet) (hm : m.Proper) (f fs : ℝ) (hf : 0 < f) (hfs : 0 < fs) (hc : 0 < m.scale) (i : ℕ) :
    m.x ⌊m.ind (m.scaleOf f fs) i⌋₊ + (m.ind (m.scaleOf f fs) i - ⌊m.ind (m.scaleOf f fs) i⌋₊) * m.step =
      position m f fs i := by
  have h1 := hm.1
  unfold Morlet.x position
  have : m.ind (m.scaleOf f fs) i * m.step = i * (f * m.scale / fs) := by
    unfold Morlet.ind Morlet.scaleOf
    field_simp
  linear_combination this

/-- **C143**: for every positive frequency, the wavelet exists; except for its last sample, its samples are read with linear
interpolation from the mother wavelet, at distances that turn its period into that of the frequency. -/
theorem C143_wavelet (m : Morlet) (hm : m.Proper) (hi : m.interpolation = true) (f fs : ℝ) (hf : 0 < f) (hfs : 0 < fs)
    (hc : 0 < m.scale) : ∃ w, m.wavelet fs f = .ok w ∧ 0 < w.length ∧
      (∀ i, i + 1 < w.length → ∃ (j : ℕ) (θ : ℝ), 0 ≤ θ ∧ θ < 1 ∧ j + 1 < m.size ∧
        -m.bound + (j + θ) * m.step = position m f fs i ∧
        w.getD i 0 = (1 - θ : ℝ) * morlet m.b m.scale (-m.bound + j * m.step) +
          (θ : ℝ) * morlet m.b m.scale (-m.bound + ((j + 1 : ℕ) : ℝ) * m.step)) ∧
      ∃ j < m.size, w.getD (w.length - 1) 0 = morlet m.b m.scale (-m.bound + j * m.step) ∧
        -m.bound + j * m.step ≤ position m f fs (w.length - 1) ∧
        position m f fs (w.length - 1) < -m.bound + (j + 1) * m.step := by
  set s := m.scaleOf f fs with hsdef
  have hs : 0 < s := by
    rw [hsdef]
    unfold Morlet.scaleOf
    positivity
  obtain ⟨K, hK0, hK, hkept, h1, h2, -⟩ := kept_eq m hm s hs
  have hind : ∀ i : ℕ, 0 ≤ m.ind s i := by
    intro i
    have := hm.1
    unfold Morlet.ind
    positivity
  have htr : ∀ i < K, ((m.kept s).map fun n => ⌊m.ind s n⌋₊).getD i 0 = ⌊m.ind s i⌋₊ := by
    intro i hi
    rw [hkept]
    simp [List.getD_eq_getElem?_getD, hi]
  have hlen : ((m.kept s).map fun n => ⌊m.ind s n⌋₊).length = K := by
    rw [hkept]
    simp
  have hw : m.wavelet fs f = .ok ((List.range K).map fun (i : ℕ) =>
      let j := ((m.kept s).map fun n => ⌊m.ind s n⌋₊).getD i 0
      if i + 1 < K then m.base j + (m.base (j + 1) - m.base j) * ((m.ind s i - j : ℝ) : ℂ) else m.base j) := by
    unfold Morlet.wavelet
    rw [if_pos hi]
    unfold Morlet.interpolated
    dsimp only
    rw [hlen, if_neg (by omega), if_neg]
    intro h
    rw [List.any_eq_true] at h
    obtain ⟨i, hi, hbad⟩ := h
    have hi := List.mem_range.1 hi
    rw [decide_eq_true_eq, htr i (by omega)] at hbad
    have := h2 i (by omega)
    omega
  refine ⟨_, hw, by simpa using hK0, fun i hi => ?_, ?_⟩
  · rw [List.length_map, List.length_range] at hi
    refine ⟨⌊m.ind s i⌋₊, m.ind s i - ⌊m.ind s i⌋₊, ?_, ?_, h2 i hi, ?_, ?_⟩
    · linarith [Nat.floor_le (hind i)]
    · linarith [Nat.lt_floor_add_one (m.ind s i)]
    · rw [← position_eq m hm f fs hf hfs hc i]
      unfold Morlet.x
      ring
    · rw [LFilter.getD_map_range, if_pos (by omega)]
      dsimp only
      rw [if_pos hi, htr i (by omega), base_eq, base_eq]
      unfold Morlet.x
      push_cast
      ring
  · refine ⟨⌊m.ind s (K - 1 : ℕ)⌋₊, h1 _ (by omega), ?_, ?_, ?_⟩
    · rw [List.length_map, List.length_range, LFilter.getD_map_range, if_pos (by omega)]
      dsimp only
      rw [if_neg (by omega), htr _ (by omega), base_eq]
      rfl
    all_goals
      rw [List.length_map, List.length_range, ← position_eq m hm f fs hf hfs hc (K - 1)]
      have := hm.1
      have h3 := Nat.floor_le (hind (K - 1))
      have h4 := Nat.lt_floor_add_one (m.ind s (K - 1 : ℕ))
      unfold Morlet.x
    · nlinarith
    · nlinarith

/-- Without interpolation, each sample is the last one of the mother wavelet before its position. -/
theorem C143_wavelet_plain (m : Morlet) (hm : m.Proper) (hi : m.interpolation = false) (f fs : ℝ) (hf : 0 < f)
    (hfs : 0 < fs) (hc : 0 < m.scale) : ∃ w, m.wavelet fs f = .ok w ∧ 0 < w.length ∧
      ∀ i < w.length, ∃ j < m.size, w.getD i 0 = morlet m.b m.scale (-m.bound + j * m.step) ∧
        -m.bound + j * m.step ≤ position m f fs i ∧ position m f fs i < -m.bound + (j + 1) * m.step := by
  set s := m.scaleOf f fs with hsdef
  have hs : 0 < s := by
    rw [hsdef]
    unfold Morlet.scaleOf
    positivity
  obtain ⟨K, hK0, hK, hkept, h1, h2, -⟩ := kept_eq m hm s hs
  have hw : m.wavelet fs f = .ok ((List.range K).map fun n => m.base ⌊m.ind s n⌋₊) := by
    unfold Morlet.wavelet
    rw [if_neg (by simp [hi]), ← hsdef, hkept]
  refine ⟨_, hw, by simpa using hK0, fun i hi => ?_⟩
  rw [List.length_map, List.length_range] at hi
  refine ⟨⌊m.ind s i⌋₊, h1 i hi, ?_, ?_⟩
  · rw [LFilter.getD_map_range, if_pos hi, base_eq]
    rfl
  · rw [← position_eq m hm f fs hf hfs hc i]
    have := hm.1
    have h3 : (⌊m.ind s i⌋₊ : ℝ) ≤ m.ind s i := Nat.floor_le (by
      unfold Morlet.ind
      positivity)
    have h4 := Nat.lt_floor_add_one (m.ind s i)
    unfold Morlet.x
    constructor <;> nlinarith

/-- A wavelet with default settings. -/
example : ∃ m, Morlet.make (some 1) none 1 1e-5 5e-3 true = .ok m ∧ m.Proper ∧ 0 < m.scale := by
  refine ⟨_, rfl, ⟨?_, Real.sqrt_nonneg _⟩, ?_⟩ <;> norm_num

/-- **C143**, not so: `get_scale_lengths` gives the lengths of the wavelets.  With a mother wavelet at least as fine as the
sampled one, the wavelet is one sample longer unless its duration is a whole number of samples. -/
theorem C143_lengths_wrong (m : Morlet) (hm : m.Proper) (f fs : ℝ) (hf : 0 < f) (hfs : 0 < fs)
    (hc : 0 < m.scale) (hfine : 1 ≤ m.scaleOf f fs * m.step)
    (hn : ∀ k : ℕ, m.scaleOf f fs * m.domain ≠ k) :
    ∃ w, m.wavelet fs f = .ok w ∧ w.length = m.scaleLength f fs + 1 := by
  set s := m.scaleOf f fs with hsdef
  have hs : 0 < s := by
    rw [hsdef]
    unfold Morlet.scaleOf
    positivity
  obtain ⟨K, hK0, hK, hkept, h1, h2, h3⟩ := kept_eq m hm s hs
  have hlen : K = m.scaleLength f fs + 1 := by
    rw [h3 hfine]
    unfold Morlet.scaleLength
    rw [← hsdef]
    have h0 : 0 ≤ s * m.domain := mul_nonneg hs.le (domain_nonneg m hm)
    rw [Nat.floor_add_one h0, Nat.ceil_eq_iff (by omega)]
    have h5 := Nat.floor_le h0
    have h6 := Nat.lt_floor_add_one (s * m.domain)
    have h7 := hn ⌊s * m.domain⌋₊
    push_cast
    constructor
    · have : (⌊s * m.domain⌋₊ : ℝ) < s * m.domain := lt_of_le_of_ne h5 (fun h => h7 h.symm)
      linarith
    · linarith
  cases hi : m.interpolation with
  | true =>
    obtain ⟨w, hw, -⟩ := C143_wavelet m hm hi f fs hf hfs hc
    refine ⟨w, hw, ?_⟩
    unfold Morlet.wavelet at hw
    rw [if_pos hi] at hw
    unfold Morlet.interpolated at hw
    dsimp only at hw
    split_ifs at hw
    rw [← Except.ok.inj hw, List.length_map, List.length_range, List.length_map, ← hsdef, hkept, List.length_range]
    exact hlen
  | false =>
    refine ⟨(List.range K).map fun n => m.base ⌊m.ind s n⌋₊, ?_, by simpa using hlen⟩
    unfold Morlet.wavelet
    rw [if_neg (by simp [hi]), ← hsdef, hkept]

/-- A mother wavelet of five samples and a wavelet of four and a half. -/
example : ∃ m : Morlet, m.Proper ∧ 0 < m.scale ∧ 1 ≤ m.scaleOf 1 2.25 * m.step ∧
    ∀ k : ℕ, m.scaleOf 1 2.25 * m.domain ≠ k := by
  refine ⟨⟨1, 1, 1, 1 / 2, true⟩, ⟨by norm_num, by norm_num⟩, by norm_num, ?_, fun k => ?_⟩
  · norm_num [Morlet.scaleOf]
  · have hsize : (⟨1, 1, 1, 1 / 2, true⟩ : Morlet).size = 5 := by
      unfold Morlet.size
      norm_num
    unfold Morlet.domain Morlet.scaleOf Morlet.x
    rw [hsize]
    intro h
    norm_num at h
    have h2 : (9 : ℝ) = 2 * k := by linarith
    have h3 : 9 = 2 * k := by exact_mod_cast h2
    omega

/-- **C143**: the wavelets are not zero, so that they can be normalised. -/
theorem C143_wavelet_nonzero (m : Morlet) (hm : m.Proper) (hb : 0 < m.b) (f fs : ℝ) (hf : 0 < f) (hfs : 0 < fs)
    (hc : 0 < m.scale) : ∃ w, m.wavelet fs f = .ok w ∧ ∃ i < w.length, w.getD i 0 ≠ 0 := by
  have hne : ∀ x, morlet m.b m.scale x ≠ 0 := by
    intro x
    unfold morlet
    refine mul_ne_zero ?_ (Complex.exp_ne_zero _)
    have : 0 < Real.exp (-x ^ 2 / m.b) / √(Real.pi * m.b) :=
      div_pos (Real.exp_pos _) (Real.sqrt_pos.2 (mul_pos Real.pi_pos hb))
    exact_mod_cast this.ne'
  cases hi : m.interpolation with
  | true =>
    obtain ⟨w, hw, hl, -, j, -, hj, -⟩ := C143_wavelet m hm hi f fs hf hfs hc
    exact ⟨w, hw, w.length - 1, by omega, by rw [hj]; exact hne _⟩
  | false =>
    obtain ⟨w, hw, hl, h⟩ := C143_wavelet_plain m hm hi f fs hf hfs hc
    obtain ⟨j, -, hj, -⟩ := h 0 hl
    exact ⟨w, hw, 0, hl, by rw [hj]; exact hne _⟩

/-! ### The transform -/

theorem mapM_ok {α β : Type} (l : List α) (g : α → Except Err β) (h : α → β) (hg : ∀ a ∈ l, g a = .ok (h a)) :
    l.mapM g = .ok (l.map h) := by
  induction l with
  | nil => rfl
  | cons a l ih =>
    rw [List.mapM_cons, hg a List.mem_cons_self, ih fun b hb => hg b (List.mem_cons_of_mem _ hb)]
    rfl

theorem cwt_eq (x freqs : List ℝ) (fs : ℝ) (wavelet : ℝ → Except Err (List ℂ)) (w : ℝ → List ℂ)
    (hw : ∀ f ∈ freqs, wavelet f = .ok (w f)) (apply : Bool) :
    cwt x freqs fs wavelet false apply = .ok (freqs.map fun f => convSame x (normalized (w f))) := by
  unfold cwt
  rw [mapM_ok freqs _ (fun f => convSame x (normalized (w f))) (fun f hf => by rw [hw f hf]; rfl)]
  rfl

/-- Zero outside of the signal. -/
noncomputable def at0 (x : List ℝ) (n : ℤ) : ℝ := if 0 ≤ n then x.getD n.toNat 0 else 0

theorem convSame_getD (x : List ℝ) (w : List ℂ) (n : ℕ) (hn : n < x.length) :
    (convSame x w).getD n 0 =
      ∑ j ∈ range w.length, w.getD j 0 * ((at0 x ((n : ℤ) + ((w.length - 1) / 2 : ℕ) - j) : ℝ) : ℂ) := by
  unfold convSame
  rw [LFilter.getD_map_range, if_pos hn]
  refine Finset.sum_congr rfl fun j _ => ?_
  unfold at0
  by_cases h : j ≤ n + (w.length - 1) / 2
  · rw [if_pos h, if_pos (by omega), show ((n : ℤ) + ((w.length - 1) / 2 : ℕ) - j).toNat =
      n + (w.length - 1) / 2 - j by omega]
  · rw [if_neg h, if_neg (by omega)]
    simp

theorem normalized_length (w : List ℂ) : (normalized w).length = w.length := by
  unfold normalized
  simp

theorem normalized_getD (w : List ℂ) (j : ℕ) :
    (normalized w).getD j 0 = w.getD j 0 / ((∑ i ∈ range w.length, ‖w.getD i 0‖ : ℝ) : ℂ) := by
  have hs : (w.map fun u => ‖u‖).sum = ∑ i ∈ range w.length, ‖w.getD i 0‖ := by
    induction w with
    | nil => simp
    | cons a w ih =>
      rw [List.map_cons, List.sum_cons, ih, List.length_cons, Finset.sum_range_succ']
      simp only [List.getD_cons_succ, List.getD_cons_zero]
      ring
  unfold normalized
  rw [hs]
  by_cases hj : j < w.length
  · simp [List.getD_eq_getElem?_getD, hj]
  · simp [List.getD_eq_getElem?_getD, hj]

/-- **C143**: the scalogram has a row for each frequency in the given order and a column for each sample; its entries are
the convolution of the signal, zero outside of its samples, with the wavelet divided by the sum of its absolute values, the
middle sample of the wavelet being the time 0. -/
theorem C143_cwt (x freqs : List ℝ) (fs : ℝ) (wavelet : ℝ → Except Err (List ℂ)) (w : ℝ → List ℂ)
    (hw : ∀ f ∈ freqs, wavelet f = .ok (w f) ∧ ∃ i < (w f).length, (w f).getD i 0 ≠ 0) (apply : Bool) :
    ∃ S, cwt x freqs fs wavelet false apply = .ok S ∧ S.length = freqs.length ∧
      ∀ r < freqs.length, (S.getD r []).length = x.length ∧ ∀ n < x.length,
        0 < ∑ i ∈ range (w (freqs.getD r 0)).length, ‖(w (freqs.getD r 0)).getD i 0‖ ∧
        (S.getD r []).getD n 0 * ((∑ i ∈ range (w (freqs.getD r 0)).length, ‖(w (freqs.getD r 0)).getD i 0‖ : ℝ) : ℂ) =
          ∑ j ∈ range (w (freqs.getD r 0)).length, (w (freqs.getD r 0)).getD j 0 *
            ((at0 x ((n : ℤ) + (((w (freqs.getD r 0)).length - 1) / 2 : ℕ) - j) : ℝ) : ℂ) := by
  refine ⟨_, cwt_eq x freqs fs wavelet w (fun f hf => (hw f hf).1) apply, by simp, fun r hr => ?_⟩
  have hrow : (freqs.map fun f => convSame x (normalized (w f))).getD r [] =
      convSame x (normalized (w (freqs.getD r 0))) := by
    simp [List.getD_eq_getElem?_getD, hr]
  rw [hrow]
  refine ⟨by simp [convSame], fun n hn => ?_⟩
  have hpos : 0 < ∑ i ∈ range (w (freqs.getD r 0)).length, ‖(w (freqs.getD r 0)).getD i 0‖ := by
    have hmem : freqs.getD r 0 ∈ freqs := by
      rw [List.getD_eq_getElem _ _ hr]
      exact List.getElem_mem _
    obtain ⟨i, hi, hne⟩ := (hw _ hmem).2
    exact Finset.sum_pos' (fun i _ => norm_nonneg _) ⟨i, Finset.mem_range.2 hi, norm_pos_iff.2 hne⟩
  refine ⟨hpos, ?_⟩
  rw [convSame_getD x _ n hn, normalized_length, Finset.sum_mul]
  refine Finset.sum_congr rfl fun j _ => ?_
  rw [normalized_getD]
  have : ((∑ i ∈ range (w (freqs.getD r 0)).length, ‖(w (freqs.getD r 0)).getD i 0‖ : ℝ) : ℂ) ≠ 0 := by
    exact_mod_cast hpos.ne'
  field_simp

theorem convSame_bound (x : List ℝ) (w : List ℂ) (B : ℝ) (hB : 0 ≤ B) (hx : ∀ n < x.length, |x.getD n 0| ≤ B) (n : ℕ)
    (hn : n < x.length) : ‖(convSame x (normalized w)).getD n 0‖ ≤ B := by
  rw [convSame_getD x _ n hn, normalized_length]
  have hat : ∀ k : ℤ, |at0 x k| ≤ B := by
    intro k
    unfold at0
    split_ifs
    · by_cases hk : k.toNat < x.length
      · exact hx _ hk
      · rw [List.getD_eq_default _ _ (by omega), abs_zero]
        exact hB
    · rw [abs_zero]
      exact hB
  refine le_trans (norm_sum_le _ _) ?_
  set N := ∑ i ∈ range w.length, ‖w.getD i 0‖ with hN
  have hN0 : 0 ≤ N := Finset.sum_nonneg fun i _ => norm_nonneg _
  have : ∀ j ∈ range w.length, ‖(normalized w).getD j 0 * ((at0 x ((n : ℤ) + ((w.length - 1) / 2 : ℕ) - j) : ℝ) : ℂ)‖ ≤
      ‖w.getD j 0‖ / N * B := by
    intro j _
    rw [norm_mul, normalized_getD, norm_div, ← hN, Complex.norm_real, Complex.norm_real, Real.norm_eq_abs,
      Real.norm_eq_abs, abs_of_nonneg hN0]
    exact mul_le_mul_of_nonneg_left (hat _) (div_nonneg (norm_nonneg _) hN0)
  refine le_trans (Finset.sum_le_sum this) ?_
  rw [← Finset.sum_mul, ← Finset.sum_div, ← hN]
  by_cases h0 : N = 0
  · rw [h0]
    simpa using hB
  · rw [div_self h0, one_mul]

/-- **C143**: no entry of the scalogram exceeds the largest sample of the signal. -/
theorem C143_bound (x freqs : List ℝ) (fs : ℝ) (wavelet : ℝ → Except Err (List ℂ)) (apply : Bool) (S : List (List ℂ))
    (hS : cwt x freqs fs wavelet false apply = .ok S) (hw : ∀ f ∈ freqs, ∃ w, wavelet f = .ok w ∧ ∃ i < w.length, w.getD i 0 ≠ 0)
    (B : ℝ) (hB : 0 ≤ B)
    (hx : ∀ n < x.length, |x.getD n 0| ≤ B) (r n : ℕ) (hr : r < freqs.length) (hn : n < x.length) :
    ‖(S.getD r []).getD n 0‖ ≤ B := by
  classical
  have hw' : ∀ f ∈ freqs, wavelet f = .ok (if h : ∃ w, wavelet f = .ok w then h.choose else []) := by
    intro f hf
    have hex : ∃ w, wavelet f = .ok w := (hw f hf).imp fun w h => h.1
    rw [dif_pos hex]
    exact hex.choose_spec
  rw [cwt_eq x freqs fs wavelet _ hw' apply] at hS
  rw [← Except.ok.inj hS]
  have hrow : ∀ g : ℝ → List ℂ, (freqs.map g).getD r [] = g (freqs.getD r 0) := by
    intro g
    simp [List.getD_eq_getElem?_getD, hr]
  rw [hrow]
  exact convSame_bound x _ B hB hx n hn

theorem convSame_delay (x : List ℝ) (w : List ℂ) (d n : ℕ) (hx : ∀ k, x.length - d ≤ k → x.getD k 0 = 0)
    (hn : n + d < x.length) :
    (convSame ((List.range x.length).map fun (k : ℕ) => if d ≤ k then x.getD (k - d) 0 else 0) w).getD (n + d) 0 =
      (convSame x w).getD n 0 := by
  have hl : ((List.range x.length).map fun (k : ℕ) => if d ≤ k then x.getD (k - d) 0 else 0).length = x.length := by
    simp
  rw [convSame_getD _ _ _ (by rw [hl]; exact hn), convSame_getD _ _ _ (by omega)]
  refine Finset.sum_congr rfl fun j _ => ?_
  congr 2
  unfold at0
  by_cases h : 0 ≤ (n : ℤ) + ((w.length - 1) / 2 : ℕ) - j
  · rw [if_pos (by push_cast; omega), if_pos h, LFilter.getD_map_range]
    have e : (((n + d : ℕ) : ℤ) + ((w.length - 1) / 2 : ℕ) - j).toNat =
        ((n : ℤ) + ((w.length - 1) / 2 : ℕ) - j).toNat + d := by omega
    rw [e]
    by_cases hlt : ((n : ℤ) + ((w.length - 1) / 2 : ℕ) - j).toNat + d < x.length
    · rw [if_pos hlt, if_pos (by omega), Nat.add_sub_cancel]
    · rw [if_neg hlt, hx _ (by omega)]
  · rw [if_neg h]
    split_ifs with h2
    · rw [LFilter.getD_map_range]
      split_ifs with h3 h4
      · omega
      · rfl
      · rfl
    · rfl

/-- **C143**: a delayed signal has a delayed scalogram. -/
theorem C143_delay (x freqs : List ℝ) (fs : ℝ) (wavelet : ℝ → Except Err (List ℂ)) (w : ℝ → List ℂ)
    (hw : ∀ f ∈ freqs, wavelet f = .ok (w f)) (apply : Bool) (d : ℕ)
    (hx : ∀ k, x.length - d ≤ k → x.getD k 0 = 0) :
    ∃ S S', cwt x freqs fs wavelet false apply = .ok S ∧
      cwt ((List.range x.length).map fun (k : ℕ) => if d ≤ k then x.getD (k - d) 0 else 0) freqs fs wavelet false apply =
        .ok S' ∧
      ∀ r < freqs.length, ∀ n, n + d < x.length → (S'.getD r []).getD (n + d) 0 = (S.getD r []).getD n 0 := by
  refine ⟨_, _, cwt_eq x freqs fs wavelet w hw apply, cwt_eq _ freqs fs wavelet w hw apply, fun r hr n hn => ?_⟩
  have hrow : ∀ g : ℝ → List ℂ, (freqs.map g).getD r [] = g (freqs.getD r 0) := by
    intro g
    simp [List.getD_eq_getElem?_getD, hr]
  rw [hrow, hrow]
  exact convSame_delay x _ d n hx hn

/-- A pulse with two zeros after it can be delayed by 2. -/
example : ∀ k, [(1 : ℝ), 0, 0].length - 2 ≤ k → [(1 : ℝ), 0, 0].getD k 0 = 0 := by
  intro k hk
  simp only [List.length_cons, List.length_nil] at hk
  match k, hk with
  | 1, _ => rfl
  | 2, _ => rfl
  | k + 3, _ => rfl

/-! ### Synchrosqueezing -/

theorem nearest_spec (freqs : List ℝ) (h : freqs ≠ []) (v : ℝ) : nearest freqs v < freqs.length ∧
    (∀ j < freqs.length, |freqs.getD (nearest freqs v) 0 - v| ≤ |freqs.getD j 0 - v|) ∧
    ∀ j < nearest freqs v, |freqs.getD (nearest freqs v) 0 - v| < |freqs.getD j 0 - v| := by
  obtain ⟨i, hi, h1, h2, h3⟩ := Helpers.argmin_spec (freqs.map fun f => |f - v|) (by simpa using h)
  have hn : nearest freqs v = i := by
    unfold nearest
    rw [hi]
  rw [List.length_map] at h1 h2
  have hmap : ∀ j < freqs.length, (freqs.map fun f => |f - v|).getD j 0 = |freqs.getD j 0 - v| := by
    intro j hj
    simp [List.getD_eq_getElem?_getD, hj]
  rw [hn]
  refine ⟨h1, fun j hj => ?_, fun j hj => ?_⟩
  · have := h2 j hj
    rwa [hmap i h1, hmap j hj] at this
  · have := h3 j hj
    rwa [hmap i h1, hmap j (by omega)] at this

/-- The coefficient of row `r` at time `t` belongs to row `i`: this is the first of the rows nearest to its momentary frequency,
which differs from it by at most `deltaW` times the frequency of `r`. -/
def Belongs (freqs : List ℝ) (fs deltaW : ℝ) (T : ℕ) (S : ℕ → ℕ → ℂ) (r t i : ℕ) : Prop :=
  i < freqs.length ∧
    (∀ j < freqs.length, |freqs.getD i 0 - phaseFrequency T fs (S r) t| ≤ |freqs.getD j 0 - phaseFrequency T fs (S r) t|) ∧
    (∀ j < i, |freqs.getD i 0 - phaseFrequency T fs (S r) t| < |freqs.getD j 0 - phaseFrequency T fs (S r) t|) ∧
    |freqs.getD i 0 - phaseFrequency T fs (S r) t| ≤ deltaW * freqs.getD r 0

theorem belongs_iff (freqs : List ℝ) (fs deltaW : ℝ) (T : ℕ) (S : ℕ → ℕ → ℂ) (r t i : ℕ) (h : freqs ≠ []) :
    Belongs freqs fs deltaW T S r t i ↔ nearest freqs (phaseFrequency T fs (S r) t) = i ∧
      ¬ |freqs.getD (nearest freqs (phaseFrequency T fs (S r) t)) 0 - phaseFrequency T fs (S r) t| >
        deltaW * freqs.getD r 0 := by
  obtain ⟨h1, h2, h3⟩ := nearest_spec freqs h (phaseFrequency T fs (S r) t)
  constructor
  · rintro ⟨b1, b2, b3, b4⟩
    have he : nearest freqs (phaseFrequency T fs (S r) t) = i := by
      rcases lt_trichotomy (nearest freqs (phaseFrequency T fs (S r) t)) i with hl | hl | hl
      · exact absurd (b3 _ hl) (not_lt.2 (h2 i b1))
      · exact hl
      · exact absurd (h3 _ hl) (not_lt.2 (b2 _ h1))
    rw [he]
    exact ⟨rfl, not_lt.2 b4⟩
  · rintro ⟨he, hd⟩
    rw [he] at h1 h2 h3 hd
    exact ⟨h1, h2, h3, not_lt.1 hd⟩

open Classical in
/-- **C143**: the synchrosqueezed scalogram sums up, in each row, the coefficients of the same time that belong to it. -/
theorem C143_squeeze (freqs : List ℝ) (h : freqs ≠ []) (fs : ℝ) (apply : Bool) (deltaW : ℝ) (T : ℕ) (S : ℕ → ℕ → ℂ) :
    (T < 2 → squeeze freqs fs apply deltaW T S = .error .valueError) ∧
    (2 ≤ T → ∃ Q, squeeze freqs fs apply deltaW T S = .ok Q ∧ ∀ i t, Q i t =
      ∑ r ∈ (range freqs.length).filter (fun r => Belongs freqs fs deltaW T S r t i),
        S r t * ((if apply then (fs / freqs.getD r 0) ^ (-3 / 2 : ℝ) else 1 : ℝ) : ℂ)) := by
  unfold squeeze
  constructor
  · intro hT
    rw [if_pos hT]
  · intro hT
    rw [if_neg (by omega)]
    refine ⟨_, rfl, fun i t => ?_⟩
    rw [Finset.sum_filter]
    refine Finset.sum_congr rfl fun r _ => ?_
    dsimp only
    by_cases hb : Belongs freqs fs deltaW T S r t i
    · rw [if_pos hb]
      rw [belongs_iff freqs fs deltaW T S r t i h] at hb
      rw [if_neg hb.2, if_pos hb.1]
      unfold normalization
      rw [one_div_div]
    · rw [if_neg hb]
      rw [belongs_iff freqs fs deltaW T S r t i h] at hb
      split_ifs with h1 h2
      · rfl
      · exact absurd ⟨h2, h1⟩ hb
      · rfl

open Classical in
/-- **C143**: nothing is counted twice: without normalisation, a column adds up to the coefficients that belong to some row. -/
theorem C143_squeeze_sum (freqs : List ℝ) (h : freqs ≠ []) (fs deltaW : ℝ) (T : ℕ) (hT : 2 ≤ T) (S : ℕ → ℕ → ℂ) :
    ∃ Q, squeeze freqs fs false deltaW T S = .ok Q ∧ ∀ t, ∑ i ∈ range freqs.length, Q i t =
      ∑ r ∈ (range freqs.length).filter (fun r => ∃ i, Belongs freqs fs deltaW T S r t i), S r t := by
  obtain ⟨Q, hQ, hv⟩ := (C143_squeeze freqs h fs false deltaW T S).2 hT
  refine ⟨Q, hQ, fun t => ?_⟩
  simp only [hv, Finset.sum_filter]
  rw [Finset.sum_comm]
  refine Finset.sum_congr rfl fun r _ => ?_
  by_cases hb : ∃ i, Belongs freqs fs deltaW T S r t i
  · rw [if_pos hb]
    obtain ⟨i, hi⟩ := hb
    rw [Finset.sum_eq_single i]
    · rw [if_pos hi]
      simp
    · intro j _ hj
      rw [if_neg]
      intro hj'
      rw [belongs_iff _ _ _ _ _ _ _ _ h] at hi hj'
      exact hj (hj'.1.symm.trans hi.1)
    · intro hi'
      exact absurd (Finset.mem_range.2 hi.1) hi'
  · rw [if_neg hb]
    refine Finset.sum_eq_zero fun i _ => ?_
    rw [if_neg (fun hi => hb ⟨i, hi⟩)]

/-- A tone of `ω` radians per sample. -/
noncomputable def tone (c : ℂ) (ω : ℝ) (t : ℕ) : ℂ := c * Complex.exp ((ω * t : ℝ) * Complex.I)

theorem phase_tone (T : ℕ) (fs : ℝ) (c : ℂ) (hc : ‖c‖ ^ 2 > 1e-40) (ω : ℝ) (t : ℕ) (h0 : 0 < t) (hT : t + 1 < T) :
    phaseFrequency T fs (tone c ω) t = |Real.sin ω| / (2 * Real.pi) * fs := by
  have hc0 : c ≠ 0 := by
    rintro rfl
    norm_num at hc
  have hn : ‖tone c ω t‖ = ‖c‖ := by
    unfold tone
    rw [norm_mul, Complex.norm_exp_ofReal_mul_I, mul_one]
  have hg : gradient T (tone c ω) t / tone c ω t = Real.sin ω * Complex.I := by
    unfold gradient
    rw [if_neg (by omega), if_neg (by omega)]
    have e1 : tone c ω (t + 1) = tone c ω t * Complex.exp (ω * Complex.I) := by
      unfold tone
      rw [mul_assoc, ← Complex.exp_add]
      congr 2
      push_cast
      ring
    have e2 : tone c ω (t - 1) = tone c ω t * Complex.exp (-(ω * Complex.I)) := by
      unfold tone
      rw [mul_assoc, ← Complex.exp_add, Nat.cast_sub (by omega)]
      congr 2
      push_cast
      ring
    have ht0 : tone c ω t ≠ 0 := by
      unfold tone
      exact mul_ne_zero hc0 (Complex.exp_ne_zero _)
    have hsin : (Real.sin ω : ℂ) * Complex.I =
        (Complex.exp (ω * Complex.I) - Complex.exp (-(ω * Complex.I))) / 2 := by
      rw [Complex.ofReal_sin, Complex.sin, neg_mul]
      linear_combination (-(Complex.exp (ω * Complex.I) - Complex.exp (-(ω * Complex.I))) / 2) * Complex.I_mul_I
    rw [e1, e2, hsin, div_eq_iff ht0]
    ring
  unfold phaseFrequency
  rw [hn, if_pos hc, hg]
  have him : ((Real.sin ω : ℂ) * Complex.I).im = Real.sin ω := by
    rw [Complex.im_ofReal_mul, Complex.I_im, mul_one]
  rw [him, div_div, abs_div, abs_of_pos (by positivity : (0 : ℝ) < 2 * Real.pi)]

/-- **C143** (partial: for low tones, whose frequency is close to that of the sine in the statement): all rows of a tone of `ω`
radians per sample are collected, between the borders, in the row nearest to the frequency `fs * |sin ω| / (2 π)`. -/
theorem C143_tone_partial (freqs : List ℝ) (h : freqs ≠ []) (fs deltaW : ℝ) (T : ℕ) (c : ℕ → ℂ) (ω : ℝ)
    (hc : ∀ r < freqs.length, ‖c r‖ ^ 2 > 1e-40) (i t : ℕ) (h0 : 0 < t) (hT : t + 1 < T) (hi : i < freqs.length)
    (hnear : ∀ j < freqs.length, j ≠ i → |freqs.getD i 0 - |Real.sin ω| / (2 * Real.pi) * fs| <
      |freqs.getD j 0 - |Real.sin ω| / (2 * Real.pi) * fs|)
    (hd : ∀ r < freqs.length, |freqs.getD i 0 - |Real.sin ω| / (2 * Real.pi) * fs| ≤ deltaW * freqs.getD r 0) :
    ∃ Q, squeeze freqs fs false deltaW T (fun r => tone (c r) ω) = .ok Q ∧
      Q i t = ∑ r ∈ range freqs.length, tone (c r) ω t ∧ ∀ j < freqs.length, j ≠ i → Q j t = 0 := by
  classical
  obtain ⟨Q, hQ, hv⟩ := (C143_squeeze freqs h fs false deltaW T (fun r => tone (c r) ω)).2 (by omega)
  have hb : ∀ r < freqs.length, Belongs freqs fs deltaW T (fun r => tone (c r) ω) r t i := by
    intro r hr
    unfold Belongs
    rw [phase_tone T fs (c r) (hc r hr) ω t h0 hT]
    refine ⟨hi, fun j hj => ?_, fun j hj => hnear j (by omega) (by omega), hd r hr⟩
    by_cases hji : j = i
    · rw [hji]
    · exact (hnear j hj hji).le
  refine ⟨Q, hQ, ?_, fun j hj hji => ?_⟩
  · rw [hv, Finset.sum_filter]
    refine Finset.sum_congr rfl fun r hr => ?_
    rw [if_pos (hb r (Finset.mem_range.1 hr))]
    simp
  · rw [hv, Finset.sum_filter]
    refine Finset.sum_eq_zero fun r hr => ?_
    rw [if_neg]
    intro hbj
    have hbi := hb r (Finset.mem_range.1 hr)
    rw [belongs_iff _ _ _ _ _ _ _ _ h] at hbi hbj
    exact hji (hbj.1.symm.trans hbi.1)

/-- **C143**, not so: a tone keeps its place.  The derivative is taken from the neighbouring samples, so that the momentary
frequency is too low; of a tone at a quarter of the sampling rate nothing is left between the borders, if all frequencies lie
between a fifth and a half of the sampling rate. -/
theorem C143_high_tone_wrong (freqs : List ℝ) (h : freqs ≠ []) (fs : ℝ) (hfs : 0 < fs) (T : ℕ) (c : ℕ → ℂ)
    (hc : ∀ r < freqs.length, ‖c r‖ ^ 2 > 1e-40)
    (hf : ∀ r < freqs.length, fs / 5 ≤ freqs.getD r 0 ∧ freqs.getD r 0 ≤ fs / 2) (i t : ℕ) (h0 : 0 < t) (hT : t + 1 < T) :
    ∃ Q, squeeze freqs fs false 0.05 T (fun r => tone (c r) (Real.pi / 2)) = .ok Q ∧ Q i t = 0 := by
  classical
  obtain ⟨Q, hQ, hv⟩ := (C143_squeeze freqs h fs false 0.05 T (fun r => tone (c r) (Real.pi / 2))).2 (by omega)
  refine ⟨Q, hQ, ?_⟩
  rw [hv, Finset.sum_filter]
  refine Finset.sum_eq_zero fun r hr => ?_
  have hr := Finset.mem_range.1 hr
  rw [if_neg]
  rintro ⟨hi, -, -, hd⟩
  rw [phase_tone T fs (c r) (hc r hr) (Real.pi / 2) t h0 hT, Real.sin_pi_div_two, abs_one] at hd
  have h1 := (hf i hi).1
  have h2 := (hf r hr).2
  have hpi : 1 / (2 * Real.pi) < 0.16 := by
    rw [div_lt_iff₀ (by positivity)]
    linarith [Real.pi_gt_d2]
  have h3 : 1 / (2 * Real.pi) * fs < 0.16 * fs := mul_lt_mul_of_pos_right hpi hfs
  have h4 := le_abs_self (freqs.getD i 0 - 1 / (2 * Real.pi) * fs)
  rw [show (0.05 : ℝ) = 1 / 20 by norm_num] at hd
  rw [show (0.16 : ℝ) = 4 / 25 by norm_num] at h3
  linarith

/-- The frequency of the tone itself is among such frequencies. -/
example : ∀ r < [(12000 : ℝ)].length, (48000 : ℝ) / 5 ≤ [(12000 : ℝ)].getD r 0 ∧ [(12000 : ℝ)].getD r 0 ≤ 48000 / 2 := by
  intro r hr
  simp only [List.length_cons, List.length_nil] at hr
  have : r = 0 := by omega
  subst this
  norm_num

end Verif.Wavelet
