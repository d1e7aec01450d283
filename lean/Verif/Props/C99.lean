import Verif.Lemmas.Generators
import Mathlib.Tactic.IntervalCases

/-!
# C99: oscillators hold the harmonics below the cutoff, at the requested level; impulses
-/

namespace Verif.Generators

open Fade Waves

/-! ### Harmonics -/

theorem odd_sum (f cutoff : ℝ) (hf : 0 < f) (g : ℕ → ℝ) (d : ∀ k : ℕ, Decidable ((2 * (k : ℝ) - 1) * f < cutoff)) :
    (∑ k ∈ Finset.Ico 1 (1 + (⌈cutoff / f⌉₊ + 1)),
      @ite _ ((2 * (k : ℝ) - 1) * f < cutoff) (d k) (g (2 * k - 1)) 0) =
      ∑ h ∈ (Finset.Ico 1 (1 + (⌈cutoff / f⌉₊ + 1))).filter (fun h : ℕ => (h : ℝ) * f < cutoff),
        if h % 2 = 1 then g h else 0 := by
  rw [← Finset.sum_filter, ← Finset.sum_filter]
  refine Finset.sum_nbij' (fun k => 2 * k - 1) (fun h => (h + 1) / 2) ?_ ?_ ?_ ?_ ?_
  · intro k hk
    rw [Finset.mem_filter, Finset.mem_Ico] at hk
    rw [Finset.mem_filter, Finset.mem_filter, Finset.mem_Ico]
    have hc : (((2 * k - 1 : ℕ) : ℝ)) = 2 * (k : ℝ) - 1 := by
      rw [Nat.cast_sub (by omega)]
      push_cast
      ring
    have hlt : (2 * k - 1 : ℕ) < ⌈cutoff / f⌉₊ := by
      rw [Nat.lt_ceil, hc, lt_div_iff₀ hf]
      exact hk.2
    refine ⟨⟨⟨by omega, by omega⟩, ?_⟩, by omega⟩
    rw [hc]
    exact hk.2
  · intro h hh
    rw [Finset.mem_filter, Finset.mem_filter, Finset.mem_Ico] at hh
    rw [Finset.mem_filter, Finset.mem_Ico]
    refine ⟨⟨by omega, by omega⟩, ?_⟩
    have hc : 2 * (((h + 1) / 2 : ℕ) : ℝ) - 1 = h := by
      have : 2 * ((h + 1) / 2) = h + 1 := by omega
      have h2 : (2 : ℝ) * (((h + 1) / 2 : ℕ) : ℝ) = h + 1 := by exact_mod_cast this
      linarith
    rw [hc]
    exact hh.1.2
  · intro k hk
    rw [Finset.mem_filter, Finset.mem_Ico] at hk
    omega
  · intro h hh
    rw [Finset.mem_filter, Finset.mem_filter, Finset.mem_Ico] at hh
    omega
  · intro k _
    rfl

/-- The numbers of the harmonics below the cutoff. -/
theorem mem_harmonics (f cutoff : ℝ) (hf : 0 < f) (h : ℕ) :
    h ∈ (Finset.Ico 1 (1 + (⌈cutoff / f⌉₊ + 1))).filter (fun h : ℕ => (h : ℝ) * f < cutoff) ↔
      1 ≤ h ∧ h * f < cutoff := by
  rw [Finset.mem_filter, Finset.mem_Ico]
  refine ⟨fun h' => ⟨h'.1.1, h'.2⟩, fun h' => ⟨⟨h'.1, ?_⟩, h'.2⟩⟩
  have : h < ⌈cutoff / f⌉₊ := by
    rw [Nat.lt_ceil, lt_div_iff₀ hf]
    exact h'.2
  omega

/-- The waves are the Fourier series of the square wave, the sawtooth and the triangle with exactly the
harmonics that lie below the cutoff. -/
theorem C99_harmonics (f : ℝ) (hf : 0 < f) (fs : ℕ) (cutoff phi : ℝ) :
    ∃ H : Finset ℕ, (∀ h, h ∈ H ↔ 1 ≤ h ∧ h * f < cutoff) ∧ ∀ n : ℕ,
      wave .square f fs cutoff phi n =
        ∑ h ∈ H, square h * Real.sin (2 * Real.pi * (h * f) * (n / fs) + phi) ∧
      wave .sawtooth f fs cutoff phi n =
        ∑ h ∈ H, sawtooth h * Real.sin (2 * Real.pi * (h * f) * (n / fs) + phi) ∧
      wave .triangle f fs cutoff phi n =
        ∑ h ∈ H, triangle h * Real.sin (2 * Real.pi * (h * f) * (n / fs) + phi) := by
  have hodd : ∀ k, (2 * ((k + 1 : ℕ) : ℝ) - 1) * f < cutoff → (2 * (k : ℝ) - 1) * f < cutoff := by
    intro k h
    push_cast at h
    nlinarith
  have hall : ∀ k, (((k + 1 : ℕ) : ℝ)) * f < cutoff → (k : ℝ) * f < cutoff := by
    intro k h
    push_cast at h
    nlinarith
  have hpi := Real.pi_ne_zero
  refine ⟨_, mem_harmonics f cutoff hf, fun n => ⟨?_, ?_, ?_⟩⟩
  · simp only [wave]
    rw [loopSum_eq _ _ hodd, zero_add]
    obtain ⟨G, hG⟩ : ∃ G : ℕ → ℝ, ∀ h, G h = Real.sin (2 * Real.pi * (h * f) * (n / fs) + phi) / h :=
      ⟨_, fun _ => rfl⟩
    have e : ∀ k ∈ Finset.Ico 1 (1 + (⌈cutoff / f⌉₊ + 1)),
        (if (2 * (k : ℝ) - 1) * f < cutoff then
          Real.sin (Real.pi * 2 * (2 * k - 1) * f / fs * n + phi) / (2 * k - 1) else 0) =
        if (2 * (k : ℝ) - 1) * f < cutoff then G (2 * k - 1) else 0 := by
      intro k hk
      rw [Finset.mem_Ico] at hk
      have hc : (((2 * k - 1 : ℕ) : ℝ)) = 2 * (k : ℝ) - 1 := by
        rw [Nat.cast_sub (by omega)]
        push_cast
        ring
      rw [hG, hc, show Real.pi * 2 * (2 * (k : ℝ) - 1) * f / fs * n + phi =
        2 * Real.pi * ((2 * k - 1) * f) * (n / fs) + phi by ring]
    rw [(Finset.sum_congr rfl e).trans (odd_sum f cutoff hf G _), Finset.sum_mul]
    refine Finset.sum_congr rfl fun h _ => ?_
    rw [hG]
    generalize Real.sin _ = s
    unfold square
    split_ifs
    · rw [div_mul_div_comm, mul_comm (h : ℝ), div_mul_eq_mul_div, mul_comm s]
    · rw [zero_mul, zero_mul]
  · simp only [wave]
    rw [loopSum_eq _ _ hall, zero_add, ← Finset.sum_filter, Finset.sum_mul]
    refine Finset.sum_congr rfl fun h hh => ?_
    rw [Finset.mem_filter, Finset.mem_Ico] at hh
    have h0 : (h : ℝ) ≠ 0 := by exact_mod_cast (by omega : h ≠ 0)
    rw [show Real.pi * 2 * (h : ℝ) * f / fs * n + phi = 2 * Real.pi * (h * f) * (n / fs) + phi by ring]
    generalize Real.sin _ = s
    unfold sawtooth
    split_ifs with h2
    · rw [Odd.neg_one_pow (Nat.odd_iff.2 h2)]
      field_simp
    · rw [Even.neg_one_pow (Nat.even_iff.2 (by omega))]
      field_simp
  · simp only [wave]
    rw [loopSum_eq _ _ hodd, zero_add]
    obtain ⟨G, hG⟩ : ∃ G : ℕ → ℝ, ∀ h, G h = Real.sin (2 * Real.pi * (h * f) * (n / fs) + phi) /
      (h : ℝ) ^ 2 * (-1) ^ ((h + 1) / 2) := ⟨_, fun _ => rfl⟩
    have e : ∀ k ∈ Finset.Ico 1 (1 + (⌈cutoff / f⌉₊ + 1)),
        (if (2 * (k : ℝ) - 1) * f < cutoff then
          Real.sin (Real.pi * 2 * (2 * k - 1) * f / fs * n + phi) / (2 * k - 1) ^ 2 * (-1) ^ k else 0) =
        if (2 * (k : ℝ) - 1) * f < cutoff then G (2 * k - 1) else 0 := by
      intro k hk
      rw [Finset.mem_Ico] at hk
      have hc : (((2 * k - 1 : ℕ) : ℝ)) = 2 * (k : ℝ) - 1 := by
        rw [Nat.cast_sub (by omega)]
        push_cast
        ring
      rw [hG, hc, show Real.pi * 2 * (2 * (k : ℝ) - 1) * f / fs * n + phi =
        2 * Real.pi * ((2 * k - 1) * f) * (n / fs) + phi by ring,
        show (2 * k - 1 + 1) / 2 = k by omega]
    rw [(Finset.sum_congr rfl e).trans (odd_sum f cutoff hf G _), Finset.sum_mul]
    refine Finset.sum_congr rfl fun h hh => ?_
    rw [Finset.mem_filter, Finset.mem_Ico] at hh
    have h0 : (h : ℝ) ≠ 0 := by exact_mod_cast (by omega : h ≠ 0)
    rw [hG]
    generalize Real.sin _ = s
    unfold triangle
    by_cases h2 : h % 2 = 1
    · rw [if_pos h2]
      split_ifs with h4 h4'
      · rw [Odd.neg_one_pow (Nat.odd_iff.2 (by omega))]
        field_simp
      · rw [Even.neg_one_pow (Nat.even_iff.2 (by omega))]
        field_simp
      · omega
    · rw [if_neg h2, if_neg (by omega), if_neg (by omega), zero_mul, zero_mul]

/-- The sine has the requested frequency. -/
theorem C99_sine (f : ℝ) (fs : ℕ) (cutoff phi : ℝ) (n : ℕ) :
    wave .harmonic f fs cutoff phi n = Real.sin (2 * Real.pi * f * (n / fs) + phi) := by
  simp only [wave]
  congr 1
  ring

/-! ### Level and length -/

/-- The signal that is returned: the wave scaled to the requested peak level, faded at both ends, followed
by the padding. -/
theorem C99_oscillator (f : ℝ) (fs : ℕ) (len : ℝ) (mode : WaveForm) (cutoff : Option ℝ) (db phi : ℝ)
    (fade : Option FadeType) (pad : ℝ) (hf : 0 < f) (hfs : f < (fs / 2 : ℕ)) (hlen : 0 < len) (hpad : 0 ≤ pad)
    (hc : ∀ c, cutoff = some c → 0 < c ∧ c ≤ (fs / 2 : ℕ))
    (hfade : fade = none ∨ fade = some .noFade ∨ 2 ≤ ⌊0.05 * len * fs⌋₊) (P : ℝ) (hP0 : P ≠ 0)
    (hP : IsPeak ((List.range (roundHalf (fs * len))).map
      (wave mode f fs (cutoff.getD (fs / 2 : ℕ)) phi)) P) :
    ∃ e, Envelope (roundHalf (fs * len)) ⌊0.05 * len * fs⌋₊ e ∧
      (fade = none ∨ fade = some .noFade → ∀ i, e i = 1) ∧
      oscillator f fs len mode cutoff db phi fade pad =
        .ok ((List.range (roundHalf (fs * len) + ⌊pad * fs⌋₊)).map fun i =>
          some (if i < roundHalf (fs * len) then
            10 ^ (db / 20) / P * wave mode f fs (cutoff.getD (fs / 2 : ℕ)) phi i * e i else 0)) := by
  have hfs0 : 0 < fs / 2 := by
    have : (0 : ℝ) < (fs / 2 : ℕ) := hf.trans hfs
    exact_mod_cast this
  have hc' : 0 < cutoff.getD ((fs / 2 : ℕ) : ℝ) ∧ cutoff.getD ((fs / 2 : ℕ) : ℝ) ≤ (fs / 2 : ℕ) := by
    cases cutoff with
    | none => exact ⟨by rw [Option.getD_none]; exact_mod_cast hfs0, le_rfl⟩
    | some c => exact hc c rfl
  have hp : (if pad ≠ 0 then ⌊pad * fs⌋₊ else 0) = ⌊pad * fs⌋₊ := by
    split_ifs with h
    · rfl
    · rw [not_not.1 h]
      simp
  unfold oscillator
  rw [if_neg (not_not.2 hfs), if_neg (not_not.2 hf),
    if_neg (fun h => h.2 (lt_of_le_of_ne hpad (Ne.symm h.1)))]
  dsimp only
  rw [if_neg (not_not.2 hc'), hp]
  set l := roundHalf (fs * len) with hl
  set x : List ℝ := (List.range l).map (wave mode f fs (cutoff.getD (fs / 2 : ℕ)) phi) with hx
  have hxl : x.length = l := by simp [hx]
  have hfade' : fade = none ∨ fade = some .noFade ∨
      0 < len ∧ 2 ≤ ⌊0.05 * len * fs⌋₊ ∧ ⌊0.05 * len * fs⌋₊ < x.length := by
    rcases hfade with h | h | h
    · exact .inl h
    · exact .inr (.inl h)
    · exact .inr (.inr ⟨hlen, h, by rw [hxl]; exact fade_fits len hlen fs h⟩)
  obtain ⟨e, h1, h2, h3⟩ := finish_value x P hP hP0 len db fade fs (l + ⌊pad * fs⌋₊) hfade'
  refine ⟨e, by rwa [hxl] at h1, h2, ?_⟩
  have hm : (List.range l).map (fun n => some (wave mode f fs (cutoff.getD (fs / 2 : ℕ)) phi n)) = x.map some := by
    rw [hx, List.map_map]
    rfl
  rw [hm, h3, hxl]
  congr 1
  refine List.map_congr_left fun i _ => ?_
  by_cases hi : i < l
  · rw [if_pos hi, if_pos hi, List.getD_eq_getElem _ _ (by omega)]
    simp [hx, Level.fromDb, Level.dbFactor]
  · rw [if_neg hi, if_neg hi]

/-- Without a fade the peak of the returned signal is the requested one: `10 ^ (level / 20)`. -/
theorem C99_peak_level (f : ℝ) (fs : ℕ) (len : ℝ) (mode : WaveForm) (cutoff : Option ℝ) (db phi : ℝ)
    (pad : ℝ) (hf : 0 < f) (hfs : f < (fs / 2 : ℕ)) (hlen : 0 < len) (hpad : 0 ≤ pad)
    (hc : ∀ c, cutoff = some c → 0 < c ∧ c ≤ (fs / 2 : ℕ))
    (hn : ∃ n < roundHalf (fs * len), wave mode f fs (cutoff.getD (fs / 2 : ℕ)) phi n ≠ 0) :
    ∃ y : List ℝ, oscillator f fs len mode cutoff db phi none pad = .ok (y.map some) ∧
      y.length = roundHalf (fs * len) + ⌊pad * fs⌋₊ ∧ IsPeak y (10 ^ (db / 20)) := by
  set l := roundHalf (fs * len) with hl
  obtain ⟨n, hn, hne⟩ := hn
  set g := wave mode f fs (cutoff.getD (fs / 2 : ℕ)) phi with hg
  have hx : (List.range l).map g ≠ [] := by
    simp
    omega
  obtain ⟨P, -, hP⟩ := peakVec_spec _ hx
  have hP0 : 0 < P := by
    have := hP.1 (g n) (List.mem_map.2 ⟨n, List.mem_range.2 hn, rfl⟩)
    exact lt_of_lt_of_le (abs_pos.2 hne) this
  obtain ⟨e, -, he, h⟩ := C99_oscillator f fs len mode cutoff db phi none pad hf hfs hlen hpad hc (.inl rfl) P
    hP0.ne' hP
  refine ⟨(List.range (l + ⌊pad * fs⌋₊)).map fun i =>
    if i < l then 10 ^ (db / 20) / P * g i * e i else 0, ?_, by simp, ?_, ?_⟩
  · rw [h, List.map_map]
    rfl
  · intro v hv
    obtain ⟨i, -, rfl⟩ := List.mem_map.1 hv
    have hA : (0 : ℝ) < 10 ^ (db / 20) := by positivity
    split_ifs with hi
    · rw [he (.inl rfl), mul_one, abs_mul, abs_of_pos (div_pos hA hP0)]
      have := hP.1 (g i) (List.mem_map.2 ⟨i, List.mem_range.2 hi, rfl⟩)
      calc (10 : ℝ) ^ (db / 20) / P * |g i| ≤ 10 ^ (db / 20) / P * P :=
            mul_le_mul_of_nonneg_left this (div_pos hA hP0).le
        _ = _ := div_mul_cancel₀ _ hP0.ne'
    · rw [abs_zero]
      exact hA.le
  · obtain ⟨v, hv, h2⟩ := hP.2
    obtain ⟨i, hi, rfl⟩ := List.mem_map.1 hv
    rw [List.mem_range] at hi
    have hA : (0 : ℝ) < 10 ^ (db / 20) := by positivity
    refine ⟨_, List.mem_map.2 ⟨i, List.mem_range.2 (by omega : i < l + ⌊pad * fs⌋₊), rfl⟩, ?_⟩
    rw [if_pos hi, he (.inl rfl), mul_one, abs_mul, abs_of_pos (div_pos hA hP0), h2, div_mul_cancel₀ _ hP0.ne']

/-- A sine of at least two samples is never silent. -/
theorem C99_sine_audible (f : ℝ) (fs : ℕ) (len cutoff : ℝ) (hf : 0 < f) (hfs : f < (fs / 2 : ℕ))
    (hl : 2 ≤ roundHalf (fs * len)) :
    ∃ n < roundHalf (fs * len), wave .harmonic f fs cutoff 0 n ≠ 0 := by
  refine ⟨1, by omega, ?_⟩
  rw [C99_sine]
  have h2 : ((fs / 2 : ℕ) : ℝ) ≤ fs / 2 := by
    have := Nat.cast_div_le (α := ℝ) (m := fs) (n := 2)
    simpa using this
  have hfs0 : (0 : ℝ) < fs := by linarith
  refine (Real.sin_pos_of_pos_of_lt_pi ?_ ?_).ne'
  · have := Real.pi_pos
    push_cast
    positivity
  · have h3 : 2 * f / fs < 1 := by
      rw [div_lt_one hfs0]
      linarith
    have := Real.pi_pos
    calc 2 * Real.pi * f * ((1 : ℕ) / fs) + 0 = Real.pi * (2 * f / fs) := by push_cast; ring
      _ < Real.pi * 1 := mul_lt_mul_of_pos_left h3 this
      _ = Real.pi := mul_one _

/-- Frequencies and cutoffs outside the allowed range and negative paddings are refused; nothing else is
refused by an assertion before the signal is made. -/
theorem C99_refused (f : ℝ) (fs : ℕ) (len : ℝ) (mode : WaveForm) (cutoff : Option ℝ) (db phi : ℝ)
    (fade : Option FadeType) (pad : ℝ)
    (h : f ≤ 0 ∨ (fs / 2 : ℕ) ≤ f ∨ pad < 0 ∨ ∃ c, cutoff = some c ∧ (c ≤ 0 ∨ (fs / 2 : ℕ) < c)) :
    oscillator f fs len mode cutoff db phi fade pad = .error .assertionError := by
  unfold oscillator
  by_cases h1 : ¬ f < (fs / 2 : ℕ)
  · rw [if_pos h1]
  rw [if_neg h1]
  by_cases h2 : ¬ 0 < f
  · rw [if_pos h2]
  rw [if_neg h2]
  by_cases h3 : pad ≠ 0 ∧ ¬ 0 < pad
  · rw [if_pos h3]
  · rw [if_neg h3]
    dsimp only
    rw [if_pos]
    rcases h with h | h | h | ⟨c, rfl, h⟩
    · exact absurd h (not_le.2 (not_not.1 h2))
    · exact absurd h (not_le.2 (not_not.1 h1))
    · exact absurd ⟨h.ne, not_lt.2 h.le⟩ h3
    · intro h'
      rcases h with h | h
      · exact absurd h'.1 (not_lt.2 h)
      · exact absurd h'.2 (not_le.2 h)

/-- **Disagreement.** A cutoff that is allowed but not above the frequency leaves no harmonic: every
sample of a square wave, sawtooth or triangle is `nan`. -/
theorem C99_low_cutoff_nan (f : ℝ) (fs : ℕ) (len : ℝ) (mode : WaveForm) (hm : mode ≠ .harmonic) (c db phi : ℝ)
    (hf : 0 < f) (hfs : f < (fs / 2 : ℕ)) (hl : 0 < roundHalf (fs * len)) (hc : 0 < c) (hcf : c ≤ f) :
    oscillator f fs len mode (some c) db phi none 0 =
      .ok (List.replicate (roundHalf (fs * len)) none) := by
  have hw : ∀ n, wave mode f fs c phi n = 0 := by
    intro n
    obtain ⟨H, h1, h2⟩ := C99_harmonics f hf fs c phi
    have hH : H = ∅ := by
      rw [Finset.eq_empty_iff_forall_notMem]
      intro h hh
      obtain ⟨h3, h4⟩ := (h1 h).1 hh
      have : (1 : ℝ) ≤ h := by exact_mod_cast h3
      nlinarith
    obtain ⟨a, b, d⟩ := h2 n
    rw [hH, Finset.sum_empty] at a b d
    cases mode with
    | harmonic => exact absurd rfl hm
    | square => exact a
    | triangle => exact d
    | sawtooth => exact b
  unfold oscillator
  rw [if_neg (not_not.2 hfs), if_neg (not_not.2 hf), if_neg (by simp)]
  simp only [Option.getD_some]
  rw [if_neg (not_not.2 ⟨hc, (hcf.trans hfs.le)⟩)]
  simp only [ne_eq, not_true_eq_false, if_false, add_zero, hw]
  unfold finish
  rw [normVec_nan _ db (by simp; omega) (.inr (by simp))]
  simp only [bind, Except.bind, pure, Except.pure]
  congr 1
  rw [List.length_map, List.length_range]
  apply List.ext_getElem
  · simp
  · intro i h1 h2
    simp only [List.getElem_map, List.getElem_range, List.getElem_replicate]
    rw [List.getD_eq_getElem _ _ (by simpa using h2)]
    simp

/-- **Disagreement.** With `uncorrelated=True` the random phase is added to every harmonic alike, which is
not a shift in time: a square wave of two harmonics never exceeds `4/π`, but with the phase `π/2` it starts
at a third more. -/
theorem C99_phase_is_no_delay (f : ℝ) (hf : 0 < f) (fs : ℕ) :
    wave .square f fs (4 * f) (Real.pi / 2) 0 = 4 / 3 * (4 / Real.pi) ∧
      ∀ x : ℝ, |square 1 * Real.sin x + square 3 * Real.sin (3 * x)| ≤ 4 / Real.pi := by
  have hpi := Real.pi_pos
  constructor
  · obtain ⟨H, h1, h2⟩ := C99_harmonics f hf fs (4 * f) (Real.pi / 2)
    have hH : H = {1, 2, 3} := by
      ext h
      rw [h1]
      have : (h : ℝ) * f < 4 * f ↔ h < 4 := by
        rw [mul_lt_mul_iff_left₀ hf]
        exact_mod_cast Iff.rfl
      rw [this]
      simp only [Finset.mem_insert, Finset.mem_singleton]
      omega
    rw [(h2 0).1, hH, Finset.sum_insert (by decide), Finset.sum_insert (by decide), Finset.sum_singleton]
    simp [square]
    field_simp
    norm_num
  · intro x
    have e : square 1 * Real.sin x + square 3 * Real.sin (3 * x) =
        4 / Real.pi * (2 * Real.sin x - 4 / 3 * Real.sin x ^ 3) := by
      rw [Real.sin_three_mul]
      simp [square]
      field_simp
      ring
    rw [e, abs_mul, abs_of_pos (by positivity)]
    have h1 := Real.sin_le_one x
    have h2 := Real.neg_one_le_sin x
    generalize Real.sin x = s at *
    have : |2 * s - 4 / 3 * s ^ 3| ≤ 1 := by
      rw [abs_le]
      constructor
      · nlinarith [sq_nonneg (s + 5 / 7), mul_nonneg (by linarith : (0:ℝ) ≤ 1 + s) (sq_nonneg (s + 5 / 7)),
          mul_nonneg (by linarith : (0:ℝ) ≤ 1 - s) (sq_nonneg (s + 5 / 7))]
      · nlinarith [sq_nonneg (s - 5 / 7), mul_nonneg (by linarith : (0:ℝ) ≤ 1 + s) (sq_nonneg (s - 5 / 7)),
          mul_nonneg (by linarith : (0:ℝ) ≤ 1 - s) (sq_nonneg (s - 5 / 7))]
    calc 4 / Real.pi * |2 * s - 4 / 3 * s ^ 3| ≤ 4 / Real.pi * 1 :=
          mul_le_mul_of_nonneg_left this (by positivity)
      _ = _ := mul_one _

/-! ### Short signals with the default fade -/

/-- **Disagreement.** The default (logarithmic) fade of a signal with fewer than 20 samples fails with
IndexError. -/
theorem C99_short_error (x : List ℝ) (P : ℝ) (hP : IsPeak x P) (h0 : P ≠ 0) (len db : ℝ) (hlen : 0 < len)
    (fs total : ℕ) (h : 0.05 * len * fs < 1) :
    finish (x.map some) len db (some .logarithmic) fs total = .error .indexError := by
  have hx : x ≠ [] := by
    rintro rfl
    obtain ⟨-, v, hv, -⟩ := hP
    cases hv
  have hfl : ⌊0.05 * len * fs⌋₊ = 0 := Nat.floor_eq_zero.2 h
  unfold finish
  rw [normVec_ok x P db hP h0]
  simp only [bind, Except.bind, fadeChannel, if_true,
    (C32_zero_sample_fade fs (0.05 * len) (by positivity) hfl
      ((x.map fun v => Level.fromDb db true / P * v).map some) (by simpa using hx)).2]

/-- **Disagreement.** With 20 to 39 samples its first sample is `nan`. -/
theorem C99_short_nan (a b : ℝ) (x : List ℝ) (P : ℝ) (hP : IsPeak (a :: b :: x) P) (h0 : P ≠ 0)
    (len db : ℝ) (hlen : 0 < len) (fs total : ℕ) (h1 : 1 ≤ 0.05 * len * fs) (h2 : 0.05 * len * fs < 2)
    (htot : 0 < total) :
    ∃ y, finish ((a :: b :: x).map some) len db (some .logarithmic) fs total = .ok y ∧ y[0]? = some none := by
  have hfl : ⌊0.05 * len * fs⌋₊ = 1 := (Nat.floor_eq_iff (by positivity)).2 ⟨by exact_mod_cast h1, by
    push_cast
    linarith⟩
  unfold finish
  rw [normVec_ok _ P db hP h0]
  have hs := (C32_one_sample_fade fs (0.05 * len) (by positivity) hfl (Level.fromDb db true / P * a)
    ((b :: x).map fun v => Level.fromDb db true / P * v) (by simp)).2.2
  rw [List.map_cons (f := fun v => Level.fromDb db true / P * v)]
  have harr : fadeArray .logarithmic 1 = .ok [none] := by simp [fadeArray, linspace]
  simp only [bind, Except.bind, pure, Except.pure, fadeChannel, if_true, hs]
  unfold fadeVec
  rw [if_neg (by decide), if_neg (not_not.2 (by positivity))]
  simp only [hfl, harr]
  rw [if_neg (by simp)]
  simp only [Bool.false_eq_true, if_false]
  refine ⟨_, rfl, ?_⟩
  rw [List.getElem?_map, List.getElem?_range htot]
  simp only [Option.map_some]
  congr 1
  set s : List (Option ℝ) := none :: ((b :: x).map fun v => Level.fromDb db true / P * v).map some with hs'
  have hsl : 2 ≤ s.length := by simp [hs']
  have hws : (weighStart s.reverse [none]).length = s.length := by simp [weighStart]
  rw [List.getD_eq_getElem _ _ (by rw [List.length_reverse, hws]; omega), List.getElem_reverse]
  simp only [hws]
  simp only [weighStart, List.getElem_map, List.getElem_range, List.length_singleton]
  rw [if_neg (by omega), List.getD_eq_getElem _ _ (by simp; omega), List.getElem_reverse]
  have : s.length - 1 - (s.length - 1 - 0) = 0 := by omega
  simp only [this]
  rfl

/-! ### Impulse -/

/-- An impulse with at least as many samples as channels, and more than one sample: every channel is 1 at
the delay and 0 elsewhere. -/
theorem C99_dirac_partial (n d ch : ℕ) (hd : d < n) (hn : 2 ≤ n) (hch : 0 < ch) (hcn : ch ≤ n) :
    ∃ s, dirac n d ch = .ok s ∧ s.re.rows = n ∧ s.re.cols = ch ∧ s.im = none ∧
      ∀ r < n, ∀ c < ch, s.re.val r c = if r = d then 1 else 0 := by
  unfold dirac
  rw [if_neg (by omega), if_neg (by omega), if_neg (by omega)]
  unfold SignalData.construct SignalData.setData SignalData.standardForm
  simp only
  rw [if_neg (by omega)]
  simp only [if_neg (by omega : ¬ n = 1), if_neg (by omega : ¬ ch > n), Bool.false_eq_true, if_false]
  refine ⟨_, rfl, rfl, rfl, rfl, fun r hr c hc => ?_⟩
  simp only [SignalData.Input.reMat, impulse]
  rw [List.getD_eq_getElem _ _ (by simpa using hr), List.getElem_set]
  by_cases h : d = r
  · rw [if_pos h, if_pos h.symm]
  · rw [if_neg h, if_neg (Ne.symm h), List.getElem_replicate]

/-- The requests that are refused. -/
theorem C99_dirac_refused (n d ch : ℕ) (h : n ≤ d ∨ ch = 0) : dirac n d ch = .error .assertionError := by
  unfold dirac
  by_cases h1 : ¬ 0 < n
  · rw [if_pos h1]
  rw [if_neg h1]
  by_cases h2 : ¬ d < n
  · rw [if_pos h2]
  rw [if_neg h2, if_pos (by omega)]

/-- **Disagreement.** An impulse of one sample in one channel is accepted by the checks and fails with
IndexError. -/
theorem C99_dirac_one_sample : dirac 1 0 1 = .error .indexError := by
  unfold dirac
  rw [if_neg (by omega), if_neg (by omega), if_neg (by omega)]
  rfl

/-- **Disagreement.** With more channels than samples the roles are swapped: two samples in three channels
become three samples in two channels, and the impulse is lost in one of them. -/
theorem C99_dirac_transposed : ∃ s, dirac 2 0 3 = .ok s ∧ s.re.rows = 3 ∧ s.re.cols = 2 ∧
    (∀ r, s.re.val r 0 = 1) ∧ ∀ r, s.re.val r 1 = 0 := by
  unfold dirac
  rw [if_neg (by omega), if_neg (by omega), if_neg (by omega)]
  unfold SignalData.construct SignalData.setData SignalData.standardForm
  simp only
  rw [if_neg (by omega)]
  simp only [if_neg (by omega : ¬ 2 = 1), if_pos (by omega : 3 > 2), Bool.false_eq_true, if_false]
  refine ⟨_, rfl, rfl, rfl, fun r => ?_, fun r => ?_⟩
  · simp [SignalData.Input.reMat, SignalData.Input.T, impulse]
  · simp [SignalData.Input.reMat, SignalData.Input.T, impulse]

/-! ### Examples -/

/-- A sine of 1 kHz at 48 kHz with a duration of one second meets the hypotheses. -/
example : ∃ y : List ℝ, oscillator 1000 48000 1 .harmonic none (-10) 0 none 0 = .ok (y.map some) ∧
    y.length = roundHalf (((48000 : ℕ) : ℝ) * 1) + ⌊(0 : ℝ) * (48000 : ℕ)⌋₊ ∧ IsPeak y (10 ^ ((-10 : ℝ) / 20)) := by
  have h1 : (1000 : ℝ) < ((48000 / 2 : ℕ) : ℝ) := by norm_num
  refine C99_peak_level 1000 48000 1 .harmonic none (-10) 0 0 (by norm_num) h1 (by norm_num) le_rfl
    (by intro c h; cases h) (C99_sine_audible 1000 48000 1 _ (by norm_num) h1 ?_)
  unfold roundHalf
  exact Nat.le_floor (by norm_num)

end Verif.Generators
