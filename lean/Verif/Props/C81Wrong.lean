import Verif.Props.C81
import Mathlib.Tactic.IntervalCases

/-!
# C81: inputs for which spectral deconvolution is wrong
-/

namespace Verif.Deconv

open Complex Finset DFT Scaling DeconvSpec

/-- A unit impulse at sample `d`. -/
def impulse (N d fs : ℕ) (s : Scaling) (fast : Bool) : Sig :=
  ⟨⟨N, 1, fun r _ => if r = d then 1 else 0⟩, fs, s, fast, none⟩

/-- The unit impulse as a sequence. -/
def delta (d j : ℕ) : ℝ := if j = d then 1 else 0

theorem sample_impulse (N d fs : ℕ) (s : Scaling) (fast : Bool) (hd : d < N) :
    sample (impulse N d fs s fast).data 0 = delta d := by
  funext j
  unfold sample impulse delta
  dsimp only
  split_ifs <;> first | rfl | omega

theorem rfft_delta (F d k : ℕ) (hd : d < F) : rfft F (delta d) k = e F (-(k * d)) := by
  unfold rfft dft delta
  rw [sum_eq_single d]
  · simp
  · intro j _ hj
    simp [hj]
  · intro h
    exact absurd (mem_range.2 hd) h

theorem rfft_delta_zero (F k : ℕ) (hF : 0 < F) : rfft F (delta 0) k = 1 := by
  rw [rfft_delta F 0 k hF]
  simp [e_zero]

theorem same_impulse (N d d' fs : ℕ) (s : Scaling) (fast : Bool) (hs : s.isAmplitude = true)
    (hfs : 0 < fs) : SameParameters (impulse N d fs s fast) (impulse N d' fs s fast) :=
  ⟨rfl, rfl, rfl, hs, hfs, fun _ h => by simp [impulse] at h⟩

/-- Convolution with a delayed unit impulse. -/
theorem circular_delta (N d : ℕ) (hd : d < N) : Circular N (delta 0) (delta d) (delta d) := by
  intro j hj
  rw [sum_eq_single d]
  · unfold delta
    simp only [if_true, one_mul]
    by_cases h : j = d
    · subst h
      have : j + N - j = N := by omega
      simp [this]
    · rw [if_neg h, if_neg]
      intro hm
      obtain ⟨q, hq⟩ := Nat.dvd_of_mod_eq_zero hm
      have : q = 1 := by
        have h1 : 0 < q := by
          rcases Nat.eq_zero_or_pos q with h0 | h0
          · rw [h0] at hq
            omega
          · exact h0
        have h2 : q < 2 := by
          by_contra h2
          push Not at h2
          have := Nat.mul_le_mul_left N h2
          omega
        omega
      rw [this] at hq
      omega
  · intro m _ hm
    simp [delta, hm]
  · intro h
    exact absurd (mem_range.2 hd) h

/-- The hypotheses of the exact case are met: a system that delays by one sample. -/
example (N fs : ℕ) (hN : 1 < N) (hfs : 0 < fs) (padding : Bool) :
    ∃ R, deconvolve (impulse N 1 fs .fftBackward false) (impulse N 0 fs .fftBackward false) false none
      (-30) padding true = .ok R ∧ R.rows = N ∧ ∀ j < N, R.val j 0 = some (delta 1 j) := by
  obtain ⟨R, h1, h2, -, h4⟩ := C81_exact_partial (impulse N 1 fs .fftBackward false)
    (impulse N 0 fs .fftBackward false) padding true (-30) _ (fun _ => delta 1) rfl
    (by show 0 < N; omega) rfl (Or.inl rfl) rfl (same_impulse N 1 0 fs _ _ rfl hfs)
    (fun h => by cases h) (fun c hc k hk => by
      have hc0 : c = 0 := by
        change c < 1 at hc
        omega
      subst hc0
      rw [show inputChannel (impulse N 0 fs .fftBackward false) 0 = 0 from rfl,
        sample_impulse N 0 fs _ _ (by omega), bin_eq, rfft_delta_zero _ _ (by
          unfold transformLength impulse; dsimp only; split <;> omega)]
      exact one_ne_zero) (fun c hc => by
      have hc0 : c = 0 := by
        change c < 1 at hc
        omega
      subst hc0
      rw [show inputChannel (impulse N 0 fs .fftBackward false) 0 = 0 from rfl,
        sample_impulse N 0 fs _ _ (by omega), sample_impulse N 1 fs _ _ hN]
      exact circular_delta _ 1 (by unfold transformLength impulse; dsimp only; split <;> omega))
  have hr : R.rows = N := by
    rw [h2]
    simp [impulse]
  exact ⟨R, h1, hr, fun j hj => h4 0 (by show 0 < 1; omega) j (by omega)⟩

/-- The hypotheses of the regularized case are met. -/
example : ∃ R, deconvolve (impulse 8 1 8 .fftBackward false) (impulse 8 0 8 .fftBackward false) true
    (some [0, 1, 3, 4]) (-30) false false = .ok R ∧ R.rows = 8 := by
  obtain ⟨R, h1, h2, -⟩ := C81_regularised_partial (impulse 8 1 8 .fftBackward false)
    (impulse 8 0 8 .fftBackward false) false false (-30) 8 0 1 3 4 rfl (by decide) rfl (Or.inl rfl) rfl
    (same_impulse 8 1 0 8 _ _ rfl (by norm_num)) (fun h => by cases h) le_rfl (by norm_num)
    (by norm_num) (by norm_num) (by simp [impulse]; norm_num) (fun c hc k _ _ _ => by
      have hc0 : c = 0 := by
        change c < 1 at hc
        omega
      subst hc0
      rw [show inputChannel (impulse 8 0 8 .fftBackward false) 0 = 0 from rfl,
        sample_impulse 8 0 8 _ _ (by norm_num), bin_eq, rfft_delta_zero _ _ (by norm_num)]
      exact one_ne_zero)
  exact ⟨R, h1, h2⟩

/-- Standard mode on impulses, whatever the parameters (default scaling). -/
theorem deconvolve_impulse (N d fs : ℕ) (fast : Bool) (thr : ℝ) (hd : d < N) :
    ∃ R, deconvolve (impulse N d fs .fftBackward fast) (impulse N 0 fs .fftBackward fast) false none
      thr false false = .ok R ∧ R.rows = N ∧ ∀ j < N, R.val j 0 =
        some (irfft N (rfftBins (fftLength fast N)) (fun k => e (fftLength fast N) (-(k * d))) j) := by
  have hF : N ≤ fftLength fast N := by
    unfold fftLength
    split
    · classical
      exact (Nat.find_spec (BlockFIR.exists_smooth N)).2
    · exact le_rfl
  have hsp : ∀ d < N, fftSpectrum (prepared (impulse N d fs .fftBackward fast) false) =
      .ok fun c k => gain .fftBackward (fftLength fast N) fs none k * rfft (fftLength fast N)
        (sample (impulse N d fs .fftBackward fast).data c) k := by
    intro d _
    rw [fftSpectrum_amp _ rfl]
    simp only [chan_prepared]
    rfl
  have hg : ∀ k, gain .fftBackward (fftLength fast N) fs none k = 1 := by
    intro k
    simp [gain, CSM.fftNorm, CSM.physical]
  obtain ⟨R, h1, h2, h3, h4⟩ := deconvolve_of (impulse N d fs .fftBackward fast)
    (impulse N 0 fs .fftBackward fast) false none thr false false
    ⟨rfl, Or.inl rfl, rfl, Or.inr rfl⟩ _ _ (hsp 0 (by omega)) (hsp d hd) _
    (loop_standard _ _ _ _ _ (freqs_length _ _) _ _ _ _ _)
  have hr : R.rows = N := by
    rw [h2]
    simp [impulse]
  refine ⟨R, h1, hr, fun j hj => ?_⟩
  rw [h4 0 (by show 0 < 1; omega) j (by omega)]
  have e1 : (if (decide ((impulse N 0 fs .fftBackward fast).data.cols = 1)) = true then 0 else 0 + 0)
      = 0 := by simp
  rw [e1, sample_impulse N 0 fs _ _ (by omega), Nat.zero_add, sample_impulse N d fs _ _ hd]
  unfold backBins
  rw [if_pos (fun k _ _ => by dsimp only; rw [hg, rfft_delta_zero _ _ (by omega)]; simp), Option.map_some]
  congr 2
  funext k
  dsimp only
  rw [hg, one_mul, one_mul, rfft_delta_zero _ _ (by omega), div_one, rfft_delta _ _ _ (by omega)]

/-- FINDING: with the default `pad_to_fast_length=True` and a length that is not a product of 2, 3
and 5, the spectra are those of a longer signal, but are transformed back with the original length.
For a system delaying by one sample the result is not that delay: sample 1 is below 1. -/
theorem C81_fast_length_wrong (N fs : ℕ) (thr : ℝ) (hN : 1 < N)
    (hs : ¬ BlockFIR.Smooth N) :
    Circular N (sample (impulse N 0 fs .fftBackward true).data 0) (delta 1)
      (sample (impulse N 1 fs .fftBackward true).data 0) ∧
    ∃ R a, deconvolve (impulse N 1 fs .fftBackward true) (impulse N 0 fs .fftBackward true) false none
      thr false false = .ok R ∧ R.rows = N ∧ R.val 1 0 = some a ∧ a < delta 1 1 := by
  refine ⟨by rw [sample_impulse _ _ _ _ _ (by omega), sample_impulse _ _ _ _ _ hN]
             exact circular_delta N 1 hN, ?_⟩
  obtain ⟨R, h1, h2, h3⟩ := deconvolve_impulse N 1 fs true thr hN
  refine ⟨R, _, h1, h2, h3 1 hN, ?_⟩
  have hN2 : N ≠ 2 := by
    rintro rfl
    exact hs ⟨1, 0, 0, by norm_num⟩
  set F := fftLength true N with hFdef
  have hF : N < F := by
    have h : BlockFIR.Smooth F ∧ N ≤ F := by
      classical
      exact Nat.find_spec (BlockFIR.exists_smooth N)
    rcases h.2.eq_or_lt with h' | h'
    · exact absurd (h' ▸ h.1) hs
    · exact h'
  have hN0 : (0 : ℝ) < N := by exact_mod_cast (by omega : 0 < N)
  have hF0 : (0 : ℝ) < F := by exact_mod_cast (by omega : 0 < F)
  have he : ∀ (n : ℕ) (d : ℤ), ‖e n d‖ = 1 := by
    intro n d
    unfold e
    have : (2 * (Real.pi : ℂ) * I * ((d : ℂ) / n)) = ((2 * Real.pi * (d / n) : ℝ) : ℂ) * I := by
      push_cast
      ring
    rw [this, norm_exp_ofReal_mul_I]
  unfold irfft
  rw [show delta 1 1 = 1 from rfl, ← ofReal_natCast, div_ofReal_re, div_lt_one hN0, re_sum]
  have hcard : (N : ℝ) = ∑ _k ∈ range N, (1 : ℝ) := by simp
  rw [hcard]
  have hle : ∀ k ∈ range N, (herm N (fun k => if k < rfftBins F then e F (-(k * (1 : ℕ))) else 0) k *
      e N (k * (1 : ℕ))).re ≤ 1 := by
    intro k _
    refine (re_le_norm _).trans ?_
    rw [norm_mul, he, mul_one]
    have hb : ∀ k, ‖(if k < rfftBins F then e F (-((k : ℤ) * (1 : ℕ))) else 0)‖ ≤ 1 := by
      intro k
      split
      · exact (he _ _).le
      · simp
    have hr : ∀ z : ℂ, ‖z‖ ≤ 1 → ‖((z.re : ℝ) : ℂ)‖ ≤ 1 := by
      intro z hz
      rw [norm_real]
      exact (abs_re_le_norm z).trans hz
    unfold herm
    split_ifs
    all_goals first
      | exact hr _ (hb _)
      | exact hb _
      | (rw [RCLike.norm_conj]; exact hb _)
  refine sum_lt_sum hle ⟨1, mem_range.2 hN, ?_⟩
  have hb : 1 < rfftBins F := by unfold rfftBins; omega
  have hval : herm N (fun k => if k < rfftBins F then e F (-(k * (1 : ℕ))) else 0) 1 =
      e F (-(((1 : ℕ) : ℤ) * (1 : ℕ))) := by
    unfold herm
    rw [if_neg one_ne_zero, if_pos (by omega)]
    exact if_pos hb
  rw [hval]
  have hprod : e F (-(((1 : ℕ) : ℤ) * (1 : ℕ))) * e N (((1 : ℕ) : ℤ) * (1 : ℕ)) =
      exp ((2 * Real.pi * (1 / N - 1 / F) : ℝ) * I) := by
    unfold e
    rw [← Complex.exp_add]
    congr 1
    push_cast
    ring
  rw [hprod, exp_ofReal_mul_I_re]
  have hlt : (1 : ℝ) / F < 1 / N := one_div_lt_one_div_of_lt hN0 (by exact_mod_cast hF)
  have hN1 : (1 : ℝ) / N ≤ 1 / 2 := one_div_le_one_div_of_le (by norm_num) (by exact_mod_cast hN)
  have hFp : (0 : ℝ) < 1 / F := by positivity
  have h4 := Real.cos_lt_cos_of_nonneg_of_le_pi (x := 0) (y := 2 * Real.pi * (1 / N - 1 / F)) le_rfl
    (by have := Real.pi_pos; nlinarith) (by have := Real.pi_pos; have := sub_pos.2 hlt; positivity)
  rwa [Real.cos_zero] at h4

/-- Lengths that are not fast exist. -/
example : ¬ BlockFIR.Smooth 7 := by
  rintro ⟨a, b, c, h⟩
  have h7 : Nat.Prime 7 := by decide
  have hd : 7 ∣ 2 ^ a * 3 ^ b * 5 ^ c := ⟨1, by rw [← h]⟩
  rcases (Nat.Prime.dvd_mul h7).1 hd with h1 | h1
  · rcases (Nat.Prime.dvd_mul h7).1 h1 with h2 | h2
    · exact absurd (h7.dvd_of_dvd_pow h2) (by norm_num)
    · exact absurd (h7.dvd_of_dvd_pow h2) (by norm_num)
  · exact absurd (h7.dvd_of_dvd_pow h1) (by norm_num)

/-- FINDING: with a power scaling the phase is lost: for a system delaying by one sample the
result is the undelayed impulse. -/
theorem C81_power_wrong (N fs : ℕ) (s : Scaling) (thr : ℝ) (hN : 1 < N) (hfs : 0 < fs)
    (hs : s = .powSpectrum ∨ s = .powDensity) :
    ∃ R, deconvolve (impulse N 1 fs s false) (impulse N 0 fs s false) false none thr false false
      = .ok R ∧ R.rows = N ∧ ∀ j < N, R.val j 0 = some (delta 0 j) := by
  have ha : s.isAmplitude = false := by rcases hs with rfl | rfl <;> rfl
  have hN0 : (0 : ℝ) < N := by exact_mod_cast (by omega : 0 < N)
  have hfs0 : (0 : ℝ) < fs := by exact_mod_cast hfs
  have hfac : 0 < factor s N fs none := by
    rcases hs with rfl | rfl <;> simp only [factor, Scaling.isDensity,
        Scaling.isAmplitude, if_true, if_false, Bool.false_eq_true] <;> positivity
  have hsp : ∀ d, ∃ g : ℕ → ℝ, (∀ k, g k = (if k = 0 then 1 / 2 else 1) *
      (if N % 2 = 0 ∧ k = rfftBins N - 1 then 1 / 2 else 1) * factor s N fs none) ∧
      fftSpectrum (prepared (impulse N d fs s false) false) = .ok fun c k =>
        ((g k * ‖rfft N (sample (impulse N d fs s false).data c) k‖ ^ 2 : ℝ) : ℂ) := by
    intro d
    obtain ⟨g, h1, h2⟩ := fftSpectrum_pow (prepared (impulse N d fs s false) false) ha
    refine ⟨g, h1, ?_⟩
    rw [h2]
    simp only [chan_prepared]
    rfl
  obtain ⟨g1, e1, s1⟩ := hsp 1
  obtain ⟨g0, e0, s0⟩ := hsp 0
  have hgg : ∀ k, g1 k = g0 k := fun k => by rw [e1, e0]
  have hg0 : ∀ k, g0 k ≠ 0 := by
    intro k
    rw [e0]
    split_ifs <;> positivity
  obtain ⟨R, h1, h2, h3, h4⟩ := deconvolve_of (impulse N 1 fs s false)
    (impulse N 0 fs s false) false none thr false false
    ⟨rfl, Or.inl rfl, rfl, Or.inr rfl⟩ _ _ s0 s1 _
    (loop_standard _ _ _ _ _ (freqs_length _ _) _ _ _ _ _)
  have hr : R.rows = N := by
    rw [h2]
    simp [impulse]
  refine ⟨R, h1, hr, fun j hj => ?_⟩
  rw [h4 0 (by show 0 < 1; omega) j (by omega)]
  have e2 : (if (decide ((impulse N 0 fs s false).data.cols = 1)) = true then 0 else 0 + 0)
      = 0 := by simp
  have he : ∀ k, ‖rfft N (delta 1) k‖ ^ 2 = 1 := by
    intro k
    rw [rfft_delta N 1 k hN]
    unfold e
    have : (2 * (Real.pi : ℂ) * I * (((-((k : ℤ) * (1 : ℕ)) : ℤ) : ℂ) / N)) =
        ((2 * Real.pi * (-k / N) : ℝ) : ℂ) * I := by
      push_cast
      ring
    rw [this, norm_exp_ofReal_mul_I, one_pow]
  rw [e2, sample_impulse N 0 fs _ _ (by omega), Nat.zero_add, sample_impulse N 1 fs _ _ hN]
  unfold backBins
  rw [if_pos (fun k _ _ => by
    dsimp only
    rw [rfft_delta_zero _ _ (by omega), norm_one, one_pow, mul_one]
    exact_mod_cast hg0 k), Option.map_some]
  congr 1
  refine irfft_of_rfft N _ (by show N / 2 < rfftBins N; unfold rfftBins; omega) (delta 0) _
    (fun k hk => ?_) j hj
  dsimp only
  rw [he, rfft_delta_zero _ _ (by omega), norm_one, one_pow, mul_one, mul_one, hgg, div_self]
  exact_mod_cast hg0 k

/-- The level of the spectrum of an impulse. -/
theorem binDb_one (k : ℕ) (X : ℕ → ℂ) (h : X k = 1) : binDb X k = 0 := by
  unfold binDb
  rw [h, norm_one, max_eq_left]
  · simp
  · exact zpow_le_one_of_nonpos₀ (by norm_num) (by norm_num)

theorem maxDb_one (X : ℕ → ℂ) (M : ℕ) (hM : 0 < M) (h : ∀ k < M, X k = 1) : maxDb X M = 0 := by
  unfold maxDb
  rw [binDb_one 0 X (h 0 hM)]
  have : ∀ l : List ℕ, (∀ k ∈ l, k + 1 < M) →
      l.foldl (fun m k => max m (binDb X (k + 1))) (0 : ℝ) = 0 := by
    intro l
    induction l with
    | nil => intro _; rfl
    | cons a l ih =>
      intro hl
      rw [List.foldl_cons, binDb_one (a + 1) X (h _ (hl a (by simp))), max_self]
      exact ih fun k hk => hl k (by simp [hk])
  refine this _ fun k hk => ?_
  have := List.mem_range.1 hk
  omega

theorem above_one (X : ℕ → ℂ) (n fs : ℕ) (hn : 0 < n) (he : n % 2 = 0) (h : ∀ k, X k = 1) :
    above X (freqs n fs) (-30) = .ok [0, (fs : ℝ) / 2] := by
  have hn0 : (n : ℝ) ≠ 0 := by exact_mod_cast hn.ne'
  unfold above
  dsimp only
  have hf : ((List.range (freqs n fs).length).filter
      fun k => decide (binDb X k - maxDb X (freqs n fs).length > -30)) =
      List.range (freqs n fs).length := by
    refine List.filter_eq_self.2 fun k _ => ?_
    rw [binDb_one k X (h k), maxDb_one X _ (by rw [freqs_length]; unfold rfftBins; omega)
      (fun k _ => h k)]
    norm_num
  rw [hf]
  have hl : (List.range (freqs n fs).length).map (fun k => (freqs n fs).getD k 0) =
      (List.range (n / 2 + 1)).map fun k : ℕ => (k : ℝ) * fs / n := by
    rw [freqs_length]
    refine List.map_congr_left fun k hk => ?_
    exact freqs_getD n fs k (List.mem_range.1 hk)
  rw [hl]
  have h1 : ((List.range (n / 2 + 1)).map fun k : ℕ => (k : ℝ) * fs / n).head? = some 0 := by
    rw [List.range_succ_eq_map]
    simp
  have h2 : ((List.range (n / 2 + 1)).map fun k : ℕ => (k : ℝ) * fs / n).getLast? =
      some ((fs : ℝ) / 2) := by
    rw [List.range_succ, List.map_append, List.map_singleton, List.getLast?_append]
    simp only [List.getLast?_singleton, Option.some_or]
    congr 1
    have : (n : ℝ) = 2 * ((n / 2 : ℕ) : ℝ) := by exact_mod_cast (by omega : n = 2 * (n / 2))
    have h0 : ((n / 2 : ℕ) : ℝ) ≠ 0 := by
      intro h0
      rw [h0] at this
      exact hn0 (by linarith)
    conv_lhs => rw [this]
    field_simp
  rw [h1, h2]

/-- The index nearest to half the sampling rate is the last one, the one nearest to 0 the first. -/
theorem nearest_edges (n fs : ℕ) (hn : 0 < n) (he : n % 2 = 0) (hfs : 0 < fs) :
    Helpers.findNearest [0, 0, (fs : ℝ) / 2, (fs : ℝ) / 2] (freqs n fs) =
      .ok [0, 0, n / 2, n / 2] := by
  have hne : freqs n fs ≠ [] := by
    intro h
    have := freqs_length n fs
    rw [h] at this
    simp [rfftBins] at this
  have hn0 : (0 : ℝ) < n := by exact_mod_cast hn
  have hfs0 : (0 : ℝ) < fs := by exact_mod_cast hfs
  have hb : rfftBins n = n / 2 + 1 := rfl
  have hlast : ((n / 2 : ℕ) : ℝ) * fs / n = fs / 2 := by
    have : (n : ℝ) = 2 * ((n / 2 : ℕ) : ℝ) := by exact_mod_cast (by omega : n = 2 * (n / 2))
    have h0 : ((n / 2 : ℕ) : ℝ) ≠ 0 := by
      intro h0
      rw [h0] at this
      linarith
    conv_lhs => rw [this]
    field_simp
  obtain ⟨idx, hidx, hlen, hall⟩ :=
    Helpers.C45_nearest [0, 0, (fs : ℝ) / 2, (fs : ℝ) / 2] (freqs n fs) hne
  match idx, hlen with
  | [a, b, c, d], _ =>
    have g0 : ∀ i, (i < (freqs n fs).length ∧
        (∀ j < (freqs n fs).length, |0 - (freqs n fs).getD i 0| ≤ |0 - (freqs n fs).getD j 0|)) →
        i = 0 := by
      rintro i ⟨h1, h2⟩
      rw [freqs_length] at h1
      have h3 := h2 0 (by rw [freqs_length, hb]; omega)
      rw [freqs_getD _ _ _ h1, freqs_getD _ _ _ (by rw [hb]; omega)] at h3
      by_contra hi
      have : (0 : ℝ) < i := by exact_mod_cast Nat.pos_of_ne_zero hi
      have h4 : (0 : ℝ) < (i : ℝ) * fs / n := by positivity
      simp only [zero_sub, abs_neg, Nat.cast_zero, zero_mul, zero_div, abs_zero] at h3
      rw [abs_of_pos h4] at h3
      linarith
    have g1 : ∀ i, (i < (freqs n fs).length ∧
        (∀ j < (freqs n fs).length,
          |(fs : ℝ) / 2 - (freqs n fs).getD i 0| ≤ |(fs : ℝ) / 2 - (freqs n fs).getD j 0|)) →
        i = n / 2 := by
      rintro i ⟨h1, h2⟩
      rw [freqs_length] at h1
      have h3 := h2 (n / 2) (by rw [freqs_length, hb]; omega)
      rw [freqs_getD _ _ _ h1, freqs_getD _ _ _ (by rw [hb]; omega), hlast, sub_self, abs_zero] at h3
      have h4 := abs_eq_zero.1 (le_antisymm h3 (abs_nonneg _))
      have h5 : (i : ℝ) * fs / n = ((n / 2 : ℕ) : ℝ) * fs / n := by rw [hlast]; linarith
      have h6 : (i : ℝ) = ((n / 2 : ℕ) : ℝ) := by
        field_simp at h5
        exact h5
      exact_mod_cast h6
    have ha := hall 0 (by simp)
    have hb' := hall 1 (by simp)
    have hc := hall 2 (by simp)
    have hd := hall 3 (by simp)
    simp only [List.getD_cons_zero, List.getD_cons_succ] at ha hb' hc hd
    rw [hidx, g0 a ⟨ha.1, ha.2.1⟩, g0 b ⟨hb'.1, hb'.2.1⟩, g1 c ⟨hc.1, hc.2.1⟩, g1 d ⟨hd.1, hd.2.1⟩]

/-- FINDING: with the default parameters the last bin is always regularized fully, since the two
upper limits of the range coincide there.  Deconvolving an impulse with itself does not return
the impulse: the bin at half the sampling rate is `1 / (1 + 10^1.5)` instead of 1. -/
theorem C81_nyquist_wrong (N fs : ℕ) (hN : 0 < N) (he : N % 2 = 0) (hfs : 0 < fs) :
    ∃ R g, deconvolve (impulse N 0 fs .fftBackward false) (impulse N 0 fs .fftBackward false) true none
      (-30) false false = .ok R ∧ R.rows = N ∧ (∀ j < N, R.val j 0 = some (g j)) ∧
      bin N g (N / 2) = ((1 / (1 + 10 ^ (30 / 20 : ℝ)) : ℝ) : ℂ) ∧ ∀ k < N / 2, bin N g k = 1 := by
  have hsp : fftSpectrum (prepared (impulse N 0 fs .fftBackward false) false) =
      .ok fun c k => gain .fftBackward N fs none k * rfft N
        (sample (impulse N 0 fs .fftBackward false).data c) k := by
    rw [fftSpectrum_amp _ rfl]
    simp only [chan_prepared]
    rfl
  have hg : ∀ k, gain .fftBackward N fs none k = 1 := by
    intro k
    simp [gain, CSM.fftNorm, CSM.physical]
  have hone : ∀ k, gain .fftBackward N fs none k * rfft N (delta 0) k = 1 := by
    intro k
    rw [hg, one_mul, rfft_delta_zero _ _ hN]
  have h0 := sample_impulse N 0 fs .fftBackward false hN
  have hfs0 : (0 : ℝ) < fs := by exact_mod_cast hfs
  have hmin : min ((fs : ℝ) / 2 * Real.sqrt 2) (fs / 2) = fs / 2 := by
    refine min_eq_right ?_
    have : (1 : ℝ) ≤ Real.sqrt 2 := Real.one_le_sqrt.2 (by norm_num)
    nlinarith
  have hran : nextRange none (fun k => gain .fftBackward N fs none k * rfft N (delta 0) k)
      (freqs N fs) fs (-30) = .ok [0, 0, (fs : ℝ) / 2, (fs : ℝ) / 2] := by
    unfold nextRange
    dsimp only
    rw [above_one _ N fs hN he hone]
    simp only [zero_div, hmin]
  obtain ⟨w, hw, wl, wv⟩ := Tukey.window_ok 0 0 (N / 2) (N / 2) (freqs N fs).length
    ⟨le_rfl, by omega, le_rfl, by rw [freqs_length]; unfold rfftBins; omega⟩ Tukey.hann Tukey.hann
    true true
  have hep : epsilon [0, 0, (fs : ℝ) / 2, (fs : ℝ) / 2] (freqs N fs) =
      .ok (w.map (· * (10 : ℝ) ^ (30 / 20 : ℝ))) := by
    unfold epsilon
    rw [nearest_edges N fs hN he hfs]
    dsimp only
    rw [hw]
  have hval : ∀ k ≤ N / 2, (w.map (· * (10 : ℝ) ^ (30 / 20 : ℝ))).getD k 0 =
      if k = N / 2 then (10 : ℝ) ^ (30 / 20 : ℝ) else 0 := by
    intro k hk
    have hk' : k < w.length := by rw [wl, freqs_length]; unfold rfftBins; omega
    rw [List.getD_eq_getElem _ _ (by simpa using hk'), List.getElem_map,
      ← List.getD_eq_getElem _ 0 hk', wv k (by rwa [wl] at hk'), if_pos rfl]
    unfold Tukey.at'
    rw [if_neg (by omega), if_neg (by omega)]
    split_ifs with h1 h2 h3
    · omega
    · ring
    · ring
    · omega
  obtain ⟨R, h1, h2, h3, h4⟩ := deconvolve_of (impulse N 0 fs .fftBackward false)
    (impulse N 0 fs .fftBackward false) true none (-30) false false
    ⟨rfl, Or.inl rfl, rfl, Or.inl rfl⟩ _ _ hsp hsp _
    (loop_regularized _ _ _ _ _ (freqs_length _ _) _ _ _ _ _ _ 0 0 ((fs : ℝ) / 2) ((fs : ℝ) / 2) (by
      simp only [impulse, decide_true, if_true] at h0 ⊢
      rw [h0]
      exact hran) _ hep)
  have hr : R.rows = N := by
    rw [h2]
    simp [impulse]
  have hpos : (0 : ℝ) < (10 : ℝ) ^ (30 / 20 : ℝ) := by positivity
  obtain ⟨g, hg1, hg2⟩ := regBins_bin N hN (gain .fftBackward N fs none) (gain_real _ _ _ _) (delta 0)
    (delta 0) (w.map (· * (10 : ℝ) ^ (30 / 20 : ℝ))) (by
      intro k hk
      rw [hone, norm_one, one_pow, hval k hk]
      split_ifs <;> positivity)
  refine ⟨R, g, h1, hr, fun j hj => ?_, ?_, fun k hk => ?_⟩
  · rw [h4 0 (by show 0 < 1; omega) j (by omega)]
    have e1 : (if (decide ((impulse N 0 fs .fftBackward false).data.cols = 1)) = true then 0
        else 0 + 0) = 0 := by simp
    rw [e1, Nat.zero_add, h0]
    exact congrArg (Option.map fun g => g j) hg1
  · rw [hg2 _ le_rfl, hone, norm_one, one_pow, hval _ le_rfl, if_pos rfl]
    push_cast
    simp
  · rw [hg2 k hk.le, hone, norm_one, one_pow, hval k hk.le, if_neg (by omega)]
    simp

/-- Two channels: a constant and an impulse. -/
def twoChannels : Sig :=
  ⟨⟨2, 2, fun r c => if c = 0 then 1 else if r = 0 then 1 else 0⟩, 2, .fftBackward, false, none⟩

theorem sample_two_one : sample twoChannels.data 1 = delta 0 := by
  funext j
  unfold sample twoChannels delta
  rcases j with _ | j <;> simp

/-- The constant channel only has energy at frequency 0. -/
theorem rfft_two_zero (k : ℕ) (hk : k < 2) :
    rfft 2 (sample twoChannels.data 0) k = if k = 0 then 2 else 0 := by
  unfold rfft dft
  have h0 : sample twoChannels.data 0 0 = 1 := by simp [sample, twoChannels]
  have h1 : sample twoChannels.data 0 1 = 1 := by simp [sample, twoChannels]
  rw [sum_range_succ, sum_range_one]
  dsimp only
  rw [h0, h1]
  interval_cases k
  · simp [e_zero]
    norm_num
  · have h2 : e 2 (-(((1 : ℕ) : ℤ) * (1 : ℕ))) = -1 := by
      unfold e
      have : (2 * (Real.pi : ℂ) * I * (((-(((1 : ℕ) : ℤ) * (1 : ℕ)) : ℤ) : ℂ) / (2 : ℕ))) =
          -(Real.pi * I) := by
        push_cast
        ring
      rw [this, Complex.exp_neg, Complex.exp_pi_mul_I]
      norm_num
    rw [h2]
    simp [e_zero]

theorem tiny_small : (20 : ℝ) * Real.logb 10 (2 ^ (-1022 : ℤ)) < -30 := by
  have h1 : ((2 : ℝ) ^ (-1022 : ℤ)) < (10 : ℝ) ^ (-2 : ℝ) := by
    rw [show (-1022 : ℤ) = -((1022 : ℕ) : ℤ) by norm_num, zpow_neg, zpow_natCast,
      Real.rpow_neg (by norm_num), inv_lt_inv₀ (by positivity) (by positivity)]
    have h3 : (2 : ℝ) ^ 7 ≤ 2 ^ 1022 := pow_le_pow_right₀ (by norm_num) (by norm_num)
    have h4 : (10 : ℝ) ^ (2 : ℝ) < 2 ^ 7 := by norm_num
    exact lt_of_lt_of_le h4 h3
  have h2 := Real.logb_lt_logb (b := 10) (by norm_num) (by positivity) h1
  rw [Real.logb_rpow (by norm_num) (by norm_num)] at h2
  linarith

/-- The range that the automatic mode finds for the constant channel. -/
theorem range_two (X : ℕ → ℂ) (h0 : X 0 = 2) (h1 : X 1 = 0) :
    nextRange none X (freqs 2 2) 2 (-30) = .ok [0, 0, 0, 0] := by
  have hf : freqs 2 2 = [0, 1] := by
    simp [freqs, rfftBins, List.range_succ]
  have hlog : 0 ≤ Real.logb 10 2 := Real.logb_nonneg (by norm_num) (by norm_num)
  have d0 : binDb X 0 = 20 * Real.logb 10 2 := by
    unfold binDb
    rw [h0, max_eq_left]
    · norm_num
    · have h2 : ((2 : ℝ) ^ (-1022 : ℤ)) ≤ 1 := zpow_le_one_of_nonpos₀ (by norm_num) (by norm_num)
      have h3 : ‖(2 : ℂ)‖ = 2 := by norm_num
      rw [h3]
      exact h2.trans (by norm_num)
  have d1 : binDb X 1 < -30 := by
    unfold binDb
    rw [h1, norm_zero, max_eq_right (by positivity)]
    exact tiny_small
  have hm : maxDb X 2 = 20 * Real.logb 10 2 := by
    unfold maxDb
    simp only [show (2 : ℕ) - 1 = 1 from rfl, List.range_one, List.foldl_cons, List.foldl_nil,
      zero_add, d0]
    exact max_eq_left (by linarith)
  unfold nextRange above
  rw [hf]
  simp only [List.length_cons, List.length_nil, zero_add, Nat.reduceAdd, hm]
  have hfil : ((List.range 2).filter fun k => decide (binDb X k - 20 * Real.logb 10 2 > -30)) = [0] := by
    rw [show List.range 2 = [0, 1] from rfl, List.filter_cons, List.filter_cons, d0]
    have a1 : decide (20 * Real.logb 10 2 - 20 * Real.logb 10 2 > -30) = true := by
      rw [decide_eq_true_iff]
      norm_num
    have a2 : decide (binDb X 1 - 20 * Real.logb 10 2 > -30) = false := by
      rw [decide_eq_false_iff_not]
      linarith
    rw [a1, a2]
    rfl
  rw [hfil]
  simp

/-- FINDING: in the automatic mode the range found for the first channel is used for all channels.
With a constant in the first channel and an impulse in the second one, the second channel of the
result is not what the second channel alone gives: its bin 0 is `1 / (1 + 10^1.5)` instead of 1. -/
theorem C81_first_channel_wrong :
    sample twoChannels.data 1 = sample (impulse 2 0 2 .fftBackward false).data 0 ∧
    (∃ R g, deconvolve twoChannels twoChannels true none (-30) false false = .ok R ∧ R.rows = 2 ∧
      (∀ j < 2, R.val j 1 = some (g j)) ∧ bin 2 g 0 = ((1 / (1 + 10 ^ (30 / 20 : ℝ)) : ℝ) : ℂ)) ∧
    ∃ R g, deconvolve (impulse 2 0 2 .fftBackward false) (impulse 2 0 2 .fftBackward false) true none
      (-30) false false = .ok R ∧ R.rows = 2 ∧ (∀ j < 2, R.val j 0 = some (g j)) ∧ bin 2 g 0 = 1 := by
  refine ⟨by rw [sample_two_one, sample_impulse _ _ _ _ _ (by norm_num)], ?_, ?_⟩
  · have hsp : fftSpectrum (prepared twoChannels false) =
        .ok fun c k => gain .fftBackward 2 2 none k * rfft 2 (sample twoChannels.data c) k := by
      rw [fftSpectrum_amp _ rfl]
      simp only [chan_prepared]
      rfl
    have hg : ∀ k, gain .fftBackward 2 2 none k = 1 := by
      intro k
      simp [gain, CSM.fftNorm, CSM.physical]
    have hran := range_two (fun k => gain .fftBackward 2 2 none k *
      rfft 2 (sample twoChannels.data 0) k) (by
        rw [hg, rfft_two_zero 0 (by norm_num)]; simp) (by
        rw [hg, rfft_two_zero 1 (by norm_num)]; simp)
    have hf : freqs 2 2 = [0, 1] := by
      simp [freqs, rfftBins, List.range_succ]
    have hep : epsilon [0, 0, 0, 0] (freqs 2 2) =
        .ok [(10 : ℝ) ^ (30 / 20 : ℝ), (10 : ℝ) ^ (30 / 20 : ℝ)] := by
      have hn : Helpers.findNearest [(0 : ℝ), 0, 0, 0] [0, 1] = .ok [0, 0, 0, 0] := by
        have h10 : ¬ (1 : ℝ) < 0 := by norm_num
        simp [Helpers.findNearest, Helpers.argmin, Helpers.argminFrom, List.mapM_cons, bind,
          Except.bind, pure, Except.pure, h10]
      unfold epsilon
      rw [hf, hn]
      simp [Tukey.window, Tukey.lowFlank, Tukey.highFlank]
    obtain ⟨R, h1, h2, h3, h4⟩ := deconvolve_of twoChannels twoChannels true none (-30) false false
      ⟨rfl, Or.inr rfl, rfl, Or.inl rfl⟩ _ _ hsp hsp _
      (loop_regularized _ _ _ _ _ (freqs_length _ _) _ _ _ _ _ _ 0 0 0 0 (by
        simp only [twoChannels]
        exact hran) _ hep)
    have hr : R.rows = 2 := by
      rw [h2]
      simp [twoChannels]
    have hpos : (0 : ℝ) < (10 : ℝ) ^ (30 / 20 : ℝ) := by positivity
    obtain ⟨g, hg1, hg2⟩ := regBins_bin 2 (by norm_num) (gain .fftBackward 2 2 none)
      (gain_real _ _ _ _) (delta 0) (delta 0) [(10 : ℝ) ^ (30 / 20 : ℝ), (10 : ℝ) ^ (30 / 20 : ℝ)] (by
        intro k hk
        have : k = 0 ∨ k = 1 := by omega
        rcases this with rfl | rfl
        · simp only [List.getD_cons_zero]; positivity
        · simp only [List.getD_cons_succ, List.getD_cons_zero]; positivity)
    refine ⟨R, g, h1, hr, fun j hj => ?_, ?_⟩
    · rw [h4 1 (by show 1 < 2; omega) j (by omega)]
      have e1 : (if (decide (twoChannels.data.cols = 1)) = true then 0 else 0 + 1) = 1 := by
        simp [twoChannels]
      rw [e1, Nat.zero_add, sample_two_one]
      exact congrArg (Option.map fun g => g j) hg1
    · rw [hg2 0 (by norm_num), hg, rfft_delta_zero _ _ (by norm_num)]
      simp
  · obtain ⟨R, g, h1, h2, h3, -, h5⟩ := C81_nyquist_wrong 2 2 (by norm_num) (by norm_num) (by norm_num)
    exact ⟨R, g, h1, h2, h3, h5 0 (by norm_num)⟩

end Verif.Deconv
