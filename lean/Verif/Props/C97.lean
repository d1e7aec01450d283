import Verif.Model.AudioFilters
import Mathlib.Analysis.SpecialFunctions.Complex.Circle
import Mathlib.Analysis.Real.Pi.Bounds
import Mathlib.Tactic.Linarith
import Mathlib.Tactic.FieldSimp

/-!
# C97: the pinking filter is stable, has gain one at the given frequency and falls monotonically
-/

namespace Verif.AudioFilters

/-- Squared distance of `exp(i w)` to the real number `r`, in terms of `c = cos w`. -/
noncomputable def dist2 (r c : ℝ) : ℝ := 1 + r ^ 2 - 2 * r * c

theorem norm_sq_sub (w r : ℝ) :
    ‖Complex.exp (w * Complex.I) - r‖ ^ 2 = dist2 r (Real.cos w) := by
  rw [Complex.sq_norm, Complex.exp_mul_I, ← Complex.ofReal_cos, ← Complex.ofReal_sin,
    Complex.normSq_apply]
  simp only [Complex.sub_re, Complex.add_re, Complex.ofReal_re, Complex.mul_re, Complex.I_re,
    Complex.I_im, Complex.sub_im, Complex.add_im, Complex.ofReal_im, Complex.mul_im]
  unfold dist2
  nlinarith [Real.sin_sq_add_cos_sq w]

theorem prod_norm_sq (l : List ℝ) (w : ℝ) :
    ‖(l.map fun z : ℝ => Complex.exp (w * Complex.I) - z).prod‖ ^ 2 =
      (l.map fun z => dist2 z (Real.cos w)).prod := by
  induction l with
  | nil => simp
  | cons a l ih => simp only [List.map_cons, List.prod_cons, norm_mul, mul_pow, ih, norm_sq_sub]

theorem freqz_norm_sq (f : Zpk) (w : ℝ) : ‖freqz f w‖ ^ 2 =
    f.k ^ 2 * (f.z.map fun z => dist2 z (Real.cos w)).prod /
      (f.p.map fun p => dist2 p (Real.cos w)).prod := by
  unfold freqz
  rw [norm_div, norm_mul, div_pow, mul_pow, prod_norm_sq, prod_norm_sq, Complex.norm_real,
    Real.norm_eq_abs, sq_abs]

theorem dist2_pos (r c : ℝ) (hr0 : 0 ≤ r) (hr : r < 1) (hc : c ≤ 1) : 0 < dist2 r c := by
  unfold dist2
  nlinarith [sq_nonneg (1 - r)]

/-- A zero below a pole (both between 0 and 1) gives a falling response. -/
theorem pair_mono (z p c d : ℝ) (hz : 0 ≤ z) (hzp : z < p) (hp : p < 1) (hcd : d < c) (hc : c ≤ 1) :
    dist2 z d / dist2 p d < dist2 z c / dist2 p c := by
  rw [div_lt_div_iff₀ (dist2_pos p d (by linarith) hp (by linarith))
    (dist2_pos p c (by linarith) hp hc)]
  unfold dist2
  have h : (1 + z ^ 2 - 2 * z * c) * (1 + p ^ 2 - 2 * p * d) -
      (1 + z ^ 2 - 2 * z * d) * (1 + p ^ 2 - 2 * p * c) =
      2 * (c - d) * ((p - z) * (1 - z * p)) := by ring
  have h1 : 0 < (p - z) * (1 - z * p) := by
    have : z * p < 1 := by nlinarith
    exact mul_pos (by linarith) (by linarith)
  nlinarith [mul_pos (by linarith : 0 < 2 * (c - d)) h1]

theorem single_mono (p c d : ℝ) (hp0 : 0 < p) (hp : p < 1) (hcd : d < c) (hc : c ≤ 1) :
    1 / dist2 p d < 1 / dist2 p c := by
  refine one_div_lt_one_div_of_lt (dist2_pos p c hp0.le hp hc) ?_
  unfold dist2
  nlinarith

theorem mul_lt (a b c d : ℝ) (ha : 0 < a) (hc : 0 < c) (h1 : a < b) (h2 : c < d) : a * c < b * d :=
  mul_lt_mul h1 h2.le hc (by linarith)

/-- The power of the pinking filter as a function of the cosine. -/
noncomputable def power (c : ℝ) : ℝ :=
  1 / dist2 0.378332 c * (dist2 0.698258 c / dist2 0.862595 c) * (dist2 0.937174 c / dist2 0.970548 c) *
    (dist2 0.985792 c / dist2 0.993022 c) * (dist2 0.996652 c / dist2 0.998655 c)

theorem pink_power (k w : ℝ) : ‖freqz { pinkPrototype with k := k } w‖ ^ 2 =
    k ^ 2 * power (Real.cos w) := by
  rw [freqz_norm_sq]
  unfold pinkPrototype power
  simp only [List.map_cons, List.map_nil, List.prod_cons, List.prod_nil, mul_one]
  have hc := Real.cos_le_one w
  have h1 := (dist2_pos 0.378332 _ (by norm_num) (by norm_num) hc).ne'
  have h2 := (dist2_pos 0.862595 _ (by norm_num) (by norm_num) hc).ne'
  have h3 := (dist2_pos 0.970548 _ (by norm_num) (by norm_num) hc).ne'
  have h4 := (dist2_pos 0.993022 _ (by norm_num) (by norm_num) hc).ne'
  have h5 := (dist2_pos 0.998655 _ (by norm_num) (by norm_num) hc).ne'
  generalize dist2 0.378332 (Real.cos w) = a1 at *
  generalize dist2 0.862595 (Real.cos w) = a2 at *
  generalize dist2 0.970548 (Real.cos w) = a3 at *
  generalize dist2 0.993022 (Real.cos w) = a4 at *
  generalize dist2 0.998655 (Real.cos w) = a5 at *
  field_simp

theorem power_pos (c : ℝ) (hc : c ≤ 1) : 0 < power c := by
  unfold power
  have h1 := dist2_pos 0.378332 c (by norm_num) (by norm_num) hc
  have h2 := dist2_pos 0.862595 c (by norm_num) (by norm_num) hc
  have h3 := dist2_pos 0.970548 c (by norm_num) (by norm_num) hc
  have h4 := dist2_pos 0.993022 c (by norm_num) (by norm_num) hc
  have h5 := dist2_pos 0.998655 c (by norm_num) (by norm_num) hc
  have g1 := dist2_pos 0.698258 c (by norm_num) (by norm_num) hc
  have g2 := dist2_pos 0.937174 c (by norm_num) (by norm_num) hc
  have g3 := dist2_pos 0.985792 c (by norm_num) (by norm_num) hc
  have g4 := dist2_pos 0.996652 c (by norm_num) (by norm_num) hc
  positivity

theorem power_mono (c d : ℝ) (hcd : d < c) (hc : c ≤ 1) : power d < power c := by
  have hd : d ≤ 1 := by linarith
  have h1 := dist2_pos 0.378332 d (by norm_num) (by norm_num) hd
  have h2 := dist2_pos 0.862595 d (by norm_num) (by norm_num) hd
  have h3 := dist2_pos 0.970548 d (by norm_num) (by norm_num) hd
  have h4 := dist2_pos 0.993022 d (by norm_num) (by norm_num) hd
  have h5 := dist2_pos 0.998655 d (by norm_num) (by norm_num) hd
  have g1 := dist2_pos 0.698258 d (by norm_num) (by norm_num) hd
  have g2 := dist2_pos 0.937174 d (by norm_num) (by norm_num) hd
  have g3 := dist2_pos 0.985792 d (by norm_num) (by norm_num) hd
  have g4 := dist2_pos 0.996652 d (by norm_num) (by norm_num) hd
  unfold power
  refine mul_lt _ _ _ _ (by positivity) (by positivity) (mul_lt _ _ _ _ (by positivity) (by positivity)
    (mul_lt _ _ _ _ (by positivity) (by positivity) (mul_lt _ _ _ _ (by positivity) (by positivity)
      ?_ ?_) ?_) ?_) ?_
  · exact single_mono _ _ _ (by norm_num) (by norm_num) hcd hc
  all_goals exact pair_mono _ _ _ _ (by norm_num) (by norm_num) (by norm_num) hcd hc

/-- **C97**, refusal: exactly the frequencies from the Nyquist frequency on are refused. -/
theorem C97_refused (f0 fs : ℝ) :
    (fs / 2 ≤ f0 → pinking f0 fs = .error .assertionError) ∧
    (f0 < fs / 2 → ∃ f, pinking f0 fs = .ok f) := by
  unfold pinking
  constructor
  · intro h
    rw [if_pos (by linarith)]
  · intro h
    rw [if_neg (by simpa using h)]
    exact ⟨_, rfl⟩

/-- **C97**, stability: all poles and all zeros lie inside the unit circle, one more pole than
zeros. -/
theorem C97_stable (f0 fs : ℝ) (f : Zpk) (h : pinking f0 fs = .ok f) :
    (∀ p ∈ f.p, |p| < 1) ∧ (∀ z ∈ f.z, |z| < 1) ∧ f.p.length = f.z.length + 1 ∧ 0 < f.k := by
  unfold pinking at h
  split at h
  · cases h
  · cases h
    refine ⟨?_, ?_, rfl, ?_⟩
    · intro p hp
      unfold pinkPrototype at hp
      simp only [List.mem_cons, List.not_mem_nil, or_false] at hp
      rcases hp with rfl | rfl | rfl | rfl | rfl <;> (rw [abs_lt]; constructor <;> norm_num)
    · intro p hp
      unfold pinkPrototype at hp
      simp only [List.mem_cons, List.not_mem_nil, or_false] at hp
      rcases hp with rfl | rfl | rfl | rfl <;> (rw [abs_lt]; constructor <;> norm_num)
    · have hp := pink_power 1 (2 * Real.pi * f0 / fs)
      have := power_pos _ (Real.cos_le_one (2 * Real.pi * f0 / fs))
      have hne : ‖freqz pinkPrototype (2 * Real.pi * f0 / fs)‖ ≠ 0 := by
        intro h0
        have e : ({ pinkPrototype with k := 1 } : Zpk) = pinkPrototype := rfl
        rw [e, h0] at hp
        nlinarith
      have : 0 < ‖freqz pinkPrototype (2 * Real.pi * f0 / fs)‖ := lt_of_le_of_ne (norm_nonneg _) hne.symm
      show 0 < pinkPrototype.k / _
      exact div_pos (by unfold pinkPrototype; norm_num) this

theorem pinking_ok (f0 fs : ℝ) (f : Zpk) (h : pinking f0 fs = .ok f) :
    f = { pinkPrototype with k := f.k } ∧ f.k ^ 2 * power (Real.cos (2 * Real.pi * f0 / fs)) = 1 := by
  unfold pinking at h
  split at h
  · cases h
  · cases h
    refine ⟨rfl, ?_⟩
    have hp := pink_power 1 (2 * Real.pi * f0 / fs)
    have hpos := power_pos _ (Real.cos_le_one (2 * Real.pi * f0 / fs))
    have e : ({ pinkPrototype with k := 1 } : Zpk) = pinkPrototype := rfl
    rw [e, one_pow, one_mul] at hp
    show (pinkPrototype.k / ‖freqz pinkPrototype (2 * Real.pi * f0 / fs)‖) ^ 2 * _ = 1
    rw [div_pow, hp]
    have e2 : pinkPrototype.k = 1 := rfl
    rw [e2]
    field_simp

/-- **C97**, gain: the magnitude at the given frequency is exactly one. -/
theorem C97_gain (f0 fs : ℝ) (f : Zpk) (h : pinking f0 fs = .ok f) :
    ‖freqz f (2 * Real.pi * f0 / fs)‖ = 1 := by
  obtain ⟨h1, h2⟩ := pinking_ok f0 fs f h
  have h3 := pink_power f.k (2 * Real.pi * f0 / fs)
  rw [← h1, h2] at h3
  exact (pow_eq_one_iff_of_nonneg (norm_nonneg _) (by norm_num)).mp h3

/-- **C97**, roll-off: the magnitude falls strictly from frequency zero to the Nyquist frequency. -/
theorem C97_falls (f0 fs : ℝ) (f : Zpk) (h : pinking f0 fs = .ok f) (a b : ℝ) (ha : 0 ≤ a)
    (hab : a < b) (hb : b ≤ Real.pi) : ‖freqz f b‖ < ‖freqz f a‖ := by
  obtain ⟨h1, h2⟩ := pinking_ok f0 fs f h
  have hk := (C97_stable f0 fs f h).2.2.2
  refine lt_of_pow_lt_pow_left₀ 2 (norm_nonneg _) ?_
  rw [h1, pink_power, pink_power]
  exact mul_lt_mul_of_pos_left (power_mono _ _ (Real.cos_lt_cos_of_nonneg_of_le_pi ha hb hab)
    (Real.cos_le_one a)) (by positivity)

/-- **C97**, tilt: frequencies below the given one are amplified, frequencies above it attenuated. -/
theorem C97_tilt (f0 fs : ℝ) (f : Zpk) (h : pinking f0 fs = .ok f) (hfs : 0 < fs) (hf0 : 0 ≤ f0)
    (g : ℝ) (hg : 0 ≤ g) (hgn : g ≤ fs / 2) :
    (g < f0 → 1 < ‖freqz f (2 * Real.pi * g / fs)‖) ∧
    (f0 < g → ‖freqz f (2 * Real.pi * g / fs)‖ < 1) := by
  have hpi := Real.pi_pos
  have hlt : f0 < fs / 2 := by
    by_contra hn
    rw [(C97_refused f0 fs).1 (by linarith)] at h
    cases h
  have hle : ∀ t, t ≤ fs / 2 → 2 * Real.pi * t / fs ≤ Real.pi := by
    intro t ht
    rw [div_le_iff₀ hfs]
    nlinarith
  rw [← C97_gain f0 fs f h]
  constructor
  · intro hgf
    refine C97_falls f0 fs f h _ _ (by positivity) ?_ (hle _ hlt.le)
    exact (div_lt_div_iff_of_pos_right hfs).mpr (by nlinarith)
  · intro hgf
    refine C97_falls f0 fs f h _ _ (by positivity) ?_ (hle _ hgn)
    exact (div_lt_div_iff_of_pos_right hfs).mpr (by nlinarith)

/-- Concrete case: 1 kHz at 48 kHz. -/
example : ∃ f, pinking 1000 48000 = .ok f ∧ ‖freqz f (2 * Real.pi * 1000 / 48000)‖ = 1 := by
  obtain ⟨f, hf⟩ := (C97_refused 1000 48000).2 (by norm_num)
  exact ⟨f, hf, C97_gain _ _ f hf⟩

end Verif.AudioFilters
