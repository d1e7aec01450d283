import Verif.Model.Vqt
import Verif.Props.C134
import Verif.Props.C143

/-!
# C144: the variable-Q transform
-/

namespace Verif.Vqt

open Finset Verif.Wavelet

/-- The signal at the sampling rate of the octave `oc`, counted from the highest one: decimated, then halved `oc` times. -/
def Library.at (lib : Library) (dec : ℕ) (x : List ℝ) : ℕ → List ℝ
  | 0 => lib.down dec x
  | oc + 1 => lib.down 2 (lib.at dec x oc)

/-- Back to the sampling rate of the signal. -/
def Library.back (lib : Library) (dec oc : ℕ) (y : List ℂ) : List ℂ :=
  lib.up dec (if oc = 0 then y else lib.up (2 ^ oc) y)

/-- The frequency of the tone `d` steps below the B of the highest octave, with `bins` steps in an octave. -/
noncomputable def toneBelow (a4 : ℝ) (o1 : ℤ) (bins d : ℕ) : ℝ := a4 * 2 ^ ((o1 : ℝ) - 4 + 2 / 12 - (d : ℝ) / bins)

theorem octaves_length (lib : Library) (dec N : ℕ) (ks : List (List ℂ)) (n oc : ℕ) (td : List ℝ) :
    (octaves lib dec N ks n oc td).length = n * ks.length := by
  induction n generalizing oc td with
  | zero => simp [octaves]
  | succ n ih =>
    rw [octaves, List.length_append, ih]
    simp [octaveRows]
    ring

theorem octaves_getD (lib : Library) (dec N : ℕ) (ks : List (List ℂ)) (x : List ℝ) (n : ℕ) : ∀ (oc i k : ℕ), i < n →
    k < ks.length → (octaves lib dec N ks n oc (lib.at dec x oc)).getD (i * ks.length + k) [] =
      fit N (lib.back dec (oc + i) (convSame (lib.at dec x (oc + i)) (ks.getD k []))) := by
  induction n with
  | zero => intro oc i k hi; omega
  | succ n ih =>
    intro oc i k hi hk
    have hl : (octaveRows lib dec N ks oc (lib.at dec x oc)).length = ks.length := by simp [octaveRows]
    rw [octaves]
    cases i with
    | zero =>
      rw [List.getD_append _ _ _ _ (by rw [hl]; omega)]
      simp only [zero_mul, zero_add, add_zero]
      unfold octaveRows Library.back
      simp only [List.getD_eq_getElem?_getD, List.getElem?_map, List.getElem?_eq_getElem hk, Option.map_some,
        Option.getD_some, ite_not]
    | succ i =>
      rw [List.getD_append_right _ _ _ _ (by rw [hl]; nlinarith), hl,
        show (i + 1) * ks.length + k - ks.length = i * ks.length + k by
          rw [add_mul, one_mul]; omega]
      have := ih (oc + 1) i k (by omega) hk
      rw [show lib.at dec x (oc + 1) = lib.down 2 (lib.at dec x oc) from rfl] at this
      rw [this, show oc + 1 + i = oc + (i + 1) by omega]

theorem kernels_length (window : ℕ → List ℝ) (q high : ℝ) (bins mid : ℕ) (gamma : ℝ) :
    (kernels window q high bins mid gamma).length = bins := by simp [kernels]

theorem kernels_getD (window : ℕ → List ℝ) (q high : ℝ) (bins mid : ℕ) (gamma : ℝ) (k : ℕ) (hk : k < bins) :
    (kernels window q high bins mid gamma).getD k [] =
      kernel window (kernelFrequency high bins k) mid (kernelLength q high bins mid gamma k) := by
  unfold kernels
  simp [List.getD_eq_getElem?_getD, hk]

theorem highest_pos (a4 : ℝ) (h : 0 < a4) (o1 : ℤ) : 0 < highest a4 o1 := by
  unfold highest
  positivity

theorem decimation_zero (fs : ℕ) (a4 : ℝ) (h : 0 < a4) (o1 : ℤ) :
    decimation fs a4 o1 = 0 ↔ ((fs / 2 : ℕ) : ℝ) < 1.1 * highest a4 o1 := by
  have := highest_pos a4 h o1
  unfold decimation
  rw [Nat.floor_eq_zero, div_lt_one (by positivity), mul_comm]

theorem highest_eq (a4 : ℝ) (o1 : ℤ) (bins : ℕ) : highest a4 o1 = toneBelow a4 o1 bins 0 := by
  unfold highest toneBelow
  simp

/-- The octaves that can be analysed: half of the sampling rate must reach 1.1 times the highest tone.  Otherwise a
ZeroDivisionError is raised. -/
theorem C144_low_rate_wrong (lib : Library) (rnd : ℚ → ℚ) (x : List ℝ) (fs selected total : ℕ) (q gamma : ℝ) (o0 o1 : ℤ)
    (bins : ℕ) (a4 : ℝ) (ha : 0 < a4) :
    vqt lib rnd x fs selected total q gamma o0 o1 bins a4 = .error .zeroDivision ↔
      ((fs / 2 : ℕ) : ℝ) < 1.1 * toneBelow a4 o1 bins 0 := by
  rw [← highest_eq, ← decimation_zero fs a4 ha]
  unfold vqt
  dsimp only
  by_cases h : decimation fs a4 o1 = 0
  · simp [h]
  · rw [if_neg h]
    split_ifs <;> simp [h]

/-- Selecting some of the channels does not work. -/
theorem C144_channel_wrong (lib : Library) (rnd : ℚ → ℚ) (x : List ℝ) (fs selected total : ℕ) (q gamma : ℝ) (o0 o1 : ℤ)
    (bins : ℕ) (a4 : ℝ) (ha : 0 < a4) (hr : 1.1 * toneBelow a4 o1 bins 0 ≤ ((fs / 2 : ℕ) : ℝ)) (ho : o0 ≤ o1)
    (hc : selected ≠ total) :
    vqt lib rnd x fs selected total q gamma o0 o1 bins a4 = .error .valueError := by
  have h : decimation fs a4 o1 ≠ 0 := by
    rw [Ne, decimation_zero fs a4 ha, highest_eq a4 o1 bins]
    exact not_lt.2 hr
  unfold vqt
  dsimp only
  rw [if_neg h, if_pos ⟨by omega, hc⟩]

/-- The rows.  There are `bins` for each octave, as long as the signal; the row `d` places before the last one belongs to the
tone `d` steps below the highest B: it is the signal, decimated to the octave of the tone, convolved with a windowed complex
exponential and brought back to the rate of the signal.  Each window sums up to one. -/
theorem C144_rows (lib : Library) (rnd : ℚ → ℚ) (x : List ℝ) (fs channels : ℕ) (q gamma : ℝ) (o0 o1 : ℤ)
    (bins : ℕ) (a4 : ℝ) (ha : 0 < a4) (hr : 1.1 * toneBelow a4 o1 bins 0 ≤ ((fs / 2 : ℕ) : ℝ)) :
    ∃ (dec : ℕ) (f : List ℝ) (rows : List (List ℂ)), 0 < dec ∧
      (dec : ℝ) ≤ (fs / 2 : ℕ) / (1.1 * toneBelow a4 o1 bins 0) ∧ (fs / 2 : ℕ) / (1.1 * toneBelow a4 o1 bins 0) < (dec + 1 : ℝ) ∧
      vqt lib rnd x fs channels channels q gamma o0 o1 bins a4 = .ok (f, rows) ∧
      rows.length = (o1 - o0 + 1).toNat * bins ∧
      ∀ oc < (o1 - o0 + 1).toNat, ∀ k < bins,
        (rows.getD ((o1 - o0 + 1).toNat * bins - 1 - (oc * bins + k)) []).length = x.length ∧
        ∃ ker : List ℂ, ker.length = kernelLength q (highest a4 o1) bins (fs / dec) (gamma / fs * (fs / dec : ℕ)) k ∧
          (∀ m < ker.length, ker.getD m 0 =
            (((lib.window ker.length).getD m 0 / (lib.window ker.length).sum : ℝ) : ℂ) *
              Complex.exp ((2 * Real.pi * toneBelow a4 o1 bins k / (fs / dec : ℕ) * (m - ((ker.length + 1) / 2 : ℕ)) : ℝ) *
                Complex.I)) ∧
          ∀ n < x.length, (rows.getD ((o1 - o0 + 1).toNat * bins - 1 - (oc * bins + k)) []).getD n 0 =
            (lib.back dec oc (convSame (lib.at dec x oc) ker)).getD n 0 := by
  have hp := highest_pos a4 ha o1
  have h : decimation fs a4 o1 ≠ 0 := by
    rw [Ne, decimation_zero fs a4 ha, highest_eq a4 o1 bins]
    exact not_lt.2 hr
  have hd : ∀ y, (0 : ℝ) ≤ y → (⌊y⌋₊ : ℝ) ≤ y ∧ y < ⌊y⌋₊ + 1 := fun y hy => ⟨Nat.floor_le hy, Nat.lt_floor_add_one y⟩
  have hd := hd ((fs / 2 : ℕ) / (1.1 * highest a4 o1)) (by positivity)
  rw [mul_comm] at hd
  refine ⟨decimation fs a4 o1, axis rnd a4 o0 o1,
    (octaves lib (decimation fs a4 o1) x.length (kernels lib.window q (highest a4 o1) bins (fs / decimation fs a4 o1)
      (gamma / fs * (fs / decimation fs a4 o1 : ℕ))) (o1 - o0 + 1).toNat 0 (lib.down (decimation fs a4 o1) x)).reverse,
    Nat.pos_of_ne_zero h, ?_, ?_, ?_, ?_, ?_⟩
  · rw [← highest_eq, mul_comm]
    exact hd.1
  · rw [← highest_eq, mul_comm (1.1 : ℝ)]
    exact hd.2
  · unfold vqt
    dsimp only
    rw [if_neg h, if_neg (by tauto)]
  · rw [List.length_reverse, octaves_length, kernels_length]
  intro oc hoc k hk
  generalize hD : decimation fs a4 o1 = D
  generalize hks : kernels lib.window q (highest a4 o1) bins (fs / D) (gamma / fs * (fs / D : ℕ)) = ks
  have hkl : ks.length = bins := by rw [← hks, kernels_length]
  have hlt : oc * bins + k < (o1 - o0 + 1).toNat * bins := by
    have : (oc + 1) * bins ≤ (o1 - o0 + 1).toNat * bins := Nat.mul_le_mul_right _ hoc
    rw [add_mul, one_mul] at this
    omega
  have hg : ((octaves lib D x.length ks (o1 - o0 + 1).toNat 0 (lib.down D x)).reverse).getD
      ((o1 - o0 + 1).toNat * bins - 1 - (oc * bins + k)) [] =
      fit x.length (lib.back D oc (convSame (lib.at D x oc) (ks.getD k []))) := by
    have hlen := octaves_length lib D x.length ks (o1 - o0 + 1).toNat 0 (lib.down D x)
    rw [hkl] at hlen
    rw [List.getD_eq_getElem?_getD, List.getElem?_reverse (by rw [hlen]; omega), hlen, ← List.getD_eq_getElem?_getD,
      show (o1 - o0 + 1).toNat * bins - 1 - ((o1 - o0 + 1).toNat * bins - 1 - (oc * bins + k)) = oc * ks.length + k by
        rw [hkl]; omega]
    have := octaves_getD lib D x.length ks x (o1 - o0 + 1).toNat 0 oc k hoc (by rw [hkl]; exact hk)
    rw [zero_add] at this
    exact this
  rw [hg]
  refine ⟨by simp [fit], ks.getD k [], ?_, ?_, ?_⟩
  · rw [← hks, kernels_getD _ _ _ _ _ _ _ hk]
    simp [kernel]
  · rw [← hks, kernels_getD _ _ _ _ _ _ _ hk]
    generalize kernelLength q (highest a4 o1) bins (fs / D) (gamma / fs * (fs / D : ℕ)) k = L
    have hL : (kernel lib.window (kernelFrequency (highest a4 o1) bins k) (fs / D) L).length = L := by simp [kernel]
    rw [hL]
    intro m hm
    have hkf : kernelFrequency (highest a4 o1) bins k = toneBelow a4 o1 bins k := by
      unfold kernelFrequency highest toneBelow
      rw [mul_assoc, ← Real.rpow_add two_pos]
      congr 2
      ring
    unfold kernel
    rw [LFilter.getD_map_range, if_pos hm, hkf]
    congr 2
    have hz : ((-(L : ℤ)) / 2 + m : ℤ) = (m : ℤ) - ((L + 1) / 2 : ℕ) := by omega
    rw [hz]
    generalize (L + 1) / 2 = c
    push_cast
    ring
  · intro n hn
    unfold fit
    rw [LFilter.getD_map_range, if_pos hn]

/-- The frequency to which the row really responds, in Hz: `toneBelow` of the row at the rate `fs / dec` of the octave, where
the code takes the rate to be `fs // dec`.  Both agree exactly if the decimation divides the sampling rate; otherwise the row
is tuned above its frequency. -/
theorem C144_tuning_wrong (fs dec : ℕ) (a4 : ℝ) (o1 : ℤ) (bins oc k : ℕ) (ha : 0 < a4) (hb : 0 < bins) (hd : 0 < dec)
    (hfs : dec ≤ fs) :
    (toneBelow a4 o1 bins k / (fs / dec : ℕ) * ((fs : ℝ) / (dec * 2 ^ oc)) = toneBelow a4 o1 bins (oc * bins + k) ↔ dec ∣ fs) ∧
    toneBelow a4 o1 bins (oc * bins + k) ≤ toneBelow a4 o1 bins k / (fs / dec : ℕ) * ((fs : ℝ) / (dec * 2 ^ oc)) := by
  have hm : 0 < fs / dec := Nat.div_pos hfs hd
  have hm' : (0 : ℝ) < (fs / dec : ℕ) := by exact_mod_cast hm
  have hd' : (0 : ℝ) < dec := by exact_mod_cast hd
  have hb' : (bins : ℝ) ≠ 0 := by positivity
  have ht : toneBelow a4 o1 bins k / 2 ^ oc = toneBelow a4 o1 bins (oc * bins + k) := by
    unfold toneBelow
    rw [← Real.rpow_natCast, mul_div_assoc, ← Real.rpow_sub two_pos]
    congr 2
    push_cast
    field_simp
    ring
  have hpos : 0 < toneBelow a4 o1 bins (oc * bins + k) := by
    unfold toneBelow
    positivity
  have he : toneBelow a4 o1 bins k / (fs / dec : ℕ) * ((fs : ℝ) / (dec * 2 ^ oc)) =
      toneBelow a4 o1 bins (oc * bins + k) * (fs / (((fs / dec : ℕ) : ℝ) * dec)) := by
    rw [← ht]
    field_simp
  have hle : ((fs / dec : ℕ) : ℝ) * dec ≤ fs := by exact_mod_cast Nat.div_mul_le_self fs dec
  rw [he]
  constructor
  · constructor
    · intro h
      have h1 : (fs : ℝ) / (((fs / dec : ℕ) : ℝ) * dec) = 1 := by
        have := mul_left_cancel₀ hpos.ne' (h.trans (mul_one _).symm)
        exact this
      rw [div_eq_one_iff_eq (by positivity)] at h1
      have h2 : fs = fs / dec * dec := by exact_mod_cast h1
      exact ⟨fs / dec, by rw [mul_comm]; exact h2⟩
    · intro h
      have h2 : fs / dec * dec = fs := Nat.div_mul_cancel h
      have h3 : ((fs / dec : ℕ) : ℝ) * dec = fs := by exact_mod_cast h2
      rw [h3, div_self (by rw [← h3]; positivity), mul_one]
  · refine le_mul_of_one_le_right hpos.le ?_
    rw [one_le_div (by positivity)]
    exact hle

/-- What the transform gives for a tone on the frequency of a row: if the decimated signals are the cosine and the sine with
the frequency of the kernel, the window and the signals are long enough and the interpolation keeps the samples, then the two
rows together are a complex exponential of magnitude one, one sample of the octave late. -/
theorem C144_tone_partial (lib : Library) (rnd : ℚ → ℚ) (xc xs : List ℝ) (hx : xs.length = xc.length) (fs channels : ℕ)
    (q gamma : ℝ) (o0 o1 : ℤ) (bins : ℕ) (a4 : ℝ) (ha : 0 < a4)
    (hr : 1.1 * toneBelow a4 o1 bins 0 ≤ ((fs / 2 : ℕ) : ℝ))
    (hw : ∀ L, (lib.window L).length = L ∧ (0 < L → (lib.window L).sum ≠ 0))
    (hup : ∀ u y n, 0 < u → n < y.length → (lib.up u y).getD (n * u) 0 = y.getD n 0 ∧ n * u < (lib.up u y).length) :
    ∃ dec fc rc fS rs, 0 < dec ∧
      vqt lib rnd xc fs channels channels q gamma o0 o1 bins a4 = .ok (fc, rc) ∧
      vqt lib rnd xs fs channels channels q gamma o0 o1 bins a4 = .ok (fS, rs) ∧
      ∀ oc < (o1 - o0 + 1).toNat, ∀ k < bins, ∀ T,
        (lib.at dec xc oc).length = T → (lib.at dec xs oc).length = T →
        (∀ n < T, (lib.at dec xc oc).getD n 0 = Real.cos (2 * Real.pi * toneBelow a4 o1 bins k / (fs / dec : ℕ) * n)) →
        (∀ n < T, (lib.at dec xs oc).getD n 0 = Real.sin (2 * Real.pi * toneBelow a4 o1 bins k / (fs / dec : ℕ) * n)) →
        ∀ L, L = kernelLength q (highest a4 o1) bins (fs / dec) (gamma / fs * (fs / dec : ℕ)) k → 0 < L →
        ∀ n, L ≤ n + 1 + (L - 1) / 2 → n + (L - 1) / 2 < T → n * (2 ^ oc * dec) < xc.length →
          (rc.getD ((o1 - o0 + 1).toNat * bins - 1 - (oc * bins + k)) []).getD (n * (2 ^ oc * dec)) 0 +
            Complex.I * (rs.getD ((o1 - o0 + 1).toNat * bins - 1 - (oc * bins + k)) []).getD (n * (2 ^ oc * dec)) 0 =
          Complex.exp ((2 * Real.pi * toneBelow a4 o1 bins k / (fs / dec : ℕ) * (n - 1) : ℝ) * Complex.I) := by
  obtain ⟨dec, fc, rc, hdec, h1, h2, hrc, -, Hc⟩ := C144_rows lib rnd xc fs channels q gamma o0 o1 bins a4 ha hr
  obtain ⟨dec', fS, rs, -, h1', h2', hrs, -, Hs⟩ := C144_rows lib rnd xs fs channels q gamma o0 o1 bins a4 ha hr
  have hdd : dec' = dec := by
    have e1 : (dec' : ℝ) < dec + 1 := lt_of_le_of_lt h1' h2
    have e2 : (dec : ℝ) < dec' + 1 := lt_of_le_of_lt h1 h2'
    have e1 : dec' < dec + 1 := by exact_mod_cast e1
    have e2 : dec < dec' + 1 := by exact_mod_cast e2
    omega
  subst hdd
  refine ⟨dec', fc, rc, fS, rs, hdec, hrc, hrs, ?_⟩
  intro oc hoc k hk T hTc hTs hcos hsin L hL hL0 n hn1 hn2 hn3
  obtain ⟨-, kc, hkc, hvc, Hc⟩ := Hc oc hoc k hk
  obtain ⟨-, ks, hks, hvs, Hs⟩ := Hs oc hoc k hk
  rw [← hL] at hkc hks
  rw [hkc] at hvc
  rw [hks] at hvs
  rw [Hc _ hn3, Hs _ (by rw [hx]; exact hn3)]
  have hback : ∀ y : List ℂ, n < y.length → (lib.back dec' oc y).getD (n * (2 ^ oc * dec')) 0 = y.getD n 0 := by
    intro y hy
    unfold Library.back
    by_cases h0 : oc = 0
    · rw [if_pos h0, h0, pow_zero, one_mul]
      exact (hup _ _ _ hdec hy).1
    · rw [if_neg h0, ← mul_assoc]
      obtain ⟨a, b⟩ := hup (2 ^ oc) y n (by positivity) hy
      rw [(hup _ _ _ hdec b).1, a]
  have hcl : ∀ (y : List ℝ) (w : List ℂ), (convSame y w).length = y.length := by
    intro y w
    unfold convSame
    simp
  rw [hback _ (by rw [hcl, hTc]; omega), hback _ (by rw [hcl, hTs]; omega), convSame_getD _ _ _ (by omega),
    convSame_getD _ _ _ (by omega), hkc, hks, Finset.mul_sum, ← Finset.sum_add_distrib]
  have hsum : ∑ j ∈ range L, (lib.window L).getD j 0 = (lib.window L).sum := by
    have : ∀ l : List ℝ, ∑ j ∈ range l.length, l.getD j 0 = l.sum := by
      intro l
      induction l with
      | nil => simp
      | cons a l ih =>
        rw [List.length_cons, Finset.sum_range_succ', List.sum_cons]
        simp only [List.getD_cons_succ, List.getD_cons_zero]
        rw [ih, add_comm]
    have h := this (lib.window L)
    rw [(hw L).1] at h
    exact h
  generalize hω : 2 * Real.pi * toneBelow a4 o1 bins k / ((fs / dec' : ℕ) : ℝ) = ω at hvc hvs hcos hsin ⊢
  have hterm : ∀ j ∈ range L, kc.getD j 0 * ((at0 (lib.at dec' xc oc) ((n : ℤ) + ((L - 1) / 2 : ℕ) - j) : ℝ) : ℂ) +
      Complex.I * (ks.getD j 0 * ((at0 (lib.at dec' xs oc) ((n : ℤ) + ((L - 1) / 2 : ℕ) - j) : ℝ) : ℂ)) =
      (((lib.window L).getD j 0 / (lib.window L).sum : ℝ) : ℂ) * Complex.exp ((ω * (n - 1) : ℝ) * Complex.I) := by
    intro j hj
    have hj := Finset.mem_range.1 hj
    obtain ⟨p, hp⟩ : ∃ p : ℕ, (n : ℤ) + ((L - 1) / 2 : ℕ) - j = p := ⟨n + (L - 1) / 2 - j, by omega⟩
    have hpT : p < T := by omega
    rw [hp]
    have hat : ∀ y : List ℝ, at0 y (p : ℤ) = y.getD p 0 := by
      intro y
      unfold at0
      simp
    rw [hat, hat, hcos _ hpT, hsin _ hpT, hvc j hj, hvs j hj]
    generalize (((lib.window L).getD j 0 / (lib.window L).sum : ℝ) : ℂ) = w
    have he : Complex.exp ((ω * p : ℝ) * Complex.I) = (Real.cos (ω * p) : ℂ) + Complex.I * (Real.sin (ω * p) : ℂ) := by
      rw [Complex.exp_mul_I, Complex.ofReal_cos, Complex.ofReal_sin]
      ring
    have hs : (ω * (n - 1) : ℝ) = ω * (j - ((L + 1) / 2 : ℕ)) + ω * p := by
      have e1 : ((n : ℤ) - 1 : ℤ) = (j : ℤ) - ((L + 1) / 2 : ℕ) + p := by omega
      have e2 : ((n : ℝ) - 1) = j - ((L + 1) / 2 : ℕ) + p := by exact_mod_cast e1
      rw [e2]
      ring
    rw [hs, Complex.ofReal_add, add_mul, Complex.exp_add, he]
    ring
  rw [Finset.sum_congr rfl hterm, ← Finset.sum_mul, ← Complex.ofReal_sum, ← Finset.sum_div, hsum, div_self ((hw L).2 hL0),
    Complex.ofReal_one, one_mul]

/-- The bandwidth.  The duration of a kernel (in seconds, at the rate the code assumes for the octave) is the quality divided by the
distance of neighbouring tones plus an offset, up to half a sample.  The offset is not `gamma` Hz as documented, but `gamma`
divided by the decimation and halved with every octave. -/
theorem C144_bandwidth_wrong (q gamma a4 : ℝ) (hq : 0 ≤ q) (hg : 0 ≤ gamma) (ha : 0 < a4) (o1 : ℤ) (bins fs dec oc k : ℕ)
    (hb : 0 < bins) (hd : 0 < dec) (hfs : dec ≤ fs) :
    ∃ offset : ℝ, offset ≤ gamma / (dec * 2 ^ oc) ∧ (dec ∣ fs → offset = gamma / (dec * 2 ^ oc)) ∧
      |(kernelLength q (highest a4 o1) bins (fs / dec) (gamma / fs * (fs / dec : ℕ)) k : ℝ) / ((fs / dec : ℕ) / 2 ^ oc) -
        q / (toneBelow a4 o1 bins (oc * bins + k) * (2 ^ (1 / (bins : ℝ)) - 1) + offset)| ≤
      1 / 2 / ((fs / dec : ℕ) / 2 ^ oc) := by
  have hm : 0 < fs / dec := Nat.div_pos hfs hd
  have hm' : (0 : ℝ) < (fs / dec : ℕ) := by exact_mod_cast hm
  have hd' : (0 : ℝ) < dec := by exact_mod_cast hd
  have hfs' : (0 : ℝ) < fs := by exact_mod_cast lt_of_lt_of_le hd hfs
  have hb' : (bins : ℝ) ≠ 0 := by positivity
  have hkf : kernelFrequency (highest a4 o1) bins k = toneBelow a4 o1 bins (oc * bins + k) * 2 ^ oc := by
    unfold kernelFrequency highest toneBelow
    rw [mul_assoc, ← Real.rpow_add two_pos, mul_assoc, ← Real.rpow_natCast, ← Real.rpow_add two_pos]
    congr 2
    push_cast
    field_simp
    ring
  refine ⟨gamma / fs * (fs / dec : ℕ) / 2 ^ oc, ?_, ?_, ?_⟩
  · have hle : ((fs / dec : ℕ) : ℝ) ≤ fs / dec := Nat.cast_div_le
    calc gamma / fs * (fs / dec : ℕ) / 2 ^ oc ≤ gamma / fs * (fs / dec) / 2 ^ oc := by gcongr
      _ = gamma / (dec * 2 ^ oc) := by field_simp
  · intro h
    rw [Nat.cast_div h hd'.ne']
    field_simp
  generalize toneBelow a4 o1 bins (oc * bins + k) = F at hkf ⊢
  have hF : 0 ≤ F := by
    have h1 : 0 ≤ kernelFrequency (highest a4 o1) bins k := by
      have := highest_pos a4 ha o1
      unfold kernelFrequency
      positivity
    rw [hkf] at h1
    exact nonneg_of_mul_nonneg_left h1 (by positivity)
  have hfac : (0 : ℝ) ≤ 2 ^ (1 / (bins : ℝ)) - 1 := by
    have : (1 : ℝ) ≤ 2 ^ (1 / (bins : ℝ)) := Real.one_le_rpow (by norm_num) (by positivity)
    linarith
  unfold kernelLength
  rw [hkf]
  generalize (2 : ℝ) ^ (1 / (bins : ℝ)) - 1 = u at hfac ⊢
  generalize hgm : gamma / fs * ((fs / dec : ℕ) : ℝ) = g
  have hg0 : 0 ≤ g := by
    rw [← hgm]
    positivity
  generalize ((fs / dec : ℕ) : ℝ) = M at hm' ⊢
  have hB : F * 2 ^ oc * u + g = 2 ^ oc * (F * u + g / 2 ^ oc) := by
    field_simp
  have hB0 : 0 ≤ F * u + g / 2 ^ oc := by positivity
  rw [hB]
  generalize F * u + g / 2 ^ oc = B at hB0 ⊢
  have hv : q / B = q * M / (2 ^ oc * B) / (M / 2 ^ oc) := by
    rcases eq_or_ne B 0 with h0 | h0
    · simp [h0]
    · field_simp
  have hv0 : 0 ≤ q * M / (2 ^ oc * B) := by positivity
  rw [hv]
  generalize q * M / (2 ^ oc * B) = v at hv0 ⊢
  have hn := abs_le.1 (Fdw.roundEven_near v)
  have hr0 : 0 ≤ OctaveBands.roundEven v := by
    have : (-1 : ℝ) < OctaveBands.roundEven v := by linarith [hn.1]
    have : -1 < OctaveBands.roundEven v := by exact_mod_cast this
    omega
  have hc : ((OctaveBands.roundEven v).toNat : ℝ) = OctaveBands.roundEven v := by
    exact_mod_cast Int.toNat_of_nonneg hr0
  rw [hc, ← sub_div, abs_div, abs_of_pos (show 0 < M / 2 ^ oc by positivity)]
  exact div_le_div_of_nonneg_right (abs_le.2 hn) (by positivity)

/-- In exact arithmetic the frequency vector ends before the highest B. -/
theorem axisCount_exact (o0 o1 : ℤ) : axisCount id o0 o1 = (12 * (o1 - o0) + 11).toNat := by
  unfold axisCount
  simp only [id]
  congr 1
  rw [show ((o1 - 4 : ℚ) + 2 / 12 - ((o0 - 4 : ℚ) - 9 / 12)) / (1 / 12) = ((12 * (o1 - o0) + 11 : ℤ) : ℚ) by
    push_cast; ring]
  exact Int.ceil_intCast _

/-- The frequency vector with twelve bins per octave: its entries are the frequencies of the rows in their order, whatever the
rounding of the number of entries. -/
theorem C144_axis_partial (lib : Library) (rnd : ℚ → ℚ) (x : List ℝ) (fs channels : ℕ) (q gamma : ℝ) (o0 o1 : ℤ) (ho : o0 ≤ o1)
    (bins : ℕ) (a4 : ℝ) (f : List ℝ) (rows : List (List ℂ))
    (h : vqt lib rnd x fs channels channels q gamma o0 o1 bins a4 = .ok (f, rows)) :
    f.length = axisCount rnd o0 o1 ∧
    ∀ j < f.length, j < (o1 - o0 + 1).toNat * 12 → f.getD j 0 = toneBelow a4 o1 12 ((o1 - o0 + 1).toNat * 12 - 1 - j) := by
  have hf : f = axis rnd a4 o0 o1 := by
    unfold vqt at h
    dsimp only at h
    split_ifs at h
    simp_all
  have hl : f.length = axisCount rnd o0 o1 := by
    rw [hf]
    simp [axis]
  refine ⟨hl, fun j hj hj' => ?_⟩
  rw [hf]
  unfold axis toneBelow
  rw [LFilter.getD_map_range, if_pos (by omega)]
  congr 2
  have e : (((o1 - o0 + 1).toNat * 12 - 1 - j : ℕ) : ℤ) = (o1 - o0 + 1) * 12 - 1 - j := by omega
  have e2 : (((o1 - o0 + 1).toNat * 12 - 1 - j : ℕ) : ℝ) = (o1 - o0 + 1) * 12 - 1 - j := by exact_mod_cast e
  rw [e2]
  push_cast
  ring

/-- The frequency vector does not fit to the rows: in exact arithmetic it is one entry short for twelve bins per octave, with
binary64 rounding it is complete for the default octaves [1, 5] and one short for [1, 4]. -/
theorem C144_axis_short_wrong (lib : Library) (x : List ℝ) (fs channels : ℕ) (q gamma : ℝ) (o0 o1 : ℤ) (ho : o0 ≤ o1) (a4 : ℝ) :
    (∀ f rows, vqt lib id x fs channels channels q gamma o0 o1 12 a4 = .ok (f, rows) → f.length + 1 = rows.length) ∧
    (∀ f rows, vqt lib Double.rnd x fs channels channels q gamma 1 5 12 a4 = .ok (f, rows) → f.length = 60 ∧ rows.length = 60) ∧
    (∀ f rows, vqt lib Double.rnd x fs channels channels q gamma 1 4 12 a4 = .ok (f, rows) → f.length = 47 ∧ rows.length = 48) := by
  have hrows : ∀ rnd (o0 o1 : ℤ) bins f rows, vqt lib rnd x fs channels channels q gamma o0 o1 bins a4 = .ok (f, rows) →
      rows.length = (o1 - o0 + 1).toNat * bins := by
    intro rnd o0 o1 bins f rows h
    unfold vqt at h
    dsimp only at h
    split_ifs at h
    simp only [Except.ok.injEq, Prod.mk.injEq] at h
    rw [← h.2, List.length_reverse, octaves_length, kernels_length]
  refine ⟨?_, ?_, ?_⟩
  · intro f rows h
    rw [hrows _ _ _ _ _ _ h, (C144_axis_partial lib id x fs channels q gamma o0 o1 ho 12 a4 f rows h).1, axisCount_exact]
    omega
  · intro f rows h
    rw [hrows _ _ _ _ _ _ h, (C144_axis_partial lib _ x fs channels q gamma 1 5 (by norm_num) 12 a4 f rows h).1]
    exact ⟨by decide +kernel, by decide⟩
  · intro f rows h
    rw [hrows _ _ _ _ _ _ h, (C144_axis_partial lib _ x fs channels q gamma 1 4 (by norm_num) 12 a4 f rows h).1]
    exact ⟨by decide +kernel, by decide⟩

/-- With another number of bins (the default is 24) the frequency vector is that of twelve bins: entry `j ≥ 1` is not the
frequency of row `j`. -/
theorem C144_bins_wrong (lib : Library) (rnd : ℚ → ℚ) (x : List ℝ) (fs channels : ℕ) (q gamma : ℝ) (o0 o1 : ℤ) (ho : o0 ≤ o1)
    (bins : ℕ) (hb : bins ≠ 12) (hb0 : 0 < bins) (a4 : ℝ) (ha : 0 < a4) (f : List ℝ) (rows : List (List ℂ))
    (h : vqt lib rnd x fs channels channels q gamma o0 o1 bins a4 = .ok (f, rows)) :
    ∀ j j', j < j' → j' < f.length → j' < rows.length → j' < (o1 - o0 + 1).toNat * 12 →
      ¬ (f.getD j 0 = toneBelow a4 o1 bins (rows.length - 1 - j) ∧ f.getD j' 0 = toneBelow a4 o1 bins (rows.length - 1 - j')) := by
  intro j j' hjj hj hr h12 ⟨e1, e2⟩
  obtain ⟨-, hv⟩ := C144_axis_partial lib rnd x fs channels q gamma o0 o1 ho bins a4 f rows h
  have hinj : ∀ (b d b' d' : ℕ), toneBelow a4 o1 b d = toneBelow a4 o1 b' d' → (d : ℝ) / b = (d' : ℝ) / b' := by
    intro b d b' d' he
    unfold toneBelow at he
    have he := mul_left_cancel₀ ha.ne' he
    have := (Real.rpow_right_inj two_pos (by norm_num)).1 he
    linarith
  rw [hv j (by omega) (by omega)] at e1
  rw [hv j' (by omega) (by omega)] at e2
  have i1 := hinj _ _ _ _ e1
  have i2 := hinj _ _ _ _ e2
  have c1 : (((o1 - o0 + 1).toNat * 12 - 1 - j : ℕ) : ℝ) - ((o1 - o0 + 1).toNat * 12 - 1 - j' : ℕ) = (j' : ℝ) - j := by
    have : (((o1 - o0 + 1).toNat * 12 - 1 - j : ℕ) : ℤ) - ((o1 - o0 + 1).toNat * 12 - 1 - j' : ℕ) = (j' : ℤ) - j := by omega
    exact_mod_cast this
  have c2 : ((rows.length - 1 - j : ℕ) : ℝ) - (rows.length - 1 - j' : ℕ) = (j' : ℝ) - j := by
    have : ((rows.length - 1 - j : ℕ) : ℤ) - (rows.length - 1 - j' : ℕ) = (j' : ℤ) - j := by omega
    exact_mod_cast this
  have hb' : (bins : ℝ) ≠ 0 := by positivity
  have hd : ((j' : ℝ) - j) / 12 = ((j' : ℝ) - j) / bins := by
    rw [← c1]
    nth_rw 1 [sub_div]
    rw [c1, ← c2, sub_div]
    push_cast at i1 i2
    rw [← i1, ← i2]
  have hne : (j' : ℝ) - j ≠ 0 := by
    have : (j : ℝ) < j' := by exact_mod_cast hjj
    linarith
  rw [div_eq_div_iff (by norm_num) hb'] at hd
  have := mul_left_cancel₀ hne hd
  exact hb (by exact_mod_cast this)

/-- A library and a signal which meet the hypotheses: every `d`-th sample, repetition of samples, the rectangular window. -/
noncomputable def sampleLibrary : Library where
  down d x := (List.range (x.length / d)).map fun (n : ℕ) => x.getD (n * d) 0
  up u y := (List.range (y.length * u)).map fun (n : ℕ) => y.getD (n / u) 0
  window L := List.replicate L 1

example : (∀ L, (sampleLibrary.window L).length = L ∧ (0 < L → (sampleLibrary.window L).sum ≠ 0)) ∧
    (∀ u y n, 0 < u → n < y.length → (sampleLibrary.up u y).getD (n * u) 0 = y.getD n 0 ∧
      n * u < (sampleLibrary.up u y).length) := by
  refine ⟨fun L => ⟨by simp [sampleLibrary], fun h => by simp [sampleLibrary]; omega⟩, fun u y n hu hn => ?_⟩
  have : n * u < y.length * u := Nat.mul_lt_mul_of_pos_right hn hu
  refine ⟨?_, by simpa [sampleLibrary] using this⟩
  unfold sampleLibrary
  dsimp only
  rw [LFilter.getD_map_range, if_pos this, Nat.mul_div_cancel _ hu]

/-- A sampling rate for which the default octaves can be analysed, and one for which they cannot. -/
example : 1.1 * toneBelow 440 5 24 0 ≤ ((44100 / 2 : ℕ) : ℝ) ∧ ((1000 / 2 : ℕ) : ℝ) < 1.1 * toneBelow 440 5 24 0 := by
  unfold toneBelow
  have h1 : (2 : ℝ) ^ ((1 : ℝ)) ≤ 2 ^ (((5 : ℤ) : ℝ) - 4 + 2 / 12 - ((0 : ℕ) : ℝ) / (24 : ℕ)) :=
    Real.rpow_le_rpow_of_exponent_le (by norm_num) (by norm_num)
  have h2 : (2 : ℝ) ^ (((5 : ℤ) : ℝ) - 4 + 2 / 12 - ((0 : ℕ) : ℝ) / (24 : ℕ)) ≤ 2 ^ (2 : ℝ) :=
    Real.rpow_le_rpow_of_exponent_le (by norm_num) (by norm_num)
  rw [Real.rpow_one] at h1
  rw [show (2 : ℝ) ^ (2 : ℝ) = 4 by norm_num] at h2
  constructor
  · norm_num at h2 ⊢
    linarith
  · norm_num at h1 ⊢
    linarith

/-- The default bandwidth offset of 50 Hz at 44.1 kHz, where the decimation is 20: 2.5 Hz in the highest octave. -/
example : (0 : ℝ) ≤ 50 ∧ 20 ∣ 44100 ∧ (50 : ℝ) / (20 * 2 ^ 0) = 2.5 := by norm_num

/-- 48 kHz with the decimation 22 of the default octaves: the rows are tuned too high. -/
example : (0 : ℝ) < 440 ∧ 0 < 24 ∧ 0 < 22 ∧ 22 ≤ 48000 ∧ ¬ 22 ∣ 48000 := by norm_num

end Verif.Vqt
