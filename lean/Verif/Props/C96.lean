import Verif.Model.Complementary
import Verif.Spec.Convolution
import Verif.Lemmas.LFilter
import Verif.Props.C45
import Verif.Props.C77
import Mathlib.Analysis.SpecialFunctions.Complex.Circle
import Mathlib.Tactic.Linarith

/-!
# C96: an FIR filter and its complement add up to a delay (odd lengths)
-/

namespace Verif.Complementary

open Finset

/-- `∑ b[n] exp (-i ω n)` -/
noncomputable def response (b : List ℝ) (omega : ℝ) : ℂ :=
  ∑ n ∈ range b.length, (b.getD n 0 : ℂ) * Complex.exp (-(omega * n * Complex.I))

/-- Taps that read the same from both ends (linear phase). -/
def Symmetric (b : List ℝ) : Prop := ∀ n < b.length, b.getD n 0 = b.getD (b.length - 1 - n) 0

/-- **C96**, refusal of recursive prototypes. -/
theorem C96_refused (b : List ℝ) : complementary true b = .error .assertionError := rfl

theorem argmax_ok (b : List ℝ) (hb : b ≠ []) :
    ∃ i, Latency.argmaxAbs b = .ok i ∧ i < b.length ∧ ∀ n < b.length, |b.getD n 0| ≤ |b.getD i 0| := by
  obtain ⟨k, hk, hf⟩ := Helpers.argmin_spec (b.map fun a => -|a|) (by
    intro h0
    rw [List.map_eq_nil_iff] at h0
    exact hb h0)
  have hlt : k < b.length := by
    have := hf.1
    simpa using this
  refine ⟨k, hk, hlt, fun n hn => ?_⟩
  have hmap : ∀ j < b.length, (b.map fun a => -|a|).getD j 0 = -|b.getD j 0| := by
    intro j hj
    rw [List.getD_eq_getElem _ _ (by simpa using hj), List.getElem_map, List.getD_eq_getElem _ _ hj]
  have := hf.2.1 n (by simpa using hn)
  rw [hmap k hlt, hmap n hn] at this
  linarith

theorem odd_ok (b : List ℝ) (hodd : b.length % 2 = 1) :
    ∃ b' i, complementary false b = .ok b' ∧ Latency.argmaxAbs b = .ok i ∧ i < b.length ∧
      (∀ n < b.length, |b.getD n 0| ≤ |b.getD i 0|) ∧ b'.length = b.length ∧
      ∀ n, b'.getD n 0 = if n < b.length then (if n = i then 1 else 0) - b.getD n 0 else 0 := by
  obtain ⟨i, h1, h2, h3⟩ := argmax_ok b (by rintro rfl; simp at hodd)
  refine ⟨(List.range b.length).map fun n => -1 * b.getD n 0 + if n = i then 1 else 0, i, ?_, h1, h2,
    h3, ?_, ?_⟩
  · unfold complementary
    rw [if_neg (by simp), if_pos hodd, h1]
    rfl
  · simp
  · intro n
    rw [LFilter.getD_map_range]
    split_ifs <;> ring

/-- **C96**, odd lengths: whatever the taps, the outputs of both filters add up to the input delayed
by the position of the largest tap. -/
theorem C96_odd (b : List ℝ) (hodd : b.length % 2 = 1) :
    ∃ b' i, complementary false b = .ok b' ∧ b'.length = b.length ∧ i < b.length ∧
      (∀ n < b.length, |b.getD n 0| ≤ |b.getD i 0|) ∧
      ∀ (x : List ℝ) (k : ℤ), convAt b x k + convAt b' x k =
        if (i : ℤ) ≤ k then x.getD (k - i).toNat 0 else 0 := by
  obtain ⟨b', i, h1, -, h2, h3, h4, h5⟩ := odd_ok b hodd
  refine ⟨b', i, h1, h4, h2, h3, fun x k => ?_⟩
  unfold convAt
  rw [h4, ← sum_add_distrib, sum_eq_single i]
  · rw [h5 i, if_pos h2, if_pos rfl]
    split_ifs <;> ring
  · intro m hm hne
    rw [h5 m, if_pos (mem_range.mp hm), if_neg hne]
    split_ifs <;> ring
  · intro h
    exact absurd (mem_range.mpr h2) h

/-- A symmetric filter has linear phase. -/
theorem symmetric_phase (b : List ℝ) (hs : Symmetric b) (hb : b ≠ []) (omega : ℝ) :
    (response b omega * Complex.exp (omega * ((b.length - 1 : ℕ) / 2 : ℝ) * Complex.I)).im = 0 := by
  have hl : 0 < b.length := List.length_pos_iff.mpr hb
  rw [← Complex.conj_eq_iff_im]
  unfold response
  rw [sum_mul, map_sum, ← sum_range_reflect]
  refine sum_congr rfl fun n hn => ?_
  have hn' := mem_range.mp hn
  rw [map_mul, map_mul, Complex.conj_ofReal, ← hs n hn', ← Complex.exp_conj, ← Complex.exp_conj,
    mul_assoc (b.getD n 0 : ℂ), mul_assoc (b.getD n 0 : ℂ), ← Complex.exp_add, ← Complex.exp_add]
  congr 2
  have e : ((b.length - 1 - n : ℕ) : ℂ) = ((b.length - 1 : ℕ) : ℂ) - n := by
    rw [Nat.cast_sub (by omega)]
  simp only [map_neg, map_mul, Complex.conj_ofReal, Complex.conj_I, e, map_sub,
    Complex.conj_natCast]
  push_cast
  ring

/-- **C96**, linear phase: if the taps are symmetric about their largest tap then the complement is
symmetric as well, and the (signed) amplitudes of both add up to one at every frequency. -/
theorem C96_center (b : List ℝ) (M : ℕ) (hlen : b.length = 2 * M + 1) (hs : Symmetric b)
    (hpeak : ∀ n < b.length, n ≠ M → |b.getD n 0| < |b.getD M 0|) :
    ∃ b', complementary false b = .ok b' ∧ Symmetric b' ∧ ∃ A : ℝ → ℝ, ∀ omega : ℝ,
      response b omega = A omega * Complex.exp (-(omega * M * Complex.I)) ∧
      response b' omega = (1 - A omega) * Complex.exp (-(omega * M * Complex.I)) := by
  obtain ⟨b', i, h1, -, h2, h3, h4, h5⟩ := odd_ok b (by omega)
  have hi : i = M := by
    by_contra hne
    have := hpeak i h2 hne
    have := h3 M (by omega)
    linarith
  subst hi
  refine ⟨b', h1, ?_, fun omega => (response b omega * Complex.exp (omega * i * Complex.I)).re,
    fun omega => ?_⟩
  · intro n hn
    rw [h4] at hn ⊢
    have hr : b.length - 1 - n < b.length := by omega
    rw [h5 n, h5 (b.length - 1 - n), if_pos hn, if_pos hr, ← hs n hn]
    by_cases h : n = i
    · have h' : b.length - 1 - n = i := by omega
      rw [if_pos h, if_pos h']
    · have h' : ¬ b.length - 1 - n = i := by omega
      rw [if_neg h, if_neg h']
  · have hb : b ≠ [] := by
      intro h0
      rw [h0] at hlen
      simp at hlen
    have him := symmetric_phase b hs hb omega
    have ei : (((b.length - 1 : ℕ) / 2 : ℝ) : ℂ) = i := by
      rw [hlen]
      push_cast
      ring
    rw [ei] at him
    have hreal : (((response b omega * Complex.exp (omega * i * Complex.I)).re : ℝ) : ℂ) =
        response b omega * Complex.exp (omega * i * Complex.I) := Complex.ext (by simp) (by simp [him])
    have hee : Complex.exp (omega * i * Complex.I) * Complex.exp (-(omega * i * Complex.I)) = 1 := by
      rw [← Complex.exp_add]
      simp
    have hr : response b omega = (((response b omega * Complex.exp (omega * i * Complex.I)).re : ℝ) : ℂ) *
        Complex.exp (-(omega * i * Complex.I)) := by
      rw [hreal, mul_assoc, hee, mul_one]
    refine ⟨hr, ?_⟩
    have hsum : response b omega + response b' omega = Complex.exp (-(omega * i * Complex.I)) := by
      unfold response
      rw [h4, ← sum_add_distrib, sum_eq_single i]
      · rw [h5 i, if_pos h2, if_pos rfl]
        push_cast
        ring
      · intro m hm hne
        rw [h5 m, if_pos (mem_range.mp hm), if_neg hne]
        push_cast
        ring
      · intro h
        exact absurd (mem_range.mpr h2) h
    rw [sub_mul, ← hr, one_mul]
    linear_combination hsum

/-- **C96**, disagreement: symmetric taps whose largest tap is not in the middle give a complement
without linear phase, and the magnitudes do not add up to one. -/
theorem C96_off_center :
    Symmetric [1 / 2, 0, 1 / 2] ∧ complementary false [1 / 2, 0, 1 / 2] = .ok [1 / 2, 0, -1 / 2] ∧
    ¬ Symmetric [1 / 2, 0, -1 / 2] ∧
    ‖response [1 / 2, 0, 1 / 2] (Real.pi / 4)‖ + ‖response [1 / 2, 0, -1 / 2] (Real.pi / 4)‖ =
      Real.sqrt 2 := by
  have e2 : Complex.exp (-(((Real.pi / 4 : ℝ) : ℂ) * ((2 : ℕ) : ℂ) * Complex.I)) = -Complex.I := by
    rw [show -(((Real.pi / 4 : ℝ) : ℂ) * ((2 : ℕ) : ℂ) * Complex.I) =
      -((Real.pi / 2 : ℝ) : ℂ) * Complex.I by push_cast; ring, Complex.exp_mul_I, Complex.cos_neg,
      Complex.sin_neg, ← Complex.ofReal_cos, ← Complex.ofReal_sin]
    simp
  have r1 : response [1 / 2, 0, 1 / 2] (Real.pi / 4) = ⟨1 / 2, -1 / 2⟩ := by
    unfold response
    simp only [List.length_cons, List.length_nil, sum_range_succ, sum_range_zero, e2]
    apply Complex.ext
    · simp
    · simp
      norm_num
  have r2 : response [1 / 2, 0, -1 / 2] (Real.pi / 4) = ⟨1 / 2, 1 / 2⟩ := by
    unfold response
    simp only [List.length_cons, List.length_nil, sum_range_succ, sum_range_zero, e2]
    apply Complex.ext
    · simp
    · simp
      norm_num
  have hs2 : Real.sqrt (1 / 2) + Real.sqrt (1 / 2) = Real.sqrt 2 := by
    have h1 : Real.sqrt 2 = Real.sqrt (4 * (1 / 2)) := by norm_num
    rw [h1, Real.sqrt_mul (by norm_num), show (4 : ℝ) = 2 ^ 2 by norm_num,
      Real.sqrt_sq (by norm_num)]
    ring
  refine ⟨?_, ?_, ?_, ?_⟩
  · intro n hn
    simp at hn
    obtain rfl | rfl | rfl : n = 0 ∨ n = 1 ∨ n = 2 := by omega
    all_goals simp
  · have ha : Latency.argmaxAbs [(1 / 2 : ℝ), 0, 1 / 2] = .ok 0 := by
      obtain ⟨i, h1, h2, h3⟩ := argmax_ok [(1 / 2 : ℝ), 0, 1 / 2] (by simp)
      have hf := Helpers.argmin_spec ([(1 / 2 : ℝ), 0, 1 / 2].map fun a => -|a|) (by simp)
      obtain ⟨k, hk, hf⟩ := hf
      have : k = i := by
        unfold Latency.argmaxAbs at h1
        rw [hk] at h1
        cases h1
        rfl
      subst this
      rw [h1]
      congr 1
      simp at h2
      obtain rfl | rfl | rfl : k = 0 ∨ k = 1 ∨ k = 2 := by omega
      · rfl
      · have := h3 0 (by simp)
        simp at this
        norm_num at this
      · have := hf.2.2 0 (by norm_num)
        simp at this
    unfold complementary
    rw [if_neg (by simp), if_pos (by rfl), ha]
    show Except.ok _ = _
    congr 1
    simp [List.range_succ]
    norm_num
  · intro h
    have := h 0 (by simp)
    simp at this
    norm_num at this
  · rw [r1, r2, Complex.norm_def, Complex.norm_def, ← hs2]
    simp only [Complex.normSq_mk]
    norm_num

/-- **C96**, even lengths: the outputs of both filters add up to the input filtered with one and the
same windowed sinc function of the length of the prototype, delayed by half a sample less than half
the length. -/
theorem C96_even (b : List ℝ) (heven : b.length % 2 = 0) :
    ∃ b', complementary false b = .ok b' ∧ b'.length = b.length ∧
      ∀ (x : List ℝ) (k : ℤ), convAt b x k + convAt b' x k =
        convAt ((List.range b.length).map fun n : ℕ =>
          FractionalDelay.kernel (b.length - 1) 60 (n - ((b.length : ℝ) - 1) / 2)) x k := by
  set h := (List.range b.length).map fun n : ℕ =>
    FractionalDelay.kernel (b.length - 1) 60 (n - ((b.length : ℝ) - 1) / 2) with hh
  refine ⟨(List.range b.length).map fun n => h.getD n 0 - b.getD n 0, ?_, by simp, fun x k => ?_⟩
  · unfold complementary
    rw [if_neg (by simp), if_neg (by omega)]
    dsimp only
    congr 1
    refine List.map_congr_left fun n hn => ?_
    have hn' := List.mem_range.mp hn
    congr 1
    have hlen : b.length - 1 + 1 = b.length := by omega
    have hodd : (b.length - 1) % 2 = 1 := by omega
    unfold FractionalDelay.kaiser
    rw [hh, LFilter.getD_map_range, LFilter.getD_map_range, LFilter.getD_map_range, if_pos hn',
      if_pos (by omega), if_pos hn']
    have hc : (((-(b.length : ℤ)) / 2 + 1 + (n : ℤ) : ℤ) : ℝ) - 0.5 = n - ((b.length : ℝ) - 1) / 2 := by
      have h2 : ((b.length : ℕ) : ℝ) = 2 * ((b.length / 2 : ℕ) : ℝ) := by
        exact_mod_cast (by omega : b.length = 2 * (b.length / 2))
      have h3 : (-(b.length : ℤ)) / 2 = -((b.length / 2 : ℕ) : ℤ) := by omega
      rw [h3, h2, Int.cast_add, Int.cast_add, Int.cast_neg, Int.cast_natCast, Int.cast_natCast,
        Int.cast_one]
      norm_num
      ring
    have hcast : ((b.length - 1 : ℕ) : ℝ) = (b.length : ℝ) - 1 := by
      rw [Nat.cast_sub (by omega)]
      simp
    rw [hc, FractionalDelay.sinc_eq]
    unfold FractionalDelay.kernel FractionalDelay.window
    have hnr : (n : ℝ) + 1 ≤ b.length := by exact_mod_cast hn'
    have hn0 : (0 : ℝ) ≤ n := Nat.cast_nonneg n
    rw [if_pos ⟨by rw [hcast]; linarith, by rw [hcast]; linarith⟩]
    dsimp only
    rw [if_pos hodd, FractionalDelay.bessel_eq, FractionalDelay.bessel_eq, FractionalDelay.beta_eq,
      hcast]
    congr 6
    have hL : (0 : ℝ) < (b.length : ℝ) - 1 := by
      have : 2 ≤ b.length := by omega
      have : (2 : ℝ) ≤ b.length := by exact_mod_cast this
      linarith
    field_simp
    norm_num
  · unfold convAt
    simp only [List.length_map, List.length_range, hh]
    rw [← sum_add_distrib]
    refine sum_congr rfl fun m hm => ?_
    simp only [LFilter.getD_map_range, if_pos (mem_range.mp hm)]
    split_ifs <;> ring

theorem kernel_even (order : ℕ) (A t : ℝ) (ht : |t| ≤ (order : ℝ) / 2) :
    FractionalDelay.kernel order A (-t) = FractionalDelay.kernel order A t := by
  obtain ⟨h1, h2⟩ := abs_le.mp ht
  unfold FractionalDelay.kernel FractionalDelay.window
  rw [if_pos ⟨by linarith, by linarith⟩, if_pos ⟨by linarith, by linarith⟩]
  rw [mul_neg, Real.sinc_neg, mul_neg, neg_div, neg_sq]

/-- **C96**, disagreement: for even lengths the sum of both filters always vanishes at the Nyquist
frequency. -/
theorem C96_even_nyquist (b : List ℝ) (heven : b.length % 2 = 0) :
    ∃ b', complementary false b = .ok b' ∧ response b Real.pi + response b' Real.pi = 0 := by
  obtain ⟨b', h1, h2, h3⟩ := C96_even b heven
  refine ⟨b', h1, ?_⟩
  set h := (List.range b.length).map fun n : ℕ =>
    FractionalDelay.kernel (b.length - 1) 60 (n - ((b.length : ℝ) - 1) / 2) with hh
  have hlen : h.length = b.length := by rw [hh]; simp
  have hg : ∀ n < b.length, b.getD n 0 + b'.getD n 0 = h.getD n 0 := by
    intro n hn
    have := h3 [1] n
    unfold convAt at this
    have hone : ∀ l : List ℝ, (∑ m ∈ range b.length, if (m : ℤ) ≤ n then
        l.getD m 0 * [(1 : ℝ)].getD ((n : ℤ) - m).toNat 0 else 0) = l.getD n 0 := by
      intro l
      rw [sum_eq_single n]
      · simp
      · intro m _ hne
        by_cases hle : (m : ℤ) ≤ n
        · have hd : [(1 : ℝ)].getD ((n : ℤ) - m).toNat 0 = 0 :=
            List.getD_eq_default _ _ (by
              have : (1 : ℤ) ≤ (n : ℤ) - m := by omega
              simp only [List.length_cons, List.length_nil]
              omega)
          rw [if_pos hle, hd, mul_zero]
        · rw [if_neg hle]
      · intro h
        exact absurd (mem_range.mpr hn) h
    rw [h2, hlen, hone, hone, hone] at this
    exact this
  have hsym : ∀ n < b.length, h.getD (b.length - 1 - n) 0 = h.getD n 0 := by
    intro n hn
    rw [hh, LFilter.getD_map_range, LFilter.getD_map_range, if_pos (by omega), if_pos hn]
    have hcast : ((b.length - 1 - n : ℕ) : ℝ) = (b.length : ℝ) - 1 - n := by
      rw [Nat.cast_sub (by omega), Nat.cast_sub (by omega)]
      simp
    have hc1 : ((b.length - 1 : ℕ) : ℝ) = (b.length : ℝ) - 1 := by
      rw [Nat.cast_sub (by omega)]
      simp
    rw [hcast, show (b.length : ℝ) - 1 - n - ((b.length : ℝ) - 1) / 2 =
      -((n : ℝ) - ((b.length : ℝ) - 1) / 2) by ring]
    refine kernel_even _ _ _ ?_
    have hnr : (n : ℝ) + 1 ≤ b.length := by exact_mod_cast hn
    have hn0 : (0 : ℝ) ≤ n := Nat.cast_nonneg n
    rw [hc1, abs_le]
    constructor <;> linarith
  have hexp : ∀ n : ℕ, Complex.exp (-((Real.pi : ℂ) * n * Complex.I)) = (-1) ^ n := by
    intro n
    rw [show -((Real.pi : ℂ) * n * Complex.I) = (n : ℂ) * -(Real.pi * Complex.I) by ring,
      Complex.exp_nat_mul, Complex.exp_neg, Complex.exp_pi_mul_I]
    norm_num
  have hsum : response b Real.pi + response b' Real.pi =
      ((∑ n ∈ range b.length, h.getD n 0 * (-1) ^ n : ℝ) : ℂ) := by
    unfold response
    rw [h2, ← sum_add_distrib, Complex.ofReal_sum]
    refine sum_congr rfl fun n hn => ?_
    rw [hexp n, ← hg n (mem_range.mp hn)]
    push_cast
    ring
  rw [hsum]
  have hz : ∑ n ∈ range b.length, h.getD n 0 * (-1) ^ n =
      -∑ n ∈ range b.length, h.getD n 0 * (-1) ^ n := by
    conv_lhs => rw [← sum_range_reflect]
    rw [← sum_neg_distrib]
    refine sum_congr rfl fun n hn => ?_
    have hn' := mem_range.mp hn
    rw [hsym n hn']
    have hp : (-1 : ℝ) ^ (b.length - 1 - n) = -(-1) ^ n := by
      have h4 : (-1 : ℝ) ^ (b.length - 1 - n) * (-1) ^ n = -1 := by
        rw [← pow_add, show b.length - 1 - n + n = b.length - 1 by omega]
        exact (Nat.odd_iff.mpr (by omega)).neg_one_pow
      have h5 : (-1 : ℝ) ^ n * (-1) ^ n = 1 := by rw [← mul_pow]; simp
      calc (-1 : ℝ) ^ (b.length - 1 - n) = (-1) ^ (b.length - 1 - n) * ((-1) ^ n * (-1) ^ n) := by
            rw [h5, mul_one]
        _ = -(-1) ^ n := by rw [← mul_assoc, h4]; ring
    rw [hp]
    ring
  have : ∑ n ∈ range b.length, h.getD n 0 * (-1) ^ n = 0 := by linarith
  rw [this]
  simp

/-- Concrete case: three taps around a centre. -/
example : ∃ b', complementary false [1 / 4, 1 / 2, 1 / 4] = .ok b' ∧ Symmetric b' := by
  obtain ⟨b', h1, h2, -⟩ := C96_center [1 / 4, 1 / 2, 1 / 4] 1 rfl (by
    intro n hn
    simp at hn
    obtain rfl | rfl | rfl : n = 0 ∨ n = 1 ∨ n = 2 := by omega
    all_goals simp) (by
    intro n hn hne
    simp at hn
    obtain rfl | rfl : n = 0 ∨ n = 2 := by omega
    all_goals (simp; norm_num [abs_of_pos]))
  exact ⟨b', h1, h2⟩

end Verif.Complementary
