import Verif.Model.QMF
import Verif.Props.C23
import Verif.Props.C23Plain
import Verif.Model.SignalData

/-!
# C93: the quadrature mirror filter crossover reconstructs the signal without aliasing

Filters with finite impulse response; recursive filters are in `C93Iir`.
-/

set_option linter.unusedSectionVars false

namespace Verif.QMF

open Verif.Polyphase LFilter Finset

variable {K : Type} [Field K] [LinearOrder K] [IsStrictOrderedRing K]

/-- Sample at an integer time, zero outside of the list. -/
def sample (x : List K) (n : ℤ) : K := if 0 ≤ n then x.getD n.toNat 0 else 0

/-- The overall system of a crossover: `∑ b[m] b[l] x[n - m - l]` over the pairs with `m + l`
odd, twice.  This is the impulse response with transfer function `H(z)² - H(-z)²`; neither the
phase of the downsampling nor a mirrored spectrum appears in it. -/
def overall (b x : List K) (n : ℤ) : K :=
  2 * ∑ m ∈ range b.length, ∑ l ∈ range b.length,
    if (m + l) % 2 = 1 then b.getD m 0 * b.getD l 0 * sample x (n - m - l) else 0

theorem alternate_length (b : List K) : (alternate b).length = b.length := by simp [alternate]

theorem alternate_getD (b : List K) (i : ℕ) :
    (alternate b).getD i 0 = (-1) ^ i * b.getD i 0 := by
  unfold alternate
  rw [getD_map_range]
  by_cases h : i < b.length
  · rw [if_pos h]
    rcases Nat.mod_two_eq_zero_or_one i with h2 | h2
    · rw [if_neg (by omega), (Nat.even_iff.mpr h2).neg_one_pow, one_mul]
    · rw [if_pos h2, (Nat.odd_iff.mpr h2).neg_one_pow, neg_one_mul]
  · rw [if_neg h, List.getD_eq_default _ _ (not_lt.mp h), mul_zero]

theorem neg_getD (b : List K) (i : ℕ) : (b.map fun v => -v).getD i 0 = -b.getD i 0 := by
  have := List.getD_map (l := b) (d := 0) (f := fun v : K => -v) (n := i)
  simpa using this

/-- **C93**, mirrored response: the response of the analysis highpass at `w` is the one of the
lowpass at `-w`, the synthesis highpass is the negative. -/
theorem C93_mirror (b : List K) (fs : ℕ) (w : K) :
    ∑ n ∈ range b.length, (ofFir b fs).high.b.getD n 0 * w ^ n =
        ∑ n ∈ range b.length, b.getD n 0 * (-w) ^ n ∧
    ∑ n ∈ range b.length, (ofFir b fs).synthesisHigh.b.getD n 0 * w ^ n =
        -∑ n ∈ range b.length, b.getD n 0 * (-w) ^ n ∧
    (ofFir b fs).high.b.length = b.length ∧ (ofFir b fs).synthesisHigh.b.length = b.length := by
  refine ⟨?_, ?_, ?_, ?_⟩
  · refine sum_congr rfl fun n _ => ?_
    rw [show (ofFir b fs).high.b = alternate b from rfl, alternate_getD, neg_pow w]
    ring
  · rw [← sum_neg_distrib]
    refine sum_congr rfl fun n _ => ?_
    rw [show (ofFir b fs).synthesisHigh.b = (alternate b).map fun v => -v from rfl, neg_getD,
      alternate_getD, neg_pow w]
    ring
  · exact alternate_length b
  · simp [ofFir, fir, alternate_length]

theorem convAt_sample (b x : List K) (n : ℤ) :
    convAt b x n = ∑ m ∈ range b.length, b.getD m 0 * sample x (n - m) := by
  unfold convAt sample
  refine sum_congr rfl fun m _ => ?_
  by_cases h : (m : ℤ) ≤ n
  · rw [if_pos h, if_pos (by omega)]
  · rw [if_neg h, if_neg (by omega), mul_zero]

theorem stuffed_sample (v : List K) (n : ℤ) (h0 : 0 ≤ n) (h1 : n < 2 * v.length) :
    2 * sample (zeroStuffed v 2) n = (1 + (-1) ^ n.toNat) * v.getD (n.toNat / 2) 0 := by
  unfold sample zeroStuffed
  rw [if_pos h0, getD_map_range, if_pos (by omega)]
  rcases Nat.mod_two_eq_zero_or_one n.toNat with h2 | h2
  · rw [if_pos (Nat.dvd_of_mod_eq_zero h2), (Nat.even_iff.mpr h2).neg_one_pow]
    ring
  · rw [if_neg (by omega), (Nat.odd_iff.mpr h2).neg_one_pow]
    ring

/-- One band: filter, keep the samples at `2 k + o`, stuff, filter with `g`. -/
theorem band (b g x v : List K) (o : ℤ)
    (hv : ∀ k < v.length, v.getD k 0 = convAt b x ((k : ℤ) * 2 + o)) (n : ℕ)
    (hn : g.length ≤ n + 1) (hn' : n < 2 * v.length) :
    2 * convAt g (zeroStuffed v 2) n =
      ∑ m ∈ range g.length, ∑ l ∈ range b.length, g.getD m 0 * b.getD l 0 *
        (1 + (-1) ^ n * (-1) ^ m) * sample x (n + o - m - l) := by
  rw [convAt_sample, mul_sum]
  refine sum_congr rfl fun m hm => ?_
  have hm' := mem_range.mp hm
  rw [mul_left_comm, stuffed_sample v _ (by omega) (by omega)]
  have e : ((n : ℤ) - m).toNat = n - m := by omega
  have hp : (-1 : K) ^ (n - m) = (-1) ^ n * (-1) ^ m := by
    have h2 : (-1 : K) ^ m * (-1) ^ m = 1 := by rw [← pow_add, ← two_mul, pow_mul]; simp
    have h3 : (-1 : K) ^ n = (-1) ^ (n - m) * (-1) ^ m := by
      rw [← pow_add]; congr 1; omega
    rw [h3, mul_assoc, h2, mul_one]
  rw [e, hp]
  rcases Nat.mod_two_eq_zero_or_one (n - m) with h2 | h2
  · rw [hv _ (by omega), convAt_sample, mul_sum, mul_sum]
    refine sum_congr rfl fun l _ => ?_
    have : (((n - m) / 2 : ℕ) : ℤ) * 2 + o - l = n + o - m - l := by omega
    rw [this]
    ring
  · rw [← hp, (Nat.odd_iff.mpr h2).neg_one_pow]
    simp

/-- The aliases of both bands cancel each other. -/
theorem bands_sum (b x v0 v1 : List K) (o : ℤ) (hl : v0.length = v1.length)
    (hv0 : ∀ k < v0.length, v0.getD k 0 = convAt b x ((k : ℤ) * 2 + o))
    (hv1 : ∀ k < v1.length, v1.getD k 0 = convAt (alternate b) x ((k : ℤ) * 2 + o)) (n : ℕ)
    (hn : b.length ≤ n + 1) (hn' : n < 2 * v0.length) :
    2 * convAt b (zeroStuffed v0 2) n +
      2 * convAt ((alternate b).map fun v => -v) (zeroStuffed v1 2) n = overall b x (n + o) := by
  have hlen : ((alternate b).map fun v => -v).length = b.length := by
    rw [List.length_map, alternate_length]
  rw [band b b x v0 o hv0 n hn hn',
    band (alternate b) ((alternate b).map fun v => -v) x v1 o hv1 n (by omega) (by omega)]
  rw [hlen, alternate_length]
  have hswap : ∑ m ∈ range b.length, ∑ l ∈ range b.length,
      b.getD m 0 * b.getD l 0 * ((-1) ^ n * (-1) ^ m) * sample x (n + o - m - l) =
      ∑ m ∈ range b.length, ∑ l ∈ range b.length,
      b.getD m 0 * b.getD l 0 * ((-1) ^ n * (-1) ^ l) * sample x (n + o - m - l) := by
    rw [sum_comm]
    refine sum_congr rfl fun m _ => sum_congr rfl fun l _ => ?_
    rw [show (n : ℤ) + o - l - m = n + o - m - l by ring]
    ring
  have hodd : overall b x (n + o) = ∑ m ∈ range b.length, ∑ l ∈ range b.length,
      b.getD m 0 * b.getD l 0 * (1 - (-1) ^ (m + l)) * sample x (n + o - m - l) := by
    unfold overall
    rw [mul_sum]
    refine sum_congr rfl fun m _ => ?_
    rw [mul_sum]
    refine sum_congr rfl fun l _ => ?_
    rcases Nat.mod_two_eq_zero_or_one (m + l) with h2 | h2
    · rw [if_neg (by omega), (Nat.even_iff.mpr h2).neg_one_pow]
      ring
    · rw [if_pos h2, (Nat.odd_iff.mpr h2).neg_one_pow]
      ring
  have hsq : ∀ m : ℕ, (-1 : K) ^ m * (-1) ^ m = 1 := fun m => by
    rw [← pow_add, ← two_mul, pow_mul]; simp
  have hL : ∑ m ∈ range b.length, ∑ l ∈ range b.length, b.getD m 0 * b.getD l 0 *
        (1 + (-1) ^ n * (-1) ^ m) * sample x (n + o - m - l) =
      ∑ m ∈ range b.length, ∑ l ∈ range b.length,
        b.getD m 0 * b.getD l 0 * sample x (n + o - m - l) +
      ∑ m ∈ range b.length, ∑ l ∈ range b.length,
        b.getD m 0 * b.getD l 0 * ((-1) ^ n * (-1) ^ m) * sample x (n + o - m - l) := by
    rw [← sum_add_distrib]
    refine sum_congr rfl fun m _ => ?_
    rw [← sum_add_distrib]
    exact sum_congr rfl fun l _ => by ring
  rw [hL, hswap, hodd, ← sum_add_distrib, ← sum_add_distrib]
  refine sum_congr rfl fun m _ => ?_
  rw [← sum_add_distrib, ← sum_add_distrib]
  refine sum_congr rfl fun l _ => ?_
  rw [neg_getD, alternate_getD, alternate_getD, pow_add]
  linear_combination (-(b.getD m 0 * b.getD l 0 * sample x (n + o - m - l) * (-1) ^ n *
    (-1) ^ l)) * hsq m

theorem gap_two (n : ℕ) : gap n 2 = n % 2 := by
  unfold gap
  split_ifs <;> omega

theorem down_band (b x : List K) (hb : 4 ≤ b.length) (hx : 0 < x.length) :
    ∃ v, downsample x b 2 = .ok v ∧ v.length = (x.length + 1) / 2 ∧ ∀ k < v.length,
      v.getD k 0 = convAt b x ((k : ℤ) * 2 + (((b.length - 1) / 4 * 2 : ℕ) + 1 -
        (x.length % 2 : ℕ) - (b.length % 2 : ℕ))) := by
  obtain ⟨v, h1, h2, h3⟩ := C23_downsample_partial x b 2 (by norm_num) (by omega) _ rfl
  refine ⟨v, h1, ?_, fun k hk => ?_⟩
  · rw [h2, gap_two, gap_two]
    omega
  · rw [h3 k hk, gap_two, gap_two, Nat.div_div_eq_div_mul]
    congr 1
    push_cast
    ring

/-- **C93**, two bands at half the sampling rate and back (4 taps or more, even sampling rates):
each band has half as many samples, rounded up, and away from the ends sample `k` of the
reconstruction is the response of the overall system (no aliases) at `k` plus a fixed time. The
ends are where the filter reaches beyond the bands. -/
theorem C93_reconstruct (b x : List K) (r : ℕ) (hr : 0 < r) (hb : 4 ≤ b.length)
    (hx : 0 < x.length) :
    ∃ v0 v1 y, filterSignal (ofFir b (2 * r)) x (2 * r) .parallel false = .ok ([v0, v1], r) ∧
      v0.length = (x.length + 1) / 2 ∧ v1.length = (x.length + 1) / 2 ∧
      reconstruct (ofFir b (2 * r)) [v0, v1] r true = .ok (y, 2 * r) ∧
      y.length = 2 * ((x.length + 1) / 2) ∧
      ∀ k, b.length ≤ k + (b.length - 1) / 2 + 1 → k + (b.length - 1) / 2 < y.length →
        y.getD k 0 = overall b x (k + ((b.length - 1) / 2 : ℕ) + ((b.length - 1) / 4 * 2 : ℕ) + 1 -
          (x.length % 2 : ℕ) - (b.length % 2 : ℕ)) := by
  have hdiv : 2 * r / 2 = r := by omega
  have hmir : (alternate b).length = b.length := alternate_length b
  have hneg : ((alternate b).map fun v => -v).length = b.length := by
    rw [List.length_map, alternate_length]
  obtain ⟨v0, d0, l0, e0⟩ := down_band b x hb hx
  obtain ⟨v1, d1, l1, e1⟩ := down_band (alternate b) x (by omega) hx
  rw [hmir] at e1
  obtain ⟨y0, u0, m0, f0⟩ := C23_upsample v0 b 2 (by norm_num) (by omega) (by omega) _ rfl
    (by rw [gap_two]; omega)
  obtain ⟨y1, u1, m1, f1⟩ := C23_upsample v1 ((alternate b).map fun v => -v) 2 (by norm_num)
    (by omega) (by omega) _ rfl (by rw [gap_two]; omega)
  rw [hneg] at m1 f1
  rw [gap_two] at m0 m1
  have hlen0 : y0.length = 2 * ((x.length + 1) / 2) := by omega
  have hlen1 : y1.length = y0.length := by omega
  have hq : 2 * r / r = 2 := Nat.mul_div_cancel _ hr
  have D : ∀ F : ResampleFilter K, F.isFir = true → F.fs = 2 * r →
      resample F x (2 * r) r = (downsample x F.b 2).map fun y => (y, r) := by
    intro F h1 h2
    rw [(C23_resample F x (2 * r) r (by omega) hr).1 ⟨2, by ring⟩ h2, hq, if_pos h1]
  have U : ∀ (F : ResampleFilter K) (v : List K), F.isFir = true → F.fs = 2 * r →
      resample F v r (2 * r) = (upsample v F.b 2).map fun y => (y, 2 * r) := by
    intro F v h1 h2
    rw [(C23_resample F v r (2 * r) hr (by omega)).2.1 ⟨2, by ring⟩ (by omega) h2, hq, if_pos h1]
  refine ⟨v0, v1, (List.range y0.length).map fun k => y0.getD k 0 + y1.getD k 0, ?_, l0, l1, ?_,
    by simpa using hlen0, fun k hk1 hk2 => ?_⟩
  · unfold filterSignal downsampled
    rw [if_neg (by simp), if_neg (by simp [ofFir, fir]), hdiv]
    dsimp only
    rw [D _ rfl rfl, D _ rfl rfl]
    simp only [ofFir, fir]
    rw [d0, d1]
    rfl
  · unfold reconstruct
    dsimp only
    rw [if_pos rfl, mul_comm r 2, U _ _ rfl rfl, U _ _ rfl rfl]
    simp only [ofFir, fir]
    rw [u0, u1]
    simp only [Except.map, bind, Except.bind]
    rw [if_neg (by rw [hlen1]; simp)]
    rfl
  · simp only [List.length_map, List.length_range] at hk2
    rw [getD_map_range, if_pos (by omega), f0 k (by omega), f1 k (by omega)]
    have := bands_sum b x v0 v1 (((b.length - 1) / 4 * 2 : ℕ) + 1 -
        (x.length % 2 : ℕ) - (b.length % 2 : ℕ)) (by omega) e0 e1 (k + (b.length - 1) / 2)
        (by omega) (by omega)
    push_cast at this ⊢
    rw [this]
    congr 1
    ring

/-- If the mirrored pair is power complementary in the sense that `2 ∑ b[m] b[l]` over `m + l =
j` is 1 for `j = L - 1` and 0 for the other odd `j`, the overall system is a delay. -/
theorem overall_delay (b x : List K) (n : ℤ)
    (h : ∀ j, j % 2 = 1 → 2 * ∑ m ∈ range b.length, ∑ l ∈ range b.length,
      (if m + l = j then b.getD m 0 * b.getD l 0 else 0) = if j + 1 = b.length then 1 else 0)
    (hb : b.length % 2 = 0) (hpos : 0 < b.length) :
    overall b x n = sample x (n - (b.length - 1)) := by
  have key : overall b x n = ∑ j ∈ range (2 * b.length), (if j % 2 = 1 then
      2 * ∑ m ∈ range b.length, ∑ l ∈ range b.length,
        (if m + l = j then b.getD m 0 * b.getD l 0 else 0) else 0) * sample x (n - j) := by
    unfold overall
    have e : ∀ j ∈ range (2 * b.length), (if j % 2 = 1 then
        2 * ∑ m ∈ range b.length, ∑ l ∈ range b.length,
          (if m + l = j then b.getD m 0 * b.getD l 0 else 0) else 0) * sample x (n - j) =
        2 * ∑ m ∈ range b.length, ∑ l ∈ range b.length, if j = m + l then
          (if (m + l) % 2 = 1 then b.getD m 0 * b.getD l 0 * sample x (n - m - l) else 0)
          else 0 := by
      intro j _
      by_cases hj : j % 2 = 1
      · rw [if_pos hj, mul_assoc, sum_mul]
        congr 1
        refine sum_congr rfl fun m _ => ?_
        rw [sum_mul]
        refine sum_congr rfl fun l _ => ?_
        by_cases hml : m + l = j
        · subst hml
          rw [if_pos rfl, if_pos rfl, if_pos hj]
          push_cast
          rw [sub_sub]
        · rw [if_neg hml, if_neg (fun h => hml h.symm), zero_mul]
      · rw [if_neg hj, zero_mul]
        symm
        rw [mul_eq_zero]
        right
        refine sum_eq_zero fun m _ => sum_eq_zero fun l _ => ?_
        by_cases hml : j = m + l
        · rw [if_pos hml, if_neg (by rw [← hml]; exact hj)]
        · rw [if_neg hml]
    rw [sum_congr rfl e, ← mul_sum]
    congr 1
    conv_rhs => rw [sum_comm]
    refine sum_congr rfl fun m hm => ?_
    conv_rhs => rw [sum_comm]
    refine sum_congr rfl fun l hl => ?_
    have h1 := mem_range.mp hm
    have h2 := mem_range.mp hl
    rw [sum_ite_eq' (range (2 * b.length)) (m + l), if_pos (mem_range.mpr (by omega))]
  rw [key, sum_eq_single (b.length - 1)]
  · rw [if_pos (by omega), h _ (by omega), if_pos (by omega), one_mul]
    congr 1
    omega
  · intro j _ hne
    by_cases hj : j % 2 = 1
    · rw [if_pos hj, h j hj, if_neg (by omega), zero_mul]
    · rw [if_neg hj, zero_mul]
  · intro h1
    exact absurd (mem_range.mpr (by omega)) h1

/-- **C93**, perfect reconstruction: for an even number of taps with a power complementary
mirrored pair the signal comes back exactly.  It is delayed by one sample if the number of taps
is a multiple of four, and by one more if the signal has an odd number of samples. -/
theorem C93_perfect (b x : List K) (r : ℕ) (hr : 0 < r) (hb : 4 ≤ b.length)
    (heven : b.length % 2 = 0) (hx : 0 < x.length)
    (h : ∀ j, j % 2 = 1 → 2 * ∑ m ∈ range b.length, ∑ l ∈ range b.length,
      (if m + l = j then b.getD m 0 * b.getD l 0 else 0) = if j + 1 = b.length then 1 else 0) :
    ∃ v0 v1 y, filterSignal (ofFir b (2 * r)) x (2 * r) .parallel false = .ok ([v0, v1], r) ∧
      reconstruct (ofFir b (2 * r)) [v0, v1] r true = .ok (y, 2 * r) ∧
      y.length = 2 * ((x.length + 1) / 2) ∧
      ∀ k d, d = (if b.length % 4 = 0 then 1 else 0) + x.length % 2 → b.length / 2 ≤ k →
        k + b.length / 2 ≤ y.length → y.getD k 0 = x.getD (k - d) 0 := by
  obtain ⟨v0, v1, y, h1, -, -, h2, h3, h4⟩ := C93_reconstruct b x r hr hb hx
  refine ⟨v0, v1, y, h1, h2, h3, fun k d hd hk1 hk2 => ?_⟩
  rw [h4 k (by omega) (by omega), overall_delay b x _ h heven (by omega)]
  have e : (k : ℤ) + ((b.length - 1) / 2 : ℕ) + ((b.length - 1) / 4 * 2 : ℕ) + 1 -
      (x.length % 2 : ℕ) - (b.length % 2 : ℕ) - (b.length - 1) = ((k - d : ℕ) : ℤ) := by
    split_ifs at hd <;> omega
  rw [e]
  unfold sample
  rw [if_pos (by omega), Int.toNat_natCast]

/-- Taps that meet the hypotheses: `[0, 0, 1/2, 1/2, 0, 0]`, `[0, 1/2, 1/2, 0]`. -/
theorem taps_meet : ∀ b ∈ [([0, 0, 1 / 2, 1 / 2, 0, 0] : List ℚ), [0, 1 / 2, 1 / 2, 0]],
    ∀ j, j % 2 = 1 → 2 * ∑ m ∈ range b.length, ∑ l ∈ range b.length,
      (if m + l = j then b.getD m 0 * b.getD l 0 else 0) =
        if j + 1 = b.length then 1 else 0 := by
  intro b hb j hj
  simp only [List.mem_cons, List.not_mem_nil, or_false] at hb
  rcases hb with rfl | rfl
  · by_cases h : j < 11
    · revert hj
      revert j
      decide +kernel
    · rw [if_neg (by simp; omega)]
      have : ∀ m ∈ range ([0, 0, 1 / 2, 1 / 2, 0, 0] : List ℚ).length,
          ∀ l ∈ range ([0, 0, 1 / 2, 1 / 2, 0, 0] : List ℚ).length, ¬ m + l = j := by
        intro m hm l hl
        simp only [List.length_cons, List.length_nil, mem_range] at hm hl
        omega
      rw [sum_eq_zero fun m hm => sum_eq_zero fun l hl => if_neg (this m hm l hl), mul_zero]
  · by_cases h : j < 7
    · revert hj
      revert j
      decide +kernel
    · rw [if_neg (by simp; omega)]
      have : ∀ m ∈ range ([0, 1 / 2, 1 / 2, 0] : List ℚ).length,
          ∀ l ∈ range ([0, 1 / 2, 1 / 2, 0] : List ℚ).length, ¬ m + l = j := by
        intro m hm l hl
        simp only [List.length_cons, List.length_nil, mem_range] at hm hl
        omega
      rw [sum_eq_zero fun m hm => sum_eq_zero fun l hl => if_neg (this m hm l hl), mul_zero]

/-- Concrete case: four taps; the signal of seven samples comes back two samples late. -/
example : ∃ v0 v1 y, filterSignal (ofFir ([0, 1 / 2, 1 / 2, 0] : List ℚ) (2 * 4))
      [1, 2, 3, 4, 5, 6, 7] (2 * 4) .parallel false = .ok ([v0, v1], 4) ∧
    reconstruct (ofFir ([0, 1 / 2, 1 / 2, 0] : List ℚ) (2 * 4)) [v0, v1] 4 true =
      .ok (y, 2 * 4) ∧ y.length = 8 ∧ y.getD 4 0 = 3 := by
  obtain ⟨v0, v1, y, h1, h2, h3, h4⟩ := C93_perfect ([0, 1 / 2, 1 / 2, 0] : List ℚ)
    [1, 2, 3, 4, 5, 6, 7] 4 (by norm_num) (by simp) (by simp) (by simp)
    (taps_meet _ (by simp))
  exact ⟨v0, v1, y, h1, h2, h3, by rw [h4 4 2 (by simp) (by simp) (by rw [h3]; simp)]; rfl⟩

/-- Symmetric taps of odd length remove tones at a quarter of the sampling rate. -/
theorem overall_quarter (b : List K) (hodd : b.length % 2 = 1)
    (hsym : ∀ m < b.length, b.getD (b.length - 1 - m) 0 = b.getD m 0) (x : List K) (n : ℤ)
    (hx : ∀ i : ℤ, n - 2 * (b.length - 1) ≤ i → i + 2 ≤ n → sample x (i + 2) = -sample x i) :
    overall b x n = 0 := by
  have hstep : ∀ (t : ℕ) (i : ℤ), n - 2 * (b.length - 1) ≤ i → i + 2 * t ≤ n →
      sample x (i + 2 * t) = (-1) ^ t * sample x i := by
    intro t
    induction t with
    | zero => intro i _ _; simp
    | succ t ih =>
      intro i h1 h2
      push_cast at h2 ⊢
      rw [show i + 2 * ((t : ℤ) + 1) = (i + 2 * t) + 2 by ring, hx _ (by omega) (by omega),
        ih i h1 (by omega), pow_succ]
      ring
  set S := ∑ m ∈ range b.length, ∑ l ∈ range b.length,
    if (m + l) % 2 = 1 then b.getD m 0 * b.getD l 0 * sample x (n - m - l) else 0 with hS
  have hanti : S = -S := by
    conv_lhs => rw [hS, ← sum_range_reflect]
    rw [hS, ← sum_neg_distrib]
    refine sum_congr rfl fun m hm => ?_
    rw [← sum_range_reflect, ← sum_neg_distrib]
    refine sum_congr rfl fun l hl => ?_
    have hm' := mem_range.mp hm
    have hl' := mem_range.mp hl
    by_cases hml : (m + l) % 2 = 1
    · rw [if_pos hml, if_pos (by omega), hsym m hm', hsym l hl']
      rcases Nat.lt_or_ge (m + l) (b.length - 1) with hlt | hge
      · obtain ⟨t, ht⟩ : ∃ t : ℕ, b.length - 1 - (m + l) = t := ⟨_, rfl⟩
        have := hstep t (n - (b.length - 1 - m : ℕ) - (b.length - 1 - l : ℕ)) (by omega) (by omega)
        rw [show n - ((b.length - 1 - m : ℕ) : ℤ) - ((b.length - 1 - l : ℕ) : ℤ) + 2 * (t : ℤ) =
          n - m - l by omega, (Nat.odd_iff.mpr (by omega : t % 2 = 1)).neg_one_pow] at this
        rw [this]
        ring
      · obtain ⟨t, ht⟩ : ∃ t : ℕ, (m + l) - (b.length - 1) = t := ⟨_, rfl⟩
        have := hstep t (n - m - l) (by omega) (by omega)
        rw [show n - (m : ℤ) - (l : ℤ) + 2 * (t : ℤ) =
          n - ((b.length - 1 - m : ℕ) : ℤ) - ((b.length - 1 - l : ℕ) : ℤ) by omega,
          (Nat.odd_iff.mpr (by omega : t % 2 = 1)).neg_one_pow] at this
        rw [this]
        ring
    · rw [if_neg hml, if_neg (by omega), neg_zero]
  have : S = 0 := by linarith
  unfold overall
  rw [← hS, this, mul_zero]

/-- **C93**, odd number of taps: for symmetric taps of odd length a tone at a quarter of the
sampling rate (`x[n + 2] = -x[n]`) is lost in the reconstruction, whatever the filter. -/
theorem C93_odd_taps_lose_quarter (b x : List K) (r : ℕ) (hr : 0 < r) (hb : 4 ≤ b.length)
    (hodd : b.length % 2 = 1)
    (hsym : ∀ m < b.length, b.getD (b.length - 1 - m) 0 = b.getD m 0) (hx : 0 < x.length)
    (htone : ∀ i, i + 2 < x.length → x.getD (i + 2) 0 = -x.getD i 0) :
    ∃ v0 v1 y, filterSignal (ofFir b (2 * r)) x (2 * r) .parallel false = .ok ([v0, v1], r) ∧
      reconstruct (ofFir b (2 * r)) [v0, v1] r true = .ok (y, 2 * r) ∧
      y.length = 2 * ((x.length + 1) / 2) ∧
      ∀ k, 2 * b.length ≤ k → k + b.length ≤ x.length → y.getD k 0 = 0 := by
  obtain ⟨v0, v1, y, h1, -, -, h2, h3, h4⟩ := C93_reconstruct b x r hr hb hx
  refine ⟨v0, v1, y, h1, h2, h3, fun k hk1 hk2 => ?_⟩
  rw [h4 k (by omega) (by omega)]
  refine overall_quarter b hodd hsym x _ fun i hi1 hi2 => ?_
  have e1 : (i + 2).toNat = i.toNat + 2 := by omega
  unfold sample
  rw [if_pos (by omega), if_pos (by omega), e1]
  exact htone _ (by omega)

/-- Concrete case: the mirrored pair of `[1, 2, 3, 2, 1] / 9` and 40 samples of a tone. -/
example : ∃ v0 v1 y, filterSignal (ofFir ([1 / 9, 2 / 9, 3 / 9, 2 / 9, 1 / 9] : List ℚ) (2 * 4))
      ((List.range 40).map fun n => ([1, 1, -1, -1] : List ℚ).getD (n % 4) 0) (2 * 4) .parallel
        false = .ok ([v0, v1], 4) ∧
    reconstruct (ofFir ([1 / 9, 2 / 9, 3 / 9, 2 / 9, 1 / 9] : List ℚ) (2 * 4)) [v0, v1] 4 true =
      .ok (y, 2 * 4) ∧ y.getD 20 0 = 0 := by
  obtain ⟨v0, v1, y, h1, h2, h3, h4⟩ := C93_odd_taps_lose_quarter
    ([1 / 9, 2 / 9, 3 / 9, 2 / 9, 1 / 9] : List ℚ)
    ((List.range 40).map fun n => ([1, 1, -1, -1] : List ℚ).getD (n % 4) 0) 4 (by norm_num)
    (by simp) (by simp) (by decide +kernel) (by simp) (by
      intro i hi
      simp only [List.length_map, List.length_range] at hi
      have : ∀ i < 38, ((List.range 40).map fun n =>
          ([1, 1, -1, -1] : List ℚ).getD (n % 4) 0).getD (i + 2) 0 =
          -((List.range 40).map fun n => ([1, 1, -1, -1] : List ℚ).getD (n % 4) 0).getD i 0 := by
        decide +kernel
      exact this i (by omega))
  exact ⟨v0, v1, y, h1, h2, h4 20 (by simp) (by simp)⟩

/-- **C93**, filters of first order (two taps), for which the documentation ensures perfect
reconstruction: both bands are always empty, and a signal that constrains its amplitude cannot
hold them. -/
theorem C93_first_order_empty (b x : List K) (r : ℕ) (hr : 0 < r) (hb : b.length ≤ 2) :
    filterSignal (ofFir b (2 * r)) x (2 * r) .parallel false = .ok ([[], []], r) ∧
    SignalData.construct (⟨0, 1, fun k _ => ([] : List K).getD k 0, none⟩) true =
      .error .valueError := by
  have hq : 2 * r / r = 2 := Nat.mul_div_cancel _ hr
  have hmir : (alternate b).length = b.length := alternate_length b
  have D : ∀ F : ResampleFilter K, F.isFir = true → F.fs = 2 * r →
      resample F x (2 * r) r = (downsample x F.b 2).map fun y => (y, r) := by
    intro F h1 h2
    rw [(C23_resample F x (2 * r) r (by omega) hr).1 ⟨2, by ring⟩ h2, hq, if_pos h1]
  constructor
  · unfold filterSignal downsampled
    rw [if_neg (by simp), if_neg (by simp [ofFir, fir]), show 2 * r / 2 = r by omega]
    dsimp only
    rw [D _ rfl rfl, D _ rfl rfl]
    simp only [ofFir, fir]
    rw [C23_downsample_short_empty x b 2 (by norm_num) hb,
      C23_downsample_short_empty x (alternate b) 2 (by norm_num) (by omega)]
    rfl
  · simp [SignalData.construct, SignalData.setData, SignalData.standardForm, SignalData.Input.T]

/-- The pair of two taps is power complementary, so the overall system without the cut would be
a delay of one sample. -/
example (x : List ℚ) (n : ℤ) : overall [1 / 2, 1 / 2] x n = sample x (n - 1) := by
  simp [overall, sum_range_succ]
  ring

/-- **C93**, refused: zero phase (NotImplementedError), other sampling rates, the sequential mode
(always, since the second filter has twice the rate of the first result), and odd sampling rates
from five on. -/
theorem C93_refused (c : Crossover K) (x : List K) (fs : ℕ) (mode : Mode) (hfs : 0 < fs)
    (hc : c.high.fs = c.low.fs) :
    filterSignal c x fs mode true = .error .notImplemented ∧
    (fs ≠ c.low.fs → filterSignal c x fs mode false = .error .assertionError) ∧
    (fs = c.low.fs → (∀ e, resample c.low x fs (fs / 2) = .error e → e = .assertionError) →
      filterSignal c x fs .sequential false = .error .assertionError) ∧
    (fs % 2 = 1 → 5 ≤ fs → filterSignal c x fs mode false = .error .assertionError) := by
  have hodd : fs % 2 = 1 → 5 ≤ fs → ∀ F : ResampleFilter K,
      resample F x fs (fs / 2) = .error .assertionError := by
    intro h1 h2 F
    refine (C23_resample F x fs (fs / 2) hfs (by omega)).2.2 ?_ ?_
    · rintro ⟨⟨q, hq⟩, -⟩
      have : fs / 2 ∣ 1 := by
        refine (Nat.dvd_add_right (Dvd.intro_left 2 (rfl : 2 * (fs / 2) = 2 * (fs / 2)))).mp ?_
        exact ⟨q, by omega⟩
      have := Nat.le_of_dvd (by norm_num) this
      omega
    · rintro ⟨h, -⟩
      have := Nat.le_of_dvd (by omega) h
      omega
  refine ⟨rfl, fun h => ?_, fun h he => ?_, fun h1 h2 => ?_⟩
  · unfold filterSignal
    rw [if_neg (by simp), if_pos h]
  · unfold filterSignal
    rw [if_neg (by simp), if_neg (by simp [h])]
    unfold downsampled
    dsimp only
    cases hr : resample c.low x fs (fs / 2) with
    | error e => rw [he e hr]; rfl
    | ok r0 =>
      have hr2 : r0.2 = fs / 2 := by
        unfold resample at hr
        rw [if_neg (by omega)] at hr
        dsimp only at hr
        split_ifs at hr
        all_goals first
          | (cases hr; rfl)
          | (unfold Except.map at hr; split at hr <;> cases hr; rfl)
      simp only [bind, Except.bind]
      rw [hr2]
      rcases Nat.eq_zero_or_pos (fs / 2) with h0 | h0
      · exfalso
        have hfs1 : fs = 1 := by omega
        subst hfs1
        simp [resample, ← h] at hr
      · rw [(C23_resample c.high r0.1 (fs / 2) (fs / 2) h0 h0).2.2 (by omega) (by omega)]
  · unfold filterSignal
    rw [if_neg (by simp)]
    by_cases h : fs = c.low.fs
    · rw [if_neg (by simp [h])]
      cases mode <;> (unfold downsampled; dsimp only; rw [hodd h1 h2]; rfl)
    · rw [if_pos h]

/-- Concrete case: rates of 8 Hz in the sequential mode, and of 9 Hz. -/
example : filterSignal (ofFir ([0, 1 / 2, 1 / 2, 0] : List ℚ) 8) [1, 2, 3, 4] 8 .sequential
      false = .error .assertionError ∧
    filterSignal (ofFir ([0, 1 / 2, 1 / 2, 0] : List ℚ) 9) [1, 2, 3, 4] 9 .parallel
      false = .error .assertionError :=
  ⟨(C93_refused _ _ 8 .sequential (by norm_num) rfl).2.2.1 rfl (by
      intro e he
      rw [(C23_resample _ _ 8 4 (by norm_num) (by norm_num)).1 ⟨2, rfl⟩ rfl] at he
      obtain ⟨v, hv, -⟩ := down_band ([0, 1 / 2, 1 / 2, 0] : List ℚ) [1, 2, 3, 4] (by simp) (by simp)
      simp only [ofFir, fir, if_true] at he
      rw [show 8 / 4 = 2 from rfl, hv] at he
      cases he),
    (C93_refused _ _ 9 .parallel (by norm_num) rfl).2.2.2 rfl (by norm_num)⟩

/-- **C93**, summed mode: it works for even numbers of samples only. -/
theorem C93_summed (b x : List K) (r : ℕ) (hr : 0 < r) (hb : 4 ≤ b.length) (hx : 1 < x.length) :
    (x.length % 2 = 1 →
      filterSignal (ofFir b (2 * r)) x (2 * r) .summed false = .error .valueError) ∧
    (x.length % 2 = 0 → ∃ v0 v1 y,
      filterSignal (ofFir b (2 * r)) x (2 * r) .parallel false = .ok ([v0, v1], r) ∧
      filterSignal (ofFir b (2 * r)) x (2 * r) .summed false = .ok ([y], r) ∧
      y.length = x.length / 2 ∧ ∀ k < y.length, y.getD k 0 = v0.getD k 0 + v1.getD k 0) := by
  have hq : 2 * r / r = 2 := Nat.mul_div_cancel _ hr
  have hmir : (alternate b).length = b.length := alternate_length b
  have D : ∀ F : ResampleFilter K, F.isFir = true → F.fs = 2 * r →
      resample F x (2 * r) r = (downsample x F.b 2).map fun y => (y, r) := by
    intro F h1 h2
    rw [(C23_resample F x (2 * r) r (by omega) hr).1 ⟨2, by ring⟩ h2, hq, if_pos h1]
  obtain ⟨v0, d0, l0, -⟩ := down_band b x hb (by omega)
  obtain ⟨v1, d1, l1, -⟩ := down_band (alternate b) x (by omega) (by omega)
  constructor
  · intro hodd
    unfold filterSignal downsampled
    rw [if_neg (by simp), if_neg (by simp [ofFir, fir]), show 2 * r / 2 = r by omega]
    dsimp only
    rw [D _ rfl rfl]
    simp only [ofFir, fir]
    rw [d0]
    simp only [Except.map, bind, Except.bind]
    rw [if_pos (by omega)]
    rfl
  · intro heven
    refine ⟨v0, v1, (List.range (x.length / 2)).map fun k => broadcast v0 k + broadcast v1 k,
      ?_, ?_, by simp, ?_⟩
    · unfold filterSignal downsampled
      rw [if_neg (by simp), if_neg (by simp [ofFir, fir]), show 2 * r / 2 = r by omega]
      dsimp only
      rw [D _ rfl rfl, D _ rfl rfl]
      simp only [ofFir, fir]
      rw [d0, d1]
      rfl
    · unfold filterSignal downsampled
      rw [if_neg (by simp), if_neg (by simp [ofFir, fir]), show 2 * r / 2 = r by omega]
      dsimp only
      rw [D _ rfl rfl, D _ rfl rfl]
      simp only [ofFir, fir]
      rw [d0, d1]
      simp only [Except.map, bind, Except.bind]
      rw [if_neg (by omega), if_neg (by omega)]
      rfl
    · intro k hk
      simp only [List.length_map, List.length_range] at hk
      rw [getD_map_range, if_pos hk]
      have hbc : ∀ v : List K, v.length = (x.length + 1) / 2 → broadcast v k = v.getD k 0 := by
        intro v hv
        unfold broadcast
        by_cases h1 : v.length = 1
        · rw [if_pos h1, show k = 0 by omega]
        · rw [if_neg h1]
      rw [hbc v0 l0, hbc v1 l1]

omit [IsStrictOrderedRing K] in
/-- Only exactly two bands can be put together. -/
theorem C93_number_of_bands (c : Crossover K) (bands : List (List K)) (fs : ℕ) (up : Bool)
    (h : bands.length ≠ 2) : reconstruct c bands fs up = .error .assertionError := by
  match bands, h with
  | [], _ => rfl
  | [_], _ => rfl
  | [_, _], h => exact absurd rfl h
  | _ :: _ :: _ :: _, _ => rfl

end Verif.QMF
