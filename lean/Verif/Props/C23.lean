import Verif.Lemmas.Polyphase
import Mathlib.Algebra.Field.Rat
import Mathlib.Tactic.NormNum
import Mathlib.Tactic.Linarith

/-!
# C23: polyphase representations and polyphase resampling
-/

set_option linter.unusedSectionVars false

namespace Verif.Polyphase

open Verif.SignalData (padTrim padTrim_length padTrim_start)
open Verif.LFilter (fullConv getD_map_range ext_getD getD_take getD_drop fullConv_getD
  length_fullConv)

variable {K : Type} [Field K]

/-- **C23**, decomposition and reconstruction (partial): for every signal and number of
components the reconstruction is the signal preceded by as many zeros (fewer than `n`) as
make its length a multiple of `n`; the reported padding is this number if it is not zero. -/
theorem C23_round_trip_partial (x : List K) (n : ℕ) (hn : 0 < n) :
    ∃ poly padding zeros, decompose x n false = .ok (poly, padding) ∧ poly.length = n ∧
      (∀ c ∈ poly, c.length = (x.length + zeros) / n) ∧
      recompose poly ((x.length + zeros) / n) = List.replicate zeros 0 ++ x ∧
      zeros < n ∧ n ∣ x.length + zeros ∧ (zeros ≠ 0 → padding = zeros) := by
  refine ⟨(List.range n).map (comp x n), n - x.length % n, gap x.length n,
    decompose_eq' x n hn, by simp, ?_, ?_, gap_lt _ _ hn, gap_dvd _ _ hn, ?_⟩
  · intro c hc
    simp only [List.mem_map] at hc
    obtain ⟨i, _, rfl⟩ := hc
    rw [comp_length, padded_length]
  · have hlen : (x.length + gap x.length n) / n * n = x.length + gap x.length n :=
      Nat.div_mul_cancel (gap_dvd _ _ hn)
    apply ext_getD
    · rw [recompose_length]
      simp only [List.length_map, List.length_range, hlen, List.length_append,
        List.length_replicate]
      omega
    · intro j hj
      rw [recompose_length] at hj
      rw [recompose_getD _ _ _ hj]
      simp only [List.length_map, List.length_range] at hj ⊢
      rw [getD_map_range' _ _ _ _ (Nat.mod_lt _ hn), comp_getD _ _ _ _ hn]
      have : j % n + j / n * n = j := by rw [Nat.mul_comm]; exact Nat.mod_add_div j n
      rw [this]
      rfl
  · unfold gap
    split_ifs <;> simp

/-- The reported padding is wrong for every signal whose length is a multiple of `n`: no
zero is inserted, but `n` is returned. -/
theorem C23_padding_wrong (x : List K) (n : ℕ) (hn : 0 < n) (h : n ∣ x.length) :
    ∃ poly, decompose x n false = .ok (poly, n) ∧ recompose poly (x.length / n) = x := by
  obtain ⟨poly, padding, zeros, h1, -, -, h3, h4, h5, -⟩ := C23_round_trip_partial x n hn
  have hz : zeros = 0 := by
    have : n ∣ zeros := (Nat.dvd_add_right h).mp h5
    exact Nat.eq_zero_of_dvd_of_lt this h4
  subst hz
  refine ⟨poly, ?_, by simpa using h3⟩
  have h2 := decompose_eq' x n hn
  rw [Nat.mod_eq_zero_of_dvd h, Nat.sub_zero] at h2
  rw [h2] at h1 ⊢
  have := Except.ok.inj h1
  rw [Prod.mk.injEq] at this
  rw [this.1]

example : decompose ([1, 2, 3, 4, 5] : List ℚ) 3 false = .ok ([[0, 3], [1, 4], [2, 5]], 1) := by
  decide +kernel
example : decompose ([1, 2, 3, 4] : List ℚ) 2 false = .ok ([[1, 3], [2, 4]], 2) := by
  decide +kernel

private theorem down_sum (x b : List K) (D m : ℕ) (hD : 0 < D) :
    ∑ i ∈ Finset.range D, (fullConv (comp b D (D - 1 - i)) (comp x D i)).getD m 0 =
      convAt b x ((m : ℤ) * D + D - 1 - gap x.length D - gap b.length D) := by
  have hdvd : D ∣ (padded b D).length := by rw [padded_length]; exact gap_dvd _ _ hD
  have hlen : (padded b D).length / D * D = (padded b D).length := Nat.div_mul_cancel hdvd
  have hk : ((m : ℤ) * D + D - 1 - gap x.length D - gap b.length D) =
      ((m * D + (D - 1) : ℕ) : ℤ) - (gap x.length D : ℕ) - (gap b.length D : ℕ) := by
    push_cast
    omega
  rw [hk, ← convAt_padded b x D (padded x D) (gap x.length D) (padded_getD x D)]
  rw [← hlen, sum_blocks, Finset.sum_comm]
  rw [← Finset.sum_range_reflect]
  refine Finset.sum_congr rfl fun i hi => ?_
  have hi' := Finset.mem_range.mp hi
  rw [fullConv_getD, comp_length]
  refine Finset.sum_congr rfl fun r _ => ?_
  have h0 : D - 1 - (D - 1 - i) = i := by omega
  rw [h0, comp_getD _ _ _ _ hD, comp_getD _ _ _ _ hD, Nat.add_comm i]
  by_cases h : r ≤ m
  · have h1 : r * D ≤ m * D := Nat.mul_le_mul_right _ h
    have h2 : (m - r) * D = m * D - r * D := Nat.sub_mul _ _ _
    rw [if_pos h, if_pos (by omega)]
    congr 2
    omega
  · have h1 : (m + 1) * D ≤ r * D := Nat.mul_le_mul_right _ (by omega)
    have h2 : (m + 1) * D = m * D + D := by ring
    rw [if_neg h, if_neg (by omega)]

/-- **C23**, polyphase downsampling (partial): for every signal, filter with at least three
taps and factor `D`, sample `k` of the result is the filtered signal at time
`k * D + φ`, where `φ = (h / D) * D + D - 1 - P - Q`, `h` is the delay of the filter and
`P`, `Q` are the zeros in front of signal and filter.  Missing: `φ` is not the delay `h`
in general, see the two theorems below. -/
theorem C23_downsample_partial (x b : List K) (D : ℕ) (hD : 0 < D) (hb : 3 ≤ b.length)
    (h : ℕ) (hh : h = (b.length - 1) / 2) :
    ∃ y, downsample x b D = .ok y ∧
      y.length = (x.length + gap x.length D) / D + (b.length + gap b.length D) / D - 1
        - (h + D - 1) / D - h / D ∧
      ∀ k < y.length, y.getD k 0 = convAt b x ((k : ℤ) * D + ((h / D : ℕ) * D + D - 1
        - gap x.length D - gap b.length D)) := by
  have hh1 : 1 ≤ h := by omega
  have hneg : ∃ c : ℕ, 0 < c ∧ (-(h : ℤ)) / (D : ℤ) = -(c : ℤ) := by
    have h1 : (-(h : ℤ)) / (D : ℤ) < 0 := Int.ediv_neg_of_neg_of_pos (by omega) (by omega)
    exact ⟨((-(h : ℤ)) / (D : ℤ)).natAbs, by omega, by omega⟩
  obtain ⟨c, hc, hcdiv⟩ := hneg
  have hceil : (h + D - 1) / D = c := by
    have e1 := Int.ediv_mul_le (-(h : ℤ)) (b := (D : ℤ)) (by omega)
    have e2 := Int.lt_ediv_add_one_mul_self (-(h : ℤ)) (b := (D : ℤ)) (by omega)
    rw [hcdiv] at e1 e2
    have e3 : h ≤ c * D := by
      have : (h : ℤ) ≤ c * D := by linarith
      exact_mod_cast this
    have e4 : c * D < h + D := by
      have : (c : ℤ) * D < h + D := by linarith
      exact_mod_cast this
    apply Nat.div_eq_of_lt_le
    · omega
    · rw [Nat.succ_mul]
      omega
  set poly := (List.range D).map (comp x D) with hpoly
  set bpoly := (List.range D).map (fun i => comp b D (D - 1 - i)) with hbpoly
  set len := (poly.getD 0 []).length + (bpoly.getD 0 []).length - 1 with hlen
  have hlenval : len = (x.length + gap x.length D) / D + (b.length + gap b.length D) / D - 1 := by
    rw [hlen, hpoly, hbpoly, getD_map_range' _ _ _ _ hD, getD_map_range' _ _ _ _ hD, comp_length,
      comp_length, padded_length, padded_length]
  refine ⟨pySlice (accumulate poly bpoly len) (h / D : ℕ) (-(c : ℤ)), ?_, ?_, ?_⟩
  · unfold downsample
    rw [decompose_eq' x D hD, decompose_flip b D hD]
    simp only [← hh, hcdiv]
    rfl
  · rw [(pySlice_neg (accumulate poly bpoly len) (h / D) c hc).1, hceil, ← hlenval]
    have : (accumulate poly bpoly len).length = len := (accumulate_fold poly bpoly len _).1
    rw [this]
  · obtain ⟨h1, h2⟩ := pySlice_neg (accumulate poly bpoly len) (h / D) c hc
    intro k hk
    rw [h1] at hk
    obtain ⟨h3, h4⟩ := accumulate_fold poly bpoly len poly.length
    have h3' : (accumulate poly bpoly len).length = len := h3
    rw [h2 k hk]
    have h5 : (accumulate poly bpoly len).getD (h / D + k) 0 = _ := h4 _ (by omega)
    have hpl : poly.length = D := by simp [hpoly]
    rw [h5, hpl]
    have h6 := down_sum x b D (h / D + k) hD
    rw [Finset.sum_congr rfl (g := fun i =>
      (fullConv (comp b D (D - 1 - i)) (comp x D i)).getD (h / D + k) 0), h6]
    · congr 1
      push_cast
      ring
    · intro i hi
      have hi' := Finset.mem_range.mp hi
      rw [hpoly, hbpoly, getD_map_range' _ _ _ _ hi', getD_map_range' _ _ _ _ hi']

/-- **C23**, polyphase downsampling, aligned case: if the length of the signal is a multiple
of `D` and the filter has `2 h + 1` taps with `h` a positive multiple of `D`, the result is
the delay-compensated filtered signal at every `D`-th sample. -/
theorem C23_downsample_aligned (x b : List K) (D h : ℕ) (hD : 0 < D) (hx : D ∣ x.length)
    (hb : b.length = 2 * h + 1) (hpos : 0 < h) (hdvd : D ∣ h) :
    ∃ y, downsample x b D = .ok y ∧ y.length = x.length / D ∧ ∀ k < y.length,
      y.getD k 0 = convAt b x ((k : ℤ) * D + h) := by
  obtain ⟨y, h1, hl, h2⟩ := C23_downsample_partial x b D hD (by omega) h (by omega)
  have hg : gap x.length D = 0 := by unfold gap; rw [if_pos (Nat.mod_eq_zero_of_dvd hx)]
  have h3 : h / D * D = h := Nat.div_mul_cancel hdvd
  have hgb : gap b.length D = D - 1 := by
    unfold gap
    have hm : b.length % D = 1 % D := by
      rw [hb]
      obtain ⟨q, hq⟩ := hdvd
      rw [hq]
      have : 2 * (D * q) + 1 = 1 + D * (2 * q) := by ring
      rw [this, Nat.add_mul_mod_self_left]
    rw [hm]
    rcases Nat.lt_or_ge 1 D with h1D | h1D
    · rw [Nat.mod_eq_of_lt h1D]
      simp
    · have : D = 1 := by omega
      subst this
      simp
  refine ⟨y, h1, ?_, fun k hk => ?_⟩
  · obtain ⟨q, hq⟩ := hdvd
    have e1 : (h + D - 1) / D = q := by
      apply Nat.div_eq_of_lt_le
      · rw [Nat.mul_comm]; omega
      · rw [Nat.succ_mul, Nat.mul_comm]; omega
    have e2 : h / D = q := by rw [hq, Nat.mul_div_cancel_left _ hD]
    have e3 : (b.length + gap b.length D) / D = 2 * q + 1 := by
      have : b.length + gap b.length D = D * (2 * q + 1) := by
        have e4 : D * (2 * q + 1) = 2 * (D * q) + D := by ring
        rw [hgb, hb, e4, ← hq]
        omega
      rw [this, Nat.mul_div_cancel_left _ hD]
    rw [hl, e1, e2, e3, hg, Nat.add_zero]
    generalize x.length / D = X
    omega
  rw [h2 k hk]
  congr 2
  rw [hg, hgb]
  have h4 : ((h / D : ℕ) : ℤ) * D = h := by exact_mod_cast h3
  rw [h4]
  omega

/-- Non-trivial instance of the aligned case. -/
example : ∃ y, downsample ([1, 2, 3, 4, 5, 6] : List ℚ) [1, 2, 3, 2, 1] 2 = .ok y ∧
    y.length = 3 ∧ ∀ k < y.length, y.getD k 0 =
      convAt [1, 2, 3, 2, 1] ([1, 2, 3, 4, 5, 6] : List ℚ) ((k : ℤ) * (2 : ℕ) + (2 : ℕ)) :=
  C23_downsample_aligned _ _ 2 2 (by norm_num) (by norm_num) (by norm_num) (by norm_num)
    (by norm_num)

/-- **C23** fails in general: with a filter of three taps (delay 1) and `D = 2` the samples
are taken at the times 0, 2, 4, ... of the filtered signal instead of 1, 3, 5, ... -/
theorem C23_downsample_misaligned :
    downsample ([1, 2, 3, 4, 5, 6] : List ℚ) [1, 10, 100] 2 = .ok [1, 123, 345] ∧
    (convAt [1, 10, 100] ([1, 2, 3, 4, 5, 6] : List ℚ) 0 = 1 ∧
      convAt [1, 10, 100] ([1, 2, 3, 4, 5, 6] : List ℚ) 2 = 123 ∧
      convAt [1, 10, 100] ([1, 2, 3, 4, 5, 6] : List ℚ) 1 = 12) := by
  refine ⟨by decide +kernel, ?_, ?_, ?_⟩ <;> decide +kernel

/-- **C23**, short filters: with one or two taps the result is always empty. -/
theorem C23_downsample_short_empty (x b : List K) (D : ℕ) (hD : 0 < D) (hb : b.length ≤ 2) :
    downsample x b D = .ok [] := by
  have h0 : (b.length - 1) / 2 = 0 := by omega
  unfold downsample
  rw [decompose_eq' x D hD, decompose_flip b D hD]
  simp [h0, pySlice]

private theorem up_sum (x b : List K) (U t i : ℕ) (hU : 0 < U) (hi : i < U) :
    (fullConv ((comp b U i).map fun v => v * (U : K)) x).getD t 0 =
      U * convAt b (zeroStuffed x U) ((t * U + i : ℕ) - (gap b.length U : ℕ)) := by
  have hdvd : U ∣ (padded b U).length := by rw [padded_length]; exact gap_dvd _ _ hU
  have hlen : (padded b U).length / U * U = (padded b U).length := Nat.div_mul_cancel hdvd
  have hz : ∀ j, (zeroStuffed x U).getD j 0 = if U ∣ j then x.getD (j / U) 0 else 0 := by
    intro j
    unfold zeroStuffed
    rw [getD_map_range]
    split_ifs with h1 h2 h2
    · rfl
    · rfl
    · rw [List.getD_eq_default]
      rw [Nat.le_div_iff_mul_le hU]
      omega
    · rfl
  have hc := convAt_padded b (zeroStuffed x U) U (zeroStuffed x U) 0 (fun j => by simp)
    (t * U + i)
  rw [Nat.cast_zero, sub_zero] at hc
  rw [← hc, ← hlen, sum_blocks, Finset.mul_sum, fullConv_getD, List.length_map, comp_length]
  refine Finset.sum_congr rfl fun r _ => ?_
  rw [Finset.sum_eq_single i]
  · by_cases h : r ≤ t
    · have h1 : r * U ≤ t * U := Nat.mul_le_mul_right _ h
      have h2 : t * U + i - (r * U + i) = (t - r) * U := by rw [Nat.sub_mul]; omega
      rw [if_pos h, if_pos (by omega), h2, hz, if_pos (Nat.dvd_mul_left _ _),
        Nat.mul_div_cancel _ hU]
      have h3 : ((comp b U i).map fun v => v * (U : K)).getD r 0 = (comp b U i).getD r 0 * U := by
        by_cases hr : r < (comp b U i).length
        · rw [List.getD_eq_getElem _ _ (by simpa using hr), List.getD_eq_getElem _ _ hr]
          simp
        · rw [List.getD_eq_default _ _ (by simpa using hr),
            List.getD_eq_default _ _ (by omega), zero_mul]
      rw [h3, comp_getD _ _ _ _ hU, Nat.add_comm i]
      ring
    · have h1 : (t + 1) * U ≤ r * U := Nat.mul_le_mul_right _ (by omega)
      have h2 : (t + 1) * U = t * U + U := by ring
      rw [if_neg h, if_neg (by omega), mul_zero]
  · intro j hj hji
    have hj' := Finset.mem_range.mp hj
    split_ifs with h
    · rw [hz, if_neg, mul_zero]
      intro hd
      obtain ⟨q, hq⟩ := hd
      have h1 : t * U + i = r * U + j + U * q := by omega
      have h2 : (r * U + j) % U = (t * U + i) % U := by
        rw [h1, Nat.add_mul_mod_self_left]
      rw [Nat.mul_comm r, Nat.mul_comm t, Nat.mul_add_mod, Nat.mul_add_mod,
        Nat.mod_eq_of_lt hj', Nat.mod_eq_of_lt hi] at h2
      exact hji h2
    · rfl
  · intro hni
    exact absurd (Finset.mem_range.mpr hi) hni

/-- **C23**, polyphase upsampling: for every non-empty signal, factor `U` and filter whose
delay `h` is larger than the zeros `Q` that make its length a multiple of `U`, sample `k` of
the result is `U` times the zero-stuffed signal filtered with `b`, at time `k + h`; there
are `L * U + (N + Q) - U - 2 h` samples. -/
theorem C23_upsample (x b : List K) (U : ℕ) (hU : 0 < U) (_hx : 0 < x.length) (hb : 0 < b.length)
    (h : ℕ) (hh : h = (b.length - 1) / 2) (hQ : gap b.length U < h) :
    ∃ y, upsample x b U = .ok y ∧
      y.length = x.length * U + (b.length + gap b.length U) - U - 2 * h ∧
      ∀ k < y.length, y.getD k 0 = U * convAt b (zeroStuffed x U) ((k : ℤ) + h) := by
  set bpoly := ((List.range U).map (comp b U)).map fun c => c.map fun v => v * (U : K) with hbp
  set rows := x.length + (bpoly.getD 0 []).length - 1 with hrows
  set new := recompose ((List.range U).map fun ind => fullConv (bpoly.getD ind []) x) rows
    with hnew
  have hbp' : bpoly = (List.range U).map fun i => (comp b U i).map fun v => v * (U : K) := by
    rw [hbp, List.map_map]
    rfl
  have hrowsval : rows = x.length + (b.length + gap b.length U) / U - 1 := by
    rw [hrows, hbp', getD_map_range' _ _ _ _ hU, List.length_map, comp_length, padded_length]
  have hnewlen : new.length = rows * U := by
    rw [hnew, recompose_length]
    simp
  have hcancel : (b.length + gap b.length U) / U * U = b.length + gap b.length U :=
    Nat.div_mul_cancel (gap_dvd _ _ hU)
  have hone : 1 ≤ (b.length + gap b.length U) / U := by
    rw [Nat.le_div_iff_mul_le hU]
    have h1 : U ∣ b.length + gap b.length U := gap_dvd _ _ hU
    have := Nat.le_of_dvd (by omega) h1
    omega
  have hlenval : new.length = x.length * U + (b.length + gap b.length U) - U := by
    rw [hnewlen, hrowsval, Nat.sub_mul, Nat.add_mul, hcancel, Nat.one_mul]
  have hval : ∀ j < new.length, new.getD j 0 =
      U * convAt b (zeroStuffed x U) ((j : ℤ) - (gap b.length U : ℕ)) := by
    intro j hj
    rw [hnew, recompose_getD _ _ _ (by simpa [hnewlen] using hj)]
    simp only [List.length_map, List.length_range]
    rw [getD_map_range' _ _ _ _ (Nat.mod_lt _ hU), hbp',
      getD_map_range' _ _ _ _ (Nat.mod_lt _ hU), up_sum x b U _ _ hU (Nat.mod_lt _ hU)]
    have : j / U * U + j % U = j := by rw [Nat.mul_comm]; exact Nat.div_add_mod j U
    rw [this]
  have hres : upsample x b U = .ok (pySlice new ((h + gap b.length U : ℕ) : ℤ)
      (-((h - gap b.length U : ℕ) : ℤ))) := by
    unfold upsample
    rw [decompose_eq' b U hU]
    simp only [← hh]
    by_cases hm : b.length % U = 0
    · have hg : gap b.length U = 0 := by unfold gap; rw [if_pos hm]
      rw [if_pos (by omega), hg]
      rfl
    · have hg : gap b.length U = U - b.length % U := by unfold gap; rw [if_neg hm]
      have hlt := Nat.mod_lt b.length hU
      rw [if_neg (by omega), ← hg]
      have e1 : (-(h : ℤ) + (gap b.length U : ℕ)) = -((h - gap b.length U : ℕ) : ℤ) := by omega
      rw [e1]
      rfl
  obtain ⟨h1, h2⟩ := pySlice_neg new (h + gap b.length U) (h - gap b.length U) (by omega)
  refine ⟨_, hres, by rw [h1, hlenval]; omega, fun k hk => ?_⟩
  rw [h1] at hk
  rw [h2 k hk, hval _ (by omega)]
  congr 2
  push_cast
  ring

/-- Non-trivial instance: interpolation by 2 with a filter of 5 taps. -/
example : ∃ y, upsample ([1, 2, 3] : List ℚ) [1, 2, 3, 2, 1] 2 = .ok y ∧ y.length = 6 ∧
    ∀ k < y.length, y.getD k 0 =
      (2 : ℕ) * convAt [1, 2, 3, 2, 1] (zeroStuffed ([1, 2, 3] : List ℚ) 2) ((k : ℤ) + (2 : ℕ)) :=
  C23_upsample _ _ 2 (by norm_num) (by norm_num) (by norm_num) 2 (by norm_num) (by decide)

/-- **C23**, short filters: if the delay of the filter is not larger than the zeros put in
front of it, upsampling returns nothing. -/
theorem C23_upsample_short_empty (x b : List K) (U : ℕ) (hU : 0 < U)
    (h : (b.length - 1) / 2 ≤ gap b.length U) : upsample x b U = .ok [] := by
  unfold upsample
  rw [decompose_eq' b U hU]
  simp only
  by_cases hm : b.length % U = 0
  · have hg : gap b.length U = 0 := by unfold gap; rw [if_pos hm]
    rw [if_pos (by omega)]
    have h0 : (b.length - 1) / 2 = 0 := by omega
    rw [h0]
    simp [pySlice]
  · have hg : gap b.length U = U - b.length % U := by unfold gap; rw [if_neg hm]
    have hlt := Nat.mod_lt b.length hU
    rw [if_neg (by omega), ← hg]
    congr 1
    unfold pySlice
    simp only
    rw [if_neg (by omega), if_neg (by omega)]
    rw [Nat.sub_eq_zero_of_le (min_le_min_right _ (by omega)), List.take_zero]

example : upsample ([1, 2, 3] : List ℚ) [1, 2, 1] 2 = .ok [] := by decide +kernel

end Verif.Polyphase
