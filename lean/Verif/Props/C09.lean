import Verif.Lemmas.BlockFIR
import Mathlib.Tactic.NormNum
import Mathlib.Analysis.SpecialFunctions.Trigonometric.Basic

/-!
# C09: overlap-save block filter

The full property is false when the transform length is odd, because `irfft` is called
without the length.  For even transform lengths it holds.
-/

namespace Verif.BlockFIR

open DFT

/-- **C09**, what holds: for all taps and block sizes for which the transform length
`next_fast_len(len(fir) + B)` is even, after every history of calls (any interleaving of
channels, resets, new `prepare` calls) the block returned by `process_block` is the
corresponding section of the linear convolution of the channel's concatenated blocks
with the taps. Missing: odd transform lengths. -/
theorem C09_overlap_save_partial (fir : List ℝ) (hfir : fir ≠ []) (B : ℕ) (hB : 0 < B)
    (he : Even (nextFastLen (fir.length + B)))
    (h : List (Op (Fin B → ℝ))) (b : Fin B → ℝ) (ch : ℕ) :
    (overlapSave fir B).answer h b ch =
      if ch < nChannels h then .ok (convBlock fir (pastInputs ch h) b)
      else .error .indexError := by
  unfold overlapSave
  rw [Column.lift_answer, overlapSave_out fir hfir B hB he]

/-- The hypothesis is met e.g. whenever `len(fir) + B` is twice a number without prime
factors above 5. -/
theorem C09_even_total (n : ℕ) (hs : Smooth n) : Even (nextFastLen (2 * n)) := by
  obtain ⟨a, b, c, rfl⟩ := hs
  rw [nextFastLen_eq _ ⟨a + 1, b, c, by rw [pow_succ]; ac_rfl⟩]
  exact even_two_mul _

/-- **C09** is false in general: with the taps `[1, 0]` and blocks of one sample the
transform length is 3 and the first output for the input 1 is 3/4 instead of 1. -/
theorem C09_odd_length_false :
    (overlapSave [1, 0] 1).answer [] (fun _ => 1) 0 = .ok (fun _ => 3 / 4) ∧
    convBlock ([1, 0] : List ℝ) [] (fun _ : Fin 1 => (1 : ℝ)) = fun _ => 1 := by
  constructor
  · unfold overlapSave
    rw [Column.lift_answer, if_pos (by simp [nChannels])]
    congr 1
    funext i
    have hN : totalLength [1, 0] 1 = 3 := nextFastLen_eq 3 ⟨0, 1, 0, by norm_num⟩
    have hdef : (overlapSaveColumn [1, 0] 1).out (pastInputs 0 []) (fun _ => 1) i
      = irfft (irfftLen (rfftBins (totalLength [1, 0] 1)))
        (fun k => rfft (totalLength [1, 0] 1) (loadBlock (totalLength [1, 0] 1)
            (fun _ => 0) (fun _ : Fin 1 => (1 : ℝ))) k
          * rfft (totalLength [1, 0] 1) (fun m => ([1, 0] : List ℝ).getD m 0) k)
        (irfftLen (rfftBins (totalLength [1, 0] 1)) - 1 + i) := rfl
    rw [hdef, hN]
    have hi : (i : ℕ) = 0 := by omega
    have hlen : irfftLen (rfftBins 3) = 2 := rfl
    rw [hi, hlen]
    have hcos : (e 3 (-2)).re = -(1 / 2) := by
      unfold e
      have : (2 * Real.pi * Complex.I * (((-2 : ℤ) : ℂ) / ((3 : ℕ) : ℂ)))
          = ((-(Real.pi + Real.pi / 3) : ℝ) : ℂ) * Complex.I := by
        push_cast; ring
      rw [this, Complex.exp_ofReal_mul_I_re, Real.cos_neg, add_comm, Real.cos_add_pi,
        Real.cos_pi_div_three]
    have he2 : e 2 1 = -1 := by
      unfold e
      rw [← Complex.exp_pi_mul_I]
      congr 1
      push_cast
      ring
    have h0 : loadBlock 3 (fun _ => 0) (fun _ : Fin 1 => (1 : ℝ)) 0 = 0 := by simp [loadBlock]
    have h1 : loadBlock 3 (fun _ => 0) (fun _ : Fin 1 => (1 : ℝ)) 1 = 0 := by simp [loadBlock]
    have h2 : loadBlock 3 (fun _ => 0) (fun _ : Fin 1 => (1 : ℝ)) 2 = 1 := by simp [loadBlock]
    simp only [irfft, Finset.sum_range_succ, Finset.sum_range_zero, herm, rfft, dft, h0, h1, h2]
    simp [e_zero, he2]
    rw [hcos]
    norm_num
  · funext i
    simp [convBlock, samples, tapSum, Finset.sum_range_succ]

/-- Three taps and blocks of five samples meet the hypotheses. -/
example : Even (nextFastLen (([1, 2, 3] : List ℝ).length + 5)) :=
  C09_even_total 4 ⟨2, 0, 0, by norm_num⟩

end Verif.BlockFIR
