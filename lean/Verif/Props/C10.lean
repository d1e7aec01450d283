import Verif.Lemmas.BlockFIR
import Verif.Lemmas.SignalData
import Mathlib.Tactic.NormNum

/-!
# C10: uniformly partitioned block filters

`FIRUniformPartitioned` is correct as long as only one channel is used; with several
channels the shared `buffer_ind` makes it wrong.  `FIRUniformPartitionedMultichannel`
is correct as long as no coefficient is larger than one in magnitude; otherwise its constructor
normalises the coefficients.
-/

namespace Verif.BlockFIR

open DFT

/-- **C10**, one channel: for all taps, block sizes and histories in which, since the
last reset or `prepare`, no block was sent to another channel, `process_block` returns
the corresponding section of the linear convolution.
Missing for the full property: several channels in turn (see the counterexample). -/
theorem C10_partitioned_partial (fir : List ℝ) (B : ℕ) (hB : 0 < B)
    (h : List (Op (Fin B → ℝ))) (b : Fin B → ℝ) (ch : ℕ)
    (hsingle : ∀ c, c ≠ ch → pastInputs c h = []) :
    (uniformPartitioned fir B).answer h b ch =
      if ch < nChannels h then .ok (convBlock fir (pastInputs ch h) b)
      else .error .indexError := by
  obtain ⟨s, hs, hn, -, hI⟩ := part_after fir B h
  unfold RTFilter.answer
  rw [hs, ← hn]
  split
  · rename_i hc
    rw [congrArg Prod.fst (part_process_pos fir B s b ch hc),
      partStep_out fir hB _ _ _ _ b (hI ch hsingle)]
  · rename_i hc
    rw [congrArg Prod.fst (part_process_neg fir B s b ch hc)]

/-- **C10**, multichannel version with its stored coefficients: for all filters (one per
channel, of equal length), block sizes and sequences of blocks, every channel of the returned block is the
corresponding section of the linear convolution of that channel. -/
theorem C10_multichannel (firs : ℕ → List ℝ) (B : ℕ) (hB : 0 < B)
    (hlen : ∀ c, (firs c).length = (firs 0).length) (bs : List (ℕ → Fin B → ℝ))
    (b : ℕ → Fin B → ℝ) (c : ℕ) :
    (multichannelColumn firs B).out bs b c = convBlock (firs c) (bs.map (· c)) (b c) :=
  partStep_out (firs c) hB _ _ _ _ (b c) (multichannel_inv firs B hlen bs c)

theorem multichannelInit_ok (x : SignalData.Input ℝ) (h : x.cols ≤ x.rows)
    (h1 : ¬(x.rows = 1 ∧ x.cols = 1)) (h2 : 1 ≤ x.cols) :
    ∃ firs, multichannelInit x = .ok firs ∧ (∀ c, (firs c).length = x.rows) ∧
      ∀ c < x.cols, firs c = (SignalData.colOf x.reMat c).map
        (· * if 1 < SignalData.peak x then 1 / SignalData.peak x else 1) := by
  obtain ⟨s, hs, -, hshape, hscale, hre, -, -⟩ := SignalData.setData_scaled
    ⟨⟨0, 0, fun _ _ => 0⟩, none, true, 1⟩ x h h1 h2
  refine ⟨SignalData.colOf s.re, ?_, fun c => ?_, fun c hc => ?_⟩
  · unfold multichannelInit SignalData.construct
    rw [hs]
  · rw [SignalData.colOf_length, hshape.1]
  · unfold SignalData.colOf
    rw [hshape.1, List.map_map]
    refine List.map_congr_left fun r hr => ?_
    have hr := List.mem_range.mp hr
    have := hre r hr c hc
    rw [hscale] at this
    simp only [true_and] at this
    simp only [SignalData.State.sample, hshape.1, hshape.2, hr, hc, and_self, if_true] at this
    rw [this, mul_comm]
    rfl

/-- **C10** for an object built from an array of coefficients, none of them larger than one in
magnitude: every channel is filtered with the column of the array.
Missing for the full property: larger coefficients, see the next theorem. -/
theorem C10_multichannel_object_partial (x : SignalData.Input ℝ) (B : ℕ) (hB : 0 < B)
    (h : x.cols ≤ x.rows) (h1 : ¬(x.rows = 1 ∧ x.cols = 1)) (h2 : 1 ≤ x.cols)
    (hp : SignalData.peak x ≤ 1) :
    ∃ firs, multichannelInit x = .ok firs ∧
      ∀ (bs : List (ℕ → Fin B → ℝ)) (b : ℕ → Fin B → ℝ), ∀ c < x.cols,
        (multichannelColumn firs B).out bs b c =
          convBlock (SignalData.colOf x.reMat c) (bs.map (· c)) (b c) := by
  obtain ⟨firs, hf, hl, hv⟩ := multichannelInit_ok x h h1 h2
  refine ⟨firs, hf, fun bs b c hc => ?_⟩
  rw [C10_multichannel firs B hB (fun c => by rw [hl, hl]), hv c hc, if_neg (not_lt.mpr hp)]
  simp

/-- **C10** is false for objects with a coefficient larger than one: the filter that is applied is
the one given divided by its peak. -/
theorem C10_multichannel_normalised_false (x : SignalData.Input ℝ) (B : ℕ) (hB : 0 < B)
    (h : x.cols ≤ x.rows) (h1 : ¬(x.rows = 1 ∧ x.cols = 1)) (h2 : 1 ≤ x.cols)
    (hp : 1 < SignalData.peak x) :
    ∃ firs, multichannelInit x = .ok firs ∧
      ∀ (bs : List (ℕ → Fin B → ℝ)) (b : ℕ → Fin B → ℝ), ∀ c < x.cols,
        (multichannelColumn firs B).out bs b c =
          convBlock ((SignalData.colOf x.reMat c).map (· * (1 / SignalData.peak x)))
            (bs.map (· c)) (b c) := by
  obtain ⟨firs, hf, hl, hv⟩ := multichannelInit_ok x h h1 h2
  refine ⟨firs, hf, fun bs b c hc => ?_⟩
  rw [C10_multichannel firs B hB (fun c => by rw [hl, hl]), hv c hc, if_pos hp]

/-- Concrete coefficients above one: taps 2 and 0 in one channel. -/
example : (1 : ℝ) < SignalData.peak ⟨2, 1, fun r _ => if r = 0 then 2 else 0, none⟩ := by
  refine lt_of_lt_of_le (b := |(2 : ℝ)|) (by norm_num) ?_
  show _ ≤ SignalData.maxAbs ⟨2, 1, fun r _ => if r = 0 then (2 : ℝ) else 0⟩
  unfold SignalData.maxAbs
  rw [Finset.le_fold_max]
  exact Or.inr ⟨(0, 0), by simp, by simp⟩

theorem irfft_zero (n j : ℕ) : irfft n (fun _ => 0) j = 0 := by
  have : ∀ k, herm n (fun _ => 0) k = 0 := by
    intro k
    unfold herm
    split
    · simp
    · split
      · rfl
      · split <;> simp
  unfold irfft
  simp [this]

/-- **C10** is false for several channels: taps `[1, 1]`, blocks of one sample, two
channels.  Channel 0 receives 1, channel 1 receives 0, channel 0 receives 0: the last
output is 0 although the convolution gives 1. -/
theorem C10_two_channels_false :
    (uniformPartitioned [1, 1] 1).answer
        [.setChannels 2, .sample (fun _ => 1) 0, .sample (fun _ => 0) 1] (fun _ => 0) 0
      = .ok (fun _ => 0) ∧
    convBlock ([1, 1] : List ℝ) (pastInputs 0
        ([.setChannels 2, .sample (fun _ => 1) 0, .sample (fun _ => 0) 1] :
          List (Op (Fin 1 → ℝ)))) (fun _ => 0) = fun _ => 1 := by
  constructor
  · set s0 : PartState := ⟨2, 0, fun _ _ _ => 0, fun _ _ => 0⟩ with hs0
    set s1 : PartState := ⟨2, 1, fun c => if c = 0 then
        (partStep [1, 1] 0 (fun _ _ => 0) (fun _ => 0) (fun _ : Fin 1 => (1 : ℝ))).2.1
        else fun _ _ => 0, fun c => if c = 0 then
        (partStep [1, 1] 0 (fun _ _ => 0) (fun _ => 0) (fun _ : Fin 1 => (1 : ℝ))).2.2
        else fun _ => 0⟩ with hs1
    have e1 : (uniformPartitioned [1, 1] 1).process s0 (fun _ => 1) 0 = (_, s1) :=
      part_process_pos [1, 1] 1 s0 (fun _ => 1) 0 (by simp [hs0])
    have e2 := part_process_pos [1, 1] 1 s1 (fun _ => 0) 1 (by simp [hs1])
    have ha : (uniformPartitioned [1, 1] 1).answer
        [.setChannels 2, .sample (fun _ => 1) 0, .sample (fun _ => 0) 1] (fun _ => 0) 0
      = ((uniformPartitioned [1, 1] 1).process
          ((uniformPartitioned [1, 1] 1).process
            ((uniformPartitioned [1, 1] 1).process s0 (fun _ => 1) 0).2
              (fun _ => 0) 1).2 (fun _ => 0) 0).1 := rfl
    rw [ha, e1, e2]
    rw [part_process_pos _ _ _ _ _ (by simp [hs1])]
    simp only
    congr 1
    funext i
    have hP : nPartitions [1, 1] 1 = 3 := rfl
    simp only [partStep, hP, hs1]
    rw [show irfftLen (rfftBins (2 * 1)) = 2 from rfl, irfft_sum]
    simp only [Finset.sum_range_succ, Finset.sum_range_zero, zero_add]
    have t0 : ∀ (inb : ℕ → ℝ), inb 1 = 0 → irfft 2 (fun k => rfft (2 * 1) (partition [1, 1] 1 0) k
        * rfft (2 * 1) inb k) 1 = 0 := by
      intro inb hinb
      rw [show (2 * 1 : ℕ) = 2 from rfl]
      have := irfft_mul 2 (by norm_num) (by decide) inb (partition [1, 1] 1 0) 1
      rw [irfft_congr _ _ _ (fun k => mul_comm _ _), this]
      simp [partition, hinb]
    have t2 : rfft (2 * 1) (partition [1, 1] 1 2) = fun _ => 0 := by
      rw [rfft_congr _ _ (fun _ => 0), rfft_zero]
      intro j _
      simp only [partition]
      split
      · rw [List.getD_eq_default _ _ (by simp)]
      · rfl
    simp [t2, irfft_zero]
    exact t0 _ (by simp)
  · funext i
    simp [convBlock, samples, tapSum, Finset.sum_range_succ, pastInputs]

/-- A history that uses channel 1 of two channels only, with a reset in between. -/
example : ∀ c, c ≠ 1 → pastInputs c
    ([.setChannels 2, .sample (fun _ => 1) 0, .reset, .sample (fun _ => 2) 1,
      .sample (fun _ => 3) 1] : List (Op (Fin 2 → ℝ))) = [] := by
  intro c hc
  simp [pastInputs, Ne.symm hc]

end Verif.BlockFIR
