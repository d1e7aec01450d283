import Verif.Model.Chroma
import Verif.Props.C70
import Verif.Lemmas.LFilter

/-!
# C142: chroma features, log mel spectrogram and MFCC
-/

namespace Verif.Chroma

open Finset

/-! ### Chroma -/

/-- The pitch of a positive frequency in semitones, as a MIDI number: A4 is 69. -/
noncomputable def semitone (tuning f : ℝ) : ℝ := 69 + 12 * Real.logb 2 (f / tuning)

/-- The bin at frequency `f` sounds as the note `p`: it lies less than a quarter tone from it (the lower limit counts). -/
def Sounds (tuning f : ℝ) (p : ℕ) : Prop :=
  0 < f ∧ (p : ℝ) - 1 / 2 ≤ semitone tuning f ∧ semitone tuning f < p + 1 / 2

theorem sounds_unique (tuning f : ℝ) (p q : ℕ) (hp : Sounds tuning f p) (hq : Sounds tuning f q) : p = q := by
  obtain ⟨_, h1, h2⟩ := hp
  obtain ⟨_, h3, h4⟩ := hq
  have h5 : (p : ℝ) < q + 1 := by linarith
  have h6 : (q : ℝ) < p + 1 := by linarith
  have h5 : p < q + 1 := by exact_mod_cast h5
  have h6 : q < p + 1 := by exact_mod_cast h6
  omega

theorem sounds_iff (tuning f : ℝ) (ht : 0 < tuning) (p : ℕ) :
    (f ≥ pitchFrequency tuning p * 2 ^ (-1 / 24 : ℝ) ∧ f < pitchFrequency tuning p * 2 ^ (1 / 24 : ℝ)) ↔
      Sounds tuning f p := by
  have h2 : (0 : ℝ) < 2 := by norm_num
  have hlo : pitchFrequency tuning p * 2 ^ (-1 / 24 : ℝ) = tuning * 2 ^ (((p : ℝ) - 1 / 2 - 69) / 12) := by
    unfold pitchFrequency
    rw [mul_assoc, ← Real.rpow_add h2]
    congr 2
    ring
  have hhi : pitchFrequency tuning p * 2 ^ (1 / 24 : ℝ) = tuning * 2 ^ (((p : ℝ) + 1 / 2 - 69) / 12) := by
    unfold pitchFrequency
    rw [mul_assoc, ← Real.rpow_add h2]
    congr 2
    ring
  rw [hlo, hhi]
  by_cases hf : 0 < f
  · have hq : 0 < f / tuning := div_pos hf ht
    have h1 : tuning * 2 ^ (((p : ℝ) - 1 / 2 - 69) / 12) ≤ f ↔ (p : ℝ) - 1 / 2 ≤ semitone tuning f := by
      unfold semitone
      rw [← le_div_iff₀' ht, ← Real.le_logb_iff_rpow_le (by norm_num) hq]
      constructor <;> intro h <;> linarith
    have h3 : f < tuning * 2 ^ (((p : ℝ) + 1 / 2 - 69) / 12) ↔ semitone tuning f < p + 1 / 2 := by
      unfold semitone
      rw [← div_lt_iff₀' ht, ← Real.logb_lt_iff_lt_rpow (by norm_num) hq]
      constructor <;> intro h <;> linarith
    unfold Sounds
    rw [ge_iff_le, h1, h3]
    exact ⟨fun h => ⟨hf, h⟩, fun h => h.2⟩
  · have : 0 < tuning * 2 ^ (((p : ℝ) - 1 / 2 - 69) / 12) := by positivity
    constructor
    · intro h
      exact absurd (lt_of_lt_of_le this h.1) hf
    · intro h
      exact absurd h.1 hf

open Classical in
theorem pitchMatrix_eq (tuning : ℝ) (ht : 0 < tuning) (f : ℕ → ℝ) (p k : ℕ) :
    pitchMatrix tuning f p k = if Sounds tuning (f k) p then 1 else 0 := by
  unfold pitchMatrix
  by_cases h : Sounds tuning (f k) p
  · rw [if_pos h, if_pos ((sounds_iff tuning (f k) ht p).2 h)]
  · rw [if_neg h, if_neg (fun h' => h ((sounds_iff tuning (f k) ht p).1 h'))]

theorem energy_nonneg (X : ℕ → ℂ) (k : ℕ) : 0 ≤ energy X k := by
  unfold energy
  positivity

open Classical in
theorem pitchEnergy_eq (tuning : ℝ) (ht : 0 < tuning) (n : ℕ) (f : ℕ → ℝ) (X : ℕ → ℂ) (p : ℕ) :
    pitchEnergy tuning n f X p = ∑ k ∈ (range n).filter (fun k => Sounds tuning (f k) p), ‖X k‖ ^ 2 := by
  unfold pitchEnergy
  rw [Finset.sum_filter]
  refine Finset.sum_congr rfl fun k _ => ?_
  rw [pitchMatrix_eq tuning ht]
  unfold energy
  split_ifs <;> simp

theorem chromaMatrix_eq (i p : ℕ) (hi : i < 12) : chromaMatrix i p = if p % 12 = i then 1 else 0 := by
  unfold chromaMatrix
  by_cases h : p % 12 = i
  · rw [if_pos h, if_pos (by omega)]
  · rw [if_neg h, if_neg (by omega)]

open Classical in
theorem chromaEnergy_eq (tuning : ℝ) (ht : 0 < tuning) (n : ℕ) (f : ℕ → ℝ) (X : ℕ → ℂ) (i : ℕ) (hi : i < 12) :
    chromaEnergy tuning n f X i =
      ∑ k ∈ (range n).filter (fun k => ∃ p < 128, p % 12 = i ∧ Sounds tuning (f k) p), ‖X k‖ ^ 2 := by
  unfold chromaEnergy pitchEnergy
  simp only [Finset.mul_sum]
  rw [Finset.sum_comm, Finset.sum_filter]
  refine Finset.sum_congr rfl fun k _ => ?_
  by_cases h : ∃ p < 128, p % 12 = i ∧ Sounds tuning (f k) p
  · rw [if_pos h]
    obtain ⟨p, hp, hpi, hs⟩ := h
    rw [Finset.sum_eq_single p]
    · rw [chromaMatrix_eq i p hi, if_pos hpi, pitchMatrix_eq tuning ht, if_pos hs]
      simp [energy]
    · intro q _ hq
      rw [pitchMatrix_eq tuning ht, if_neg (fun hs' => hq (sounds_unique _ _ _ _ hs' hs))]
      simp
    · intro hp'
      exact absurd (Finset.mem_range.2 hp) hp'
  · rw [if_neg h]
    refine Finset.sum_eq_zero fun p hp => ?_
    rw [chromaMatrix_eq i p hi, pitchMatrix_eq tuning ht]
    by_cases h1 : p % 12 = i
    · rw [if_neg (fun hs => h ⟨p, Finset.mem_range.1 hp, h1, hs⟩)]
      simp
    · rw [if_neg h1]
      simp

open Classical in
/-- **C142**: chroma features exist exactly for a positive tuning and compression.  The pitch feature of note `p` is the
compressed energy of the bins that sound as `p`, the chroma feature `i` that of the bins that sound as a note of the class `i` in
any octave: every bin counts for at most one note. -/
theorem C142_features (tuning compression : ℝ) (n : ℕ) (f : ℕ → ℝ) (X : ℕ → ℂ) :
    (¬ (0 < tuning ∧ 0 < compression) → chromaStft tuning compression n f X = .error .assertionError) ∧
    (0 < tuning ∧ 0 < compression → ∃ F, chromaStft tuning compression n f X = .ok F ∧
      (∀ p < 128, F.pitch p = Real.log (1 + compression *
        ∑ k ∈ (range n).filter (fun k => Sounds tuning (f k) p), ‖X k‖ ^ 2)) ∧
      ∀ i < 12, F.chroma i = Real.log (1 + compression *
        ∑ k ∈ (range n).filter (fun k => ∃ p < 128, p % 12 = i ∧ Sounds tuning (f k) p), ‖X k‖ ^ 2)) := by
  unfold chromaStft
  constructor
  · intro h
    by_cases ht : 0 < tuning
    · rw [if_neg (not_not.2 ht), if_pos (fun hc => h ⟨ht, hc⟩)]
    · rw [if_pos ht]
  · rintro ⟨ht, hc⟩
    rw [if_neg (not_not.2 ht), if_neg (not_not.2 hc)]
    refine ⟨_, rfl, fun p _ => ?_, fun i hi => ?_⟩
    · dsimp only
      rw [pitchEnergy_eq tuning ht]
    · dsimp only
      rw [chromaEnergy_eq tuning ht n f X i hi]

/-- Every frequency from the quarter tone below pitch 0 to the quarter tone above pitch 127 sounds as a note. -/
theorem sounds_exists (tuning f : ℝ) (hf : 0 < f) (h0 : -(1 / 2) ≤ semitone tuning f)
    (h1 : semitone tuning f < 127 + 1 / 2) : ∃ p < 128, Sounds tuning f p := by
  have h : 0 ≤ semitone tuning f + 1 / 2 := by linarith
  refine ⟨⌊semitone tuning f + 1 / 2⌋₊, ?_, hf, ?_, ?_⟩
  · rw [Nat.floor_lt h]
    norm_num
    linarith
  · have := Nat.floor_le h
    linarith
  · have := Nat.lt_floor_add_one (semitone tuning f + 1 / 2)
    linarith

open Classical in
/-- **C142**: the energy of the bins between the lowest and the highest note is shared out among the twelve classes without
loss or double counting. -/
theorem C142_energy (tuning compression : ℝ) (ht : 0 < tuning) (hc : 0 < compression) (n : ℕ) (f : ℕ → ℝ)
    (X : ℕ → ℂ) : ∃ F, chromaStft tuning compression n f X = .ok F ∧
      ∑ i ∈ range 12, (Real.exp (F.chroma i) - 1) / compression =
        ∑ k ∈ (range n).filter (fun k => 0 < f k ∧ -(1 / 2) ≤ semitone tuning (f k) ∧
          semitone tuning (f k) < 127 + 1 / 2), ‖X k‖ ^ 2 := by
  obtain ⟨F, hF, -, hch⟩ := (C142_features tuning compression n f X).2 ⟨ht, hc⟩
  refine ⟨F, hF, ?_⟩
  have h1 : ∀ i ∈ range 12, (Real.exp (F.chroma i) - 1) / compression =
      ∑ k ∈ range n, if ∃ p < 128, p % 12 = i ∧ Sounds tuning (f k) p then ‖X k‖ ^ 2 else 0 := by
    intro i hi
    rw [hch i (Finset.mem_range.1 hi), Real.exp_log]
    · rw [add_sub_cancel_left, mul_div_cancel_left₀ _ hc.ne', Finset.sum_filter]
    · have : 0 ≤ ∑ k ∈ (range n).filter (fun k => ∃ p < 128, p % 12 = i ∧ Sounds tuning (f k) p), ‖X k‖ ^ 2 :=
        Finset.sum_nonneg fun k _ => by positivity
      positivity
  rw [Finset.sum_congr rfl h1, Finset.sum_comm, Finset.sum_filter]
  refine Finset.sum_congr rfl fun k _ => ?_
  by_cases h : 0 < f k ∧ -(1 / 2) ≤ semitone tuning (f k) ∧ semitone tuning (f k) < 127 + 1 / 2
  · rw [if_pos h]
    obtain ⟨p, hp, hs⟩ := sounds_exists tuning (f k) h.1 h.2.1 h.2.2
    rw [Finset.sum_eq_single (p % 12)]
    · rw [if_pos ⟨p, hp, rfl, hs⟩]
    · intro i _ hi
      rw [if_neg]
      rintro ⟨q, _, hqi, hs'⟩
      rw [sounds_unique _ _ _ _ hs' hs] at hqi
      exact hi hqi.symm
    · intro h'
      exact absurd (Finset.mem_range.2 (Nat.mod_lt _ (by norm_num))) h'
  · rw [if_neg h]
    refine Finset.sum_eq_zero fun i _ => ?_
    rw [if_neg]
    rintro ⟨p, hp, _, hs0, hs1, hs2⟩
    have hp0 : p ≤ 127 := by omega
    have hp1 : (p : ℝ) ≤ 127 := by exact_mod_cast hp0
    have hp2 : (0 : ℝ) ≤ p := Nat.cast_nonneg p
    exact h ⟨hs0, by linarith, by linarith⟩

/-- The tuning tone itself sounds as pitch 69, of the class 9 (A). -/
example : Sounds 440 440 69 ∧ 69 % 12 = 9 := by
  refine ⟨⟨by norm_num, ?_, ?_⟩, rfl⟩ <;> simp [semitone]

theorem sounds_double (tuning f : ℝ) (ht : 0 < tuning) (p : ℕ) :
    Sounds tuning (2 * f) (p + 12) ↔ Sounds tuning f p := by
  unfold Sounds
  by_cases hf : 0 < f
  · have : semitone tuning (2 * f) = semitone tuning f + 12 := by
      unfold semitone
      rw [mul_div_assoc, Real.logb_mul (by norm_num) (div_pos hf ht).ne', Real.logb_self_eq_one (by norm_num)]
      ring
    rw [this]
    push_cast
    constructor
    · rintro ⟨_, h1, h2⟩
      exact ⟨hf, by linarith, by linarith⟩
    · rintro ⟨_, h1, h2⟩
      exact ⟨by linarith, by linarith, by linarith⟩
  · constructor
    · rintro ⟨h, _⟩
      exact absurd (by linarith) hf
    · rintro ⟨h, _⟩
      exact absurd h hf

/-- **C142**: octaves do not matter: when all frequencies are doubled, the chroma features stay, as long as no sounding bin
is among the highest twelve notes before, or below the lowest twelve after. -/
theorem C142_octave (tuning compression : ℝ) (n : ℕ) (f : ℕ → ℝ) (X : ℕ → ℂ)
    (hf : ∀ k < n, X k ≠ 0 → 0 < f k ∧ -(1 / 2) ≤ semitone tuning (f k) ∧
      semitone tuning (f k) < 115 + 1 / 2) (F G : Features)
    (hF : chromaStft tuning compression n f X = .ok F)
    (hG : chromaStft tuning compression n (fun k => 2 * f k) X = .ok G) (i : ℕ) (hi : i < 12) :
    G.chroma i = F.chroma i := by
  classical
  have hpos : 0 < tuning ∧ 0 < compression := by
    by_contra h
    rw [(C142_features tuning compression n f X).1 h] at hF
    cases hF
  obtain ⟨F', hF', -, hFc⟩ := (C142_features tuning compression n f X).2 hpos
  obtain ⟨G', hG', -, hGc⟩ := (C142_features tuning compression n (fun k => 2 * f k) X).2 hpos
  rw [hF] at hF'
  rw [hG] at hG'
  cases hF'
  cases hG'
  rw [hFc i hi, hGc i hi, Finset.sum_filter, Finset.sum_filter]
  congr 3
  refine Finset.sum_congr rfl fun k hk => ?_
  by_cases hX : X k = 0
  · simp [hX]
  obtain ⟨h0, h1, h2⟩ := hf k (Finset.mem_range.1 hk) hX
  obtain ⟨p, hp, hs⟩ := sounds_exists tuning (f k) h0 h1 (by linarith)
  have hp' : p < 116 := by
    have : (p : ℝ) < 116 := by linarith [hs.2.1]
    exact_mod_cast this
  have hs' := (sounds_double tuning (f k) hpos.1 p).2 hs
  have he : (∃ p < 128, p % 12 = i ∧ Sounds tuning (2 * f k) p) ↔
      ∃ p < 128, p % 12 = i ∧ Sounds tuning (f k) p := by
    constructor
    · rintro ⟨q, hq, hqi, hqs⟩
      have := sounds_unique _ _ _ _ hqs hs'
      exact ⟨p, hp, by omega, hs⟩
    · rintro ⟨q, hq, hqi, hqs⟩
      have := sounds_unique _ _ _ _ hqs hs
      exact ⟨p + 12, by omega, by omega, hs'⟩
  by_cases h : ∃ p < 128, p % 12 = i ∧ Sounds tuning (f k) p
  · rw [if_pos (he.2 h), if_pos h]
  · rw [if_neg (fun h' => h (he.1 h')), if_neg h]

/-- A tone at 440 Hz meets the hypotheses. -/
example : (0 : ℝ) < 440 ∧ -(1 / 2) ≤ semitone 440 440 ∧ semitone 440 440 < 115 + 1 / 2 := by
  have : semitone 440 440 = 69 := by simp [semitone]
  rw [this]
  norm_num

/-- **C142**, not so: every tone has a chroma.  A signal whose bins lie more than 58 semitones and a quarter tone above A4
(12.9 kHz) has none at all. -/
theorem C142_high_wrong (tuning compression : ℝ) (n : ℕ) (f : ℕ → ℝ) (X : ℕ → ℂ)
    (hf : ∀ k < n, 127 + 1 / 2 ≤ semitone tuning (f k)) (F : Features)
    (hF : chromaStft tuning compression n f X = .ok F) (i : ℕ) (hi : i < 12) : F.chroma i = 0 := by
  classical
  have hpos : 0 < tuning ∧ 0 < compression := by
    by_contra h
    rw [(C142_features tuning compression n f X).1 h] at hF
    cases hF
  obtain ⟨F', hF', -, hFc⟩ := (C142_features tuning compression n f X).2 hpos
  rw [hF] at hF'
  cases hF'
  have hno : ∀ k < n, ¬ ∃ p < 128, p % 12 = i ∧ Sounds tuning (f k) p := by
    rintro k hk ⟨p, hp, -, hs⟩
    have hp0 : p ≤ 127 := by omega
    have hp1 : (p : ℝ) ≤ 127 := by exact_mod_cast hp0
    exact absurd (hf k hk) (by linarith [hs.2.2])
  rw [hFc i hi, Finset.sum_filter, Finset.sum_eq_zero]
  · simp
  · intro k hk
    rw [if_neg (hno k (Finset.mem_range.1 hk))]

/-- Five octaves above A4 (14.08 kHz). -/
example : 127 + 1 / 2 ≤ semitone 440 (440 * 2 ^ 5) := by
  unfold semitone
  rw [mul_div_cancel_left₀ _ (by norm_num), Real.logb_pow, Real.logb_self_eq_one (by norm_num)]
  norm_num

/-- **C142**, not so: the first pitch is C0, four octaves and nine semitones below A4.  It is an octave lower. -/
theorem C142_first_pitch_wrong (tuning : ℝ) :
    pitchFrequency tuning 0 = tuning * 2 ^ (-(4 * 12 + 9) / 12 : ℝ) / 2 := by
  unfold pitchFrequency
  rw [mul_div_assoc]
  congr 1
  rw [eq_div_iff (by norm_num)]
  nth_rewrite 2 [show (2 : ℝ) = 2 ^ (1 : ℝ) by simp]
  rw [← Real.rpow_add (by norm_num)]
  congr 1
  norm_num

/-! ### Mel spectrogram -/

open Mel Verif.Props.C70 in
/-- **C142**: for every frequency vector and range, the log mel spectrogram has the levels of the triangles of the mel filter
bank: the level of a resolved band is that of a weighted mean of the energies of the bins, with weights that are not negative and
add up to 1. -/
theorem C142_log_mel (f : List ℝ) (hf : Frequencies f) (range : Option (ℝ × ℝ)) (hr : Within f range) (bands : ℕ)
    (X : ℕ → ℂ) : ∃ B c L, filterbank f range bands true = .ok B ∧ logMel f range bands X = .ok (c, L) ∧
      c.length = bands ∧ L.length = bands ∧ (∀ b < bands, c.getD b 0 = B.centers b) ∧
      ∀ b < bands, (∃ k < f.length, B.val b k = none) ∧ L.getD b none = none ∨
        ∃ w : ℕ → ℝ, (∀ k < f.length, B.val b k = some (w k) ∧ 0 ≤ w k) ∧
          ∑ k ∈ Finset.range f.length, w k = 1 ∧
          L.getD b none = some (10 * Real.logb 10
            (max (∑ k ∈ Finset.range f.length, w k * ‖X k‖ ^ 2) Level.tiny)) := by
  obtain ⟨B, hB, -, -, -, corner, row, hnear, hmono, htri, -, hval⟩ := C70_filters f hf range hr bands true
  have hcl : logMel f range bands X = .ok ((List.range bands).map fun (b : ℕ) => B.centers b,
      (List.range bands).map fun (b : ℕ) => bandLevel f.length (B.val b) X) := by
    unfold logMel
    rw [hB]
  refine ⟨B, _, _, hB, hcl, by simp, by simp, fun b hb => by simp [List.getD_eq_getElem?_getD, hb], fun b hb => ?_⟩
  have hL : ((List.range bands).map fun (b : ℕ) => bandLevel f.length (B.val b) X).getD b none =
      bandLevel f.length (B.val b) X := by simp [List.getD_eq_getElem?_getD, hb]
  rw [hL]
  have h1 := hmono b (b + 1) (by omega) (by omega)
  have h2 := hmono (b + 1) (b + 2) (by omega) (by omega)
  have h3 := (hnear (b + 2) (by omega)).1
  obtain ⟨hres, hnot⟩ := C70_normalized_partial _ _ _ f.length h1 h2 h3 (row b) (htri b hb)
  by_cases hR : Resolved (corner b) (corner (b + 1)) (corner (b + 2))
  · obtain ⟨w, hw, hsum⟩ := hres hR
    right
    have hv : ∀ k < f.length, B.val b k = some (w k) := fun k hk => by rw [hval rfl b hb k hk, (hw k).1]
    refine ⟨w, fun k hk => ⟨hv k hk, (hw k).2.1⟩, hsum, ?_⟩
    unfold bandLevel bandEnergy
    rw [if_pos (fun k hk => by rw [hv k hk]; rfl)]
    simp only [Option.map_some, DecayCurve.powerDb]
    have : ∑ k ∈ Finset.range f.length, (B.val b k).getD 0 * energy X k =
        ∑ k ∈ Finset.range f.length, w k * ‖X k‖ ^ 2 := by
      refine Finset.sum_congr rfl fun k hk => ?_
      rw [hv k (Finset.mem_range.1 hk)]
      rfl
    rw [this, abs_of_nonneg (Finset.sum_nonneg fun k _ => mul_nonneg (hw k).2.1 (by positivity))]
  · left
    have hv : ∀ k < f.length, B.val b k = none := fun k hk => by rw [hval rfl b hb k hk, hnot hR]
    have h0 : 0 < f.length := by omega
    refine ⟨⟨0, h0, hv 0 h0⟩, ?_⟩
    unfold bandLevel bandEnergy
    rw [if_neg (fun h => by have := h 0 h0; rw [hv 0 h0] at this; cases this)]
    rfl

/-! ### MFCC -/

/-- The sum of a cosine over the points of the DCT. -/
theorem cos_sum (N k : ℕ) (hk : 0 < k) (hkN : k < N) :
    ∑ n ∈ range N, Real.cos (Real.pi * k * (2 * n + 1) / (2 * N)) = 0 := by
  have hN : (0 : ℝ) < N := by exact_mod_cast lt_of_le_of_lt (Nat.zero_le _) hkN
  have hs : Real.sin (Real.pi * k / (2 * N)) ≠ 0 := by
    refine (Real.sin_pos_of_pos_of_lt_pi ?_ ?_).ne'
    · have : (0 : ℝ) < k := by exact_mod_cast hk
      have := Real.pi_pos
      positivity
    · rw [div_lt_iff₀ (by positivity)]
      have : (k : ℝ) < N := by exact_mod_cast hkN
      have := Real.pi_pos
      nlinarith
  have ht : ∀ n ∈ range N, Real.cos (Real.pi * k * (2 * n + 1) / (2 * N)) * (2 * Real.sin (Real.pi * k / (2 * N))) =
      Real.sin (Real.pi * k * ((n + 1 : ℕ) : ℝ) / N) - Real.sin (Real.pi * k * (n : ℝ) / N) := by
    intro n _
    rw [Real.sin_sub_sin]
    push_cast
    rw [show (Real.pi * k * ((n : ℝ) + 1) / N - Real.pi * k * n / N) / 2 = Real.pi * k / (2 * N) by
      field_simp; ring,
      show (Real.pi * k * ((n : ℝ) + 1) / N + Real.pi * k * n / N) / 2 = Real.pi * k * (2 * n + 1) / (2 * N) by
      field_simp; ring]
    ring
  have h := Finset.sum_congr rfl ht
  rw [← Finset.sum_mul, Finset.sum_range_sub (fun n : ℕ => Real.sin (Real.pi * k * (n : ℝ) / N))] at h
  rw [mul_div_cancel_right₀ _ hN.ne', show Real.sin (Real.pi * k) = 0 by rw [mul_comm, Real.sin_nat_mul_pi]] at h
  simp only [Nat.cast_zero, mul_zero, zero_div, Real.sin_zero, sub_zero] at h
  rcases mul_eq_zero.1 h with h | h
  · exact h
  · exact absurd (by linarith) hs

theorem dct2_add_const (N : ℕ) (x : ℕ → ℝ) (c : ℝ) (k : ℕ) (hk : 0 < k) (hkN : k < N) :
    dct2 N (fun n => x n + c) k = dct2 N x k := by
  unfold dct2
  simp only [add_mul, Finset.sum_add_distrib, ← Finset.mul_sum]
  rw [cos_sum N k hk hkN]
  simp

/-- The level of band `b` of a matrix of mel filters. -/
noncomputable def levelOf (n : ℕ) (row : ℕ → ℝ) (X : ℕ → ℂ) : ℝ :=
  10 * Real.logb 10 (max |∑ k ∈ range n, row k * ‖X k‖ ^ 2| Level.tiny)

theorem coefficients_levels (N : ℕ) (L : ℕ → ℝ) :
    coefficients ((List.range N).map fun (b : ℕ) => some (L b)) =
      (List.range N).map fun (k : ℕ) => |dct2 N L k| := by
  unfold coefficients
  have hall : ((List.range N).map fun (b : ℕ) => some (L b)).all Option.isSome = true := by simp
  simp only [hall, if_true, List.length_map, List.length_range]
  refine List.map_congr_left fun k _ => ?_
  congr 1
  unfold dct2
  congr 1
  refine Finset.sum_congr rfl fun n hn => ?_
  have := Finset.mem_range.1 hn
  simp [List.getD_eq_getElem?_getD, this]

theorem mfcc_given (f : List ℝ) (M : Given) (X : ℕ → ℂ) (hM : M.bins = f.length) :
    mfcc f (some M) X = .ok ([0, (M.bands : ℝ)],
      (List.range M.bands).map fun (k : ℕ) => |dct2 M.bands (fun b => levelOf f.length (M.val b) X) k|) := by
  unfold mfcc
  dsimp only
  rw [if_neg (not_not.2 hM), ← coefficients_levels]
  congr 3
  refine List.map_congr_left fun b _ => ?_
  unfold bandLevel bandEnergy
  dsimp only
  rw [if_pos (by simp)]
  rfl

/-- **C142**: with given filters that match the bins, the coefficients are the absolute values of the cosine sums of the
levels in the bands; other filters are refused. -/
theorem C142_mfcc (f : List ℝ) (M : Given) (X : ℕ → ℂ) :
    (M.bins ≠ f.length → mfcc f (some M) X = .error .assertionError) ∧
    (M.bins = f.length → ∃ c, mfcc f (some M) X = .ok ([0, (M.bands : ℝ)], c) ∧ c.length = M.bands ∧
      ∀ k < M.bands, c.getD k 0 = |2 * ∑ b ∈ range M.bands,
        (10 * Real.logb 10 (max |∑ j ∈ range f.length, M.val b j * ‖X j‖ ^ 2| Level.tiny)) *
          Real.cos (Real.pi * k * (2 * b + 1) / (2 * M.bands))|) := by
  constructor
  · intro h
    unfold mfcc
    dsimp only
    rw [if_pos h]
  · intro h
    refine ⟨_, mfcc_given f M X h, by simp, fun k hk => ?_⟩
    rw [LFilter.getD_map_range, if_pos hk]
    rfl

/-- **C142**: a gain changes the first coefficient only, if no band is at the limit of the logarithm. -/
theorem C142_mfcc_gain (f : List ℝ) (M : Given) (X : ℕ → ℂ) (g : ℂ) (hM : M.bins = f.length)
    (h1 : ∀ b < M.bands, Level.tiny ≤ |∑ j ∈ range f.length, M.val b j * ‖X j‖ ^ 2|)
    (h2 : ∀ b < M.bands, Level.tiny ≤ ‖g‖ ^ 2 * |∑ j ∈ range f.length, M.val b j * ‖X j‖ ^ 2|) :
    ∃ c c', mfcc f (some M) X = .ok ([0, (M.bands : ℝ)], c) ∧
      mfcc f (some M) (fun j => g * X j) = .ok ([0, (M.bands : ℝ)], c') ∧
      ∀ k, 0 < k → k < M.bands → c'.getD k 0 = c.getD k 0 := by
  refine ⟨_, _, mfcc_given f M X hM, mfcc_given f M _ hM, fun k hk hkN => ?_⟩
  rw [LFilter.getD_map_range, if_pos hkN, LFilter.getD_map_range, if_pos hkN]
  congr 1
  rw [← dct2_add_const M.bands (fun b => levelOf f.length (M.val b) X) (10 * Real.logb 10 (‖g‖ ^ 2)) k hk hkN]
  unfold dct2
  congr 1
  refine Finset.sum_congr rfl fun b hb => ?_
  congr 1
  have hb := Finset.mem_range.1 hb
  have htiny : (0 : ℝ) < Level.tiny := by
    unfold Level.tiny
    positivity
  have hs : ∑ j ∈ range f.length, M.val b j * ‖g * X j‖ ^ 2 =
      ‖g‖ ^ 2 * ∑ j ∈ range f.length, M.val b j * ‖X j‖ ^ 2 := by
    rw [Finset.mul_sum]
    refine Finset.sum_congr rfl fun j _ => ?_
    rw [norm_mul]
    ring
  unfold levelOf
  dsimp only
  rw [hs, abs_mul, abs_of_nonneg (by positivity : 0 ≤ ‖g‖ ^ 2), max_eq_left (h1 b hb), max_eq_left (h2 b hb),
    Real.logb_mul ?_ ?_]
  · ring
  · intro h0
    have := h2 b hb
    rw [h0, zero_mul] at this
    linarith
  · intro h0
    have := h1 b hb
    rw [h0] at this
    linarith

/-- A band over one bin with energy 1, and a gain of 2. -/
example : Level.tiny ≤ |∑ _j ∈ range 1, (1 : ℝ) * ‖(1 : ℂ)‖ ^ 2| ∧
    Level.tiny ≤ ‖(2 : ℂ)‖ ^ 2 * |∑ _j ∈ range 1, (1 : ℝ) * ‖(1 : ℂ)‖ ^ 2| := by
  have : Level.tiny ≤ 1 := by
    unfold Level.tiny
    exact zpow_le_one_of_nonpos₀ (by norm_num) (by norm_num)
  constructor
  · simpa using this
  · simp
    linarith

theorem dct2_reverse (N : ℕ) (x : ℕ → ℝ) (k : ℕ) :
    dct2 N (fun n => x (N - 1 - n)) k = (-1) ^ k * dct2 N x k := by
  unfold dct2
  rw [← Finset.sum_range_reflect (fun n => x n * Real.cos (Real.pi * k * (2 * n + 1) / (2 * N))) N]
  rw [mul_left_comm]
  congr 1
  rw [Finset.mul_sum]
  refine Finset.sum_congr rfl fun n hn => ?_
  have hn := Finset.mem_range.1 hn
  have hN : (N : ℝ) ≠ 0 := by
    have : 0 < N := by omega
    positivity
  have hc : ((N - 1 - n : ℕ) : ℝ) = (N : ℝ) - 1 - n := by
    rw [Nat.cast_sub (by omega), Nat.cast_sub (by omega)]
    simp
  have he : Real.cos (Real.pi * k * (2 * ((N - 1 - n : ℕ) : ℝ) + 1) / (2 * N)) =
      (-1) ^ k * Real.cos (Real.pi * k * (2 * n + 1) / (2 * N)) := by
    rw [hc, show Real.pi * k * (2 * ((N : ℝ) - 1 - n) + 1) / (2 * N) =
      k * Real.pi - Real.pi * k * (2 * n + 1) / (2 * N) by field_simp; ring, Real.cos_nat_mul_pi_sub]
  rw [he]
  have : ((-1 : ℝ) ^ k) * (-1) ^ k = 1 := by
    rw [← mul_pow]
    simp
  linear_combination (- x (N - 1 - n) * Real.cos (Real.pi * k * (2 * n + 1) / (2 * N))) * this

/-- **C142**, not so: the coefficients describe the levels of the bands.  The sign is lost, and levels in the reversed
order have the same coefficients. -/
theorem C142_mirror_wrong (f : List ℝ) (M : Given) (X : ℕ → ℂ) :
    mfcc f (some ⟨M.bands, M.bins, fun b => M.val (M.bands - 1 - b)⟩) X = mfcc f (some M) X := by
  by_cases hM : M.bins = f.length
  · rw [mfcc_given f M X hM, mfcc_given f ⟨M.bands, M.bins, fun b => M.val (M.bands - 1 - b)⟩ X hM]
    dsimp only
    congr 2
    refine List.map_congr_left fun k _ => ?_
    rw [dct2_reverse M.bands (fun b => levelOf f.length (M.val b) X) k, abs_mul, abs_pow, abs_neg, abs_one,
      one_pow, one_mul]
  · unfold mfcc
    dsimp only
    rw [if_pos hM, if_pos hM]

open Mel Verif.Props.C70 in
/-- **C142**, not so: the filters computed automatically suit the spectrogram.  One band without a bin is nan, the
coefficients of all frames are then nan, and they are replaced by 0: whatever the signal, if the spectrogram has at most 20
bins. -/
theorem C142_unresolved_wrong (f : List ℝ) (hf : Frequencies f) (hl : f.length ≤ 20) (X : ℕ → ℂ) :
    ∃ c, mfcc f none X = .ok (c, List.replicate 40 0) := by
  have hw : Within f none := by
    refine ⟨hf.2.1, le_refl _⟩
  obtain ⟨B, hB, n, hn, hnone⟩ := C70_too_many_bands f hf none hw 40 (by omega)
  refine ⟨(List.range 40).map fun (b : ℕ) => B.centers b, ?_⟩
  unfold mfcc
  dsimp only
  rw [hB]
  dsimp only
  congr 2
  have hlev : bandLevel f.length (B.val n) X = none := by
    unfold bandLevel bandEnergy
    have h0 : 0 < f.length := lt_of_lt_of_le (by norm_num) hf.1
    rw [if_neg (fun h => by have := h 0 h0; rw [hnone 0 h0] at this; cases this)]
    rfl
  unfold coefficients
  have hall : ¬ ((List.range 40).map fun (b : ℕ) => bandLevel f.length (B.val b) X).all Option.isSome = true := by
    intro h
    rw [List.all_eq_true] at h
    have := h (bandLevel f.length (B.val n) X) (List.mem_map.2 ⟨n, List.mem_range.2 hn, rfl⟩)
    rw [hlev] at this
    cases this
  simp only [if_neg hall, List.length_map, List.length_range]
  simp

/-- A frequency vector of three bins. -/
example : Verif.Props.C70.Frequencies [0, 12000, 24000] := by
  refine ⟨by simp, by simp, ?_⟩
  intro i j hij hj
  simp only [List.length_cons, List.length_nil] at hj
  have : i < 2 := by omega
  interval_cases j <;> interval_cases i <;> (simp_all; try norm_num)

end Verif.Chroma
